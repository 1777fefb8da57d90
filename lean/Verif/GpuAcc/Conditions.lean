import Verif.GpuAcc.Model
/-!
The condition under which the additions of a kernel are right.
-/
namespace Verif.GpuAcc

/-- Does a statement, printed at a depth, contain an addition by `atomicAddWarp`? -/
def HasWarp {V : Type} : Nat → Prog V → Bool
  | d, .add shared _ _ => usesWarp shared d
  | d, .seq p q => HasWarp d p || HasWarp d q
  | d, .ite _ p => HasWarp d p
  | d, .loop counted _ p => HasWarp (depthIn counted d) p
  | _, _ => false

/-- The threads of a warp stay together up to the additions by `atomicAddWarp`: conditions and numbers of
iterations around them are the same for all threads. -/
def Together {V : Type} : Nat → Prog V → Prop
  | d, .seq p q => Together d p ∧ Together d q
  | d, .ite c p => (HasWarp d p = false ∨ ∀ its s t, c s its = c t its) ∧ Together d p
  | d, .loop counted n p => (HasWarp (depthIn counted d) p = false ∨ ∀ its s t, n s its = n t its) ∧
      Together (depthIn counted d) p
  | _, _ => True

end Verif.GpuAcc
