import Verif.IR.Spec
import Verif.Types.Theorems
/-! Typing and arithmetic of IR expressions. -/
namespace Verif.IR
open Verif.Types

variable {F : Type}

/-! ### Wrapping -/

/-- The modulus of a type. -/
def modulus (k : Kind) : Int := match numBits k with | none => 0 | some w => 2 ^ w

theorem wrap_eq (k : Kind) (x : Int) : ∃ q, wrap k x = x + q * modulus k := by
  unfold wrap modulus
  cases numBits k with
  | none => exact ⟨0, by simp⟩
  | some w =>
    simp only
    split
    · refine ⟨-((x + 2 ^ (w - 1)) / 2 ^ w), ?_⟩
      have := Int.emod_add_mul_ediv (x + 2 ^ (w - 1)) (2 ^ w)
      rw [Int.neg_mul, Int.mul_comm]
      omega
    · refine ⟨-(x / 2 ^ w), ?_⟩
      have := Int.emod_add_mul_ediv x (2 ^ w)
      rw [Int.neg_mul, Int.mul_comm]
      omega

theorem wrap_add_mul (k : Kind) (x q : Int) : wrap k (x + q * modulus k) = wrap k x := by
  unfold wrap modulus
  cases numBits k with
  | none => simp
  | some w =>
    simp only
    split
    · rw [show x + q * 2 ^ w + 2 ^ (w - 1) = x + 2 ^ (w - 1) + q * 2 ^ w by omega, Int.add_mul_emod_self_right]
    · rw [Int.add_mul_emod_self_right]

theorem wrap_wrap (k : Kind) (x : Int) : wrap k (wrap k x) = wrap k x := by
  obtain ⟨q, hq⟩ := wrap_eq k x
  rw [hq, wrap_add_mul, hq]

theorem wrap_add_left (k : Kind) (x y : Int) : wrap k (wrap k x + y) = wrap k (x + y) := by
  obtain ⟨q, hq⟩ := wrap_eq k x
  rw [hq, show x + q * modulus k + y = x + y + q * modulus k by omega, wrap_add_mul]

theorem wrap_add_right (k : Kind) (x y : Int) : wrap k (x + wrap k y) = wrap k (x + y) := by
  rw [Int.add_comm, wrap_add_left, Int.add_comm]

theorem wrap_mul_left (k : Kind) (x y : Int) : wrap k (wrap k x * y) = wrap k (x * y) := by
  obtain ⟨q, hq⟩ := wrap_eq k x
  rw [hq, Int.add_mul, show q * modulus k * y = q * y * modulus k by rw [Int.mul_assoc, Int.mul_comm (modulus k), Int.mul_assoc], wrap_add_mul]

theorem wrap_mul_right (k : Kind) (x y : Int) : wrap k (x * wrap k y) = wrap k (x * y) := by
  rw [Int.mul_comm, wrap_mul_left, Int.mul_comm]

theorem wrap_zero (k : Kind) : wrap k 0 = 0 := by
  cases k <;> decide

theorem wrap_one {k : Kind} (h : (isInt k || isUInt k) = true) : wrap k 1 = 1 := by
  revert h; cases k <;> decide

/-! ### Types -/

theorem WT.type {vk ak : Nat → Kind} {e : Expr F} {k : Kind} (h : WT vk ak e k) : e.type = some k := by
  induction h with
  | lit _ => rfl
  | var => rfl
  | arith _ _ _ iha ihb =>
    show (Expr.type _).bind _ = _
    rw [iha]
    show (Expr.type _).bind _ = _
    rw [ihb]
    exact promotion_idempotent _
  | cmp => rfl
  | neg _ _ ih => exact ih
  | not => rfl
  | and => rfl
  | or => rfl
  | cast => rfl
  | load => rfl

theorem promoted_same (A : Flt F) (k : Kind) (x y : Option (Val F)) (f : Kind → Val F → Val F → Option (Val F)) :
    promoted A (some k) (some k) x y f = x.bind fun u => y.bind fun v => f k u v := by
  unfold promoted
  rw [Option.bind_some, Option.bind_some, promotion_idempotent, Option.bind_some]
  congr 1
  funext u
  congr 1
  funext v
  unfold promote
  rw [if_pos rfl, if_pos rfl, Option.bind_some, Option.bind_some]

theorem eval_arith {vk ak : Nat → Kind} {A : Flt F} {env : Env F} {op : AOp} {a b : Expr F} {k : Kind} (ha : WT vk ak a k) (hb : WT vk ak b k) :
    eval A env (.arith op a b) = (eval A env a).bind fun u => (eval A env b).bind fun v => arithVal A k op u v := by
  show promoted A a.type b.type _ _ _ = _
  rw [ha.type, hb.type, promoted_same]

theorem eval_cmp {vk ak : Nat → Kind} {A : Flt F} {env : Env F} {op : COp} {a b : Expr F} {k : Kind} (ha : WT vk ak a k) (hb : WT vk ak b k) :
    eval A env (.cmp op a b) = (eval A env a).bind fun u => (eval A env b).bind fun v => (cmpVal A op u v).map .b := by
  show promoted A a.type b.type _ _ _ = _
  rw [ha.type, hb.type, promoted_same]

theorem eval_neg {vk ak : Nat → Kind} {A : Flt F} {env : Env F} {a : Expr F} {k : Kind} (ha : WT vk ak a k) :
    eval A env (.neg a) = (eval A env a).bind (negVal A k) := by
  show (a.type).bind _ = _
  rw [ha.type]; rfl

theorem eval_cast {vk ak : Nat → Kind} {A : Flt F} {env : Env F} {a : Expr F} {k k' : Kind} (ha : WT vk ak a k) :
    eval A env (.cast a k') = (eval A env a).bind (promote A k k') := by
  show (a.type).bind _ = _
  rw [ha.type]; rfl

theorem arithVal_ok {A : Flt F} {k : Kind} {op : AOp} {u v r : Val F} (hu : valOK k u) (hv : valOK k v)
    (h : arithVal A k op u v = some r) : valOK k r := by
  cases u with
  | b x => cases op <;> cases v <;> simp [arithVal] at h
  | f x => cases op <;> cases v <;> simp [arithVal] at h <;> subst h <;> exact hu
  | i x =>
    cases v with
    | b y => cases op <;> simp [arithVal] at h
    | f y => cases op <;> simp [arithVal] at h
    | i y =>
      cases op with
      | add => simp [arithVal] at h; subst h; exact ⟨hu.1, wrap_wrap _ _⟩
      | sub => simp [arithVal] at h; subst h; exact ⟨hu.1, wrap_wrap _ _⟩
      | mul => simp [arithVal] at h; subst h; exact ⟨hu.1, wrap_wrap _ _⟩
      | div =>
        replace h : (if y = 0 ∨ wrap k (x.tdiv y) ≠ x.tdiv y then none else some (Val.i (wrap k (x.tdiv y)))) = some r := h
        split at h
        · cases h
        · cases h; exact ⟨hu.1, wrap_wrap _ _⟩
      | rem =>
        replace h : (if y = 0 ∨ wrap k (x.tdiv y) ≠ x.tdiv y then none else some (Val.i (wrap k (x.tmod y)))) = some r := h
        split at h
        · cases h
        · cases h; exact ⟨hu.1, wrap_wrap _ _⟩
      | min =>
        simp only [arithVal, Option.some.injEq] at h
        subst h
        split
        · exact hu
        · exact hv
      | max =>
        simp only [arithVal, Option.some.injEq] at h
        subst h
        split
        · exact hu
        · exact hv

theorem negVal_ok {A : Flt F} {k : Kind} {u r : Val F} (hu : valOK k u) (h : negVal A k u = some r) : valOK k r := by
  cases u with
  | b x => cases h
  | i x => cases h; exact ⟨hu.1, wrap_wrap _ _⟩
  | f x => cases h; exact hu

theorem convert_ok {A : Flt F} {k : Kind} (hk : k ≠ .undefined) {u r : Val F} (h : convert A k u = some r) : valOK k r := by
  have hfl : k ≠ .bool → ¬ (isInt k || isUInt k) = true → (isFloat k || isComplex k) = true := by
    revert hk; cases k <;> decide
  cases u with
  | b x =>
    simp only [convert] at h
    split at h
    · rename_i h1; cases h; exact h1
    · rename_i h1
      split at h
      · rename_i h2; cases h; exact ⟨h2, wrap_wrap _ _⟩
      · rename_i h2; cases h; exact hfl h1 h2
  | i x =>
    simp only [convert] at h
    split at h
    · rename_i h1; cases h; exact h1
    · rename_i h1
      split at h
      · rename_i h2; cases h; exact ⟨h2, wrap_wrap _ _⟩
      · rename_i h2; cases h; exact hfl h1 h2
  | f x =>
    simp only [convert] at h
    split at h
    · cases h
    · rename_i h1
      split at h
      · rename_i h2
        cases hn : A.toInt x with
        | none => rw [hn] at h; cases h
        | some n => rw [hn] at h; cases h; exact ⟨h2, wrap_wrap _ _⟩
      · rename_i h2; cases h; exact hfl h1 h2

theorem bind_some_iff {α β : Type} {x : Option α} {f : α → Option β} {r : β} (h : x.bind f = some r) : ∃ a, x = some a ∧ f a = some r := by
  cases x with
  | none => cases h
  | some a => exact ⟨a, rfl, h⟩

/-- Values have the type of their expression. -/
theorem eval_ok {vk ak : Nat → Kind} {A : Flt F} {env : Env F} (henv : EnvOK vk ak env) {e : Expr F} {k : Kind} (h : WT vk ak e k) :
    ∀ v, eval A env e = some v → valOK k v := by
  induction h with
  | lit hv => intro v h; cases h; exact hv
  | var => intro v h; exact henv.var _ v h
  | arith hk ha hb iha ihb =>
    intro v h
    rw [eval_arith ha hb] at h
    obtain ⟨x, hx, h⟩ := bind_some_iff h
    obtain ⟨y, hy, h⟩ := bind_some_iff h
    exact arithVal_ok (iha x hx) (ihb y hy) h
  | cmp ha hb _ _ =>
    intro v h
    rw [eval_cmp ha hb] at h
    obtain ⟨x, hx, h⟩ := bind_some_iff h
    obtain ⟨y, hy, h⟩ := bind_some_iff h
    obtain ⟨r, _, hr⟩ := Option.map_eq_some_iff.1 h
    cases hr; rfl
  | neg hk ha iha =>
    intro v h
    rw [eval_neg ha] at h
    obtain ⟨x, hx, h⟩ := bind_some_iff h
    exact negVal_ok (iha x hx) h
  | not ha iha =>
    intro v h
    unfold eval at h
    split at h
    · cases h; rfl
    · cases h
  | and ha hb iha ihb =>
    intro v h
    unfold eval at h
    split at h
    · exact ihb v h
    · cases h; rfl
    · cases h
  | or ha hb iha ihb =>
    intro v h
    unfold eval at h
    split at h
    · cases h; rfl
    · exact ihb v h
    · cases h
  | cast hk ha iha =>
    intro v h
    rw [eval_cast ha] at h
    obtain ⟨x, hx, h⟩ := bind_some_iff h
    unfold promote at h
    split at h
    · rename_i he; cases h; rw [← he]; exact iha _ hx
    · exact convert_ok hk h
  | load _ ha iha =>
    intro v h
    unfold eval at h
    split at h
    · exact henv.mem _ _ v h
    · cases h

end Verif.IR
