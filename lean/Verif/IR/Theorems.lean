import Verif.IR.Progress
/-! C25: simplification of generated expressions keeps their value. -/
namespace Verif.IR
open Verif.Types

variable {F : Type} {vk ak : Nat → Kind} {A : Flt F}

/-- The simplified expression has the type of the original, and in every state its value is the value of the
original whenever the original has one.

Partial: operands have the same type (`WT`), and floating-point arithmetic satisfies the laws of exact arithmetic
(`FltLaws`). The theorems below show that neither hypothesis can be dropped. -/
theorem simplify_value_partial (hA : FltLaws A) {e e' : Expr F} {k : Kind} (ht : WT vk ak e k) (h : simplify A e = some e') :
    e'.type = e.type ∧ WT vk ak e' k ∧
    ∀ env, EnvOK vk ak env → ∀ v, eval A env e = some v → eval A env e' = some v := by
  have hr := simp_refines hA _ e e' k h ht
  exact ⟨hr.1.type.trans ht.type.symm, hr.1, hr.2⟩

/-- If every part of the expression has a value in some state, simplification succeeds and the result is not larger. -/
theorem simplify_succeeds_partial (hA : FltLaws A) {e : Expr F} {k : Kind} (ht : WT vk ak e k) {env : Env F} (he : EnvOK vk ak env)
    (hd : AllDef A env e) : ∃ e', simplify A e = some e' ∧ e'.size ≤ e.size := by
  obtain ⟨e', h1, _, h2⟩ := simp_good hA he e.size e k ht hd (Nat.le_refl _)
  exact ⟨e', h1, h2⟩

/-! ### The hypotheses are met -/

/-- Exact integers in place of floating point. -/
def exact : Flt Int where
  add _ x y := x + y
  sub _ x y := x - y
  mul _ x y := x * y
  div _ x y := x.tdiv y
  neg _ x := -x
  ofInt _ x := x
  toInt x := some x
  conv _ x := x
  lt x y := decide (x < y)
  eq x y := decide (x = y)
  eq0 x := decide (x = 0)
  eq1 x := decide (x = 1)

theorem exact_laws : FltLaws exact where
  zero_add k z x h := by have : z = 0 := by simpa [exact] using h
                         subst this; exact Int.zero_add x
  add_zero k z x h := by have : z = 0 := by simpa [exact] using h
                         subst this; exact Int.add_zero x
  zero_sub k z x h := by have : z = 0 := by simpa [exact] using h
                         subst this; exact Int.zero_sub x
  sub_zero k z x h := by have : z = 0 := by simpa [exact] using h
                         subst this; exact Int.sub_zero x
  zero_mul k z x h := by have : z = 0 := by simpa [exact] using h
                         subst this; exact Int.zero_mul x
  mul_zero k z x h := by have : z = 0 := by simpa [exact] using h
                         subst this; exact Int.mul_zero x
  one_mul k z x h := by have : z = 1 := by simpa [exact] using h
                        subst this; exact Int.one_mul x
  mul_one k z x h := by have : z = 1 := by simpa [exact] using h
                        subst this; exact Int.mul_one x
  div_one k z x h := by have : z = 1 := by simpa [exact] using h
                        subst this; exact Int.tdiv_one x

/-- For expressions without floating point the laws are no restriction: the trivial arithmetic satisfies them. -/
def trivialFlt : Flt Unit where
  add _ _ _ := ()
  sub _ _ _ := ()
  mul _ _ _ := ()
  div _ _ _ := ()
  neg _ _ := ()
  ofInt _ _ := ()
  toInt _ := none
  conv _ _ := ()
  lt _ _ := false
  eq _ _ := true
  eq0 _ := false
  eq1 _ := false

theorem trivial_laws : FltLaws trivialFlt :=
  ⟨fun _ _ _ _ => rfl, fun _ _ _ _ => rfl, fun _ _ _ _ => rfl, fun _ _ _ _ => rfl, fun _ _ _ _ => rfl, fun _ _ _ _ => rfl,
    fun _ _ _ _ => rfl, fun _ _ _ _ => rfl, fun _ _ _ _ => rfl⟩

/-- `((x - 2) + 5) * 1 + vals[i + 0] / 1` with 32-bit integers. -/
def sampleExpr : Expr Int :=
  .arith .add (.arith .mul (.arith .add (.arith .sub (.var .int32 0) (.lit .int32 (.i 2))) (.lit .int32 (.i 5))) (.lit .int32 (.i 1)))
    (.arith .div (.load .int32 0 (.arith .add (.var .int32 1) (.lit .int32 (.i 0)))) (.lit .int32 (.i 1)))

example : WT (fun _ => .int32) (fun _ => .int32) sampleExpr .int32 := by
  have h : ∀ n : Int, wrap .int32 n = n → WT (F := Int) (fun _ => .int32) (fun _ => .int32) (.lit .int32 (.i n)) .int32 :=
    fun n hn => .lit ⟨rfl, hn⟩
  have hk : numeric .int32 := ⟨by decide, by decide⟩
  have hv : ∀ x, WT (F := Int) (fun _ => .int32) (fun _ => .int32) (.var .int32 x) .int32 := fun x => .var
  have hl : ∀ loc, WT (F := Int) (fun _ => .int32) (fun _ => .int32) loc .int32 →
      WT (F := Int) (fun _ => .int32) (fun _ => .int32) (.load .int32 0 loc) .int32 := fun loc h =>
    WT.load (ak := fun _ => .int32) (arr := 0) rfl h
  exact .arith hk (.arith hk (.arith hk (.arith hk (hv 0) (h 2 (by decide))) (h 5 (by decide))) (h 1 (by decide)))
    (.arith hk (hl _ (.arith hk (hv 1) (h 0 (by decide)))) (h 1 (by decide)))

example : simplify exact sampleExpr =
    some (.arith .add (.arith .add (.var .int32 0) (.lit .int32 (.i 3))) (.load .int32 0 (.var .int32 1))) := by
  decide +kernel

example : EnvOK (F := Int) (fun _ => .int32) (fun _ => .int32) ⟨fun _ => some (.i 7), fun _ n => if n = 7 then some (.i 1) else none⟩ :=
  ⟨fun _ _ h => by cases h; exact ⟨rfl, by decide⟩,
   fun _ n _ h => by
     dsimp only at h
     split at h
     · cases h; exact ⟨rfl, by decide⟩
     · cases h⟩

example : AllDef exact ⟨fun _ => some (.i 7), fun _ n => if n = 7 then some (.i 1) else none⟩ sampleExpr := by
  simp only [sampleExpr, AllDef]
  decide +kernel

/-! ### Where simplification changes the value -/

/-- Folding two literals of different types goes through a 32-bit signed integer: `3000000000 (uint32) + 1 (int64)`
is not `3000000001`. -/
theorem simplify_mixed_fold_fails : ∃ (e e' : Expr Unit) (v v' : Val Unit), simplify trivialFlt e = some e' ∧
    (∀ env, eval trivialFlt env e = some v ∧ eval trivialFlt env e' = some v') ∧ v ≠ v' :=
  ⟨.arith .add (.lit .uint32 (.i 3000000000)) (.lit .int64 (.i 1)), .lit .int64 (.i (-1294967295)),
    .i 3000000001, .i (-1294967295), by decide +kernel,
    fun env => ⟨by
      show promoted trivialFlt (some .uint32) (some .int64) (some (.i 3000000000)) (some (.i 1)) _ = _
      decide +kernel, rfl⟩, by decide⟩

/-- Halves: the number `n / 2` is represented by `n`. -/
def halves : Flt Int where
  add _ x y := x + y
  sub _ x y := x - y
  mul _ x y := (x * y).tdiv 2
  div _ x y := (2 * x).tdiv y
  neg _ x := -x
  ofInt _ x := 2 * x
  toInt x := some (x.tdiv 2)
  conv _ x := x
  lt x y := decide (x < y)
  eq x y := decide (x = y)
  eq0 x := decide (x = 0)
  eq1 x := decide (x = 2)

/-- Dropping a floating-point zero next to an integer operand turns a floating-point division into an integer
division: `(x + 0.0) / y` with `x = 1`, `y = 2` is one half; simplified it is zero. The type changes as well. -/
theorem simplify_mixed_type_fails : ∃ (e e' : Expr Int) (env : Env Int), simplify halves e = some e' ∧
    e.type = some .float64 ∧ e'.type = some .int32 ∧
    eval halves env e = some (.f 1) ∧ eval halves env e' = some (.i 0) :=
  ⟨.arith .div (.arith .add (.var .int32 0) (.lit .float64 (.f 0))) (.var .int32 1),
   .arith .div (.var .int32 0) (.var .int32 1), ⟨fun x => some (.i (x + 1)), fun _ _ => none⟩,
   by decide +kernel, by decide +kernel, by decide +kernel, by decide +kernel, by decide +kernel⟩

/-- The integers with a value for "not a number". -/
def withNaN : Flt (Option Int) where
  add _ x y := x.bind fun a => y.map fun b => a + b
  sub _ x y := x.bind fun a => y.map fun b => a - b
  mul _ x y := x.bind fun a => y.map fun b => a * b
  div _ x y := x.bind fun a => y.bind fun b => if b = 0 then none else some (a.tdiv b)
  neg _ x := x.map fun a => -a
  ofInt _ x := some x
  toInt x := x
  conv _ x := x
  lt x y := ((x.bind fun a => y.map fun b => decide (a < b))).getD false
  eq x y := ((x.bind fun a => y.map fun b => decide (a = b))).getD false
  eq0 x := decide (x = some 0)
  eq1 x := decide (x = some 1)

/-- `0.0 * x` is replaced by zero although its value is "not a number" when `x` is. -/
theorem simplify_nan_fails : ∃ (e e' : Expr (Option Int)) (env : Env (Option Int)), simplify withNaN e = some e' ∧
    eval withNaN env e = some (.f none) ∧ eval withNaN env e' = some (.f (some 0)) :=
  ⟨.arith .mul (.lit .float64 (.f (some 0))) (.var .float64 0), .lit .float64 (.f (some 0)),
    ⟨fun _ => some (.f none), fun _ _ => none⟩, by decide +kernel, by decide +kernel, by decide +kernel⟩

/-- A literal divided by the literal zero kills the compiler, even where the program would never evaluate it:
`true || 1 / 0 == 1` is true. -/
theorem simplify_dead_division_fails : ∃ e : Expr Unit, (∀ env, eval trivialFlt env e = some (.b true)) ∧
    ∀ n, simp trivialFlt n e = none := by
  refine ⟨.or (.lit .bool (.b true)) (.cmp .eq (.arith .div (.lit .int32 (.i 1)) (.lit .int32 (.i 0))) (.lit .int32 (.i 1))),
    fun env => rfl, fun n => ?_⟩
  match n with
  | 0 => rfl
  | 1 => rfl
  | 2 => rfl
  | 3 => rfl
  | n + 4 => rfl

end Verif.IR
