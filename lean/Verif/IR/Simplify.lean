import Verif.IR.Lemmas
/-! Each rule of the expression simplifier refines the expression. -/
namespace Verif.IR
open Verif.Types

variable {F : Type}

/-- `e'` has the type of `e` and its value wherever `e` has one. -/
def Refines (vk ak : Nat → Kind) (A : Flt F) (k : Kind) (e e' : Expr F) : Prop :=
  WT vk ak e' k ∧ ∀ env, EnvOK vk ak env → ∀ v, eval A env e = some v → eval A env e' = some v

variable {vk ak : Nat → Kind} {A : Flt F} {k : Kind}

theorem Refines.refl {e : Expr F} (h : WT vk ak e k) : Refines vk ak A k e e := ⟨h, fun _ _ _ h => h⟩

theorem Refines.trans {e₁ e₂ e₃ : Expr F} (h : Refines vk ak A k e₁ e₂) (h' : Refines vk ak A k e₂ e₃) : Refines vk ak A k e₁ e₃ :=
  ⟨h'.1, fun env he v hv => h'.2 env he v (h.2 env he v hv)⟩

theorem WT.lit_inv {k' : Kind} {v : Val F} (h : WT vk ak (.lit k' v) k) : k' = k ∧ valOK k v := by
  cases h with
  | lit hv => exact ⟨rfl, hv⟩

theorem WT.arith_inv {op : AOp} {a b : Expr F} (h : WT vk ak (.arith op a b) k) : numeric k ∧ WT vk ak a k ∧ WT vk ak b k := by
  cases h with
  | arith h1 h2 h3 => exact ⟨h1, h2, h3⟩

/-! ### Values -/

theorem zero_add_val (hA : FltLaws A) {z y v : Val F} (hz : isZero A z = true) (hy : valOK k y)
    (h : arithVal A k .add z y = some v) : v = y := by
  cases z <;> cases y <;> simp [arithVal] at h
  · rename_i x y
    have hx : x = 0 := by simpa [isZero] using hz
    rw [← h, hx, Int.zero_add, hy.2]
  · rename_i x y
    rw [← h, hA.zero_add k x y hz]

theorem add_zero_val (hA : FltLaws A) {z y v : Val F} (hz : isZero A z = true) (hy : valOK k y)
    (h : arithVal A k .add y z = some v) : v = y := by
  cases z <;> cases y <;> simp [arithVal] at h
  · rename_i x y
    have hx : x = 0 := by simpa [isZero] using hz
    rw [← h, hx, Int.add_zero, hy.2]
  · rename_i x y
    rw [← h, hA.add_zero k x y hz]

theorem sub_zero_val (hA : FltLaws A) {z y v : Val F} (hz : isZero A z = true) (hy : valOK k y)
    (h : arithVal A k .sub y z = some v) : v = y := by
  cases z <;> cases y <;> simp [arithVal] at h
  · rename_i x y
    have hx : x = 0 := by simpa [isZero] using hz
    rw [← h, hx, Int.sub_zero, hy.2]
  · rename_i x y
    rw [← h, hA.sub_zero k x y hz]

theorem zero_sub_val (hA : FltLaws A) {z y v : Val F} (hz : isZero A z = true)
    (h : arithVal A k .sub z y = some v) : negVal A k y = some v := by
  cases z <;> cases y <;> simp [arithVal] at h
  · rename_i x y
    have hx : x = 0 := by simpa [isZero] using hz
    rw [← h, hx, Int.zero_sub]; rfl
  · rename_i x y
    rw [← h, hA.zero_sub k x y hz]; rfl

theorem zero_mul_val (hA : FltLaws A) {z y v : Val F} (hz : isZero A z = true)
    (h : arithVal A k .mul z y = some v) : v = z := by
  cases z <;> cases y <;> simp [arithVal] at h
  · rename_i x y
    have hx : x = 0 := by simpa [isZero] using hz
    rw [← h, hx, Int.zero_mul, wrap_zero]
  · rename_i x y
    rw [← h, hA.zero_mul k x y hz]

theorem mul_zero_val (hA : FltLaws A) {z y v : Val F} (hz : isZero A z = true)
    (h : arithVal A k .mul y z = some v) : v = z := by
  cases z <;> cases y <;> simp [arithVal] at h
  · rename_i x y
    have hx : x = 0 := by simpa [isZero] using hz
    rw [← h, hx, Int.mul_zero, wrap_zero]
  · rename_i x y
    rw [← h, hA.mul_zero k x y hz]

theorem one_mul_val (hA : FltLaws A) {z y v : Val F} (hz : isOne A z = true) (hy : valOK k y)
    (h : arithVal A k .mul z y = some v) : v = y := by
  cases z <;> cases y <;> simp [arithVal] at h
  · rename_i x y
    have hx : x = 1 := by simpa [isOne] using hz
    rw [← h, hx, Int.one_mul, hy.2]
  · rename_i x y
    rw [← h, hA.one_mul k x y hz]

theorem mul_one_val (hA : FltLaws A) {z y v : Val F} (hz : isOne A z = true) (hy : valOK k y)
    (h : arithVal A k .mul y z = some v) : v = y := by
  cases z <;> cases y <;> simp [arithVal] at h
  · rename_i x y
    have hx : x = 1 := by simpa [isOne] using hz
    rw [← h, hx, Int.mul_one, hy.2]
  · rename_i x y
    rw [← h, hA.mul_one k x y hz]

theorem div_one_val (hA : FltLaws A) {z y v : Val F} (hz : isOne A z = true) (hy : valOK k y)
    (h : arithVal A k .div y z = some v) : v = y := by
  cases z with
  | b x => cases y <;> simp [arithVal] at h
  | i x =>
    cases y with
    | i y =>
      have hx : x = 1 := by simpa [isOne] using hz
      subst hx
      replace h : (if (1 : Int) = 0 ∨ wrap k (y.tdiv 1) ≠ y.tdiv 1 then none else some (Val.i (wrap k (y.tdiv 1)))) = some v := h
      split at h
      · cases h
      · cases h; rw [Int.tdiv_one, hy.2]
    | b y => simp [arithVal] at h
    | f y => simp [arithVal] at h
  | f x =>
    cases y with
    | f y => cases h; rw [hA.div_one k x y hz]
    | b y => simp [arithVal] at h
    | i y => simp [arithVal] at h

/-! ### Refinement of arithmetic -/

theorem Refines.arith {op : AOp} {a b a' b' : Expr F} (hk : numeric k) (ha : WT vk ak a k) (hb : WT vk ak b k)
    (h1 : Refines vk ak A k a a') (h2 : Refines vk ak A k b b') : Refines vk ak A k (.arith op a b) (.arith op a' b') := by
  refine ⟨.arith hk h1.1 h2.1, fun env he v hv => ?_⟩
  rw [eval_arith ha hb] at hv
  obtain ⟨x, hx, hv⟩ := bind_some_iff hv
  obtain ⟨y, hy, hv⟩ := bind_some_iff hv
  rw [eval_arith h1.1 h2.1, h1.2 env he x hx, h2.2 env he y hy]
  exact hv

/-- A rule whose result is determined by the values of the operands. -/
theorem Refines.of_val {op : AOp} {a b e' : Expr F} (ha : WT vk ak a k) (hb : WT vk ak b k) (he' : WT vk ak e' k)
    (h : ∀ env, EnvOK vk ak env → ∀ x y v, eval A env a = some x → eval A env b = some y → valOK k x → valOK k y →
      arithVal A k op x y = some v → eval A env e' = some v) : Refines vk ak A k (.arith op a b) e' := by
  refine ⟨he', fun env he v hv => ?_⟩
  rw [eval_arith ha hb] at hv
  obtain ⟨x, hx, hv⟩ := bind_some_iff hv
  obtain ⟨y, hy, hv⟩ := bind_some_iff hv
  exact h env he x y v hx hy (eval_ok he ha x hx) (eval_ok he hb y hy) hv

theorem fold_ok {op : AOp} {a b e' : Expr F} (hk : numeric k) (ha : WT vk ak a k) (hb : WT vk ak b k)
    (h : ((lits a b).bind fun l => foldArith op l.1 l.2.1 l.2.2.1 l.2.2.2) = some e') : Refines vk ak A k (.arith op a b) e' := by
  obtain ⟨⟨ka, va, kb, vb⟩, hl, hf⟩ := bind_some_iff h
  have hab : a = .lit ka va ∧ b = .lit kb vb := by
    unfold lits at hl
    split at hl
    · cases hl; exact ⟨rfl, rfl⟩
    · cases hl
  obtain ⟨rfl, rfl⟩ := hab
  obtain ⟨rfl, hva⟩ := ha.lit_inv
  obtain ⟨hkb, hvb⟩ := hb.lit_inv
  subst hkb
  unfold foldArith at hf
  simp only [promotion_idempotent] at hf
  cases va with
  | b x => simp at hf
  | f x => simp at hf
  | i x =>
    cases vb with
    | b y => simp at hf
    | f y => simp at hf
    | i y =>
      simp only [foldConv, if_true] at hf
      split at hf
      · rename_i hint
        have key : ∀ r, (e' = Expr.lit kb (.i (wrap kb r))) → arithVal A kb op (.i x) (.i y) = some (.i (wrap kb r)) →
            Refines vk ak A kb (.arith op (.lit kb (.i x)) (.lit kb (.i y))) e' := by
          intro r he hv
          subst he
          refine Refines.of_val ha hb (.lit ⟨hint, wrap_wrap _ _⟩) ?_
          intro env he x' y' v hx hy _ _ hav
          cases hx; cases hy
          rw [hv] at hav
          exact hav
        cases op with
        | add => exact key (x + y) (Option.some.inj hf).symm rfl
        | sub => exact key (x - y) (Option.some.inj hf).symm rfl
        | mul => exact key (x * y) (Option.some.inj hf).symm rfl
        | div => simp at hf
        | rem => simp at hf
        | min => simp at hf
        | max => simp at hf
      · cases hf

theorem reassoc_inv {op : AOp} {a b c : Expr F} {k' : Kind} {d x : Int} (ha : WT vk ak a k) (hb : WT vk ak b k)
    (h : reassoc op a b = some (c, k', d, x)) :
    k' = k ∧ a = .arith op c (.lit k (.i d)) ∧ b = .lit k (.i x) ∧ (isInt k || isUInt k) = true ∧ WT vk ak c k := by
  unfold reassoc at h
  split at h
  · rename_i o c' kd d' kb x'
    split at h
    · rename_i hc
      obtain ⟨h1, h2, h3, h4⟩ := hc
      cases h
      obtain ⟨hkb, _⟩ := hb.lit_inv
      subst hkb
      subst h3
      subst h1
      exact ⟨rfl, rfl, rfl, h4, (ha.arith_inv).2.1⟩
    · cases h
  · cases h

theorem reassoc_ok {op op2 op' : AOp} {a b c : Expr F} {k' : Kind} {d x r : Int} (hk : numeric k) (ha : WT vk ak a k) (hb : WT vk ak b k)
    (h : reassoc op2 a b = some (c, k', d, x))
    (hv : ∀ cc : Int, (isInt k || isUInt k) = true → (arithVal A k op2 (.i cc) (.i d)).bind (fun u => arithVal A k op u (.i x)) =
      arithVal A k op' (.i cc) (.i (wrap k r)))
    (hop : ∀ (u : Val F) (z : Int), (arithVal A k op2 u (.i z)).isSome → ∃ cc, u = .i cc) :
    Refines vk ak A k (.arith op a b) (.arith op' c (.lit k' (.i (wrap k' r)))) := by
  obtain ⟨rfl, rfl, rfl, hint, hc⟩ := reassoc_inv ha hb h
  refine ⟨.arith hk hc (.lit ⟨hint, wrap_wrap _ _⟩), fun env he v hev => ?_⟩
  rw [eval_arith ha hb] at hev
  obtain ⟨u, hu, hev⟩ := bind_some_iff hev
  rw [eval_arith hc (ha.arith_inv).2.2] at hu
  obtain ⟨cv, hcv, hu⟩ := bind_some_iff hu
  have hu' : arithVal A k' op2 cv (.i d) = some u := hu
  have hev' : arithVal A k' op u (.i x) = some v := hev
  obtain ⟨cc, rfl⟩ := hop cv d (by rw [hu']; rfl)
  have hl : WT vk ak (Expr.lit (F := F) k' (.i (wrap k' r))) k' := .lit ⟨hint, wrap_wrap _ _⟩
  rw [eval_arith hc hl, hcv]
  show arithVal A k' op' (.i cc) (.i (wrap k' r)) = some v
  rw [← hv cc hint, hu']
  exact hev'

theorem hop_add (u : Val F) (z : Int) : (arithVal A k .add u (.i z)).isSome → ∃ cc, u = .i cc := by
  cases u <;> simp [arithVal]
theorem hop_sub (u : Val F) (z : Int) : (arithVal A k .sub u (.i z)).isSome → ∃ cc, u = .i cc := by
  cases u <;> simp [arithVal]
theorem hop_mul (u : Val F) (z : Int) : (arithVal A k .mul u (.i z)).isSome → ∃ cc, u = .i cc := by
  cases u <;> simp [arithVal]

theorem addRules_ok (hA : FltLaws A) {again : Expr F → Option (Expr F)}
    (hagain : ∀ x y, again x = some y → WT vk ak x k → Refines vk ak A k x y) {a b e' : Expr F} (hk : numeric k)
    (ha : WT vk ak a k) (hb : WT vk ak b k) (h : addRules A again a b = some e') : Refines vk ak A k (.arith .add a b) e' := by
  unfold addRules at h
  split at h
  · rename_i e hf
    cases h
    exact fold_ok hk ha hb hf
  · split at h
    · rename_i c k' d x hr
      have h1 := reassoc_ok (A := A) (op := .add) (op' := .add) (r := d + x) hk ha hb hr (by
        intro cc hint
        show some (Val.i (wrap k (wrap k (cc + d) + x))) = some (Val.i (wrap k (cc + wrap k (d + x))))
        rw [wrap_add_left, wrap_add_right, Int.add_assoc]) hop_add
      exact h1.trans (hagain _ _ h h1.1)
    · split at h
      · rename_i c k' d x hr
        have h1 := reassoc_ok (A := A) (op := .add) (op' := .add) (r := x - d) hk ha hb hr (by
          intro cc hint
          show some (Val.i (wrap k (wrap k (cc - d) + x))) = some (Val.i (wrap k (cc + wrap k (x - d))))
          rw [wrap_add_left, wrap_add_right, show cc - d + x = cc + (x - d) by omega]) hop_sub
        exact h1.trans (hagain _ _ h h1.1)
      · have hz : ∀ {kz : Kind} {vz : Val F} {b : Expr F}, WT vk ak (.lit kz vz) k → WT vk ak b k → isZero A vz = true →
            Refines vk ak A k (.arith .add (.lit kz vz) b) b := by
          intro kz vz b hz hb hzero
          refine Refines.of_val hz hb hb ?_
          intro env he x y v hx hy _ hyo hav
          cases hx
          rw [hy, zero_add_val hA hzero hyo hav]
        have hz' : ∀ {kz : Kind} {vz : Val F} {b : Expr F}, WT vk ak (.lit kz vz) k → WT vk ak b k → isZero A vz = true →
            Refines vk ak A k (.arith .add b (.lit kz vz)) b := by
          intro kz vz b hz hb hzero
          refine Refines.of_val hb hz hb ?_
          intro env he x y v hx hy hxo _ hav
          cases hy
          rw [hx, add_zero_val hA hzero hxo hav]
        split at h
        · split at h
          · rename_i hzero
            cases h
            exact hz ha hb hzero
          · split at h
            · split at h
              · rename_i hzero; cases h; exact hz' hb ha hzero
              · cases h; exact Refines.refl (.arith hk ha hb)
            · cases h; exact Refines.refl (.arith hk ha hb)
        · split at h
          · rename_i hzero; cases h; exact hz' hb ha hzero
          · cases h; exact Refines.refl (.arith hk ha hb)
        · cases h; exact Refines.refl (.arith hk ha hb)

theorem subRules_ok (hA : FltLaws A) {a b e' : Expr F} (hk : numeric k)
    (ha : WT vk ak a k) (hb : WT vk ak b k) (h : subRules A a b = some e') : Refines vk ak A k (.arith .sub a b) e' := by
  unfold subRules at h
  split at h
  · rename_i e hf
    cases h
    exact fold_ok hk ha hb hf
  · have hz : ∀ {kz : Kind} {vz : Val F} {b : Expr F}, WT vk ak (.lit kz vz) k → WT vk ak b k → isZero A vz = true →
        Refines vk ak A k (.arith .sub (.lit kz vz) b) (.neg b) := by
      intro kz vz b hz hb hzero
      refine Refines.of_val hz hb (.neg hk hb) ?_
      intro env he x y v hx hy _ hyo hav
      cases hx
      rw [eval_neg hb, hy]
      exact zero_sub_val hA hzero hav
    have hz' : ∀ {kz : Kind} {vz : Val F} {b : Expr F}, WT vk ak (.lit kz vz) k → WT vk ak b k → isZero A vz = true →
        Refines vk ak A k (.arith .sub b (.lit kz vz)) b := by
      intro kz vz b hz hb hzero
      refine Refines.of_val hb hz hb ?_
      intro env he x y v hx hy hxo _ hav
      cases hy
      rw [hx, sub_zero_val hA hzero hxo hav]
    split at h
    · split at h
      · rename_i hzero
        cases h
        exact hz ha hb hzero
      · split at h
        · split at h
          · rename_i hzero; cases h; exact hz' hb ha hzero
          · cases h; exact Refines.refl (.arith hk ha hb)
        · cases h; exact Refines.refl (.arith hk ha hb)
    · split at h
      · rename_i hzero; cases h; exact hz' hb ha hzero
      · cases h; exact Refines.refl (.arith hk ha hb)
    · cases h; exact Refines.refl (.arith hk ha hb)

theorem mulRules_ok (hA : FltLaws A) {again : Expr F → Option (Expr F)}
    (hagain : ∀ x y, again x = some y → WT vk ak x k → Refines vk ak A k x y) {a b e' : Expr F} (hk : numeric k)
    (ha : WT vk ak a k) (hb : WT vk ak b k) (h : mulRules A again a b = some e') : Refines vk ak A k (.arith .mul a b) e' := by
  unfold mulRules at h
  split at h
  · rename_i e hf
    cases h
    exact fold_ok hk ha hb hf
  · split at h
    · rename_i c k' d x hr
      have h1 := reassoc_ok (A := A) (op := .mul) (op' := .mul) (r := d * x) hk ha hb hr (by
        intro cc hint
        show some (Val.i (wrap k (wrap k (cc * d) * x))) = some (Val.i (wrap k (cc * wrap k (d * x))))
        rw [wrap_mul_left, wrap_mul_right, Int.mul_assoc]) hop_mul
      exact h1.trans (hagain _ _ h h1.1)
    · have hz : ∀ {kz : Kind} {vz : Val F} {b : Expr F}, WT vk ak (.lit kz vz) k → WT vk ak b k → isZero A vz = true →
          Refines vk ak A k (.arith .mul (.lit kz vz) b) (.lit kz vz) := by
        intro kz vz b hz hb hzero
        refine Refines.of_val hz hb hz ?_
        intro env he x y v hx hy _ hyo hav
        cases hx
        rw [zero_mul_val hA hzero hav]; rfl
      have hz' : ∀ {kz : Kind} {vz : Val F} {b : Expr F}, WT vk ak (.lit kz vz) k → WT vk ak b k → isZero A vz = true →
          Refines vk ak A k (.arith .mul b (.lit kz vz)) (.lit kz vz) := by
        intro kz vz b hz hb hzero
        refine Refines.of_val hb hz hz ?_
        intro env he x y v hx hy hxo _ hav
        cases hy
        rw [mul_zero_val hA hzero hav]; rfl
      have ho : ∀ {kz : Kind} {vz : Val F} {b : Expr F}, WT vk ak (.lit kz vz) k → WT vk ak b k → isOne A vz = true →
          Refines vk ak A k (.arith .mul (.lit kz vz) b) b := by
        intro kz vz b hz hb hone
        refine Refines.of_val hz hb hb ?_
        intro env he x y v hx hy _ hyo hav
        cases hx
        rw [hy, one_mul_val hA hone hyo hav]
      have ho' : ∀ {kz : Kind} {vz : Val F} {b : Expr F}, WT vk ak (.lit kz vz) k → WT vk ak b k → isOne A vz = true →
          Refines vk ak A k (.arith .mul b (.lit kz vz)) b := by
        intro kz vz b hz hb hone
        refine Refines.of_val hb hz hb ?_
        intro env he x y v hx hy hxo _ hav
        cases hy
        rw [hx, mul_one_val hA hone hxo hav]
      split at h
      · split at h
        · rename_i hzero
          cases h
          exact hz ha hb hzero
        · split at h
          · rename_i hone
            cases h
            exact ho ha hb hone
          · split at h
            · split at h
              · rename_i hzero; cases h; exact hz' hb ha hzero
              · split at h
                · rename_i hone; cases h; exact ho' hb ha hone
                · cases h; exact Refines.refl (.arith hk ha hb)
            · cases h; exact Refines.refl (.arith hk ha hb)
      · split at h
        · rename_i hzero; cases h; exact hz' hb ha hzero
        · split at h
          · rename_i hone; cases h; exact ho' hb ha hone
          · cases h; exact Refines.refl (.arith hk ha hb)
      · cases h; exact Refines.refl (.arith hk ha hb)

theorem divRules_ok (hA : FltLaws A) {a b e' : Expr F} (hk : numeric k)
    (ha : WT vk ak a k) (hb : WT vk ak b k) (h : divRules A a b = some e') : Refines vk ak A k (.arith .div a b) e' := by
  unfold divRules at h
  have ho' : ∀ {kz : Kind} {vz : Val F} {b : Expr F}, WT vk ak (.lit kz vz) k → WT vk ak b k → isOne A vz = true →
      Refines vk ak A k (.arith .div b (.lit kz vz)) b := by
    intro kz vz b hz hb hone
    refine Refines.of_val hb hz hb ?_
    intro env he x y v hx hy hxo _ hav
    cases hy
    rw [hx, div_one_val hA hone hxo hav]
  split at h
  · rename_i ka x kb y
    obtain ⟨hka, hva⟩ := ha.lit_inv
    obtain ⟨hkb, hvb⟩ := hb.lit_inv
    subst hka
    subst hkb
    rw [if_pos ⟨rfl, hva.1⟩] at h
    split at h
    · cases h
    · rename_i hy
      cases h
      refine Refines.of_val ha hb (.lit ⟨hva.1, wrap_wrap _ _⟩) ?_
      intro env he x' y' v hx' hy' _ _ hav
      cases hx'; cases hy'
      replace hav : (if y = 0 ∨ wrap kb (x.tdiv y) ≠ x.tdiv y then none else some (Val.i (wrap kb (x.tdiv y)))) = some v := hav
      split at hav
      · cases hav
      · exact hav
  · split at h
    · rename_i hone; cases h; exact ho' hb ha hone
    · cases h; exact Refines.refl (.arith hk ha hb)
  · cases h; exact Refines.refl (.arith hk ha hb)

theorem eval_bool {env : Env F} (he : EnvOK vk ak env) {a : Expr F} (ha : WT vk ak a .bool) {v : Val F} (h : eval A env a = some v) :
    ∃ x, v = .b x := by
  have := eval_ok he ha v h
  cases v with
  | b x => exact ⟨x, rfl⟩
  | i x => exact absurd this.1 (by decide)
  | f x => exact absurd this (by simp [valOK]; decide)

theorem orRules_ok {a b e' : Expr F} (ha : WT vk ak a .bool) (hb : WT vk ak b .bool) (h : orRules a b = some e') :
    Refines vk ak A .bool (.or a b) e' := by
  unfold orRules at h
  split at h
  · split at h
    · rename_i ka x
      obtain ⟨hka, _⟩ := ha.lit_inv
      subst hka
      cases x
      · cases h
        exact ⟨hb, fun env he v hv => hv⟩
      · cases h
        exact ⟨ha, fun env he v hv => hv⟩
    · cases h
  · split at h
    · rename_i kb x
      obtain ⟨hkb, _⟩ := hb.lit_inv
      subst hkb
      cases h
      cases x
      · refine ⟨ha, fun env he v hv => ?_⟩
        simp only [eval] at hv
        split at hv
        · rename_i h1; rw [if_neg (by simp), h1]; exact hv
        · rename_i h1; rw [if_neg (by simp), h1]; exact hv
        · cases hv
      · refine ⟨hb, fun env he v hv => ?_⟩
        simp only [eval] at hv
        split at hv
        · exact hv
        · exact hv
        · cases hv
    · cases h
  · cases h; exact Refines.refl (.or ha hb)

theorem andRules_ok {a b e' : Expr F} (ha : WT vk ak a .bool) (hb : WT vk ak b .bool) (h : andRules a b = some e') :
    Refines vk ak A .bool (.and a b) e' := by
  unfold andRules at h
  split at h
  · split at h
    · rename_i ka x
      obtain ⟨hka, _⟩ := ha.lit_inv
      subst hka
      cases x
      · cases h
        exact ⟨ha, fun env he v hv => hv⟩
      · cases h
        exact ⟨hb, fun env he v hv => hv⟩
    · cases h
  · split at h
    · rename_i kb x
      obtain ⟨hkb, _⟩ := hb.lit_inv
      subst hkb
      cases h
      cases x
      · refine ⟨hb, fun env he v hv => ?_⟩
        simp only [eval] at hv
        split at hv
        · exact hv
        · exact hv
        · cases hv
      · refine ⟨ha, fun env he v hv => ?_⟩
        simp only [eval] at hv
        split at hv
        · rename_i h1; rw [if_pos rfl, h1]; exact hv
        · rename_i h1; rw [if_pos rfl, h1]; exact hv
        · cases hv
    · cases h
  · cases h; exact Refines.refl (.and ha hb)

theorem castRules_ok {k' : Kind} (hk : k ≠ .undefined) {a e' : Expr F} (ha : WT vk ak a k') (h : castRules A k a = some e') :
    Refines vk ak A k (.cast a k) e' := by
  unfold castRules at h
  split at h
  · rename_i x
    obtain ⟨hk', _⟩ := ha.lit_inv
    subst hk'
    obtain ⟨r, hr, rfl⟩ := Option.map_eq_some_iff.1 h
    refine ⟨.lit (convert_ok hk hr), fun env he v hv => ?_⟩
    rw [eval_cast ha] at hv
    replace hv : promote A .bool k (.b x) = some v := hv
    unfold promote at hv
    split at hv
    · rename_i hkb
      subst hkb
      cases hv
      simp only [convert] at hr
      cases hr
      rfl
    · rw [hr] at hv; exact hv
  · cases h; exact Refines.refl (.cast hk ha)

end Verif.IR
