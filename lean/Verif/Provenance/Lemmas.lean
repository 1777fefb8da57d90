import Verif.Provenance.Model
import Verif.Util
/-! Helper lemmas for loop derivations. -/
namespace Verif.Provenance

theorem range_mul_flatMap (q s : Nat) :
    (List.range q).flatMap (fun o => (List.range s).map (fun i => o * s + i)) = List.range (q * s) := by
  induction q with
  | zero => simp
  | succ q ih =>
    rw [List.range_succ, List.flatMap_append, ih, Nat.succ_mul]
    simp only [List.flatMap_cons, List.flatMap_nil, List.append_nil]
    rw [List.range_add]

theorem filter_lt_range (n : Nat) : ∀ m, n ≤ m → (List.range m).filter (fun v => decide (v < n)) = List.range n := by
  intro m h
  induction m with
  | zero => have : n = 0 := by omega
            subst this; simp
  | succ m ih =>
    rw [List.range_succ, List.filter_append]
    by_cases h' : n ≤ m
    · rw [ih h']; simp; omega
    · have hn : n = m + 1 := by omega
      subst hn
      rw [List.range_succ]
      simp
      intro x hx; omega

theorem ceil_mul_ge (n s : Nat) (hs : 0 < s) : n ≤ (n + (s - 1)) / s * s := by
  have h1 := Nat.div_add_mod (n + (s - 1)) s
  have h2 := Nat.mod_lt (n + (s - 1)) hs
  rw [Nat.mul_comm] at h1
  omega

theorem lt_ceil {n s o i : Nat} (hs : 0 < s) (h : o * s + i < n) : o < (n + (s - 1)) / s := by
  rw [Nat.lt_div_iff_mul_lt hs]
  have : s * o = o * s := Nat.mul_comm _ _
  omega

theorem loopRange_zero (n : Nat) : loopRange (0, n) = List.range n := by
  simp [loopRange]

/-- Boxes in which the components flagged `true` are unconstrained. -/
def semiBox : List Nat → List Nat → List Bool → Bool
  | [], [], [] => true
  | x :: xs, e :: es, f :: fs => (f || decide (x < e)) && semiBox xs es fs
  | _, _, _ => false

theorem inBox_length {x e : List Nat} (h : inBox x e = true) : x.length = e.length := by
  induction x generalizing e with
  | nil => cases e <;> simp_all [inBox]
  | cons a x ih => cases e with
    | nil => simp [inBox] at h
    | cons b e => simp only [inBox, Bool.and_eq_true] at h; simp [ih h.2]

theorem inBox_of_semiBox_false {x e : List Nat} : semiBox x e (e.map fun _ => false) = inBox x e := by
  induction x generalizing e with
  | nil => cases e <;> simp [inBox, semiBox]
  | cons a x ih => cases e <;> simp [inBox, semiBox, ih]

theorem semiBox_all_true {x e : List Nat} (h : semiBox x e (e.map fun _ => true) = true) :
    x.length = e.length := by
  induction x generalizing e with
  | nil => cases e <;> simp_all [semiBox]
  | cons a x ih => cases e with
    | nil => simp [semiBox] at h
    | cons b e => simp only [semiBox, List.map_cons, Bool.and_eq_true] at h; simp [ih h.2]

theorem semiBox_of_inBox {x e : List Nat} {f : List Bool} (hl : f.length = e.length) (h : inBox x e = true) :
    semiBox x e f = true := by
  induction x generalizing e f with
  | nil => cases e <;> cases f <;> simp_all [inBox, semiBox]
  | cons a x ih => cases e with
    | nil => simp [inBox] at h
    | cons b e => cases f with
      | nil => simp at hl
      | cons c f =>
        simp only [inBox, Bool.and_eq_true] at h
        simp only [semiBox, Bool.and_eq_true, Bool.or_eq_true]
        exact ⟨Or.inr h.1, ih (by simpa using hl) h.2⟩

end Verif.Provenance

namespace Verif.Provenance

/-- Strict lexicographic order on iterations of equal depth. -/
def lexLt : List Nat → List Nat → Prop
  | x :: xs, y :: ys => x < y ∨ (x = y ∧ lexLt xs ys)
  | _, _ => False

/-- What one derivation step has to satisfy: `R` recovers the variables of a nest with extents `e`
(overshoot flags `f`) from those of a nest with extents `e'` (flags `f'`). -/
structure StepSpec (R : List Nat → Rec) (e e' : List Nat) (f f' : List Bool) (mono : Prop) : Prop where
  len : f.length = e.length → f'.length = e'.length
  surj : ∀ u, inBox u e = true → ∃ w, inBox w e' = true ∧ R w = .ok u
  box : ∀ w u, semiBox w e' f' = true → R w = .ok u →
    semiBox u e f = true ∧ (inBox u e = true → inBox w e' = true)
  inj : ∀ w w' u, inBox w e' = true → inBox w' e' = true → R w = .ok u → R w' = .ok u → w = w'
  noub : 0 ∉ e → ∀ w, semiBox w e' f' = true → R w ≠ .ub
  zero : 0 ∈ e → 0 ∈ e'
  mono : mono → ∀ w w' u u', semiBox w e' f' = true → semiBox w' e' f' = true →
    R w = .ok u → R w' = .ok u' → lexLt w w' → lexLt u u'

theorem Rec.cons_eq_ok {x : Nat} {r : Rec} {u : List Nat} :
    r.cons x = .ok u ↔ ∃ u', u = x :: u' ∧ r = .ok u' := by
  cases r <;> simp [Rec.cons, eq_comm]

theorem Rec.cons_eq_ub {x : Nat} {r : Rec} : r.cons x = .ub ↔ r = .ub := by
  cases r <;> simp [Rec.cons]

theorem StepSpec.lift {R R' : List Nat → Rec} {e e' : List Nat} {f f' : List Bool} {m : Prop}
    (h : StepSpec R e e' f f' m) (a : Nat) (g : Bool) (hR : ∀ x xs, R' (x :: xs) = (R xs).cons x) :
    StepSpec R' (a :: e) (a :: e') (g :: f) (g :: f') m where
  len := by intro hl; simp only [List.length_cons, Nat.add_right_cancel_iff] at *; exact h.len hl
  surj := by
    intro u hu
    cases u with
    | nil => simp [inBox] at hu
    | cons x u =>
      simp only [inBox, Bool.and_eq_true] at hu
      obtain ⟨w, h1, h2⟩ := h.surj u hu.2
      exact ⟨x :: w, by simp only [inBox, Bool.and_eq_true]; exact ⟨hu.1, h1⟩, by rw [hR, h2]; rfl⟩
  box := by
    intro w u hw hu
    cases w with
    | nil => simp [semiBox] at hw
    | cons x w =>
      rw [hR, Rec.cons_eq_ok] at hu
      obtain ⟨u', rfl, hu'⟩ := hu
      simp only [semiBox, Bool.and_eq_true] at hw
      obtain ⟨b1, b2⟩ := h.box w u' hw.2 hu'
      refine ⟨by simp only [semiBox, Bool.and_eq_true]; exact ⟨hw.1, b1⟩, ?_⟩
      intro hb
      simp only [inBox, Bool.and_eq_true] at hb ⊢
      exact ⟨hb.1, b2 hb.2⟩
  inj := by
    intro w w' u h1 h2 h3 h4
    cases w with
    | nil => simp [inBox] at h1
    | cons x w =>
      cases w' with
      | nil => simp [inBox] at h2
      | cons x' w' =>
        rw [hR, Rec.cons_eq_ok] at h3 h4
        obtain ⟨u', rfl, h3'⟩ := h3
        obtain ⟨u'', h5, h4'⟩ := h4
        simp only [List.cons.injEq] at h5
        obtain ⟨rfl, rfl⟩ := h5
        simp only [inBox, Bool.and_eq_true] at h1 h2
        rw [h.inj w w' u' h1.2 h2.2 h3' h4']
  noub := by
    intro hz w hw
    cases w with
    | nil => simp [semiBox] at hw
    | cons x w =>
      rw [hR, ne_eq, Rec.cons_eq_ub]
      simp only [semiBox, Bool.and_eq_true] at hw
      exact h.noub (by simp only [List.mem_cons, not_or] at hz; exact hz.2) w hw.2
  zero := by
    intro hz
    simp only [List.mem_cons] at hz ⊢
    exact hz.imp id h.zero
  mono := by
    intro hm w w' u u' h1 h2 h3 h4 h5
    cases w with
    | nil => simp [semiBox] at h1
    | cons x w =>
      cases w' with
      | nil => simp [semiBox] at h2
      | cons x' w' =>
        rw [hR, Rec.cons_eq_ok] at h3 h4
        obtain ⟨v, rfl, h3'⟩ := h3
        obtain ⟨v', rfl, h4'⟩ := h4
        simp only [semiBox, Bool.and_eq_true] at h1 h2
        simp only [lexLt] at h5 ⊢
        rcases h5 with h5 | ⟨h5, h6⟩
        · exact Or.inl h5
        · exact Or.inr ⟨h5, h.mono hm w w' v v' h1.2 h2.2 h3' h4' h6⟩

theorem split_spec (e s : Nat) (es : List Nat) (f : Bool) (fs : List Bool) (hs : s ≠ 0)
    (hok : (f || e % s == 0) = true) :
    StepSpec (stepRecover (.split 0 s) (e :: es)) (e :: es)
      ((splitOuterBounds (0, e) s).2 :: (splitInnerBounds (0, e) s).2 :: es) (f :: fs) (f :: false :: fs) True := by
  change StepSpec _ _ ((e + (s - 1)) / s :: s :: es) _ _ _
  exact {
  len := by simp
  surj := by
    intro u hu
    cases u with
    | nil => simp [inBox] at hu
    | cons v u =>
      simp only [inBox, Bool.and_eq_true, decide_eq_true_eq] at hu
      refine ⟨v / s :: v % s :: u, ?_, ?_⟩
      · simp only [inBox, Bool.and_eq_true, decide_eq_true_eq]
        refine ⟨?_, Nat.mod_lt _ (by omega), hu.2⟩
        apply lt_ceil (i := v % s) (by omega)
        have := Nat.div_add_mod v s
        rw [Nat.mul_comm] at this; omega
      · simp only [stepRecover, splitRecover, Rec.ok.injEq, List.cons.injEq, and_true]
        have := Nat.div_add_mod v s
        rw [Nat.mul_comm] at this; omega
  box := by
    intro w u hw hu
    match w, hw, hu with
    | [], hw, _ => simp [semiBox] at hw
    | [_], hw, _ => simp [semiBox] at hw
    | o :: i :: w, hw, hu =>
      simp only [semiBox, Bool.false_or, Bool.and_eq_true,
        decide_eq_true_eq, Bool.or_eq_true] at hw
      simp only [stepRecover, Rec.ok.injEq] at hu
      subst hu
      have hv : splitRecover s o i = o * s + i := rfl
      rw [hv]
      simp only [semiBox, inBox, Bool.and_eq_true, decide_eq_true_eq, Bool.or_eq_true]
      obtain ⟨h1, h2, h3⟩ := hw
      refine ⟨⟨?_, h3⟩, ?_⟩
      · cases f with
        | true => simp
        | false =>
          right
          simp only [Bool.false_eq_true, false_or] at h1
          simp only [Bool.false_or, beq_iff_eq] at hok
          obtain ⟨q, rfl⟩ := Nat.dvd_of_mod_eq_zero hok
          have : (s * q + (s - 1)) / s = q := by
            rw [Nat.mul_add_div (by omega)]
            rw [Nat.div_eq_of_lt (by omega)]; omega
          rw [this] at h1
          have : o * s + s ≤ q * s := by
            rw [← Nat.succ_mul]; exact Nat.mul_le_mul_right _ h1
          rw [Nat.mul_comm s q]; omega
      · intro hb
        exact ⟨lt_ceil (by omega) hb.1, h2, hb.2⟩
  inj := by
    intro w w' u h1 h2 h3 h4
    match w, w', h1, h2, h3, h4 with
    | [], _, h1, _, _, _ => simp [inBox] at h1
    | [_], _, h1, _, _, _ => simp [inBox] at h1
    | _ :: _ :: _, [], _, h2, _, _ => simp [inBox] at h2
    | _ :: _ :: _, [_], _, h2, _, _ => simp [inBox] at h2
    | o :: i :: w, o' :: i' :: w', h1, h2, h3, h4 =>
      simp only [inBox, Bool.and_eq_true, decide_eq_true_eq] at h1 h2
      simp only [stepRecover, Rec.ok.injEq] at h3 h4
      rw [← h4] at h3
      simp only [splitRecover, List.cons.injEq] at h3
      obtain ⟨h5, rfl⟩ := h3
      have ho : o = o' := by
        have e1 : (o * s + i) / s = o := by
          rw [Nat.mul_comm, Nat.mul_add_div (by omega), Nat.div_eq_of_lt h1.2.1]; omega
        have e2 : (o' * s + i') / s = o' := by
          rw [Nat.mul_comm, Nat.mul_add_div (by omega), Nat.div_eq_of_lt h2.2.1]; omega
        rw [← e1, ← e2, h5]
      subst ho
      have : i = i' := by omega
      rw [this]
  noub := by
    intro _ w hw
    match w, hw with
    | [], hw => simp [semiBox] at hw
    | [_], hw => simp [semiBox] at hw
    | o :: i :: w, _ => simp [stepRecover]
  zero := by
    intro h
    simp only [List.mem_cons] at h ⊢
    rcases h with h | h
    · left; subst h
      rw [Nat.div_eq_of_lt (by omega)]
    · exact Or.inr (Or.inr h)
  mono := by
    intro _ w w' u u' h1 h2 h3 h4 h5
    match w, w', h1, h2, h3, h4, h5 with
    | [], _, h1, _, _, _, _ => simp [semiBox] at h1
    | [_], _, h1, _, _, _, _ => simp [semiBox] at h1
    | _ :: _ :: _, [], _, h2, _, _, _ => simp [semiBox] at h2
    | _ :: _ :: _, [_], _, h2, _, _, _ => simp [semiBox] at h2
    | o :: i :: w, o' :: i' :: w', h1, h2, h3, h4, h5 =>
      simp only [semiBox, Bool.and_eq_true, decide_eq_true_eq, Bool.false_or] at h1 h2
      simp only [stepRecover, Rec.ok.injEq] at h3 h4
      subst h3 h4
      simp only [lexLt, splitRecover] at h5 ⊢
      rcases h5 with h5 | ⟨rfl, h5 | ⟨rfl, h5⟩⟩
      · left
        have : (o + 1) * s ≤ o' * s := Nat.mul_le_mul_right _ h5
        rw [Nat.succ_mul] at this
        have := h1.2.1
        omega
      · left; omega
      · right; exact ⟨rfl, h5⟩ }

theorem divide_spec (e d : Nat) (es : List Nat) (f : Bool) (fs : List Bool) (hd : d ≠ 0)
    (hok : (f || e % d == 0) = true) :
    StepSpec (stepRecover (.divide 0 d) (e :: es)) (e :: es)
      ((divideOuterBounds (0, e) d).2 :: (divideInnerBounds (0, e) d).2 :: es) (f :: fs) (f :: true :: fs) True := by
  change StepSpec _ _ (d :: (e + (d - 1)) / d :: es) _ _ _
  have hrec : ∀ o i xs u, stepRecover (.divide 0 d) (e :: es) (o :: i :: xs) = .ok u ↔
      (i < (e + (d - 1)) / d ∧ u = (o * ((e + (d - 1)) / d) + i) :: xs) := by
    intro o i xs u
    simp only [stepRecover, divideRecover, divideGuardSkips, divideInnerBounds, Nat.sub_zero, Nat.zero_div,
      decide_eq_true_eq, ge_iff_le, Nat.succ_mul]
    split
    · constructor
      · intro h; cases h
      · intro h; omega
    · constructor
      · intro h; cases h; exact ⟨by omega, rfl⟩
      · rintro ⟨_, rfl⟩; rfl
  have hnub : ∀ o i xs, stepRecover (.divide 0 d) (e :: es) (o :: i :: xs) ≠ .ub := by
    intro o i xs
    simp only [stepRecover]
    split <;> simp
  have hcov := ceil_mul_ge e d (by omega)
  refine ⟨by simp, ?_, ?_, ?_, ?_, ?_, ?_⟩
  · intro u hu
    cases u with
    | nil => simp [inBox] at hu
    | cons v u =>
      simp only [inBox, Bool.and_eq_true, decide_eq_true_eq] at hu
      have hL : 0 < (e + (d - 1)) / d := by
        rcases Nat.eq_zero_or_pos ((e + (d - 1)) / d) with h | h
        · rw [h] at hcov; omega
        · exact h
      refine ⟨v / ((e + (d - 1)) / d) :: v % ((e + (d - 1)) / d) :: u, ?_, ?_⟩
      · simp only [inBox, Bool.and_eq_true, decide_eq_true_eq]
        refine ⟨?_, Nat.mod_lt _ hL, hu.2⟩
        rw [Nat.div_lt_iff_lt_mul hL, Nat.mul_comm]; omega
      · rw [hrec]
        refine ⟨Nat.mod_lt _ hL, ?_⟩
        have := Nat.div_add_mod v ((e + (d - 1)) / d)
        rw [Nat.mul_comm] at this; rw [this]
  · intro w u hw hu
    match w, hw, hu with
    | [], hw, _ => simp [semiBox] at hw
    | [_], hw, _ => simp [semiBox] at hw
    | o :: i :: w, hw, hu =>
      rw [hrec] at hu
      obtain ⟨hi, rfl⟩ := hu
      simp only [semiBox, Bool.true_or, Bool.and_eq_true,
        decide_eq_true_eq, Bool.or_eq_true, true_and] at hw
      simp only [semiBox, inBox, Bool.and_eq_true,
        decide_eq_true_eq, Bool.or_eq_true]
      refine ⟨⟨?_, hw.2⟩, ?_⟩
      · cases f with
        | true => simp
        | false =>
          right
          obtain ⟨hw1, hw2⟩ := hw
          simp only [Bool.false_eq_true, false_or] at hw1
          simp only [Bool.false_or, beq_iff_eq] at hok
          obtain ⟨q, rfl⟩ := Nat.dvd_of_mod_eq_zero hok
          have hq : (d * q + (d - 1)) / d = q := by
            rw [Nat.mul_add_div (by omega)]
            rw [Nat.div_eq_of_lt (by omega)]; omega
          rw [hq] at hi ⊢
          have : (o + 1) * q ≤ d * q := Nat.mul_le_mul_right _ hw1
          rw [Nat.succ_mul] at this
          omega
      · intro hb
        refine ⟨?_, hi, hb.2⟩
        have h1 : o * ((e + (d - 1)) / d) < d * ((e + (d - 1)) / d) := by
          rw [Nat.mul_comm d]; omega
        exact Nat.lt_of_mul_lt_mul_right h1
  · intro w w' u h1 h2 h3 h4
    match w, w', h1, h2, h3, h4 with
    | [], _, h1, _, _, _ => simp [inBox] at h1
    | [_], _, h1, _, _, _ => simp [inBox] at h1
    | _ :: _ :: _, [], _, h2, _, _ => simp [inBox] at h2
    | _ :: _ :: _, [_], _, h2, _, _ => simp [inBox] at h2
    | o :: i :: w, o' :: i' :: w', h1, h2, h3, h4 =>
      rw [hrec] at h3 h4
      obtain ⟨hi, rfl⟩ := h3
      obtain ⟨hi', h5⟩ := h4
      simp only [List.cons.injEq] at h5
      obtain ⟨h5, rfl⟩ := h5
      have ho : o = o' := by
        have e1 : (o * ((e + (d - 1)) / d) + i) / ((e + (d - 1)) / d) = o := by
          rw [Nat.mul_comm, Nat.mul_add_div (by omega), Nat.div_eq_of_lt hi]; omega
        have e2 : (o' * ((e + (d - 1)) / d) + i') / ((e + (d - 1)) / d) = o' := by
          rw [Nat.mul_comm, Nat.mul_add_div (by omega), Nat.div_eq_of_lt hi']; omega
        rw [← e1, ← e2, h5]
      subst ho
      have : i = i' := by omega
      rw [this]
  · intro _ w hw
    match w, hw with
    | [], hw => simp [semiBox] at hw
    | [_], hw => simp [semiBox] at hw
    | o :: i :: w, _ => exact hnub o i w
  · intro h
    simp only [List.mem_cons] at h ⊢
    rcases h with h | h
    · right; left; subst h
      rw [Nat.div_eq_of_lt (by omega)]
    · exact Or.inr (Or.inr h)
  · intro _ w w' u u' h1 h2 h3 h4 h5
    match w, w', h1, h2, h3, h4, h5 with
    | [], _, h1, _, _, _, _ => simp [semiBox] at h1
    | [_], _, h1, _, _, _, _ => simp [semiBox] at h1
    | _ :: _ :: _, [], _, h2, _, _, _ => simp [semiBox] at h2
    | _ :: _ :: _, [_], _, h2, _, _, _ => simp [semiBox] at h2
    | o :: i :: w, o' :: i' :: w', h1, h2, h3, h4, h5 =>
      rw [hrec] at h3 h4
      obtain ⟨hi, rfl⟩ := h3
      obtain ⟨hi', rfl⟩ := h4
      simp only [lexLt] at h5 ⊢
      rcases h5 with h5 | ⟨rfl, h5 | ⟨rfl, h5⟩⟩
      · left
        have : (o + 1) * ((e + (d - 1)) / d) ≤ o' * ((e + (d - 1)) / d) := Nat.mul_le_mul_right _ h5
        rw [Nat.succ_mul] at this
        omega
      · left; omega
      · right; exact ⟨rfl, h5⟩

theorem fuse_spec (e e' : Nat) (es : List Nat) (f f' : Bool) (fs : List Bool) :
    StepSpec (stepRecover (.fuse 0) (e :: e' :: es)) (e :: e' :: es)
      ((fuseBounds (0, e) (0, e')).2 :: es) (f :: f' :: fs) (f :: fs) True := by
  have hb : (fuseBounds (0, e) (0, e')).2 = e * e' := by simp [fuseBounds]
  rw [hb]
  have hrec : ∀ x xs u, stepRecover (.fuse 0) (e :: e' :: es) (x :: xs) = .ok u ↔
      (0 < e' ∧ u = x / e' :: x % e' :: xs) := by
    intro x xs u
    simp only [stepRecover, fuseRecover, Nat.sub_zero]
    split
    · rename_i h
      split at h
      · constructor
        · intro h; cases h
        · intro h; omega
      · cases h
    · rename_i ij h
      split at h
      · cases h
      · cases h
        constructor
        · intro h; cases h; exact ⟨by omega, rfl⟩
        · rintro ⟨_, rfl⟩; rfl
  refine ⟨by simp, ?_, ?_, ?_, ?_, ?_, ?_⟩
  · intro u hu
    match u, hu with
    | [], hu => simp [inBox] at hu
    | [_], hu => simp [inBox] at hu
    | a :: b :: u, hu =>
      simp only [inBox, Bool.and_eq_true, decide_eq_true_eq] at hu
      obtain ⟨ha, hb, hu⟩ := hu
      refine ⟨(a * e' + b) :: u, ?_, ?_⟩
      · simp only [inBox, Bool.and_eq_true, decide_eq_true_eq]
        refine ⟨?_, hu⟩
        have : (a + 1) * e' ≤ e * e' := Nat.mul_le_mul_right _ ha
        rw [Nat.succ_mul] at this; omega
      · rw [hrec]
        refine ⟨by omega, ?_⟩
        rw [Nat.mul_comm, Nat.mul_add_div (by omega), Nat.div_eq_of_lt hb, Nat.mul_add_mod, Nat.mod_eq_of_lt hb]
        simp
  · intro w u hw hu
    match w, hw, hu with
    | [], hw, _ => simp [semiBox] at hw
    | x :: w, hw, hu =>
      rw [hrec] at hu
      obtain ⟨he, rfl⟩ := hu
      simp only [semiBox, Bool.and_eq_true, decide_eq_true_eq, Bool.or_eq_true] at hw
      simp only [semiBox, inBox, Bool.and_eq_true, decide_eq_true_eq, Bool.or_eq_true]
      refine ⟨⟨?_, Or.inr (Nat.mod_lt _ he), hw.2⟩, ?_⟩
      · rcases hw.1 with h | h
        · exact Or.inl h
        · exact Or.inr (by rw [Nat.div_lt_iff_lt_mul he]; exact h)
      · intro h
        exact ⟨by rw [← Nat.div_lt_iff_lt_mul he]; exact h.1, h.2.2⟩
  · intro w w' u h1 h2 h3 h4
    match w, w', h1, h2, h3, h4 with
    | [], _, h1, _, _, _ => simp [inBox] at h1
    | _ :: _, [], _, h2, _, _ => simp [inBox] at h2
    | x :: w, x' :: w', h1, h2, h3, h4 =>
      rw [hrec] at h3 h4
      obtain ⟨he, rfl⟩ := h3
      obtain ⟨_, h5⟩ := h4
      simp only [List.cons.injEq] at h5
      obtain ⟨h5, h6, rfl⟩ := h5
      have e1 := Nat.div_add_mod x e'
      have e2 := Nat.div_add_mod x' e'
      rw [h5, h6] at e1
      rw [← e1, e2]
  · intro hz w hw
    match w, hw with
    | [], hw => simp [semiBox] at hw
    | x :: w, _ =>
      intro h
      have : stepRecover (.fuse 0) (e :: e' :: es) (x :: w) = .ok (x / e' :: x % e' :: w) := by
        rw [hrec]
        simp only [List.mem_cons, not_or] at hz
        exact ⟨by omega, rfl⟩
      rw [this] at h; cases h
  · intro h
    simp only [List.mem_cons] at h ⊢
    rcases h with h | h | h
    · left; rw [← h]; simp
    · left; rw [← h]; simp
    · exact Or.inr h
  · intro _ w w' u u' h1 h2 h3 h4 h5
    match w, w', h1, h2, h3, h4, h5 with
    | [], _, h1, _, _, _, _ => simp [semiBox] at h1
    | _ :: _, [], _, h2, _, _, _ => simp [semiBox] at h2
    | x :: w, x' :: w', h1, h2, h3, h4, h5 =>
      rw [hrec] at h3 h4
      obtain ⟨he, rfl⟩ := h3
      obtain ⟨_, rfl⟩ := h4
      simp only [lexLt] at h5 ⊢
      rcases h5 with h5 | ⟨rfl, h5⟩
      · have hle : x / e' ≤ x' / e' := Nat.div_le_div_right (by omega)
        rcases Nat.lt_or_ge (x / e') (x' / e') with h | h
        · exact Or.inl h
        · right
          have heq : x / e' = x' / e' := by omega
          refine ⟨heq, Or.inl ?_⟩
          have e1 := Nat.div_add_mod x e'
          have e2 := Nat.div_add_mod x' e'
          rw [heq] at e1
          omega
      · exact Or.inr ⟨rfl, Or.inr ⟨rfl, h5⟩⟩

theorem swap_spec (e e' : Nat) (es : List Nat) (f f' : Bool) (fs : List Bool) :
    StepSpec (stepRecover (.swap 0) (e :: e' :: es)) (e :: e' :: es)
      (e' :: e :: es) (f :: f' :: fs) (f' :: f :: fs) False where
  len := by simp
  surj := by
    intro u hu
    match u, hu with
    | [], hu => simp [inBox] at hu
    | [_], hu => simp [inBox] at hu
    | a :: b :: u, hu =>
      simp only [inBox, Bool.and_eq_true] at hu
      exact ⟨b :: a :: u, by simp only [inBox, Bool.and_eq_true]; exact ⟨hu.2.1, hu.1, hu.2.2⟩, rfl⟩
  box := by
    intro w u hw hu
    match w, hw, hu with
    | [], hw, _ => simp [semiBox] at hw
    | [_], hw, _ => simp [semiBox] at hw
    | a :: b :: w, hw, hu =>
      simp only [stepRecover, Rec.ok.injEq] at hu
      subst hu
      simp only [semiBox, inBox, Bool.and_eq_true] at *
      exact ⟨⟨hw.2.1, hw.1, hw.2.2⟩, fun h => ⟨h.2.1, h.1, h.2.2⟩⟩
  inj := by
    intro w w' u h1 h2 h3 h4
    match w, w', h1, h2, h3, h4 with
    | [], _, h1, _, _, _ => simp [inBox] at h1
    | [_], _, h1, _, _, _ => simp [inBox] at h1
    | _ :: _ :: _, [], _, h2, _, _ => simp [inBox] at h2
    | _ :: _ :: _, [_], _, h2, _, _ => simp [inBox] at h2
    | a :: b :: w, a' :: b' :: w', h1, h2, h3, h4 =>
      simp only [stepRecover, Rec.ok.injEq] at h3 h4
      rw [← h4] at h3
      simp only [List.cons.injEq] at h3 ⊢
      exact ⟨h3.2.1, h3.1, h3.2.2⟩
  noub := by
    intro _ w hw
    match w, hw with
    | [], hw => simp [semiBox] at hw
    | [_], hw => simp [semiBox] at hw
    | a :: b :: w, _ => simp [stepRecover]
  zero := by
    intro h
    simp only [List.mem_cons] at h ⊢
    rcases h with h | h | h
    · exact Or.inr (Or.inl h)
    · exact Or.inl h
    · exact Or.inr (Or.inr h)
  mono := by intro h; exact h.elim

end Verif.Provenance
