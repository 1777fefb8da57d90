import Verif.Window.Model
import Verif.Window.Spec
import Verif.Search.Theorems
/-! Window arithmetic and the position loops. -/
namespace Verif.Window
open Verif.Search

/-- The two guards and the projection, for a coordinate that is not below the window. -/
theorem guard_spec {w : Window} {x : Int} (_hs : 1 ≤ w.stride) (_hx : w.lo ≤ x) :
    w.offStride x = false ↔ x = w.lo + w.project x * w.stride := by
  unfold Window.offStride Window.isStrided Window.project
  have h1 := Int.tmod_def (x - w.lo) w.stride
  have h2 : (x - w.lo).tmod w.stride = (x - w.lo) - w.stride * (x - w.lo).tdiv w.stride := h1
  rw [Int.mul_comm] at h2
  generalize hq : (x - w.lo).tdiv w.stride * w.stride = q at *
  by_cases h : w.stride = 1
  · have : q = x - w.lo := by
      rw [← hq, h]; simp
    simp [h]; omega
  · have hb : (w.stride == 1) = false := by simpa using h
    rw [hb]
    simp only [Bool.not_false, Bool.true_and, decide_eq_false_iff_not, Decidable.not_not]
    omega

theorem project_nonneg {w : Window} {x : Int} (hs : 1 ≤ w.stride) (hx : w.lo ≤ x) : 0 ≤ w.project x :=
  Int.tdiv_nonneg (by omega) (by omega)

theorem project_eq {w : Window} {k : Int} (hs : 1 ≤ w.stride) : w.project (w.lo + k * w.stride) = k := by
  unfold Window.project
  have : w.lo + k * w.stride - w.lo = k * w.stride := by omega
  rw [this]
  exact Int.mul_tdiv_cancel _ (by omega)

/-- Below the size of the window, in terms of the bounds. -/
theorem lt_size {w : Window} {k : Int} (hs : 1 ≤ w.stride) (hk : 0 ≤ k) :
    k < w.size ↔ w.lo + (k + 1) * w.stride ≤ w.hi := by
  unfold Window.size
  by_cases hp : 0 ≤ w.hi - w.lo
  · rw [Int.tdiv_eq_ediv_of_nonneg hp, ← Int.add_one_le_iff, Int.le_ediv_iff_mul_le (by omega)]
    omega
  · have h0 : (w.hi - w.lo).tdiv w.stride ≤ 0 := by
      have h := Int.tdiv_nonneg (a := -(w.hi - w.lo)) (b := w.stride) (by omega) (by omega)
      rw [Int.neg_tdiv] at h; omega
    have : 0 ≤ (k + 1) * w.stride := Int.mul_nonneg (by omega) (by omega)
    constructor
    · intro h; omega
    · intro h; omega

/-- A stride that divides the window leaves no partial step. -/
theorem selected_iff_size {w : Window} {x k : Int} (hs : 1 ≤ w.stride) (hd : w.stride ∣ w.hi - w.lo) :
    Selected w.lo w.hi w.stride x k ↔ 0 ≤ k ∧ x = w.lo + k * w.stride ∧ k < w.size := by
  unfold Selected
  refine and_congr_right (fun hk => and_congr_right (fun hx => ?_))
  rw [lt_size hs hk, hx]
  obtain ⟨m, hm⟩ := hd
  rw [Int.mul_comm] at hm
  constructor
  · intro h
    have h1 : k * w.stride < m * w.stride := by omega
    have h2 : k < m := Int.lt_of_mul_lt_mul_right h1 (by omega)
    have h3 : (k + 1) * w.stride ≤ m * w.stride := Int.mul_le_mul_of_nonneg_right (by omega) (by omega)
    omega
  · intro h
    have h1 : (k + 1) * w.stride = k * w.stride + w.stride := by rw [Int.add_mul, Int.one_mul]
    omega

/-- The search for the first position of a window, also on an empty segment that is not at the end
of the array. -/
theorem search_spec (a : List Int) (s e : Nat) (t : Int) (hse : s ≤ e) (hl : s < a.length)
    (hlen : e ≤ a.length) (hsz : e ≤ 1073741824) (hsort : StrictOn a s e) :
    ∃ r, binarySearchAfter a s e t = some r ∧ IsLowerBound a s e t r := by
  by_cases h : s < e
  · exact binarySearchAfter_lowerBound a s e t h hlen hsz hsort
  · have : e = s := by omega
    subst this
    refine ⟨e, ?_, Nat.le_refl _, Nat.le_refl _, by intro i v h1 h2; omega, by intro h'; omega⟩
    unfold binarySearchAfter
    rw [List.getElem?_eq_getElem hl]
    simp only
    split
    · rfl
    · unfold bsLoop
      rw [dif_neg (by omega)]

section
variable {a : List Int} {w : Window} {e : Nat}

/-- What the bodies have in common: position `p` stores the selected coordinate number `k`. -/
def Hit (a : List Int) (w : Window) (p : Nat) (k : Int) : Prop :=
  ∃ x, a[p]? = some x ∧ 0 ≤ k ∧ x = w.lo + k * w.stride

theorem hit_lt {s p q : Nat} {k j : Int} (hs : 1 ≤ w.stride) (hsort : StrictOn a s e) (hp : s ≤ p)
    (hq : q < e) (hpq : p < q) (h1 : Hit a w p k) (h2 : Hit a w q j) : k < j := by
  obtain ⟨x, hx, _, hxe⟩ := h1
  obtain ⟨y, hy, _, hye⟩ := h2
  have := hsort p q x y hp hpq hq hx hy
  have h : k * w.stride < j * w.stride := by omega
  exact Int.lt_of_mul_lt_mul_right h (by omega)

theorem hit_of_on {p : Nat} {x : Int} (hs : 1 ≤ w.stride) (hx : a[p]? = some x) (hlo : w.lo ≤ x)
    (hon : w.offStride x = false) : Hit a w p (w.project x) :=
  ⟨x, hx, project_nonneg hs hlo, (guard_spec hs hlo).1 hon⟩

theorem hit_unique {p : Nat} {k : Int} {x : Int} (hs : 1 ≤ w.stride) (hx : a[p]? = some x)
    (h : Hit a w p k) : k = w.project x ∧ w.offStride x = false := by
  obtain ⟨y, hy, hk, rfl⟩ := h
  rw [hx] at hy; cases hy
  have : 0 ≤ k * w.stride := Int.mul_nonneg hk (by omega)
  rw [project_eq hs]
  refine ⟨rfl, ?_⟩
  rw [guard_spec hs (by omega), project_eq hs]

/-- The thread body over `[b, b+n)`. -/
theorem threadBody_spec (hs : 1 ≤ w.stride) (hlen : e ≤ a.length) :
    ∀ (n b : Nat), b + n ≤ e → StrictOn a b e →
      (∀ p x, b ≤ p → p < e → a[p]? = some x → w.lo ≤ x) →
      ∃ out, threadBody a w (List.range' b n) = some out ∧ Ascending out ∧
        ∀ p k, (p, k) ∈ out ↔ b ≤ p ∧ p < b + n ∧ Hit a w p k := by
  intro n
  induction n with
  | zero =>
    intro b _ _ _
    refine ⟨[], rfl, List.Pairwise.nil, ?_⟩
    intro p k
    simp; omega
  | succ n ih =>
    intro b hb hsort hlo
    obtain ⟨out, h1, h2, h3⟩ := ih (b + 1) (by omega)
      (fun i j x y hi hij hj => hsort i j x y (by omega) hij hj)
      (fun p x hp => hlo p x (by omega))
    have hbl : b < a.length := by omega
    have hget := List.getElem?_eq_getElem hbl
    rw [List.range'_succ, threadBody, hget]
    simp only
    by_cases hoff : w.offStride a[b] = true
    · rw [if_pos hoff]
      refine ⟨out, h1, h2, ?_⟩
      intro p k
      rw [h3]
      constructor
      · rintro ⟨q1, q2, q3⟩; exact ⟨by omega, by omega, q3⟩
      · rintro ⟨q1, q2, q3⟩
        refine ⟨?_, by omega, q3⟩
        by_cases hpb : p = b
        · subst hpb
          rw [(hit_unique hs hget q3).2] at hoff; cases hoff
        · omega
    · rw [if_neg hoff, h1]
      rw [Bool.not_eq_true] at hoff
      have hh := hit_of_on hs hget (hlo b _ (Nat.le_refl _) (by omega) hget) hoff
      refine ⟨_, rfl, ?_, ?_⟩
      · refine List.pairwise_cons.2 ⟨?_, h2⟩
        rintro ⟨q, j⟩ hq
        obtain ⟨q1, q2, q3⟩ := (h3 q j).1 hq
        exact ⟨by omega, hit_lt hs hsort (Nat.le_refl _) (by omega) (by omega) hh q3⟩
      · intro p k
        rw [List.mem_cons, h3, Prod.mk.injEq]
        constructor
        · rintro (⟨rfl, rfl⟩ | ⟨q1, q2, q3⟩)
          · exact ⟨Nat.le_refl _, by omega, hh⟩
          · exact ⟨by omega, by omega, q3⟩
        · rintro ⟨q1, q2, q3⟩
          by_cases hpb : p = b
          · subst hpb; exact Or.inl ⟨rfl, (hit_unique hs hget q3).1⟩
          · exact Or.inr ⟨by omega, by omega, q3⟩

/-- The serial body over `[b, b+n)`. -/
theorem serialBody_spec (hs : 1 ≤ w.stride) (hlen : e ≤ a.length) :
    ∀ (n b : Nat), b + n ≤ e → StrictOn a b e →
      (∀ p x, b ≤ p → p < e → a[p]? = some x → w.lo ≤ x) →
      ∃ out, serialBody a w (List.range' b n) = some out ∧ Ascending out ∧
        ∀ p k, (p, k) ∈ out ↔ b ≤ p ∧ p < b + n ∧ Hit a w p k ∧ k < w.size := by
  intro n
  induction n with
  | zero =>
    intro b _ _ _
    refine ⟨[], rfl, List.Pairwise.nil, ?_⟩
    intro p k
    simp; omega
  | succ n ih =>
    intro b hb hsort hlo
    obtain ⟨out, h1, h2, h3⟩ := ih (b + 1) (by omega)
      (fun i j x y hi hij hj => hsort i j x y (by omega) hij hj)
      (fun p x hp => hlo p x (by omega))
    have hbl : b < a.length := by omega
    have hget := List.getElem?_eq_getElem hbl
    rw [List.range'_succ, serialBody, hget]
    simp only
    by_cases hoff : w.offStride a[b] = true
    · rw [if_pos hoff]
      refine ⟨out, h1, h2, ?_⟩
      intro p k
      rw [h3]
      constructor
      · rintro ⟨q1, q2, q3⟩; exact ⟨by omega, by omega, q3⟩
      · rintro ⟨q1, q2, q3, q4⟩
        refine ⟨?_, by omega, q3, q4⟩
        by_cases hpb : p = b
        · subst hpb
          rw [(hit_unique hs hget q3).2] at hoff; cases hoff
        · omega
    · rw [if_neg hoff]
      rw [Bool.not_eq_true] at hoff
      have hh := hit_of_on hs hget (hlo b _ (Nat.le_refl _) (by omega) hget) hoff
      unfold Window.beyond
      by_cases hbey : w.project a[b] ≥ w.size
      · rw [if_pos (by simpa using hbey)]
        refine ⟨[], rfl, List.Pairwise.nil, ?_⟩
        intro p k
        constructor
        · intro h; cases h
        · rintro ⟨q1, q2, q3, q4⟩
          exfalso
          by_cases hpb : p = b
          · subst hpb
            have := (hit_unique hs hget q3).1
            omega
          · have := hit_lt hs hsort (Nat.le_refl _) (by omega) (by omega) hh q3
            omega
      · rw [if_neg (by simpa using hbey), h1]
        refine ⟨_, rfl, ?_, ?_⟩
        · refine List.pairwise_cons.2 ⟨?_, h2⟩
          rintro ⟨q, j⟩ hq
          obtain ⟨q1, q2, q3, _⟩ := (h3 q j).1 hq
          exact ⟨by omega, hit_lt hs hsort (Nat.le_refl _) (by omega) (by omega) hh q3⟩
        · intro p k
          rw [List.mem_cons, h3, Prod.mk.injEq]
          constructor
          · rintro (⟨rfl, rfl⟩ | ⟨q1, q2, q3, q4⟩)
            · exact ⟨Nat.le_refl _, by omega, hh, by omega⟩
            · exact ⟨by omega, by omega, q3, q4⟩
          · rintro ⟨q1, q2, q3, q4⟩
            by_cases hpb : p = b
            · subst hpb; exact Or.inl ⟨rfl, (hit_unique hs hget q3).1⟩
            · exact Or.inr ⟨by omega, by omega, q3, q4⟩

/-- Positions before the found start store coordinates below the window. -/
theorem hit_ge_start {s b p : Nat} {k : Int} (hs : 1 ≤ w.stride) (hb : IsLowerBound a s e w.lo b) (hp : s ≤ p)
    (h : Hit a w p k) : b ≤ p := by
  by_cases hlt : b ≤ p
  · exact hlt
  · obtain ⟨x, hx, hk, rfl⟩ := h
    have := hb.2.2.1 p _ hp (by omega) hx
    have : 0 ≤ k * w.stride := Int.mul_nonneg hk (by omega)
    omega

theorem ge_lo_of_start {s b : Nat} (hsort : StrictOn a s e) (hb : IsLowerBound a s e w.lo b) :
    ∀ p x, b ≤ p → p < e → a[p]? = some x → w.lo ≤ x := by
  intro p x hp hpe hx
  obtain ⟨v, hv, hle⟩ := hb.2.2.2 (by omega)
  by_cases hpb : p = b
  · subst hpb; rw [hv] at hx; cases hx; exact hle
  · have := hsort b p v x hb.1 (by omega) hpe hv hx
    omega

/-- The serial loop visits the coordinates whose number is below `(hi-lo)/stride`. -/
theorem serialLoop_spec (s : Nat) (hs : 1 ≤ w.stride) (hse : s ≤ e) (hl : s < a.length)
    (hlen : e ≤ a.length) (hsz : e ≤ 1073741824) (hsort : StrictOn a s e) :
    ∃ out, serialLoop a s e w = some out ∧ Ascending out ∧
      ∀ p k, (p, k) ∈ out ↔ s ≤ p ∧ p < e ∧ Hit a w p k ∧ k < w.size := by
  obtain ⟨b, hb, hlb⟩ := search_spec a s e w.lo hse hl hlen hsz hsort
  obtain ⟨out, h1, h2, h3⟩ := serialBody_spec (a := a) (w := w) (e := e) hs hlen (e - b) b
    (by have := hlb.2.1; omega)
    (fun i j x y hi hij hj => hsort i j x y (by have := hlb.1; omega) hij hj) (ge_lo_of_start hsort hlb)
  refine ⟨out, ?_, h2, ?_⟩
  · unfold serialLoop
    rw [if_neg (by omega), hb]
    exact h1
  · intro p k
    rw [h3]
    have := hlb.1
    have := hlb.2.1
    constructor
    · rintro ⟨q1, q2, q3⟩; exact ⟨by omega, by omega, q3⟩
    · rintro ⟨q1, q2, q3, q4⟩
      exact ⟨hit_ge_start hs hlb q1 q3, by omega, q3, q4⟩

/-- The loop over CPU threads visits the whole window. -/
theorem threadLoop_spec (s : Nat) (hs : 1 ≤ w.stride) (hse : s ≤ e) (hl : s < a.length)
    (hlen : e ≤ a.length) (hsz : e ≤ 1073741824) (hsort : StrictOn a s e) :
    ∃ out, threadLoop a s e w = some out ∧ VisitsWindow a s e w.lo w.hi w.stride out := by
  obtain ⟨b, hb, hlb⟩ := search_spec a s e w.lo hse hl hlen hsz hsort
  obtain ⟨b', hb', hlb'⟩ := search_spec a s e w.hi hse hl hlen hsz hsort
  have h1 := hlb.1; have h2 := hlb.2.1; have h3 := hlb'.1; have h4 := hlb'.2.1
  have hstrict : StrictOn a b e := fun i j x y hi hij hj => hsort i j x y (by omega) hij hj
  have hout : ∃ out, threadBody a w (List.range' b (b' - b)) = some out ∧ Ascending out ∧
      ∀ p k, (p, k) ∈ out ↔ b ≤ p ∧ p < b' ∧ Hit a w p k := by
    by_cases hbb : b ≤ b'
    · obtain ⟨out, q1, q2, q3⟩ := threadBody_spec (a := a) (w := w) (e := e) hs hlen (b' - b) b (by omega) hstrict
        (ge_lo_of_start hsort hlb)
      refine ⟨out, q1, q2, ?_⟩
      intro p k
      rw [q3]
      have : b + (b' - b) = b' := by omega
      rw [this]
    · have : b' - b = 0 := by omega
      rw [this]
      refine ⟨[], rfl, List.Pairwise.nil, ?_⟩
      intro p k
      simp; omega
  obtain ⟨out, o1, o2, o3⟩ := hout
  refine ⟨out, ?_, o2, ?_⟩
  · unfold threadLoop
    rw [if_neg (by omega), hb, hb']
    exact o1
  · intro p k
    rw [o3]
    unfold Selected
    constructor
    · rintro ⟨q1, q2, x, hx, hk, hxe⟩
      exact ⟨by omega, by omega, x, hx, hk, hxe, hlb'.2.2.1 p x (by omega) q2 hx⟩
    · rintro ⟨q1, q2, x, hx, hk, hxe, hhi⟩
      refine ⟨hit_ge_start hs hlb q1 ⟨x, hx, hk, hxe⟩, ?_, x, hx, hk, hxe⟩
      by_cases hlt : p < b'
      · exact hlt
      · have := ge_lo_of_start (w := ⟨w.hi, 0, 0⟩) hsort hlb' p x (by omega) q2 hx
        simp only at this
        omega

end
end Verif.Window
