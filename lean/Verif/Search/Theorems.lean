import Verif.Search.Lemmas
/-!
# Search helpers: properties C07, C08, C09

Specification vocabulary (independent of the model): `a[i]?` is the i-th element of a list, an array
segment `[s,e)` is sorted when later elements are not smaller.
-/
namespace Verif.Search

/-- The segment `[s,e)` of `a` is non-decreasing. -/
def SortedOn (a : List Int) (s e : Nat) : Prop :=
  ∀ i j x y, s ≤ i → i < j → j < e → a[i]? = some x → a[j]? = some y → x ≤ y

/-- The segment `[s,e)` of `a` is strictly increasing. -/
def StrictOn (a : List Int) (s e : Nat) : Prop :=
  ∀ i j x y, s ≤ i → i < j → j < e → a[i]? = some x → a[j]? = some y → x < y

/-- `r` is the least index in `[s,e]` whose element is `≥ t`, or `e` if there is none in `[s,e)`. -/
def IsLowerBound (a : List Int) (s e : Nat) (t : Int) (r : Nat) : Prop :=
  s ≤ r ∧ r ≤ e ∧ (∀ i v, s ≤ i → i < r → a[i]? = some v → v < t) ∧
  (r < e → ∃ v, a[r]? = some v ∧ t ≤ v)

theorem SortedOn.of_strict {a : List Int} {s e : Nat} (h : StrictOn a s e) : SortedOn a s e :=
  fun i j x y h1 h2 h3 h4 h5 => Int.le_of_lt (h i j x y h1 h2 h3 h4 h5)

/-- A segment given as a list is sorted when the list is pairwise ordered (used to discharge concrete cases). -/
theorem SortedOn.of_pairwise {a : List Int} {s e : Nat}
    (h : ((a.take e).drop s).Pairwise (· ≤ ·)) : SortedOn a s e := by
  intro i j x y h1 h2 h3 h4 h5
  obtain ⟨hi, rfl⟩ := List.getElem?_eq_some_iff.mp h4
  obtain ⟨hj, rfl⟩ := List.getElem?_eq_some_iff.mp h5
  have := List.pairwise_iff_getElem.mp h (i - s) (j - s) (by simp; omega) (by simp; omega) (by omega)
  simp only [List.getElem_drop, List.getElem_take] at this
  have e1 : s + (i - s) = i := by omega
  have e2 : s + (j - s) = j := by omega
  simpa only [e1, e2] using this

theorem StrictOn.of_pairwise {a : List Int} {s e : Nat}
    (h : ((a.take e).drop s).Pairwise (· < ·)) : StrictOn a s e := by
  intro i j x y h1 h2 h3 h4 h5
  obtain ⟨hi, rfl⟩ := List.getElem?_eq_some_iff.mp h4
  obtain ⟨hj, rfl⟩ := List.getElem?_eq_some_iff.mp h5
  have := List.pairwise_iff_getElem.mp h (i - s) (j - s) (by simp; omega) (by simp; omega) (by omega)
  simp only [List.getElem_drop, List.getElem_take] at this
  have e1 : s + (i - s) = i := by omega
  have e2 : s + (j - s) = j := by omega
  simpa only [e1, e2] using this

/-- C07. On a non-empty sorted segment inside the array (and of an index range below `2^30`),
`taco_gallop` is defined (no out-of-range read, no overflow) and returns the lower bound. -/
theorem gallop_lowerBound (a : List Int) (s e : Nat) (t : Int)
    (hse : s < e) (hlen : e ≤ a.length) (hsz : e < 1073741824) (hsort : SortedOn a s e) :
    ∃ r, gallop a s e t = some r ∧ IsLowerBound a s e t r := by
  have hl : s < a.length := by omega
  unfold gallop
  rw [List.getElem?_eq_getElem hl]
  simp only
  by_cases hv : a[s] ≥ t
  · rw [if_pos (Or.inl hv)]
    exact ⟨s, rfl, Nat.le_refl _, by omega, by intro i v h1 h2; omega,
      fun _ => ⟨_, List.getElem?_eq_getElem hl, hv⟩⟩
  · rw [if_neg (by omega)]
    obtain ⟨c, st, e1, e2, e3, e4, ⟨k, e5⟩, e6, e7, e8⟩ :=
      gallopUp_spec a s e t hlen (by omega) (e - s) s 1 (by omega) (by omega) (by omega) (by omega) hse
        (by intro v h; rw [List.getElem?_eq_getElem hl] at h; simp at h; omega)
    rw [e1]
    simp only
    simp only [Nat.one_mul] at e5
    obtain ⟨c', f1, f2, f3, f4, f5⟩ := gallopDown_spec a e t hlen (by omega) k c (st / 2)
      (by rw [e5]) e3 (by omega) e7 (by rw [← e5]; exact e8)
    rw [f1]
    refine ⟨c' + 1, chk_of_lt (by omega), by omega, by omega, ?_, ?_⟩
    · intro i v h1 h2 h3
      have hc : c' < a.length := by omega
      have hlt := f4 _ (List.getElem?_eq_getElem hc)
      by_cases hic : i = c'
      · subst hic; rw [List.getElem?_eq_getElem hc] at h3; simp at h3; omega
      · have := hsort i c' v _ h1 (by omega) f3 h3 (List.getElem?_eq_getElem hc)
        omega
    · intro h
      cases f5 with
      | inl h' => omega
      | inr h' => exact h'

/-- non-vacuity of `gallop_lowerBound`, with an interior answer -/
example : (2 < 9 ∧ 9 ≤ [9,9,1,3,5,5,7,8,11,0].length ∧ SortedOn [9,9,1,3,5,5,7,8,11,0] 2 9) ∧
    gallop [9,9,1,3,5,5,7,8,11,0] 2 9 6 = some 6 := by
  refine ⟨⟨by decide, by decide, ?_⟩, by decide +kernel⟩
  exact SortedOn.of_pairwise (by decide)

/-- C07, the part of the claim that is false of the code: on an empty segment that starts at the end
of the array (`start = end = length`, which `taco_gallop`'s own guard intends to accept), the helper
reads past the end of the array. -/
theorem gallop_empty_segment_fails (a : List Int) (t : Int) :
    gallop a a.length a.length t = none := by
  simp [gallop]

/-- C07: on an empty segment that starts strictly inside the array the helper returns `start`. -/
theorem gallop_empty_segment (a : List Int) (s : Nat) (t : Int) (h : s < a.length) :
    gallop a s s t = some s := by
  simp [gallop, List.getElem?_eq_getElem h]

/-- C08. On a non-empty strictly increasing segment (what a unique ordered level stores),
`taco_binarySearchAfter` is defined and returns the lower bound. -/
theorem binarySearchAfter_lowerBound (a : List Int) (s e : Nat) (t : Int)
    (hse : s < e) (hlen : e ≤ a.length) (hsz : e ≤ 1073741824) (hsort : StrictOn a s e) :
    ∃ r, binarySearchAfter a s e t = some r ∧ IsLowerBound a s e t r := by
  have hl : s < a.length := by omega
  unfold binarySearchAfter
  rw [List.getElem?_eq_getElem hl]
  simp only
  by_cases hv : a[s] ≥ t
  · rw [if_pos hv]
    exact ⟨s, rfl, Nat.le_refl _, by omega, by intro i v h1 h2; omega,
      fun _ => ⟨_, List.getElem?_eq_getElem hl, hv⟩⟩
  · rw [if_neg hv]
    obtain ⟨r, e1, e2⟩ := bsLoop_spec a t (e - s) s e (Nat.le_refl _) hse hlen hsz
      (by intro v h; rw [List.getElem?_eq_getElem hl] at h; simp at h; omega)
    rw [e1]
    cases r with
    | found m =>
      obtain ⟨f1, f2, f3⟩ := e2
      refine ⟨m, rfl, by omega, by omega, ?_, fun _ => ⟨t, f3, by omega⟩⟩
      intro i v h1 h2 h3
      exact hsort i m v t h1 h2 f2 h3 f3
    | bounds l u =>
      obtain ⟨f1, f2, f3, f4, f5⟩ := e2
      refine ⟨u, rfl, by omega, f3, ?_, ?_⟩
      · intro i v h1 h2 h3
        have hll : l < a.length := by omega
        have hlt : a[l] < t := by
          cases f4 with
          | inl h => subst h; omega
          | inr h => obtain ⟨w, hw, hw'⟩ := h; rw [List.getElem?_eq_getElem hll] at hw; simp at hw; omega
        by_cases hil : i = l
        · subst hil; rw [List.getElem?_eq_getElem hll] at h3; simp at h3; omega
        · have := hsort i l v _ h1 (by omega) (by omega) h3 (List.getElem?_eq_getElem hll)
          omega
      · intro h
        cases f5 with
        | inl h' => omega
        | inr h' => obtain ⟨w, hw, hw'⟩ := h'; exact ⟨w, hw, by omega⟩

/-- C08, sorted segments with duplicates: the result still is an index of the target, or separates
the smaller from the larger elements; it need not be the first copy of the target. -/
theorem binarySearchAfter_sorted (a : List Int) (s e : Nat) (t : Int)
    (hse : s < e) (hlen : e ≤ a.length) (hsz : e ≤ 1073741824) (hsort : SortedOn a s e) :
    ∃ r, binarySearchAfter a s e t = some r ∧ s ≤ r ∧ r ≤ e ∧
      (a[r]? = some t ∨ IsLowerBound a s e t r) := by
  have hl : s < a.length := by omega
  unfold binarySearchAfter
  rw [List.getElem?_eq_getElem hl]
  simp only
  by_cases hv : a[s] ≥ t
  · rw [if_pos hv]
    exact ⟨s, rfl, Nat.le_refl _, by omega, Or.inr ⟨Nat.le_refl _, by omega, by intro i v h1 h2; omega,
      fun _ => ⟨_, List.getElem?_eq_getElem hl, hv⟩⟩⟩
  · rw [if_neg hv]
    obtain ⟨r, e1, e2⟩ := bsLoop_spec a t (e - s) s e (Nat.le_refl _) hse hlen hsz
      (by intro v h; rw [List.getElem?_eq_getElem hl] at h; simp at h; omega)
    rw [e1]
    cases r with
    | found m => exact ⟨m, rfl, by have := e2.1; omega, by have := e2.2.1; omega, Or.inl e2.2.2⟩
    | bounds l u =>
      obtain ⟨f1, f2, f3, f4, f5⟩ := e2
      refine ⟨u, rfl, by omega, f3, Or.inr ⟨by omega, f3, ?_, ?_⟩⟩
      · intro i v h1 h2 h3
        have hll : l < a.length := by omega
        have hlt : a[l] < t := by
          cases f4 with
          | inl h => subst h; omega
          | inr h => obtain ⟨w, hw, hw'⟩ := h; rw [List.getElem?_eq_getElem hll] at hw; simp at hw; omega
        by_cases hil : i = l
        · subst hil; rw [List.getElem?_eq_getElem hll] at h3; simp at h3; omega
        · have := hsort i l v _ h1 (by omega) (by omega) h3 (List.getElem?_eq_getElem hll)
          omega
      · intro h
        cases f5 with
        | inl h' => omega
        | inr h' => obtain ⟨w, hw, hw'⟩ := h'; exact ⟨w, hw, by omega⟩

/-- With duplicates, `taco_binarySearchAfter` can miss the first copy of the target. -/
theorem binarySearchAfter_duplicates_fails :
    ∃ a t, SortedOn a 0 4 ∧ binarySearchAfter a 0 4 t = some 2 ∧ ¬ IsLowerBound a 0 4 t 2 := by
  refine ⟨[1, 5, 5, 5], 5, ?_, by decide +kernel, ?_⟩
  · exact SortedOn.of_pairwise (by decide)
  · intro h
    exact absurd (h.2.2.1 1 5 (by omega) (by omega) rfl) (by decide)

/-- C08: on an empty segment at the end of the array the helper reads past the end. -/
theorem binarySearchAfter_empty_segment_fails (a : List Int) (t : Int) :
    binarySearchAfter a a.length a.length t = none := by
  simp [binarySearchAfter]

example : 1 < 5 ∧ 5 ≤ [0,2,4,6,8].length ∧ StrictOn [0,2,4,6,8] 1 5 ∧
    binarySearchAfter [0,2,4,6,8] 1 5 5 = some 3 := by
  refine ⟨by decide, by decide, ?_, by decide +kernel⟩
  exact StrictOn.of_pairwise (by decide)

/-- C09. `taco_binarySearchBefore` on a pos array: the array is non-decreasing on `[s,e]`
(both ends included, `e` is read), and starts at or below the target.  The result `r` has
`a[r] ≤ t`, and everything strictly after it is above the target unless `a[r] = t`. -/
theorem binarySearchBefore_owner (a : List Int) (s e : Nat) (t : Int)
    (hse : s ≤ e) (hlen : e < a.length) (hsz : e ≤ 1073741823) (hsort : SortedOn a s (e + 1))
    (hstart : ∀ v, a[s]? = some v → v ≤ t) :
    ∃ r, binarySearchBefore a s e t = some r ∧ s ≤ r ∧ r ≤ e ∧
      (∃ v, a[r]? = some v ∧ v ≤ t) ∧
      (a[r]? = some t ∨ ∀ i v, r < i → i ≤ e → a[i]? = some v → t < v) := by
  unfold binarySearchBefore
  rw [List.getElem?_eq_getElem hlen]
  simp only
  by_cases hv : a[e] ≤ t
  · rw [if_pos hv]
    exact ⟨e, rfl, hse, Nat.le_refl _, ⟨_, List.getElem?_eq_getElem hlen, hv⟩,
      Or.inr (by intro i v h1 h2; omega)⟩
  · rw [if_neg hv]
    have hne : s ≠ e := by
      intro h; subst h
      exact hv (hstart _ (List.getElem?_eq_getElem hlen))
    have hl : s < a.length := by omega
    obtain ⟨r, e1, e2⟩ := bsLoop_spec a t (e - s) s e (Nat.le_refl _) (by omega) (by omega) (by omega)
      hstart
    rw [e1]
    cases r with
    | found m =>
      exact ⟨m, rfl, by have := e2.1; omega, by have := e2.2.1; omega, ⟨t, e2.2.2, by omega⟩, Or.inl e2.2.2⟩
    | bounds l u =>
      obtain ⟨f1, f2, f3, f4, f5⟩ := e2
      refine ⟨l, rfl, f2, by omega, ?_, Or.inr ?_⟩
      · cases f4 with
        | inl h => subst h; exact ⟨_, List.getElem?_eq_getElem hl, hstart _ (List.getElem?_eq_getElem hl)⟩
        | inr h => obtain ⟨w, hw, hw'⟩ := h; exact ⟨w, hw, by omega⟩
      · intro i v h1 h2 h3
        have hu : ∃ w, a[u]? = some w ∧ t < w := by
          cases f5 with
          | inl h => exact ⟨_, by rw [h]; exact List.getElem?_eq_getElem hlen, by omega⟩
          | inr h => exact h
        obtain ⟨w, hw, hw'⟩ := hu
        by_cases hiu : i = u
        · subst hiu; rw [hw] at h3; simp at h3; omega
        · have := hsort u i w v (by omega) (by omega) (by omega) hw h3
          omega

/-- C09, strictly increasing arrays: the result is the greatest index with element `≤ t`. -/
theorem binarySearchBefore_greatest (a : List Int) (s e : Nat) (t : Int)
    (hse : s ≤ e) (hlen : e < a.length) (hsz : e ≤ 1073741823) (hsort : StrictOn a s (e + 1))
    (hstart : ∀ v, a[s]? = some v → v ≤ t) :
    ∃ r, binarySearchBefore a s e t = some r ∧ s ≤ r ∧ r ≤ e ∧
      (∃ v, a[r]? = some v ∧ v ≤ t) ∧ (∀ i v, r < i → i ≤ e → a[i]? = some v → t < v) := by
  obtain ⟨r, e1, e2, e3, e4, e5⟩ :=
    binarySearchBefore_owner a s e t hse hlen hsz (SortedOn.of_strict hsort) hstart
  refine ⟨r, e1, e2, e3, e4, ?_⟩
  cases e5 with
  | inr h => exact h
  | inl h => intro i v h1 h2 h3; exact hsort r i t v e2 h1 (by omega) h h3

example : 0 ≤ 4 ∧ 4 < [0,2,4,6,8].length ∧ StrictOn [0,2,4,6,8] 0 5 ∧
    binarySearchBefore [0,2,4,6,8] 0 4 5 = some 2 := by
  refine ⟨by decide, by decide, ?_, by decide +kernel⟩
  exact StrictOn.of_pairwise (by decide)

/-- With empty parents (repeated pos entries) the search may answer an empty parent that precedes
the owner of the position: `pos = [0,2,2,2,5]`, position 2 belongs to parent 3, the search answers
parent 2, which is empty.  (The generated loop then walks forward, see `FusedPos`.) -/
theorem binarySearchBefore_not_owner_fails :
    binarySearchBefore [0, 2, 2, 2, 5] 0 4 2 = some 2 ∧
      ¬ (∃ lo hi : Int, ([0, 2, 2, 2, 5] : List Int)[2]? = some lo ∧ ([0, 2, 2, 2, 5] : List Int)[3]? = some hi ∧ lo ≤ 2 ∧ 2 < hi) := by
  refine ⟨by decide +kernel, ?_⟩
  rintro ⟨lo, hi, h1, h2, h3, h4⟩
  simp at h1 h2
  omega

/-- Signed overflow of `(upperBound + lowerBound) / 2`: on every array, a search over a segment
`[s,e)` whose end points add up to `2^31` or more, and whose first element is below the target, is
undefined. So the size hypothesis of the theorems above cannot simply be dropped. -/
theorem binarySearchAfter_overflow_fails (a : List Int) (s e : Nat) (t v : Int)
    (h0 : a[s]? = some v) (hv : v < t) (hse : s + 1 < e) (hbig : 2147483648 ≤ s + e) :
    binarySearchAfter a s e t = none := by
  unfold binarySearchAfter bsLoop
  rw [h0]
  simp only
  rw [if_neg (by omega), dif_pos (by omega)]
  have : chk (e + s) = none := by unfold chk; rw [if_neg (by omega)]
  rw [this]

end Verif.Search
