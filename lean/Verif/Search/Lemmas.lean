import Verif.Search.Model
/-! Helper lemmas for the search helpers. -/
namespace Verif.Search

theorem chk_of_lt {n : Nat} (h : n < 2147483648) : chk n = some n := by simp [chk, h]

/-- Invariant of the first gallop loop: everything up to `curr` is below the target, the final
probe is out of range or not below the target, and every probe stays within `2 * e`. -/
theorem gallopUp_spec (a : List Int) (s e : Nat) (t : Int) (hlen : e ≤ a.length)
    (hsz : e ≤ 1073741823) :
    ∀ (n curr step : Nat) (hs : 0 < step), e - curr ≤ n → s ≤ curr → step ≤ curr - s + 1 →
      curr < e → (∀ v, a[curr]? = some v → v < t) →
      ∃ c st, gallopUp a e t curr step hs = some (c, st) ∧ curr ≤ c ∧ c < e ∧ 0 < st ∧
        (∃ k, st = step * 2 ^ k) ∧ st ≤ c - s + 1 ∧
        (∀ v, a[c]? = some v → v < t) ∧
        (e ≤ c + st ∨ ∃ v, a[c + st]? = some v ∧ t ≤ v) := by
  intro n
  induction n with
  | zero => intro curr step hs h1 h2 h3 h4; omega
  | succ n ih =>
    intro curr step hs h1 h2 h3 h4 h5
    unfold gallopUp
    rw [chk_of_lt (by omega : curr + step < 2147483648)]
    simp only
    by_cases hj : curr + step < e
    · have hl : curr + step < a.length := by omega
      rw [if_pos hj, List.getElem?_eq_getElem hl]
      simp only
      by_cases hv : a[curr + step] < t
      · rw [if_pos hv, chk_of_lt (by omega : step * 2 < 2147483648)]
        simp only
        rw [if_pos hj]
        obtain ⟨c, st, e1, e2, e3, e4, ⟨k, e5⟩, e6, e7, e8⟩ :=
          ih (curr + step) (step * 2) (by omega) (by omega) (by omega) (by omega) hj
            (by intro v hv'; rw [List.getElem?_eq_getElem hl] at hv'; simp at hv'; omega)
        exact ⟨c, st, e1, by omega, e3, e4, ⟨k + 1, by rw [e5, Nat.pow_succ, Nat.mul_assoc, Nat.mul_comm 2]⟩, e6, e7, e8⟩
      · rw [if_neg hv]
        exact ⟨curr, step, rfl, by omega, h4, hs, ⟨0, by simp⟩, h3, h5, Or.inr
          ⟨_, List.getElem?_eq_getElem hl, by omega⟩⟩
    · rw [if_neg hj]
      exact ⟨curr, step, rfl, by omega, h4, hs, ⟨0, by simp⟩, h3, h5, Or.inl (by omega)⟩

/-- Invariant of the second gallop loop, started with `step = 2^k / 2`: the answer minus one lies in
`[curr, curr + 2*step)`. -/
theorem gallopDown_spec (a : List Int) (e : Nat) (t : Int) (hlen : e ≤ a.length)
    (hsz : e ≤ 1073741823) :
    ∀ (k curr step : Nat), step = 2 ^ k / 2 → curr < e → step ≤ e → (∀ v, a[curr]? = some v → v < t) →
      (e ≤ curr + 2 ^ k ∨ ∃ v, a[curr + 2 ^ k]? = some v ∧ t ≤ v) →
      ∃ c, gallopDown a e t curr step = some c ∧ curr ≤ c ∧ c < e ∧
        (∀ v, a[c]? = some v → v < t) ∧
        (e ≤ c + 1 ∨ ∃ v, a[c + 1]? = some v ∧ t ≤ v) := by
  intro k
  induction k with
  | zero =>
    intro curr step hst h1 h2 h3 h4
    simp at hst
    subst hst
    unfold gallopDown
    exact ⟨curr, by simp, by omega, h1, h3, by simpa using h4⟩
  | succ k ih =>
    intro curr step hst h1 h2 h3 h4
    have hst' : step = 2 ^ k := by rw [hst, Nat.pow_succ]; omega
    have hpos : 0 < 2 ^ k := Nat.pow_pos (by omega)
    have hd : step / 2 = 2 ^ k / 2 := by rw [hst']
    have hp : 2 ^ (k + 1) = 2 ^ k + 2 ^ k := by rw [Nat.pow_succ]; omega
    unfold gallopDown
    rw [dif_pos (by omega : 0 < step), chk_of_lt (by omega : curr + step < 2147483648)]
    simp only
    by_cases hj : curr + step < e
    · have hl : curr + step < a.length := by omega
      rw [if_pos hj, List.getElem?_eq_getElem hl]
      simp only
      by_cases hv : a[curr + step] < t
      · rw [if_pos hv]
        obtain ⟨c, e1, e2, e3, e4, e5⟩ := ih (curr + step) (step / 2) hd hj (by omega)
          (by intro v hv'; rw [List.getElem?_eq_getElem hl] at hv'; simp at hv'; omega)
          (by
            have : curr + step + 2 ^ k = curr + 2 ^ (k + 1) := by omega
            rw [this]; exact h4)
        exact ⟨c, e1, by omega, e3, e4, e5⟩
      · rw [if_neg hv]
        exact ih curr (step / 2) hd h1 (by omega) h3
          (Or.inr ⟨_, by rw [← hst']; exact List.getElem?_eq_getElem hl, by omega⟩)
    · rw [if_neg hj]
      exact ih curr (step / 2) hd h1 (by omega) h3 (Or.inl (by omega))

/-- Invariant of the shared binary-search loop. -/
theorem bsLoop_spec (a : List Int) (t : Int) :
    ∀ (n lo up : Nat), up - lo ≤ n → lo < up → up ≤ a.length → up ≤ 1073741824 →
      (∀ v, a[lo]? = some v → v ≤ t) →
      ∃ r, bsLoop a t lo up = some r ∧
        match r with
        | .found m => lo < m ∧ m < up ∧ a[m]? = some t
        | .bounds l u => u = l + 1 ∧ lo ≤ l ∧ u ≤ up ∧ (l = lo ∨ ∃ v, a[l]? = some v ∧ v < t) ∧
            (u = up ∨ ∃ v, a[u]? = some v ∧ t < v) := by
  intro n
  induction n with
  | zero => intro lo up h1 h2; omega
  | succ n ih =>
    intro lo up h1 h2 h3 h4 h5
    unfold bsLoop
    by_cases hgt : up - lo > 1
    · rw [dif_pos hgt, chk_of_lt (by omega : up + lo < 2147483648)]
      simp only
      have hl : (up + lo) / 2 < a.length := by omega
      rw [List.getElem?_eq_getElem hl]
      simp only
      by_cases hv : a[(up + lo) / 2] < t
      · rw [if_pos hv]
        obtain ⟨r, e1, e2⟩ := ih ((up + lo) / 2) up (by omega) (by omega) h3 h4
          (by intro v hv'; rw [List.getElem?_eq_getElem hl] at hv'; simp at hv'; omega)
        refine ⟨r, e1, ?_⟩
        cases r with
        | found m => exact ⟨by have := e2.1; omega, e2.2.1, e2.2.2⟩
        | bounds l u =>
          obtain ⟨f1, f2, f3, f4, f5⟩ := e2
          refine ⟨f1, by omega, f3, ?_, f5⟩
          cases f4 with
          | inl h => exact Or.inr ⟨_, by rw [h]; exact List.getElem?_eq_getElem hl, hv⟩
          | inr h => exact Or.inr h
      · rw [if_neg hv]
        by_cases hv2 : a[(up + lo) / 2] > t
        · rw [if_pos hv2]
          obtain ⟨r, e1, e2⟩ := ih lo ((up + lo) / 2) (by omega) (by omega) (by omega) (by omega) h5
          refine ⟨r, e1, ?_⟩
          cases r with
          | found m => exact ⟨e2.1, by have := e2.2.1; omega, e2.2.2⟩
          | bounds l u =>
            obtain ⟨f1, f2, f3, f4, f5⟩ := e2
            refine ⟨f1, f2, by omega, f4, ?_⟩
            cases f5 with
            | inl h => exact Or.inr ⟨_, by rw [h]; exact List.getElem?_eq_getElem hl, hv2⟩
            | inr h => exact Or.inr h
        · rw [if_neg hv2]
          refine ⟨.found ((up + lo) / 2), rfl, by omega, by omega, ?_⟩
          rw [List.getElem?_eq_getElem hl]
          congr 1; omega
    · rw [dif_neg hgt]
      exact ⟨.bounds lo up, rfl, by omega, by omega, by omega, Or.inl rfl, Or.inl rfl⟩

end Verif.Search
