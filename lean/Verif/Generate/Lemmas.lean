import Verif.Generate.Model
/-! Lemmas for `Verif.Generate.Theorems`. -/
namespace Verif.Generate
open Verif.Options (Fill)

theorem inside1 {n : Nat} {c : List Int} : Inside [n] c ↔ ∃ i : Nat, i < n ∧ c = [(i : Int)] := by
  constructor
  · intro h
    cases h with
    | @cons _ _ i c hi h => cases h; exact ⟨i, hi, rfl⟩
  · rintro ⟨i, hi, rfl⟩; exact .cons hi .nil

theorem inside2 {m n : Nat} {c : List Int} : Inside [m, n] c ↔ ∃ i j : Nat, i < m ∧ j < n ∧ c = [(i : Int), (j : Int)] := by
  constructor
  · intro h
    cases h with
    | @cons _ _ i c hi h =>
      obtain ⟨j, hj, rfl⟩ := inside1.mp h
      exact ⟨i, j, hi, hj, rfl⟩
  · rintro ⟨i, j, hi, hj, rfl⟩; exact .cons hi (inside1.mpr ⟨j, hj, rfl⟩)

theorem inside3 {m n o : Nat} {c : List Int} : Inside [m, n, o] c ↔ ∃ i j k : Nat, i < m ∧ j < n ∧ k < o ∧ c = [(i : Int), (j : Int), (k : Int)] := by
  constructor
  · intro h
    cases h with
    | @cons _ _ i c hi h =>
      obtain ⟨j, k, hj, hk, rfl⟩ := inside2.mp h
      exact ⟨i, j, k, hi, hj, hk, rfl⟩
  · rintro ⟨i, j, k, hi, hj, hk, rfl⟩; exact .cons hi (inside2.mpr ⟨j, k, hj, hk, rfl⟩)

/-! ### Loops -/

theorem loop_ok {f : Nat → Res (List (List Int))} {g : Nat → List (List Int)} : ∀ {k : Nat}, (∀ i, i < k → f i = .ok (g i)) → loop k f = .ok ((List.range k).flatMap g)
  | 0, _ => rfl
  | k + 1, h => by
    unfold loop
    rw [loop_ok (fun i hi => h i (by omega)), List.range_succ, List.flatMap_append]
    show (f k).bind _ = _
    rw [h k (by omega)]
    simp [Res.bind]

theorem loop_undefined {f : Nat → Res (List (List Int))} : ∀ {k i : Nat}, i < k → f i = .undefined → (∀ j, j < i → ∃ l, f j = .ok l) → loop k f = .undefined
  | 0, _, h, _, _ => nomatch h
  | k + 1, i, h, hi, hb => by
    unfold loop
    by_cases e : i = k
    · subst e
      have : ∃ l, loop i f = .ok l := by
        have hb' : ∀ j, j < i → f j = .ok ((fun j => match f j with | .ok l => l | _ => []) j) := by
          intro j hj
          obtain ⟨l, hl⟩ := hb j hj
          simp only [hl]
        exact ⟨_, loop_ok hb'⟩
      obtain ⟨l, hl⟩ := this
      rw [hl]
      show (f i).bind _ = _
      rw [hi]; rfl
    · rw [loop_undefined (by omega) hi hb]; rfl

theorem mem_loop {g : Nat → List (List Int)} {k : Nat} {c : List Int} : c ∈ (List.range k).flatMap g ↔ ∃ i, i < k ∧ c ∈ g i := by
  simp [List.mem_flatMap]

theorem nodup_loop {g : Nat → List (List Int)} : ∀ {k : Nat}, (∀ i, i < k → (g i).Nodup) → (∀ i j c, i < k → j < k → c ∈ g i → c ∈ g j → i = j) → ((List.range k).flatMap g).Nodup
  | 0, _, _ => by simp
  | k + 1, h, hd => by
    rw [List.range_succ, List.flatMap_append, List.nodup_append]
    refine ⟨nodup_loop (fun i hi => h i (by omega)) (fun i j c hi hj => hd i j c (by omega) (by omega)), by simpa using h k (by omega), ?_⟩
    intro x hx y hy e
    subst e
    obtain ⟨i, hi, hxi⟩ := mem_loop.mp hx
    have := hd i k x (by omega) (by omega) hxi (by simpa using hy)
    omega

theorem length_loop {g : Nat → List (List Int)} {n : Nat} : ∀ {k : Nat}, (∀ i, i < k → (g i).length = n) → ((List.range k).flatMap g).length = k * n
  | 0, _ => by simp
  | k + 1, h => by
    rw [List.range_succ, List.flatMap_append, List.length_append, length_loop (fun i hi => h i (by omega))]
    have := h k (by omega)
    simp only [List.flatMap_cons, List.flatMap_nil, List.append_nil, this, Nat.succ_mul]

/-! ### Shuffled vectors -/

/-- An element of a vector. -/
def nth (l : List Nat) (i : Nat) : Nat := l[i]?.getD 0

theorem read_ok {l : List Nat} {i : Nat} (h : i < l.length) : read l i = .ok (nth l i) := by
  unfold read nth
  rw [List.getElem?_eq_getElem h]; rfl

theorem read_undefined {l : List Nat} {i : Nat} (h : l.length ≤ i) : read l i = .undefined := by
  unfold read
  rw [List.getElem?_eq_none h]

theorem nth_mem {l : List Nat} {i : Nat} (h : i < l.length) : nth l i ∈ l := by
  unfold nth
  rw [List.getElem?_eq_getElem h]; exact List.getElem_mem h

theorem perm_length {l : List Nat} {n : Nat} (h : l.Perm (List.range n)) : l.length = n := by rw [h.length_eq, List.length_range]

theorem perm_lt {l : List Nat} {n i : Nat} (h : l.Perm (List.range n)) (hi : i < n) : nth l i < n :=
  List.mem_range.mp (h.mem_iff.mp (nth_mem (by rw [perm_length h]; exact hi)))

theorem nodup_inj {l : List Nat} (h : l.Nodup) {i j : Nat} (hi : i < l.length) (hj : j < l.length) (e : nth l i = nth l j) : i = j := by
  unfold nth at e
  rw [List.getElem?_eq_getElem hi, List.getElem?_eq_getElem hj] at e
  replace e : l[i] = l[j] := e
  rcases Nat.lt_trichotomy i j with hlt | heq | hlt
  · exact absurd e (List.pairwise_iff_getElem.mp h i j hi hj hlt)
  · exact heq
  · exact absurd e.symm (List.pairwise_iff_getElem.mp h j i hj hi hlt)

theorem perm_inj {l : List Nat} {n i j : Nat} (h : l.Perm (List.range n)) (hi : i < n) (hj : j < n) (e : nth l i = nth l j) : i = j :=
  nodup_inj (h.nodup_iff.mpr List.nodup_range) (by rw [perm_length h]; exact hi) (by rw [perm_length h]; exact hj) e

theorem perm_surj {l : List Nat} {n x : Nat} (h : l.Perm (List.range n)) (hx : x < n) : ∃ i, i < n ∧ nth l i = x := by
  obtain ⟨i, hi, e⟩ := List.mem_iff_getElem.mp (h.mem_iff.mpr (List.mem_range.mpr hx))
  refine ⟨i, by rw [← perm_length h]; exact hi, ?_⟩
  unfold nth
  rw [List.getElem?_eq_getElem hi]; exact e

/-! ### Divisions -/

theorem pair_inj {n p q : Nat} (h1 : p % n = q % n) (h2 : p / n = q / n) : p = q := by
  rw [← Nat.div_add_mod p n, ← Nat.div_add_mod q n, h1, h2]

theorem div_mod_add {n i j : Nat} (hi : i < n) : (i + n * j) % n = i ∧ (i + n * j) / n = j := by
  refine ⟨by rw [Nat.add_mul_mod_self_left, Nat.mod_eq_of_lt hi], ?_⟩
  rw [Nat.add_mul_div_left _ _ (by omega), Nat.div_eq_of_lt hi, Nat.zero_add]

theorem add_lt {n m i j : Nat} (hi : i < n) (hj : j < m) : i + n * j < m * n := by
  have : n * (j + 1) ≤ n * m := Nat.mul_le_mul_left n (by omega)
  rw [Nat.mul_succ] at this
  rw [Nat.mul_comm m n]
  omega

end Verif.Generate
