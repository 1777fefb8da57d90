import Verif.Merge.Model
/-! List and point lemmas for the merge lattice proofs. -/
namespace Verif.Merge

/-! ### lists -/

theorem mem_dedupGo {x : It} {seen l : List It} : x ∈ dedupGo seen l ↔ x ∈ l ∧ x ∉ seen := by
  induction l generalizing seen with
  | nil => simp [dedupGo]
  | cons y ys ih =>
    unfold dedupGo
    split
    · rename_i h
      rw [ih]
      constructor
      · rintro ⟨a, b⟩; exact ⟨List.mem_cons_of_mem _ a, b⟩
      · rintro ⟨a, b⟩
        rcases List.mem_cons.1 a with rfl | a
        · exact absurd h b
        · exact ⟨a, b⟩
    · rename_i h
      rw [List.mem_cons, ih]
      constructor
      · rintro (rfl | ⟨a, b⟩)
        · exact ⟨List.mem_cons_self, h⟩
        · exact ⟨List.mem_cons_of_mem _ a, fun c => b (List.mem_cons_of_mem _ c)⟩
      · rintro ⟨a, b⟩
        by_cases hxy : x = y
        · exact Or.inl hxy
        · right
          rcases List.mem_cons.1 a with rfl | a
          · exact absurd rfl hxy
          · exact ⟨a, fun c => by rcases List.mem_cons.1 c with h' | h'; exact hxy h'; exact b h'⟩

theorem nodup_dedupGo {seen l : List It} : (dedupGo seen l).Nodup := by
  induction l generalizing seen with
  | nil => simp [dedupGo]
  | cons y ys ih =>
    unfold dedupGo
    split
    · exact ih
    · refine List.nodup_cons.2 ⟨?_, ih⟩
      rw [mem_dedupGo]; rintro ⟨_, h⟩; exact h List.mem_cons_self

theorem dedupGo_of_nodup {seen l : List It} (h : l.Nodup) (hd : ∀ x ∈ l, x ∉ seen) :
    dedupGo seen l = l := by
  induction l generalizing seen with
  | nil => rfl
  | cons y ys ih =>
    have h' := List.nodup_cons.1 h
    unfold dedupGo
    rw [if_neg (hd y List.mem_cons_self)]
    rw [ih h'.2]
    intro x hx hc
    rcases List.mem_cons.1 hc with rfl | hc
    · exact h'.1 hx
    · exact hd x (List.mem_cons_of_mem _ hx) hc

@[simp] theorem mem_dedup {x : It} {l : List It} : x ∈ dedup l ↔ x ∈ l := by
  unfold dedup; rw [mem_dedupGo]; simp

theorem nodup_dedup {l : List It} : (dedup l).Nodup := nodup_dedupGo

theorem dedup_of_nodup {l : List It} (h : l.Nodup) : dedup l = l :=
  dedupGo_of_nodup h (by simp)

theorem mem_dedupDims_aux {x : It} {b : Bool} {l : List It} :
    x ∈ dedupDims b l ↔ x ∈ l ∧ (x = .dim → b = false) := by
  induction l generalizing b with
  | nil => simp [dedupDims]
  | cons y ys ih =>
    cases y with
    | dim =>
      cases b with
      | true =>
        simp only [dedupDims, if_true, ih, List.mem_cons]
        constructor
        · rintro ⟨a, c⟩; exact ⟨Or.inr a, c⟩
        · rintro ⟨a | a, c⟩
          · have := c a; simp at this
          · exact ⟨a, c⟩
      | false =>
        have hd : dedupDims false (.dim :: ys) = .dim :: dedupDims true ys := rfl
        rw [hd, List.mem_cons, List.mem_cons, ih]
        constructor
        · rintro (h | ⟨a, _⟩)
          · exact ⟨Or.inl h, fun _ => rfl⟩
          · exact ⟨Or.inr a, fun _ => rfl⟩
        · rintro ⟨a | a, _⟩
          · exact Or.inl a
          · by_cases hx : x = .dim
            · exact Or.inl hx
            · exact Or.inr ⟨a, fun h => absurd h hx⟩
    | lev k =>
      simp only [dedupDims, List.mem_cons, ih]
      constructor
      · rintro (h | ⟨a, c⟩)
        · exact ⟨Or.inl h, fun h' => by rw [h] at h'; cases h'⟩
        · exact ⟨Or.inr a, c⟩
      · rintro ⟨a | a, c⟩
        · exact Or.inl a
        · exact Or.inr ⟨a, c⟩

@[simp] theorem mem_dedupDims {x : It} {l : List It} : x ∈ dedupDims false l ↔ x ∈ l := by
  rw [mem_dedupDims_aux]; simp

/-- A duplicate-free list included in another is not longer. -/
theorem length_le_of_subset {α : Type} [DecidableEq α] {a b : List α} (ha : a.Nodup) (h : a ⊆ b) :
    a.length ≤ b.length := by
  induction a generalizing b with
  | nil => simp
  | cons x xs ih =>
    have h' := List.nodup_cons.1 ha
    have hx : x ∈ b := h List.mem_cons_self
    have hsub : xs ⊆ b.erase x := by
      intro y hy
      have hne : y ≠ x := fun e => h'.1 (e ▸ hy)
      exact (List.mem_erase_of_ne hne).2 (h (List.mem_cons_of_mem _ hy))
    have := ih h'.2 hsub
    have hl := List.length_erase_of_mem hx
    have hpos : 0 < b.length := List.length_pos_of_mem hx
    simp only [List.length_cons]; omega

/-- With equal lengths the inclusion reverses. -/
theorem subset_of_length_le {α : Type} [DecidableEq α] {a b : List α} (ha : a.Nodup)
    (h : a ⊆ b) (hl : b.length ≤ a.length) : b ⊆ a := by
  induction a generalizing b with
  | nil =>
    simp at hl; rw [hl]; exact fun _ h => h
  | cons x xs ih =>
    have h' := List.nodup_cons.1 ha
    have hx : x ∈ b := h List.mem_cons_self
    have hsub : xs ⊆ b.erase x := by
      intro y hy
      have hne : y ≠ x := fun e => h'.1 (e ▸ hy)
      exact (List.mem_erase_of_ne hne).2 (h (List.mem_cons_of_mem _ hy))
    have hle := List.length_erase_of_mem hx
    have hpos : 0 < b.length := List.length_pos_of_mem hx
    simp only [List.length_cons] at hl
    have := ih h'.2 hsub (by omega)
    intro y hy
    by_cases hyx : y = x
    · exact hyx ▸ List.mem_cons_self
    · exact List.mem_cons_of_mem _ (this ((List.mem_erase_of_ne hyx).2 hy))

theorem setEq_iff {a b : List It} : setEq a b = true ↔ (∀ x, x ∈ a ↔ x ∈ b) := by
  unfold setEq
  simp only [Bool.and_eq_true, List.all_eq_true, decide_eq_true_eq]
  constructor
  · rintro ⟨h1, h2⟩ x; exact ⟨h1 x, h2 x⟩
  · intro h; exact ⟨fun x hx => (h x).1 hx, fun x hx => (h x).2 hx⟩

theorem containsSet_iff {ss : List (List It)} {s : List It} :
    containsSet ss s = true ↔ ∃ t ∈ ss, ∀ x, x ∈ t ↔ x ∈ s := by
  unfold containsSet
  simp only [List.any_eq_true, setEq_iff]

/-! ### points -/

namespace Point
/-- All iterators of a point. -/
def all (p : Point) : List It := p.iters ++ p.locs

theorem size_eq (p : Point) : p.size = p.all.length := by simp [size, all]

theorem mem_all {p : Point} {x : It} : x ∈ p.all ↔ x ∈ p.iters ∨ x ∈ p.locs := by simp [all]

theorem mem_region {p : Point} {x : It} : x ∈ p.region ↔ (x ∈ p.iters ∧ x.isDim = false) ∨ x ∈ p.locs := by
  simp [region]
end Point

theorem isDim_iff {x : It} : x.isDim = true ↔ x = .dim := by cases x <;> simp [It.isDim]

/-! ### removal of duplicates preserves the order and keeps a representative -/

theorem removeDupRegions_eq {prod omits : List (List It)} {b : Bool} (ho : omits = [])
    (seen : List (List It)) (ps : List Point) :
    ∃ r, removeDupRegions prod omits b seen ps = r ∧ r.Sublist ps := by
  refine ⟨_, rfl, ?_⟩
  subst ho
  induction ps generalizing seen with
  | nil => exact List.Sublist.refl _
  | cons p ps ih =>
    unfold removeDupRegions
    split
    · exact (ih _).cons _
    · have : containsSet [] p.region = false := rfl
      simp only [this, Bool.and_false, Bool.false_eq_true, if_false]
      exact (ih _).cons_cons _

theorem removeDupRegions_rep {prod : List (List It)} {b : Bool} :
    ∀ (ps : List Point) (seen : List (List It)) (p : Point), p ∈ ps →
      ps.Pairwise (fun a b => a.size ≥ b.size) →
      (∃ t ∈ seen, ∀ x, x ∈ t ↔ x ∈ p.region) ∨
      ∃ q ∈ removeDupRegions prod [] b seen ps, q.size ≥ p.size ∧ ∀ x, x ∈ q.region ↔ x ∈ p.region := by
  intro ps
  induction ps with
  | nil => intro _ p hp; cases hp
  | cons p0 ps ih =>
    intro seen p hp hs
    have hs' := List.pairwise_cons.1 hs
    have hnil : containsSet [] p0.region = false := rfl
    unfold removeDupRegions
    simp only [hnil, Bool.and_false, Bool.false_eq_true, if_false]
    split
    · rename_i hc
      rcases List.mem_cons.1 hp with rfl | hp
      · exact Or.inl (containsSet_iff.1 hc)
      · exact ih seen p hp hs'.2
    · rename_i hc
      rcases List.mem_cons.1 hp with rfl | hp
      · right; exact ⟨_, List.mem_cons_self, Nat.le_refl _, fun _ => Iff.rfl⟩
      · rcases ih (p0.region :: seen) p hp hs'.2 with ⟨t, ht, hx⟩ | ⟨q, hq, h1, h2⟩
        · rcases List.mem_cons.1 ht with rfl | ht
          · right; exact ⟨p0, List.mem_cons_self, hs'.1 p hp, hx⟩
          · left; exact ⟨t, ht, hx⟩
        · right; exact ⟨q, List.mem_cons_of_mem _ hq, h1, h2⟩

theorem removeIdentical_sublist (seen : List (List It)) (ps : List Point) :
    (removeIdentical seen ps).Sublist ps := by
  induction ps generalizing seen with
  | nil => exact List.Sublist.refl _
  | cons p ps ih =>
    unfold removeIdentical
    split
    · exact (ih _).cons _
    · exact (ih _).cons_cons _

theorem removeIdentical_rep :
    ∀ (ps : List Point) (seen : List (List It)) (p : Point), p ∈ ps →
      ps.Pairwise (fun a b => a.size ≥ b.size) →
      (∃ t ∈ seen, ∀ x, x ∈ t ↔ x ∈ p.iters) ∨
      ∃ q ∈ removeIdentical seen ps, q.size ≥ p.size ∧ ∀ x, x ∈ q.iters ↔ x ∈ p.iters := by
  intro ps
  induction ps with
  | nil => intro _ p hp; cases hp
  | cons p0 ps ih =>
    intro seen p hp hs
    have hs' := List.pairwise_cons.1 hs
    unfold removeIdentical
    split
    · rename_i hc
      rcases List.mem_cons.1 hp with rfl | hp
      · exact Or.inl (containsSet_iff.1 hc)
      · exact ih seen p hp hs'.2
    · rename_i hc
      rcases List.mem_cons.1 hp with rfl | hp
      · right; exact ⟨_, List.mem_cons_self, Nat.le_refl _, fun _ => Iff.rfl⟩
      · rcases ih (p0.iters :: seen) p hp hs'.2 with ⟨t, ht, hx⟩ | ⟨q, hq, h1, h2⟩
        · rcases List.mem_cons.1 ht with rfl | ht
          · right; exact ⟨p0, List.mem_cons_self, hs'.1 p hp, hx⟩
          · left; exact ⟨t, ht, hx⟩
        · right; exact ⟨q, List.mem_cons_of_mem _ hq, h1, h2⟩

/-- No two points left have the same iterators, and none has the iterators of a seen set. -/
theorem removeIdentical_distinct (ps : List Point) : ∀ (seen : List (List It)),
    (removeIdentical seen ps).Pairwise (fun a b => ¬ ∀ x, x ∈ a.iters ↔ x ∈ b.iters) ∧
    ∀ p ∈ removeIdentical seen ps, ¬ ∃ t ∈ seen, ∀ x, x ∈ t ↔ x ∈ p.iters := by
  induction ps with
  | nil => intro seen; simp [removeIdentical]
  | cons p0 ps ih =>
    intro seen
    unfold removeIdentical
    split
    · exact ih seen
    · rename_i hc
      have hc' := fun h => hc (containsSet_iff.2 h)
      obtain ⟨h1, h2⟩ := ih (p0.iters :: seen)
      refine ⟨List.pairwise_cons.2 ⟨?_, h1⟩, ?_⟩
      · intro q hq hx
        exact h2 q hq ⟨p0.iters, List.mem_cons_self, hx⟩
      · intro q hq
        rcases List.mem_cons.1 hq with rfl | hq
        · exact hc'
        · rintro ⟨t, ht, hx⟩
          exact h2 q hq ⟨t, List.mem_cons_of_mem _ ht, hx⟩

end Verif.Merge
