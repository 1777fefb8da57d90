import Verif.Merge.Lattice
/-! A concrete sort by decreasing size, used to show that the hypotheses on `std::sort` can be met. -/
namespace Verif.Merge

def insertPoint (p : Point) : List Point → List Point
  | [] => [p]
  | q :: qs => if q.size ≥ p.size then q :: insertPoint p qs else p :: q :: qs

def isort : List Point → List Point
  | [] => []
  | p :: ps => insertPoint p (isort ps)

theorem insertPoint_perm (p : Point) (l : List Point) : (insertPoint p l).Perm (p :: l) := by
  induction l with
  | nil => exact List.Perm.refl _
  | cons q qs ih =>
    unfold insertPoint
    split
    · exact (ih.cons q).trans (List.Perm.swap p q qs)
    · exact List.Perm.refl _

theorem insertPoint_sorted (p : Point) (l : List Point) (h : l.Pairwise (fun a b => a.size ≥ b.size)) :
    (insertPoint p l).Pairwise (fun a b => a.size ≥ b.size) := by
  induction l with
  | nil => simp [insertPoint]
  | cons q qs ih =>
    rw [List.pairwise_cons] at h
    unfold insertPoint
    split
    · rename_i hge
      rw [List.pairwise_cons]
      refine ⟨?_, ih h.2⟩
      intro x hx
      rcases List.mem_cons.1 ((insertPoint_perm p qs).mem_iff.1 hx) with rfl | hx
      · exact hge
      · exact h.1 x hx
    · rename_i hlt
      rw [List.pairwise_cons, List.pairwise_cons]
      refine ⟨?_, h.1, h.2⟩
      intro x hx
      rcases List.mem_cons.1 hx with rfl | hx
      · omega
      · have := h.1 x hx; omega

theorem isort_spec : SortSpec isort := by
  intro l
  induction l with
  | nil => exact ⟨List.Perm.refl _, List.Pairwise.nil⟩
  | cons p ps ih =>
    exact ⟨(insertPoint_perm p _).trans (ih.1.cons p), insertPoint_sorted p _ ih.2⟩

end Verif.Merge
