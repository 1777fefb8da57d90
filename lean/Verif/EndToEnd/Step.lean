import Verif.EndToEnd.Model
/-! One loop of a kernel, from `Verif.Merge.forall_spec`. -/
namespace Verif.EndToEnd
open Verif.Merge
open Verif.Merge.Expr

variable {V : Type}

/-- The value of an expression below the given positions, with the coordinates of the loops. -/
def evalAtPath (o : Ops V) (vals : Nat → List V) (ls : List Loop) (pos : Nat → Nat) (e : Expr V) (path : List Nat) : V :=
  e.eval o (fun k => valueAt o.zero (vals k) (levelsOf ls k) path (pos k))

/-- Positions are inside the levels of the loops. -/
def Inside (vals : Nat → List V) (ls : List Loop) (pos : Nat → Nat) (e : Expr V) : Prop :=
  ∃ size : Nat → Nat, ∀ k ∈ e.leaves, pos k < size k ∧ wfLevels (size k) (dimLevels ls k) (vals k).length

theorem loop_step (o : Ops V) (ho : ZeroLaws o) {srt : List Point → List Point} (hs : SortSpec srt)
    (vals : Nat → List V) (l : Loop) (ls : List Loop) (pos : Nat → Nat) (e : Expr V)
    (hlin : ∀ l' ∈ l :: ls, Consistent (ctxOf l') e) (hin : Inside vals (l :: ls) pos e) :
    segsOk l pos e.leaves = true ∧
    runForall (ctxOf l) srt ⟨crdOf l pos e.leaves, l.n⟩ (l.n + (e.leaves.map (fun k => (crdOf l pos e.leaves k).length)).sum) e =
      some (((List.range l.n).filter (fun c => supp (ctxOf l) (present ⟨crdOf l pos e.leaves, l.n⟩ c) e)).map
        (evAt (ctxOf l) e ⟨crdOf l pos e.leaves, l.n⟩)) ∧
    (∀ c, c < l.n → supp (ctxOf l) (present ⟨crdOf l pos e.leaves, l.n⟩ c) e = true →
      ∃ e', (evAt (ctxOf l) e ⟨crdOf l pos e.leaves, l.n⟩ c).stmt = some e' ∧ (∀ l' ∈ ls, Consistent (ctxOf l') e') ∧
        Inside vals ls (nextPos l pos (evAt (ctxOf l) e ⟨crdOf l pos e.leaves, l.n⟩ c)) e' ∧
        ∀ path, evalAtPath o vals ls (nextPos l pos (evAt (ctxOf l) e ⟨crdOf l pos e.leaves, l.n⟩ c)) e' path =
          evalAtPath o vals (l :: ls) pos e (c :: path)) ∧
    (∀ c, c < l.n → supp (ctxOf l) (present ⟨crdOf l pos e.leaves, l.n⟩ c) e = false →
      ∀ path, evalAtPath o vals (l :: ls) pos e (c :: path) = o.zero) := by
  obtain ⟨size, hwf⟩ := hin
  have hcomp : ∀ k ∈ e.leaves, ∀ P C, l.lvl k = some (.comp P C) →
      ∃ a seg, segment P C (pos k) = some (a, seg) ∧ seg.Pairwise (· < ·) ∧ (∀ x ∈ seg, x < l.n) ∧
        wfLevels C.length (dimLevels ls k) (vals k).length := by
    intro k hk P C hl
    obtain ⟨h1, h2⟩ := hwf k hk
    simp only [dimLevels, List.map_cons, hl, wfLevels] at h2
    obtain ⟨a, seg, hseg, h3, h4⟩ := h2.1 (pos k) h1
    exact ⟨a, seg, hseg, h3, h4, h2.2⟩
  have hsegs : segsOk l pos e.leaves = true := segsOk_of (fun k hk P C hl => by
    obtain ⟨a, seg, hseg, _⟩ := hcomp k hk P C hl; rw [hseg]; rfl)
  have hctx : ∀ k, ctxOf l k = some compressedAttr ↔ ∃ P C, l.lvl k = some (.comp P C) := by
    intro k
    unfold ctxOf
    cases hl : l.lvl k with
    | none => simp
    | some x => cases x <;> simp [attrOf, denseAttr, compressedAttr]
  let I : Input := ⟨crdOf l pos e.leaves, l.n⟩
  have hcrd : ∀ k ∈ e.leaves, ∀ P C a seg, l.lvl k = some (.comp P C) →
      segment P C (pos k) = some (a, seg) → I.crd k = seg := by
    intro k hk P C a seg hl hseg
    simp only [I, crdOf, hk, if_true, hl, hseg]
  have hI : InputOK (ctxOf l) I := by
    intro k hK
    by_cases hk : k ∈ e.leaves
    · obtain ⟨P, C, hl⟩ := (hctx k).1 hK
      obtain ⟨a, seg, hseg, h3, h4, _⟩ := hcomp k hk P C hl
      rw [hcrd k hk P C a seg hl hseg]
      exact ⟨h3, h4⟩
    · have : I.crd k = [] := by simp only [I, crdOf, hk, if_false]
      rw [this]; simp
  have hpot : potential (ctxOf l) e I ⟨fun _ => 0, 0⟩ 0 ≤
      l.n + (e.leaves.map (fun k => (I.crd k).length)).sum := by
    unfold potential
    split
    · show l.n - 0 ≤ _; omega
    · have : ∀ (L : List Nat) (p : Nat → Bool) (f : Nat → Nat), ((L.filter p).map f).sum ≤ (L.map f).sum := by
        intro L p f
        induction L with
        | nil => simp
        | cons a as ih => rw [List.filter_cons]; split <;> simp <;> omega
      have := this e.leaves (fun k => decide (ctxOf l k = some compressedAttr)) (fun k => (I.crd k).length)
      simp only [Nat.sub_zero]
      omega
  have hrun := forall_spec (inTree_ctxOf l) hs (hlin l List.mem_cons_self).self hI hpot
  refine ⟨hsegs, ?_, ?_, ?_⟩
  · rw [show (⟨crdOf l pos e.leaves, l.n⟩ : Input) = I from rfl]
    refine hrun.trans ?_
    unfold spanEvents
    rw [List.range_eq_range']
  · intro c hc hsu
    obtain ⟨e', he'⟩ := zeroOut_of_supp (inTree_ctxOf l) hsu
    have hloc : ∀ k ∈ e'.leaves, locate (l.lvl k) (pos k) c = some (nextPos l pos (evAt (ctxOf l) e I c) k) := by
      intro k hk
      obtain ⟨hke, hz⟩ := leaves_zeroOut he' k hk
      unfold nextPos
      cases hl : l.lvl k with
      | none => rfl
      | some x =>
        cases x with
        | dense nd => rfl
        | comp P C =>
          obtain ⟨a, seg, hseg, h3, h4, _⟩ := hcomp k hke P C hl
          have hK := (hctx k).2 ⟨P, C, hl⟩
          have hmem : c ∈ seg := by
            rw [zAbs, hK] at hz
            simp only [decide_true, Bool.true_and, Bool.not_eq_false'] at hz
            rw [← hcrd k hke P C a seg hl hseg]
            simpa [present] using hz
          simp only [locate, hseg, if_pos hmem]
          have hr : (evAt (ctxOf l) e I c).reads.lookup k = some (seg.idxOf c) := by
            simp only [evAt]
            rw [show e.zeroOut (zAbs (ctxOf l) (present I c)) = some e' from he']
            simp only [readsOf]
            rw [lookup_map, hcrd k hke P C a seg hl hseg]
            rw [List.mem_filter]
            exact ⟨hk, by rw [hK]; rfl⟩
          rw [hr]
          have hP : P[pos k]? = some a := by
            unfold segment at hseg
            split at hseg
            · rename_i a' b' ha hb
              split at hseg
              · cases hseg; exact ha
              · cases hseg
            · cases hseg
          rw [hP]; rfl
    let size' : Nat → Nat := fun k => match l.lvl k with
      | none => size k
      | some (.dense nd) => size k * nd
      | some (.comp _ C) => C.length
    have hwf' : ∀ k ∈ e'.leaves, nextPos l pos (evAt (ctxOf l) e I c) k < size' k ∧
        wfLevels (size' k) (dimLevels ls k) (vals k).length := by
      intro k hk
      obtain ⟨hke, _⟩ := leaves_zeroOut he' k hk
      have hlo := hloc k hk
      obtain ⟨h1, h2⟩ := hwf k hke
      simp only [dimLevels, List.map_cons] at h2
      simp only [size']
      cases hl : l.lvl k with
      | none =>
        rw [hl] at hlo h2
        simp only [locate, Option.some.injEq] at hlo
        simp only [wfLevels] at h2
        exact ⟨by rw [← hlo]; exact h1, h2⟩
      | some x =>
        cases x with
        | dense nd =>
          rw [hl] at hlo h2
          simp only [locate, Option.some.injEq] at hlo
          simp only [wfLevels] at h2
          refine ⟨?_, h2.2⟩
          rw [← hlo]
          have hnd := h2.1
          subst hnd
          calc pos k * l.n + c < pos k * l.n + l.n := by omega
            _ = (pos k + 1) * l.n := by rw [Nat.add_mul, Nat.one_mul]
            _ ≤ size k * l.n := Nat.mul_le_mul_right _ h1
        | comp P C =>
          obtain ⟨a, seg, hseg, h3, h4, h5⟩ := hcomp k hke P C hl
          rw [hl] at hlo
          simp only [locate, hseg] at hlo
          split at hlo
          · rename_i hmem
            simp only [Option.some.injEq] at hlo
            refine ⟨?_, h5⟩
            rw [← hlo]
            have hidx := List.idxOf_lt_length_of_mem hmem
            unfold segment at hseg
            split at hseg
            · split at hseg
              · cases hseg
                rw [List.length_take, List.length_drop] at hidx
                show _ < C.length
                omega
              · cases hseg
            · cases hseg
          · cases hlo
    refine ⟨e', he', fun l' hl' => Consistent.zeroOut (hlin l' (List.mem_cons_of_mem _ hl')) he', ⟨size', hwf'⟩, ?_⟩
    intro path
    unfold evalAtPath
    rw [← evalOpt_zeroOut o ho (fun k => valueAt o.zero (vals k) (levelsOf (l :: ls) k) (c :: path) (pos k))
      (zAbs (ctxOf l) (present I c)) e, he']
    · simp only [evalOpt]
      apply eval_congr
      intro k hk
      simp only [levelsOf, List.map_cons, valueAt, hloc k hk]
      rfl
    · intro k hk hz
      simp only [zAbs, Bool.and_eq_true, decide_eq_true_eq, Bool.not_eq_true'] at hz
      obtain ⟨P, C, hl⟩ := (hctx k).1 hz.1
      obtain ⟨a, seg, hseg, _⟩ := hcomp k hk P C hl
      have hn : c ∉ seg := by
        rw [← hcrd k hk P C a seg hl hseg]
        simpa [present] using hz.2
      simp only [levelsOf, List.map_cons, valueAt, hl, locate, hseg, if_neg hn]
  · intro c hc hsu path
    unfold evalAtPath
    rw [← evalOpt_zeroOut o ho _ (zAbs (ctxOf l) (present I c)) e,
      zeroOut_dead_abs (inTree_ctxOf l) hsu]
    · rfl
    · intro k hk hz
      simp only [zAbs, Bool.and_eq_true, decide_eq_true_eq, Bool.not_eq_true'] at hz
      obtain ⟨P, C, hl⟩ := (hctx k).1 hz.1
      obtain ⟨a, seg, hseg, _⟩ := hcomp k hk P C hl
      have hn : c ∉ seg := by
        rw [← hcrd k hk P C a seg hl hseg]
        simpa [present] using hz.2
      simp only [levelsOf, List.map_cons, valueAt, hl, locate, hseg, if_neg hn]

end Verif.EndToEnd
