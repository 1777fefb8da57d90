import Verif.Replace.Rename
/-! Lemmas: replacing index variables and tensors gives the renamed tree. -/
namespace Verif.Replace

theorem map_id' {A : Type} (l : List A) : l.map (fun x => x) = l := by
  induction l with
  | nil => rfl
  | cons a l ih => rw [List.map_cons, ih]

mutual
theorem replaceIE_tree (m : List (Nat × Nat)) : ∀ (e : Expr), e.freeOf (renames m) →
    (replaceIE m e).erase = (e.rename (renamed m) (fun t => t)).erase
  | .lit a v, _ => rfl
  | .ivar i, _ => by rw [replaceIE, sub_eq, Expr.rename]
  | .acc a t is ms st, hf => by
    rw [Expr.freeOf] at hf
    have hs : (fun i => (m.lookup i).isSome) = renames m := by funext i; exact lookup_isSome m i
    have hsub : sub m = renamed m := by funext i; exact sub_eq m i
    rw [replaceIE, replaceAcc, hs, hsub]
    split
    · rename_i hany
      have hst : st = false := by
        cases st with
        | false => rfl
        | true =>
          obtain ⟨i, hi, hm⟩ := List.any_eq_true.1 hany
          rw [hf rfl i hi] at hm; exact nomatch hm
      subst hst
      rfl
    · rename_i hany
      rw [Expr.rename, map_stay (fun i hi => renamed_of_not (not_any hany i hi))]
  | .un a op e, hf => by
    rw [Expr.freeOf] at hf
    have ih := replaceIE_tree m e hf
    rw [replaceIE, reUn]
    split
    · rename_i hs
      rw [replaceIE_same m e hs] at ih
      simp only [Expr.erase, Expr.rename, ← ih]
    · simp only [Expr.erase, Expr.rename, ih]
  | .bin a op e f, hf => by
    rw [Expr.freeOf] at hf
    have ih := replaceIE_tree m e hf.1
    have ih2 := replaceIE_tree m f hf.2
    rw [replaceIE, reBin]
    split
    · rename_i hs
      rw [Bool.and_eq_true] at hs
      rw [replaceIE_same m e hs.1] at ih
      rw [replaceIE_same m f hs.2] at ih2
      simp only [Expr.erase, Expr.rename, ← ih, ← ih2]
    · simp only [Expr.erase, Expr.rename, ih, ih2]
  | .cast a ty e, hf => by
    rw [Expr.freeOf] at hf
    have ih := replaceIE_tree m e hf
    rw [replaceIE, reCast]
    split
    · rename_i hs
      rw [replaceIE_same m e hs] at ih
      simp only [Expr.erase, Expr.rename, ← ih]
    · simp only [Expr.erase, Expr.rename, ih]
  | .call a f es, hf => by
    rw [Expr.freeOf] at hf
    have ih := replaceIArgs_tree m es hf
    rw [replaceIE, reCall]
    split
    · rename_i hs
      rw [replaceIArgs_same m es hs] at ih
      simp only [Expr.erase, Expr.rename, ← ih]
    · simp only [Expr.erase, Expr.rename, ih]
  | .red a op i e, hf => by
    rw [Expr.freeOf] at hf
    have ih := replaceIE_tree m e hf.2
    rw [replaceIE, reRed]
    split
    · rename_i hs
      rw [replaceIE_same m e hs] at ih
      simp only [Expr.erase, Expr.rename, ← ih, renamed_of_not hf.1]
    · simp only [Expr.erase, Expr.rename, ih, renamed_of_not hf.1]
theorem replaceIArgs_tree (m : List (Nat × Nat)) : ∀ (es : Args), es.freeOf (renames m) →
    (replaceIArgs m es).erase = (es.rename (renamed m) (fun t => t)).erase
  | .nil, _ => rfl
  | .cons e es, hf => by
    rw [Args.freeOf] at hf
    rw [replaceIArgs, Args.rename, Args.erase, Args.erase, replaceIE_tree m e hf.1,
      replaceIArgs_tree m es hf.2]
end

theorem rels_stay {m : List (Nat × Nat)} {ps : List Rel}
    (h : ∀ i ∈ relVars ps, renames m i = false) :
    (ps.map fun r => (⟨renamed m r.parent, renamed m r.outer, renamed m r.inner, r.factor⟩ : Rel)) = ps := by
  induction ps with
  | nil => rfl
  | cons r ps ih =>
    have hr : ∀ i, i = r.parent ∨ i = r.outer ∨ i = r.inner → renamed m i = i := fun i hi =>
      renamed_of_not (h i (by
        rw [relVars, List.flatMap_cons]
        exact List.mem_append_left _ (by rcases hi with rfl | rfl | rfl <;> simp)))
    rw [List.map_cons, hr r.parent (by simp), hr r.outer (by simp), hr r.inner (by simp), ih]
    intro i hi
    exact h i (by rw [relVars, List.flatMap_cons]; exact List.mem_append_right _ hi)

theorem replaceIS_tree (m : List (Nat × Nat)) (s : Stmt) : s.freeOf (renames m) →
    (replaceIS m s).erase = (s.rename (renamed m) (fun t => t)).erase := by
  induction s with
  | assign a l op e =>
    intro hf
    rw [Stmt.freeOf] at hf
    have ih := replaceIE_tree m e hf
    have hl := replaceLhs_t m l
    rw [replaceIS, reAssignI]
    split
    · rename_i hs
      rw [Bool.and_eq_true] at hs
      rw [replaceIE_same m e hs.1] at ih
      rw [replaceLhs_same m l hs.2] at hl
      simp only [Stmt.erase, Stmt.rename, ← ih, ← hl.2.2]
    · simp only [Stmt.erase, Stmt.rename, ih, hl]
  | yield a is e =>
    intro hf
    rw [Stmt.freeOf] at hf
    have ih := replaceIE_tree m e hf.2
    have hi := map_stay (fun i hi => renamed_of_not (hf.1 i hi))
    rw [replaceIS, reYield]
    split
    · rename_i hs
      rw [replaceIE_same m e hs] at ih
      simp only [Stmt.erase, Stmt.rename, ← ih, hi]
    · simp only [Stmt.erase, Stmt.rename, ih, hi]
  | loop a i at' s ih =>
    intro hf
    rw [Stmt.freeOf] at hf
    have ih := ih hf
    rw [replaceIS, reLoopI, sub_eq]
    split
    · rename_i hs
      rw [Bool.and_eq_true, decide_eq_true_eq] at hs
      rw [replaceIS_same m s hs.1] at ih
      simp only [Stmt.erase, Stmt.rename, ← ih, hs.2]
    · simp only [Stmt.erase, Stmt.rename, ih]
  | wher a c p ih1 ih2 =>
    intro hf
    rw [Stmt.freeOf] at hf
    have e1 := ih1 hf.1
    have e2 := ih2 hf.2
    rw [replaceIS, reWher]
    split
    · rename_i hs
      rw [Bool.and_eq_true] at hs
      rw [replaceIS_same m c hs.2] at e1
      rw [replaceIS_same m p hs.1] at e2
      simp only [Stmt.erase, Stmt.rename, ← e1, ← e2]
    · simp only [Stmt.erase, Stmt.rename, e1, e2]
  | seq a c p ih1 ih2 =>
    intro hf
    rw [Stmt.freeOf] at hf
    have e1 := ih1 hf.1
    have e2 := ih2 hf.2
    rw [replaceIS, reSeq]
    split
    · rename_i hs
      rw [Bool.and_eq_true] at hs
      rw [replaceIS_same m c hs.1] at e1
      rw [replaceIS_same m p hs.2] at e2
      simp only [Stmt.erase, Stmt.rename, ← e1, ← e2]
    · simp only [Stmt.erase, Stmt.rename, e1, e2]
  | assemble a c p rs ih1 ih2 =>
    intro hf
    rw [Stmt.freeOf] at hf
    have e1 := ih1 hf.1
    have e2 := ih2 hf.2
    rw [replaceIS, reAssemble]
    split
    · rename_i hs
      rw [Bool.and_eq_true] at hs
      rw [replaceIS_same m c hs.1] at e1
      rw [replaceIS_same m p hs.2] at e2
      simp only [Stmt.erase, Stmt.rename, ← e1, ← e2, map_id']
    · simp only [Stmt.erase, Stmt.rename, e1, e2, map_id']
  | multi a c p ih1 ih2 =>
    intro hf
    rw [Stmt.freeOf] at hf
    have e1 := ih1 hf.1
    have e2 := ih2 hf.2
    rw [replaceIS, reMulti]
    split
    · rename_i hs
      rw [Bool.and_eq_true] at hs
      rw [replaceIS_same m c hs.1] at e1
      rw [replaceIS_same m p hs.2] at e2
      simp only [Stmt.erase, Stmt.rename, ← e1, ← e2]
    · simp only [Stmt.erase, Stmt.rename, e1, e2]
  | such a s ps ih =>
    intro hf
    rw [Stmt.freeOf] at hf
    have ih := ih hf.2
    rw [replaceIS, reSuch]
    split
    · rename_i hs
      rw [replaceIS_same m s hs] at ih
      simp only [Stmt.erase, Stmt.rename, ← ih, rels_stay hf.1]
    · simp only [Stmt.erase, Stmt.rename, ih, rels_stay hf.1]

/-! ### Tensors -/

mutual
theorem replaceTE_tree (m : List (Nat × Nat)) : ∀ (e : Expr), e.plainOn (renames m) →
    (replaceTE m e).erase = (e.rename (fun i => i) (renamed m)).erase
  | .lit a v, _ => rfl
  | .ivar i, _ => rfl
  | .acc a t is ms st, hp => by
    rw [Expr.plainOn] at hp
    rw [replaceTE, replaceTAcc]
    split
    · rename_i t' hl
      obtain ⟨h1, h2⟩ := hp (renames_of_lookup hl)
      subst h1; subst h2
      simp only [Expr.erase, Expr.rename, map_id', renamed_of_lookup hl]
    · rename_i hl
      simp only [Expr.erase, Expr.rename, map_id', renamed_of_not (renames_of_none hl)]
  | .un a op e, hp => by
    rw [Expr.plainOn] at hp
    have ih := replaceTE_tree m e hp
    rw [replaceTE, reUn]
    split
    · rename_i hs
      rw [replaceTE_same m e hs] at ih
      simp only [Expr.erase, Expr.rename, ← ih]
    · simp only [Expr.erase, Expr.rename, ih]
  | .bin a op e f, hp => by
    rw [Expr.plainOn] at hp
    have ih := replaceTE_tree m e hp.1
    have ih2 := replaceTE_tree m f hp.2
    rw [replaceTE, reBin]
    split
    · rename_i hs
      rw [Bool.and_eq_true] at hs
      rw [replaceTE_same m e hs.1] at ih
      rw [replaceTE_same m f hs.2] at ih2
      simp only [Expr.erase, Expr.rename, ← ih, ← ih2]
    · simp only [Expr.erase, Expr.rename, ih, ih2]
  | .cast a ty e, hp => by
    rw [Expr.plainOn] at hp
    have ih := replaceTE_tree m e hp
    rw [replaceTE, reCast]
    split
    · rename_i hs
      rw [replaceTE_same m e hs] at ih
      simp only [Expr.erase, Expr.rename, ← ih]
    · simp only [Expr.erase, Expr.rename, ih]
  | .call a f es, hp => by
    rw [Expr.plainOn] at hp
    have ih := replaceTArgs_tree m es hp
    rw [replaceTE, reCall]
    split
    · rename_i hs
      rw [replaceTArgs_same m es hs] at ih
      simp only [Expr.erase, Expr.rename, ← ih]
    · simp only [Expr.erase, Expr.rename, ih]
  | .red a op i e, hp => by
    rw [Expr.plainOn] at hp
    have ih := replaceTE_tree m e hp
    rw [replaceTE, reRed]
    split
    · rename_i hs
      rw [replaceTE_same m e hs] at ih
      simp only [Expr.erase, Expr.rename, ← ih]
    · simp only [Expr.erase, Expr.rename, ih]
theorem replaceTArgs_tree (m : List (Nat × Nat)) : ∀ (es : Args), es.plainOn (renames m) →
    (replaceTArgs m es).erase = (es.rename (fun i => i) (renamed m)).erase
  | .nil, _ => rfl
  | .cons e es, hp => by
    rw [Args.plainOn] at hp
    rw [replaceTArgs, Args.rename, Args.erase, Args.erase, replaceTE_tree m e hp.1,
      replaceTArgs_tree m es hp.2]
end

theorem results_stay {m : List (Nat × Nat)} {rs : List (Nat × Nat)}
    (h : ∀ r ∈ rs, renames m r.1 = false ∧ renames m r.2 = false) :
    (rs.map fun r => (renamed m r.1, renamed m r.2)) = rs := by
  induction rs with
  | nil => rfl
  | cons r rs ih =>
    have hr := h r List.mem_cons_self
    rw [List.map_cons, renamed_of_not hr.1, renamed_of_not hr.2,
      ih (fun r' hr' => h r' (List.mem_cons_of_mem _ hr'))]

theorem rels_id (ps : List Rel) :
    (ps.map fun r => (⟨r.parent, r.outer, r.inner, r.factor⟩ : Rel)) = ps := map_id' ps

theorem replaceTS_tree (m : List (Nat × Nat)) (s : Stmt) : s.plainOn (renames m) →
    (replaceTS m s).erase = (s.rename (fun i => i) (renamed m)).erase := by
  induction s with
  | assign a l op e =>
    intro hp
    rw [Stmt.plainOn] at hp
    have ih := replaceTE_tree m e hp.2
    rw [replaceTS, replaceTAssign]
    split
    · rename_i t' hl
      have hm := hp.1 (renames_of_lookup hl)
      simp only [Stmt.erase, Stmt.rename, ih, map_id', hm, renamed_of_lookup hl]
    · rename_i hl
      have hn := renamed_of_not (renames_of_none hl)
      rw [reAssign]
      split
      · rename_i hs
        rw [replaceTE_same m e hs] at ih
        simp only [Stmt.erase, Stmt.rename, ← ih, map_id', hn]
      · simp only [Stmt.erase, Stmt.rename, ih, map_id', hn]
  | yield a is e =>
    intro hp
    rw [Stmt.plainOn] at hp
    have ih := replaceTE_tree m e hp
    rw [replaceTS, reYield]
    split
    · rename_i hs
      rw [replaceTE_same m e hs] at ih
      simp only [Stmt.erase, Stmt.rename, ← ih, map_id']
    · simp only [Stmt.erase, Stmt.rename, ih, map_id']
  | loop a i at' s ih =>
    intro hp
    rw [Stmt.plainOn] at hp
    have ih := ih hp
    rw [replaceTS, reLoop]
    split
    · rename_i hs
      rw [replaceTS_same m s hs] at ih
      simp only [Stmt.erase, Stmt.rename, ← ih]
    · simp only [Stmt.erase, Stmt.rename, ih]
  | wher a c p ih1 ih2 =>
    intro hp
    rw [Stmt.plainOn] at hp
    have e1 := ih1 hp.1
    have e2 := ih2 hp.2
    rw [replaceTS, reWher]
    split
    · rename_i hs
      rw [Bool.and_eq_true] at hs
      rw [replaceTS_same m c hs.2] at e1
      rw [replaceTS_same m p hs.1] at e2
      simp only [Stmt.erase, Stmt.rename, ← e1, ← e2]
    · simp only [Stmt.erase, Stmt.rename, e1, e2]
  | seq a c p ih1 ih2 =>
    intro hp
    rw [Stmt.plainOn] at hp
    have e1 := ih1 hp.1
    have e2 := ih2 hp.2
    rw [replaceTS, reSeq]
    split
    · rename_i hs
      rw [Bool.and_eq_true] at hs
      rw [replaceTS_same m c hs.1] at e1
      rw [replaceTS_same m p hs.2] at e2
      simp only [Stmt.erase, Stmt.rename, ← e1, ← e2]
    · simp only [Stmt.erase, Stmt.rename, e1, e2]
  | assemble a c p rs ih1 ih2 =>
    intro hp
    rw [Stmt.plainOn] at hp
    have e1 := ih1 hp.2.1
    have e2 := ih2 hp.2.2
    rw [replaceTS, reAssemble]
    split
    · rename_i hs
      rw [Bool.and_eq_true] at hs
      rw [replaceTS_same m c hs.1] at e1
      rw [replaceTS_same m p hs.2] at e2
      simp only [Stmt.erase, Stmt.rename, ← e1, ← e2, results_stay hp.1]
    · simp only [Stmt.erase, Stmt.rename, e1, e2, results_stay hp.1]
  | multi a c p ih1 ih2 =>
    intro hp
    rw [Stmt.plainOn] at hp
    have e1 := ih1 hp.1
    have e2 := ih2 hp.2
    rw [replaceTS, reMulti]
    split
    · rename_i hs
      rw [Bool.and_eq_true] at hs
      rw [replaceTS_same m c hs.1] at e1
      rw [replaceTS_same m p hs.2] at e2
      simp only [Stmt.erase, Stmt.rename, ← e1, ← e2]
    · simp only [Stmt.erase, Stmt.rename, e1, e2]
  | such a s ps ih =>
    intro hp
    rw [Stmt.plainOn] at hp
    have ih := ih hp
    rw [replaceTS, reSuch]
    split
    · rename_i hs
      rw [replaceTS_same m s hs] at ih
      simp only [Stmt.erase, Stmt.rename, ← ih, rels_id]
    · simp only [Stmt.erase, Stmt.rename, ih, rels_id]

end Verif.Replace
