import Verif.Replace.Lemmas
/-! Lemmas about replacing index variables and tensors. -/
namespace Verif.Replace

variable {V : Type}

theorem lookup_find (m : List (Nat × Nat)) (i : Nat) :
    m.lookup i = (m.find? (fun p => p.1 = i)).map (·.2) := by
  induction m with
  | nil => rfl
  | cons p m ih =>
    obtain ⟨x, y⟩ := p
    rw [List.lookup_cons, List.find?_cons]
    by_cases hx : i = x
    · subst hx; simp
    · rw [beq_eq_false_iff_ne.mpr hx]
      simp only [decide_eq_false (fun h => hx (Eq.symm h) : ¬ x = i), ih]

theorem sub_eq (m : List (Nat × Nat)) (i : Nat) : sub m i = renamed m i := by
  rw [sub, renamed, lookup_find]
  cases m.find? (fun p => p.1 = i) <;> rfl

theorem lookup_isSome (m : List (Nat × Nat)) (i : Nat) : (m.lookup i).isSome = renames m i := by
  induction m with
  | nil => rfl
  | cons p m ih =>
    obtain ⟨x, y⟩ := p
    rw [List.lookup_cons, renames, List.any_cons, ← renames]
    by_cases hx : i = x
    · subst hx; simp
    · rw [beq_eq_false_iff_ne.mpr hx]
      simp only [decide_eq_false (fun h => hx (Eq.symm h) : ¬ x = i), Bool.false_or, ih]

theorem renamed_of_not {m : List (Nat × Nat)} {i : Nat} (h : renames m i = false) :
    renamed m i = i := by
  rw [← lookup_isSome] at h
  rw [← sub_eq, sub]
  cases hl : m.lookup i with
  | none => rfl
  | some x => rw [hl] at h; exact nomatch h

theorem renamed_of_lookup {m : List (Nat × Nat)} {i j : Nat} (h : m.lookup i = some j) :
    renamed m i = j := by rw [← sub_eq, sub, h]; rfl

theorem same_none {e x : Expr} (h : x.addr = none) : same x e = false := by
  simp [same, h, sameAddr]

theorem sameS_none {e x : Stmt} (h : x.addr = none) : sameS x e = false := by
  simp [sameS, h, sameAddr]

/-- A rewritten expression is the old one or has another address. -/
theorem replaceIE_same (m : List (Nat × Nat)) (e : Expr) (h : same (replaceIE m e) e = true) :
    replaceIE m e = e := by
  cases e with
  | lit a v => rfl
  | ivar i =>
    obtain ⟨p, h1, h2⟩ := sameAddr_iff.1 h
    simp only [replaceIE, Expr.addr, Option.some.injEq] at h1 h2
    rw [replaceIE]; rw [← h2] at h1; injection h1 with h1; rw [h1]
  | acc a t is ms st =>
    rw [replaceIE, replaceAcc] at h ⊢
    split at h
    · rw [same_none rfl] at h; exact nomatch h
    · rename_i hn; rw [if_neg hn]
  | un a op e =>
    rw [replaceIE, reUn] at h ⊢
    split at h
    · rename_i hn; rw [if_pos hn]
    · rw [same_none rfl] at h; exact nomatch h
  | bin a op e f =>
    rw [replaceIE, reBin] at h ⊢
    split at h
    · rename_i hn; rw [if_pos hn]
    · rw [same_none rfl] at h; exact nomatch h
  | cast a ty e =>
    rw [replaceIE, reCast] at h ⊢
    split at h
    · rename_i hn; rw [if_pos hn]
    · rw [same_none rfl] at h; exact nomatch h
  | call a f es =>
    rw [replaceIE, reCall] at h ⊢
    split at h
    · rename_i hn; rw [if_pos hn]
    · rw [same_none rfl] at h; exact nomatch h
  | red a op i e =>
    rw [replaceIE, reRed] at h ⊢
    split at h
    · rename_i hn; rw [if_pos hn]
    · rw [same_none rfl] at h; exact nomatch h

theorem replaceIArgs_same (m : List (Nat × Nat)) : ∀ (es : Args),
    sameArgs (replaceIArgs m es) es = true → replaceIArgs m es = es
  | .nil, _ => rfl
  | .cons e es, h => by
    rw [replaceIArgs, sameArgs, Bool.and_eq_true] at h
    rw [replaceIArgs, replaceIE_same m e h.1, replaceIArgs_same m es h.2]

theorem replaceIS_same (m : List (Nat × Nat)) (s : Stmt) (h : sameS (replaceIS m s) s = true) :
    replaceIS m s = s := by
  cases s with
  | assign a l op e =>
    rw [replaceIS, reAssignI] at h ⊢
    split at h
    · rename_i hn; rw [if_pos hn]
    · rw [sameS_none rfl] at h; exact nomatch h
  | yield a is e =>
    rw [replaceIS, reYield] at h ⊢
    split at h
    · rename_i hn; rw [if_pos hn]
    · rw [sameS_none rfl] at h; exact nomatch h
  | loop a i at' s =>
    rw [replaceIS, reLoopI] at h ⊢
    split at h
    · rename_i hn; rw [if_pos hn]
    · rw [sameS_none rfl] at h; exact nomatch h
  | wher a c p =>
    rw [replaceIS, reWher] at h ⊢
    split at h
    · rename_i hn; rw [if_pos hn]
    · rw [sameS_none rfl] at h; exact nomatch h
  | seq a c p =>
    rw [replaceIS, reSeq] at h ⊢
    split at h
    · rename_i hn; rw [if_pos hn]
    · rw [sameS_none rfl] at h; exact nomatch h
  | assemble a c p rs =>
    rw [replaceIS, reAssemble] at h ⊢
    split at h
    · rename_i hn; rw [if_pos hn]
    · rw [sameS_none rfl] at h; exact nomatch h
  | multi a c p =>
    rw [replaceIS, reMulti] at h ⊢
    split at h
    · rename_i hn; rw [if_pos hn]
    · rw [sameS_none rfl] at h; exact nomatch h
  | such a s ps =>
    rw [replaceIS, reSuch] at h ⊢
    split at h
    · rename_i hn; rw [if_pos hn]
    · rw [sameS_none rfl] at h; exact nomatch h

/-! ### Renaming index variables -/

/-- What the induction needs to know about the renaming. -/
structure Ren (f : Nat → Nat) (m : Nat → Bool) (dim : Nat → Nat) (X : List Nat) : Prop where
  inj : InjOn f X
  dims : ∀ i ∈ X, dim (f i) = dim i
  stay : ∀ i, m i = false → f i = i

/-- Environments that agree up to the renaming. -/
def Agree (f : Nat → Nat) (X : List Nat) (ρ ρ' : Env) : Prop := ∀ i ∈ X, ρ' (f i) = ρ i

theorem Agree.set {f : Nat → Nat} {m : Nat → Bool} {dim : Nat → Nat} {X : List Nat} {ρ ρ' : Env}
    (R : Ren f m dim X) (h : Agree f X ρ ρ') {i : Nat} (hi : i ∈ X) (v : Nat) :
    Agree f X (ρ.set i v) (ρ'.set (f i) v) := by
  intro j hj
  simp only [Env.set]
  by_cases hji : j = i
  · subst hji; simp
  · rw [if_neg hji, if_neg (fun hf => hji (R.inj j hj i hi hf)), h j hj]

theorem value_agree {f : Nat → Nat} {m : Nat → Bool} {dim : Nat → Nat} {X : List Nat} {ρ ρ' : Env}
    (R : Ren f m dim X) (h : Agree f X ρ ρ') {rels : List Rel}
    (hr : ∀ i ∈ relVars rels, i ∈ X ∧ m i = false) {i : Nat} (hi : i ∈ X) :
    value rels ρ' (f i) = value rels ρ i := by
  have key : ∀ r ∈ rels, (r.parent = f i ↔ r.parent = i) := by
    intro r hrm
    have hp := hr r.parent (List.mem_flatMap.2 ⟨r, hrm, by simp⟩)
    have hf := R.stay _ hp.2
    constructor
    · intro h1; exact R.inj _ hp.1 _ hi (by rw [hf]; exact h1)
    · intro h1; rw [← h1]; exact hf.symm
  have hfind : rels.find? (fun r => r.parent = f i) = rels.find? (fun r => r.parent = i) := by
    clear hr
    induction rels with
    | nil => rfl
    | cons r rs ih =>
      rw [List.find?_cons, List.find?_cons, ih (fun r' hr' => key r' (List.mem_cons_of_mem _ hr'))]
      have := key r List.mem_cons_self
      simp only [this]
  rw [value, value, hfind]
  cases hc : rels.find? (fun r => r.parent = i) with
  | none => exact h i hi
  | some r =>
    have hrm := List.mem_of_find?_eq_some hc
    have h1 := hr r.outer (List.mem_flatMap.2 ⟨r, hrm, by simp⟩)
    have h2 := hr r.inner (List.mem_flatMap.2 ⟨r, hrm, by simp⟩)
    have e1 := h r.outer h1.1
    have e2 := h r.inner h2.1
    rw [R.stay _ h1.2] at e1
    rw [R.stay _ h2.2] at e2
    simp only [e1, e2]

theorem inside_agree {f : Nat → Nat} {m : Nat → Bool} {dim : Nat → Nat} {X : List Nat} {ρ ρ' : Env}
    (R : Ren f m dim X) (h : Agree f X ρ ρ') {rels : List Rel}
    (hr : ∀ i ∈ relVars rels, i ∈ X ∧ m i = false) : inside dim rels ρ' = inside dim rels ρ := by
  have key : ∀ l : List Rel, (∀ r ∈ l, r ∈ rels) →
      (l.all fun r => decide (value rels ρ' r.parent < dim r.parent)) =
        l.all fun r => decide (value rels ρ r.parent < dim r.parent) := by
    intro l
    induction l with
    | nil => intro _; rfl
    | cons r rs ih =>
      intro hl
      have hp := hr r.parent (List.mem_flatMap.2 ⟨r, hl r List.mem_cons_self, by simp⟩)
      have e := value_agree R h hr hp.1
      rw [R.stay _ hp.2] at e
      rw [List.all_cons, List.all_cons, e, ih (fun r' hr' => hl r' (List.mem_cons_of_mem _ hr'))]
  exact key rels (fun _ h => h)

theorem map_agree {f : Nat → Nat} {m : Nat → Bool} {dim : Nat → Nat} {X : List Nat} {ρ ρ' : Env}
    (R : Ren f m dim X) (h : Agree f X ρ ρ') {rels : List Rel}
    (hr : ∀ i ∈ relVars rels, i ∈ X ∧ m i = false) (is : List Nat) (hi : ∀ i ∈ is, i ∈ X) :
    (is.map f).map (value rels ρ') = is.map (value rels ρ) := by
  rw [List.map_map]
  apply List.map_congr_left
  intro i him
  exact value_agree R h hr (hi i him)

theorem map_stay {f : Nat → Nat} {is : List Nat} (h : ∀ i ∈ is, f i = i) : is.map f = is := by
  induction is with
  | nil => rfl
  | cons i is ih => rw [List.map_cons, h i List.mem_cons_self, ih (fun j hj => h j (List.mem_cons_of_mem _ hj))]

theorem not_any {m : Nat → Bool} {is : List Nat} (h : ¬ is.any m = true) : ∀ i ∈ is, m i = false := by
  intro i hi
  cases hm : m i with
  | false => rfl
  | true => exact absurd (List.any_eq_true.2 ⟨i, hi, hm⟩) h

mutual
theorem eval_rename {m : List (Nat × Nat)} {dim : Nat → Nat} {X : List Nat} (M : Sem V)
    (R : Ren (renamed m) (renames m) dim X) (rels : List Rel)
    (hr : ∀ i ∈ relVars rels, i ∈ X ∧ renames m i = false) (σ : St V) :
    ∀ (e : Expr), (∀ i ∈ e.ivars, i ∈ X) → e.freeOf (renames m) → ∀ (ρ ρ' : Env),
      Agree (renamed m) X ρ ρ' →
      eval M dim rels σ ρ' (replaceIE m e) = eval M dim rels σ ρ e
  | .lit a v, _, _, ρ, ρ', _ => rfl
  | .ivar i, hX, _, ρ, ρ', ha => by
    rw [replaceIE, eval, eval, sub_eq, value_agree R ha hr (hX i (by simp [Expr.ivars]))]
  | .acc a t is ms st, hX, hf, ρ, ρ', ha => by
    rw [Expr.ivars] at hX
    rw [Expr.freeOf] at hf
    rw [replaceIE, replaceAcc]
    have hs : (fun i => (m.lookup i).isSome) = renames m := by funext i; exact lookup_isSome m i
    have hsub : sub m = renamed m := by funext i; exact sub_eq m i
    rw [hs, hsub]
    split
    · rename_i hany
      have hst : st = false := by
        cases st with
        | false => rfl
        | true =>
          obtain ⟨i, hi, hm⟩ := List.any_eq_true.1 hany
          rw [hf rfl i hi] at hm; exact nomatch hm
      subst hst
      simp only [eval, map_agree R ha hr is hX]
    · rename_i hany
      have hstay := map_stay (fun i hi => R.stay i (not_any hany i hi))
      have := map_agree R ha hr is hX
      rw [hstay] at this
      simp only [eval, this]
  | .un a op e, hX, hf, ρ, ρ', ha => by
    rw [Expr.ivars] at hX
    rw [Expr.freeOf] at hf
    have ih := eval_rename M R rels hr σ e hX hf ρ ρ' ha
    rw [replaceIE, reUn]
    split
    · rename_i hs
      rw [replaceIE_same m e hs] at ih
      simp only [eval, ih]
    · simp only [eval, ih]
  | .bin a op e f, hX, hf, ρ, ρ', ha => by
    rw [Expr.ivars] at hX
    rw [Expr.freeOf] at hf
    have ih := eval_rename M R rels hr σ e (fun i h => hX i (List.mem_append_left _ h)) hf.1 ρ ρ' ha
    have ih2 := eval_rename M R rels hr σ f (fun i h => hX i (List.mem_append_right _ h)) hf.2 ρ ρ' ha
    rw [replaceIE, reBin]
    split
    · rename_i hs
      rw [Bool.and_eq_true] at hs
      rw [replaceIE_same m e hs.1] at ih
      rw [replaceIE_same m f hs.2] at ih2
      simp only [eval, ih, ih2]
    · simp only [eval, ih, ih2]
  | .cast a ty e, hX, hf, ρ, ρ', ha => by
    rw [Expr.ivars] at hX
    rw [Expr.freeOf] at hf
    have ih := eval_rename M R rels hr σ e hX hf ρ ρ' ha
    rw [replaceIE, reCast]
    split
    · rename_i hs
      rw [replaceIE_same m e hs] at ih
      simp only [eval, ih]
    · simp only [eval, ih]
  | .call a f es, hX, hf, ρ, ρ', ha => by
    rw [Expr.ivars] at hX
    rw [Expr.freeOf] at hf
    have ih := evalArgs_rename M R rels hr σ es hX hf ρ ρ' ha
    rw [replaceIE, reCall]
    split
    · rename_i hs
      rw [replaceIArgs_same m es hs] at ih
      simp only [eval, ih]
    · simp only [eval, ih]
  | .red a op i e, hX, hf, ρ, ρ', ha => by
    rw [Expr.ivars] at hX
    rw [Expr.freeOf] at hf
    have hi := hX i List.mem_cons_self
    have ih : ∀ v, eval M dim rels σ (ρ'.set i v) (replaceIE m e) = eval M dim rels σ (ρ.set i v) e := by
      intro v
      have ag := Agree.set R ha hi v
      rw [R.stay i hf.1] at ag
      exact eval_rename M R rels hr σ e (fun j h => hX j (List.mem_cons_of_mem _ h)) hf.2 _ _ ag
    rw [replaceIE, reRed]
    split
    · rename_i hs
      rw [replaceIE_same m e hs] at ih
      simp only [eval, ih]
    · simp only [eval, ih]
theorem evalArgs_rename {m : List (Nat × Nat)} {dim : Nat → Nat} {X : List Nat} (M : Sem V)
    (R : Ren (renamed m) (renames m) dim X) (rels : List Rel)
    (hr : ∀ i ∈ relVars rels, i ∈ X ∧ renames m i = false) (σ : St V) :
    ∀ (es : Args), (∀ i ∈ es.ivars, i ∈ X) → es.freeOf (renames m) → ∀ (ρ ρ' : Env),
      Agree (renamed m) X ρ ρ' →
      evalArgs M dim rels σ ρ' (replaceIArgs m es) = evalArgs M dim rels σ ρ es
  | .nil, _, _, _, _, _ => rfl
  | .cons e es, hX, hf, ρ, ρ', ha => by
    rw [Args.ivars] at hX
    rw [Args.freeOf] at hf
    rw [replaceIArgs, evalArgs, evalArgs,
      eval_rename M R rels hr σ e (fun i h => hX i (List.mem_append_left _ h)) hf.1 ρ ρ' ha,
      evalArgs_rename M R rels hr σ es (fun i h => hX i (List.mem_append_right _ h)) hf.2 ρ ρ' ha]
end

theorem replaceLhs_t (m : List (Nat × Nat)) (l : Lhs) :
    (replaceLhs m l).t = l.t ∧ (replaceLhs m l).mods = l.mods ∧
      (replaceLhs m l).is = l.is.map (renamed m) := by
  have hs : (fun i => (m.lookup i).isSome) = renames m := by funext i; exact lookup_isSome m i
  have hsub : sub m = renamed m := by funext i; exact sub_eq m i
  rw [replaceLhs, hs, hsub]
  split
  · exact ⟨rfl, rfl, rfl⟩
  · rename_i hany
    exact ⟨rfl, rfl, (map_stay (fun i hi => renamed_of_not (not_any hany i hi))).symm⟩

theorem replaceLhs_same (m : List (Nat × Nat)) (l : Lhs)
    (h : sameAddr (replaceLhs m l).a l.a = true) : replaceLhs m l = l := by
  rw [replaceLhs] at h ⊢
  split at h
  · simp [sameAddr] at h
  · rename_i hn; rw [if_neg hn]

theorem assigned_rename (m : List (Nat × Nat)) (s : Stmt) :
    (replaceIS m s).assigned = s.assigned := by
  induction s with
  | assign a l op e =>
    rw [replaceIS, reAssignI]
    split
    · rfl
    · simp only [Stmt.assigned, (replaceLhs_t m l).1]
  | yield a is e => rw [replaceIS, reYield]; split <;> rfl
  | loop a i at' s ih => rw [replaceIS, reLoopI]; split <;> simp_all [Stmt.assigned]
  | wher a c p ih1 ih2 => rw [replaceIS, reWher]; split <;> simp_all [Stmt.assigned]
  | seq a c p ih1 ih2 => rw [replaceIS, reSeq]; split <;> simp_all [Stmt.assigned]
  | assemble a c p rs ih1 ih2 => rw [replaceIS, reAssemble]; split <;> simp_all [Stmt.assigned]
  | multi a c p ih1 ih2 => rw [replaceIS, reMulti]; split <;> simp_all [Stmt.assigned]
  | such a s ps ih => rw [replaceIS, reSuch]; split <;> simp_all [Stmt.assigned]

theorem foldl_fun_congr {A B : Type} {f g : A → B → A} (h : ∀ a b, f a b = g a b) (l : List B) (a : A) :
    l.foldl f a = l.foldl g a := by
  have : f = g := by funext a b; exact h a b
  rw [this]

theorem exec_rename {m : List (Nat × Nat)} {dim : Nat → Nat} {X : List Nat} (M : Sem V)
    (z : V → Bool) (R : Ren (renamed m) (renames m) dim X) (s : Stmt) :
    (∀ i ∈ s.ivars, i ∈ X) → s.freeOf (renames m) → ∀ (rels : List Rel),
    (∀ i ∈ relVars rels, i ∈ X ∧ renames m i = false) → ∀ (ρ ρ' : Env) (σ : St V),
      Agree (renamed m) X ρ ρ' →
      exec M z dim (replaceIS m s) rels ρ' σ = exec M z dim s rels ρ σ := by
  induction s with
  | assign a l op e =>
    intro hX hf rels hr ρ ρ' σ ha
    rw [Stmt.ivars] at hX
    rw [Stmt.freeOf] at hf
    have ih := eval_rename M R rels hr σ e (fun i h => hX i (List.mem_append_right _ h)) hf ρ ρ' ha
    have hl := replaceLhs_t m l
    have hmap := map_agree R ha hr l.is (fun i h => hX i (List.mem_append_left _ h))
    rw [← hl.2.2] at hmap
    rw [replaceIS, reAssignI]
    split
    · rename_i hs
      rw [Bool.and_eq_true] at hs
      rw [replaceIE_same m e hs.1] at ih
      rw [replaceLhs_same m l hs.2] at hmap
      simp only [exec, inside_agree R ha hr, ih, hmap]
    · simp only [exec, inside_agree R ha hr, ih, hmap, hl.1, hl.2.1]
  | yield a is e =>
    intro hX hf rels hr ρ ρ' σ ha
    rw [Stmt.ivars] at hX
    rw [Stmt.freeOf] at hf
    have ih := eval_rename M R rels hr σ e (fun i h => hX i (List.mem_append_right _ h)) hf.2 ρ ρ' ha
    have hmap := map_agree R ha hr is (fun i h => hX i (List.mem_append_left _ h))
    rw [map_stay (fun i hi => R.stay i (hf.1 i hi))] at hmap
    rw [replaceIS, reYield]
    split
    · rename_i hs
      rw [replaceIE_same m e hs] at ih
      simp only [exec, ih, hmap]
    · simp only [exec, ih, hmap]
  | loop a i at' s ih =>
    intro hX hf rels hr ρ ρ' σ ha
    rw [Stmt.ivars] at hX
    rw [Stmt.freeOf] at hf
    have hi := hX i List.mem_cons_self
    have ih' : ∀ σ v, exec M z dim (replaceIS m s) rels (ρ'.set (renamed m i) v) σ =
        exec M z dim s rels (ρ.set i v) σ := fun σ v =>
      ih (fun j h => hX j (List.mem_cons_of_mem _ h)) hf rels hr _ _ σ (Agree.set R ha hi v)
    rw [replaceIS, reLoopI, sub_eq]
    split
    · rename_i hs
      rw [Bool.and_eq_true, decide_eq_true_eq] at hs
      rw [replaceIS_same m s hs.1, hs.2] at ih'
      simp only [exec, ih']
    · simp only [exec, ih', R.dims i hi]
  | wher a c p ih1 ih2 =>
    intro hX hf rels hr ρ ρ' σ ha
    rw [Stmt.ivars] at hX
    rw [Stmt.freeOf] at hf
    have e1 := fun σ => ih1 (fun i h => hX i (List.mem_append_left _ h)) hf.1 rels hr ρ ρ' σ ha
    have e2 := fun σ => ih2 (fun i h => hX i (List.mem_append_right _ h)) hf.2 rels hr ρ ρ' σ ha
    have e3 := assigned_rename m p
    rw [replaceIS, reWher]
    split
    · rename_i hs
      rw [Bool.and_eq_true] at hs
      rw [replaceIS_same m c hs.2] at e1
      rw [replaceIS_same m p hs.1] at e2
      simp only [exec, e1, e2]
    · simp only [exec, e1, e2, e3]
  | seq a c p ih1 ih2 =>
    intro hX hf rels hr ρ ρ' σ ha
    rw [Stmt.ivars] at hX
    rw [Stmt.freeOf] at hf
    have e1 := fun σ => ih1 (fun i h => hX i (List.mem_append_left _ h)) hf.1 rels hr ρ ρ' σ ha
    have e2 := fun σ => ih2 (fun i h => hX i (List.mem_append_right _ h)) hf.2 rels hr ρ ρ' σ ha
    rw [replaceIS, reSeq]
    split
    · rename_i hs
      rw [Bool.and_eq_true] at hs
      rw [replaceIS_same m c hs.1] at e1
      rw [replaceIS_same m p hs.2] at e2
      simp only [exec, e1, e2]
    · simp only [exec, e1, e2]
  | assemble a c p rs ih1 ih2 =>
    intro hX hf rels hr ρ ρ' σ ha
    rw [Stmt.ivars] at hX
    rw [Stmt.freeOf] at hf
    have e1 := fun σ => ih1 (fun i h => hX i (List.mem_append_left _ h)) hf.1 rels hr ρ ρ' σ ha
    have e2 := fun σ => ih2 (fun i h => hX i (List.mem_append_right _ h)) hf.2 rels hr ρ ρ' σ ha
    rw [replaceIS, reAssemble]
    split
    · rename_i hs
      rw [Bool.and_eq_true] at hs
      rw [replaceIS_same m c hs.1] at e1
      rw [replaceIS_same m p hs.2] at e2
      simp only [exec, e1, e2]
    · simp only [exec, e1, e2]
  | multi a c p ih1 ih2 =>
    intro hX hf rels hr ρ ρ' σ ha
    rw [Stmt.ivars] at hX
    rw [Stmt.freeOf] at hf
    have e1 := fun σ => ih1 (fun i h => hX i (List.mem_append_left _ h)) hf.1 rels hr ρ ρ' σ ha
    have e2 := fun σ => ih2 (fun i h => hX i (List.mem_append_right _ h)) hf.2 rels hr ρ ρ' σ ha
    rw [replaceIS, reMulti]
    split
    · rename_i hs
      rw [Bool.and_eq_true] at hs
      rw [replaceIS_same m c hs.1] at e1
      rw [replaceIS_same m p hs.2] at e2
      simp only [exec, e1, e2]
    · simp only [exec, e1, e2]
  | such a s ps ih =>
    intro hX hf rels hr ρ ρ' σ ha
    rw [Stmt.ivars] at hX
    rw [Stmt.freeOf] at hf
    have e1 := ih (fun i h => hX i (List.mem_append_right _ h)) hf.2 (ps ++ rels) (by
      intro i hi
      rw [relVars, List.flatMap_append, List.mem_append] at hi
      cases hi with
      | inl hi => exact ⟨hX i (List.mem_append_left _ hi), hf.1 i hi⟩
      | inr hi => exact hr i hi) ρ ρ' σ ha
    rw [replaceIS, reSuch]
    split
    · rename_i hs
      rw [replaceIS_same m s hs] at e1
      simp only [exec, e1]
    · simp only [exec, e1]

/-! ### Renaming tensors -/

theorem replaceTE_same (m : List (Nat × Nat)) (e : Expr) (h : same (replaceTE m e) e = true) :
    replaceTE m e = e := by
  cases e with
  | lit a v => rfl
  | ivar i => rfl
  | acc a t is ms st =>
    rw [replaceTE, replaceTAcc] at h ⊢
    split at h
    · rw [same_none rfl] at h; exact nomatch h
    · rfl
  | un a op e =>
    rw [replaceTE, reUn] at h ⊢
    split at h
    · rename_i hn; rw [if_pos hn]
    · rw [same_none rfl] at h; exact nomatch h
  | bin a op e f =>
    rw [replaceTE, reBin] at h ⊢
    split at h
    · rename_i hn; rw [if_pos hn]
    · rw [same_none rfl] at h; exact nomatch h
  | cast a ty e =>
    rw [replaceTE, reCast] at h ⊢
    split at h
    · rename_i hn; rw [if_pos hn]
    · rw [same_none rfl] at h; exact nomatch h
  | call a f es =>
    rw [replaceTE, reCall] at h ⊢
    split at h
    · rename_i hn; rw [if_pos hn]
    · rw [same_none rfl] at h; exact nomatch h
  | red a op i e =>
    rw [replaceTE, reRed] at h ⊢
    split at h
    · rename_i hn; rw [if_pos hn]
    · rw [same_none rfl] at h; exact nomatch h

theorem replaceTArgs_same (m : List (Nat × Nat)) : ∀ (es : Args),
    sameArgs (replaceTArgs m es) es = true → replaceTArgs m es = es
  | .nil, _ => rfl
  | .cons e es, h => by
    rw [replaceTArgs, sameArgs, Bool.and_eq_true] at h
    rw [replaceTArgs, replaceTE_same m e h.1, replaceTArgs_same m es h.2]

theorem replaceTS_same (m : List (Nat × Nat)) (s : Stmt) (h : sameS (replaceTS m s) s = true) :
    replaceTS m s = s := by
  cases s with
  | assign a l op e =>
    rw [replaceTS, replaceTAssign] at h ⊢
    cases hl : m.lookup l.t with
    | some t' => simp only [hl] at h; rw [sameS_none rfl] at h; exact nomatch h
    | none =>
      simp only [hl, reAssign] at h ⊢
      split at h
      · rename_i hn; rw [if_pos hn]
      · rw [sameS_none rfl] at h; exact nomatch h
  | yield a is e =>
    rw [replaceTS, reYield] at h ⊢
    split at h
    · rename_i hn; rw [if_pos hn]
    · rw [sameS_none rfl] at h; exact nomatch h
  | loop a i at' s =>
    rw [replaceTS, reLoop] at h ⊢
    split at h
    · rename_i hn; rw [if_pos hn]
    · rw [sameS_none rfl] at h; exact nomatch h
  | wher a c p =>
    rw [replaceTS, reWher] at h ⊢
    split at h
    · rename_i hn; rw [if_pos hn]
    · rw [sameS_none rfl] at h; exact nomatch h
  | seq a c p =>
    rw [replaceTS, reSeq] at h ⊢
    split at h
    · rename_i hn; rw [if_pos hn]
    · rw [sameS_none rfl] at h; exact nomatch h
  | assemble a c p rs =>
    rw [replaceTS, reAssemble] at h ⊢
    split at h
    · rename_i hn; rw [if_pos hn]
    · rw [sameS_none rfl] at h; exact nomatch h
  | multi a c p =>
    rw [replaceTS, reMulti] at h ⊢
    split at h
    · rename_i hn; rw [if_pos hn]
    · rw [sameS_none rfl] at h; exact nomatch h
  | such a s ps =>
    rw [replaceTS, reSuch] at h ⊢
    split at h
    · rename_i hn; rw [if_pos hn]
    · rw [sameS_none rfl] at h; exact nomatch h

theorem renames_of_lookup {m : List (Nat × Nat)} {t t' : Nat} (h : m.lookup t = some t') :
    renames m t = true := by rw [← lookup_isSome, h]; rfl

theorem renames_of_none {m : List (Nat × Nat)} {t : Nat} (h : m.lookup t = none) :
    renames m t = false := by rw [← lookup_isSome, h]; rfl

mutual
theorem eval_tensors {m : List (Nat × Nat)} (dim : Nat → Nat) {X : List Nat} (M : Sem V)
    (rels : List Rel) {σ τ : St V} (hS : Same (renamed m) X σ τ) :
    ∀ (e : Expr), (∀ t ∈ e.tensors, t ∈ X) → e.plainOn (renames m) → ∀ (ρ : Env),
      eval M dim rels τ ρ (replaceTE m e) = eval M dim rels σ ρ e
  | .lit a v, _, _, ρ => rfl
  | .ivar i, _, _, ρ => rfl
  | .acc a t is ms st, hX, hp, ρ => by
    have ht := hS.1 t (hX t (by simp [Expr.tensors]))
    rw [Expr.plainOn] at hp
    rw [replaceTE, replaceTAcc]
    split
    · rename_i t' hl
      obtain ⟨h1, h2⟩ := hp (renames_of_lookup hl)
      subst h1; subst h2
      rw [renamed_of_lookup hl] at ht
      simp only [eval, ht.1]
      rfl
    · rename_i hl
      rw [renamed_of_not (renames_of_none hl)] at ht
      simp only [eval, ht.1, ht.2]
  | .un a op e, hX, hp, ρ => by
    rw [Expr.tensors] at hX
    rw [Expr.plainOn] at hp
    have ih := eval_tensors dim M rels hS e hX hp ρ
    rw [replaceTE, reUn]
    split
    · rename_i hs
      rw [replaceTE_same m e hs] at ih
      simp only [eval, ih]
    · simp only [eval, ih]
  | .bin a op e f, hX, hp, ρ => by
    rw [Expr.tensors] at hX
    rw [Expr.plainOn] at hp
    have ih := eval_tensors dim M rels hS e (fun i h => hX i (List.mem_append_left _ h)) hp.1 ρ
    have ih2 := eval_tensors dim M rels hS f (fun i h => hX i (List.mem_append_right _ h)) hp.2 ρ
    rw [replaceTE, reBin]
    split
    · rename_i hs
      rw [Bool.and_eq_true] at hs
      rw [replaceTE_same m e hs.1] at ih
      rw [replaceTE_same m f hs.2] at ih2
      simp only [eval, ih, ih2]
    · simp only [eval, ih, ih2]
  | .cast a ty e, hX, hp, ρ => by
    rw [Expr.tensors] at hX
    rw [Expr.plainOn] at hp
    have ih := eval_tensors dim M rels hS e hX hp ρ
    rw [replaceTE, reCast]
    split
    · rename_i hs
      rw [replaceTE_same m e hs] at ih
      simp only [eval, ih]
    · simp only [eval, ih]
  | .call a f es, hX, hp, ρ => by
    rw [Expr.tensors] at hX
    rw [Expr.plainOn] at hp
    have ih := evalArgs_tensors dim M rels hS es hX hp ρ
    rw [replaceTE, reCall]
    split
    · rename_i hs
      rw [replaceTArgs_same m es hs] at ih
      simp only [eval, ih]
    · simp only [eval, ih]
  | .red a op i e, hX, hp, ρ => by
    rw [Expr.tensors] at hX
    rw [Expr.plainOn] at hp
    have ih := fun v => eval_tensors dim M rels hS e hX hp (ρ.set i v)
    rw [replaceTE, reRed]
    split
    · rename_i hs
      rw [replaceTE_same m e hs] at ih
      simp only [eval, ih]
    · simp only [eval, ih]
theorem evalArgs_tensors {m : List (Nat × Nat)} (dim : Nat → Nat) {X : List Nat} (M : Sem V)
    (rels : List Rel) {σ τ : St V} (hS : Same (renamed m) X σ τ) :
    ∀ (es : Args), (∀ t ∈ es.tensors, t ∈ X) → es.plainOn (renames m) → ∀ (ρ : Env),
      evalArgs M dim rels τ ρ (replaceTArgs m es) = evalArgs M dim rels σ ρ es
  | .nil, _, _, _ => rfl
  | .cons e es, hX, hp, ρ => by
    rw [Args.tensors] at hX
    rw [Args.plainOn] at hp
    rw [replaceTArgs, evalArgs, evalArgs,
      eval_tensors dim M rels hS e (fun i h => hX i (List.mem_append_left _ h)) hp.1 ρ,
      evalArgs_tensors dim M rels hS es (fun i h => hX i (List.mem_append_right _ h)) hp.2 ρ]
end

theorem assigned_sub (s : Stmt) : ∀ t ∈ s.assigned, t ∈ s.tensors := by
  induction s with
  | assign a l op e => intro t ht; simp only [Stmt.assigned, List.mem_singleton] at ht; subst ht; simp [Stmt.tensors]
  | yield a is e => intro t ht; exact nomatch ht
  | loop a i at' s ih => exact ih
  | wher a c p ih1 ih2 => intro t ht; exact List.mem_append_left _ (ih1 t ht)
  | seq a c p ih1 ih2 =>
    intro t ht
    rw [Stmt.assigned, List.mem_append] at ht
    rw [Stmt.tensors, List.mem_append]
    exact ht.imp (ih1 t) (ih2 t)
  | assemble a c p rs ih1 ih2 =>
    intro t ht
    exact List.mem_append_right _ (List.mem_append_right _ (ih2 t ht))
  | multi a c p ih1 ih2 =>
    intro t ht
    rw [Stmt.assigned, List.mem_append] at ht
    rw [Stmt.tensors, List.mem_append]
    exact ht.imp (ih1 t) (ih2 t)
  | such a s ps ih => exact ih

theorem assigned_tensors (m : List (Nat × Nat)) (s : Stmt) :
    (replaceTS m s).assigned = s.assigned.map (renamed m) := by
  induction s with
  | assign a l op e =>
    rw [replaceTS, replaceTAssign]
    split
    · rename_i t' hl
      simp [Stmt.assigned, renamed_of_lookup hl]
    · rename_i hl
      rw [reAssign]
      split <;> simp [Stmt.assigned, renamed_of_not (renames_of_none hl)]
  | yield a is e => rw [replaceTS, reYield]; split <;> rfl
  | loop a i at' s ih =>
    rw [replaceTS, reLoop]
    split
    · rename_i hs; rw [replaceTS_same m s hs] at ih; exact ih
    · exact ih
  | wher a c p ih1 ih2 =>
    rw [replaceTS, reWher]
    split
    · rename_i hs
      rw [Bool.and_eq_true] at hs
      rw [replaceTS_same m c hs.2] at ih1; exact ih1
    · exact ih1
  | seq a c p ih1 ih2 =>
    rw [replaceTS, reSeq]
    split
    · rename_i hs
      rw [Bool.and_eq_true] at hs
      rw [replaceTS_same m c hs.1] at ih1
      rw [replaceTS_same m p hs.2] at ih2
      simp only [Stmt.assigned, List.map_append, ← ih1, ← ih2]
    · simp only [Stmt.assigned, List.map_append, ih1, ih2]
  | assemble a c p rs ih1 ih2 =>
    rw [replaceTS, reAssemble]
    split
    · rename_i hs
      rw [Bool.and_eq_true] at hs
      rw [replaceTS_same m p hs.2] at ih2; exact ih2
    · exact ih2
  | multi a c p ih1 ih2 =>
    rw [replaceTS, reMulti]
    split
    · rename_i hs
      rw [Bool.and_eq_true] at hs
      rw [replaceTS_same m c hs.1] at ih1
      rw [replaceTS_same m p hs.2] at ih2
      simp only [Stmt.assigned, List.map_append, ← ih1, ← ih2]
    · simp only [Stmt.assigned, List.map_append, ih1, ih2]
  | such a s ps ih =>
    rw [replaceTS, reSuch]
    split
    · rename_i hs; rw [replaceTS_same m s hs] at ih; exact ih
    · exact ih

theorem Same.put {g : Nat → Nat} {X : List Nat} {σ τ : St V} (h : Same g X σ τ) (hg : InjOn g X)
    {t : Nat} (ht : t ∈ X) (c : List Nat) (v : V) : Same g X (put σ t c v) (put τ (g t) c v) := by
  refine ⟨fun t' ht' => ⟨?_, (h.1 t' ht').2⟩, h.2⟩
  funext c'
  simp only [Replace.put]
  by_cases hc : t' = t ∧ c' = c
  · rw [if_pos hc, if_pos ⟨by rw [hc.1], hc.2⟩]
  · rw [if_neg hc, if_neg (fun hn => hc ⟨hg t' ht' t ht hn.1, hn.2⟩), (h.1 t' ht').1]

theorem mem_map_inj {g : Nat → Nat} {X : List Nat} (hg : InjOn g X) {l : List Nat}
    (hl : ∀ t ∈ l, t ∈ X) {t : Nat} (ht : t ∈ X) : g t ∈ l.map g ↔ t ∈ l := by
  constructor
  · intro h
    obtain ⟨u, hu, he⟩ := List.mem_map.1 h
    rw [← hg u (hl u hu) t ht he]; exact hu
  · exact fun h => List.mem_map.2 ⟨t, h, rfl⟩

theorem Same.clear {g : Nat → Nat} {X : List Nat} {σ τ : St V} (h : Same g X σ τ) (hg : InjOn g X)
    {l : List Nat} (hl : ∀ t ∈ l, t ∈ X) (z : V) :
    Same g X (clear z l σ) (clear z (l.map g) τ) := by
  refine ⟨fun t ht => ⟨?_, (h.1 t ht).2⟩, h.2⟩
  simp only [Replace.clear, mem_map_inj hg hl ht, (h.1 t ht).1]

theorem Same.restore {g : Nat → Nat} {X : List Nat} {σ τ σ' τ' : St V} (h : Same g X σ τ)
    (h' : Same g X σ' τ') (hg : InjOn g X) {l : List Nat} (hl : ∀ t ∈ l, t ∈ X) :
    Same g X (restore l σ σ') (restore (l.map g) τ τ') := by
  refine ⟨fun t ht => ⟨?_, (h'.1 t ht).2⟩, h'.2⟩
  simp only [Replace.restore, mem_map_inj hg hl ht, (h.1 t ht).1, (h'.1 t ht).1]

theorem Same.setUp {g : Nat → Nat} {X : List Nat} {σ τ : St V} (h : Same g X σ τ) (hg : InjOn g X)
    {rs : List (Nat × Nat)} (hr : ∀ r ∈ rs, r.1 ∈ X ∧ r.2 ∈ X ∧ g r.1 = r.1 ∧ g r.2 = r.2)
    (isZero : V → Bool) (z : V) : Same g X (setUp isZero z rs σ) (setUp isZero z rs τ) := by
  have key : ∀ (l : List (Nat × Nat)), (∀ r ∈ l, r.1 ∈ X ∧ r.2 ∈ X ∧ g r.1 = r.1 ∧ g r.2 = r.2) →
      ∀ (σ' τ' : St V), Same g X σ' τ' →
      Same g X
        (l.foldl (fun υ r => { υ with
          val := fun t => if t = r.1 then fun _ => z else υ.val t
          stored := fun t => if t = r.1 then fun c => !isZero (σ.val r.2 c) else υ.stored t }) σ')
        (l.foldl (fun υ r => { υ with
          val := fun t => if t = r.1 then fun _ => z else υ.val t
          stored := fun t => if t = r.1 then fun c => !isZero (τ.val r.2 c) else υ.stored t }) τ') := by
    intro l
    induction l with
    | nil => intro _ σ' τ' h'; exact h'
    | cons r l ih =>
      intro hl σ' τ' h'
      rw [List.foldl_cons, List.foldl_cons]
      apply ih (fun r' hr' => hl r' (List.mem_cons_of_mem _ hr'))
      obtain ⟨h1, h2, h3, h4⟩ := hl r List.mem_cons_self
      refine ⟨fun t ht => ?_, h'.2⟩
      have hiff : g t = r.1 ↔ t = r.1 := by
        constructor
        · intro he; exact hg t ht r.1 h1 (by rw [h3]; exact he)
        · intro he; rw [he]; exact h3
      have hq : τ.val r.2 = σ.val r.2 := by
        have := (h.1 r.2 h2).1
        rw [h4] at this; exact this
      simp only [hiff, (h'.1 t ht).1, (h'.1 t ht).2, hq]
      exact ⟨trivial, trivial⟩
  exact key rs hr σ τ h

theorem exec_tensors {m : List (Nat × Nat)} {dim : Nat → Nat} {X : List Nat} (M : Sem V)
    (z : V → Bool) (hg : InjOn (renamed m) X) (s : Stmt) :
    (∀ t ∈ s.tensors, t ∈ X) → s.plainOn (renames m) → ∀ (rels : List Rel) (ρ : Env) (σ τ : St V),
      Same (renamed m) X σ τ →
      Same (renamed m) X (exec M z dim s rels ρ σ) (exec M z dim (replaceTS m s) rels ρ τ) := by
  induction s with
  | assign a l op e =>
    intro hX hp rels ρ σ τ hS
    rw [Stmt.tensors] at hX
    rw [Stmt.plainOn] at hp
    have ih := eval_tensors dim M rels hS e (fun t h => hX t (List.mem_cons_of_mem _ h)) hp.2 ρ
    have ht := hX l.t List.mem_cons_self
    have hv := (hS.1 l.t ht).1
    rw [replaceTS, replaceTAssign]
    split
    · rename_i t' hl
      have hm := hp.1 (renames_of_lookup hl)
      rw [renamed_of_lookup hl] at hv
      simp only [exec, hm, ih, hv]
      split
      · rw [← renamed_of_lookup hl]; exact hS.put hg ht _ _
      · exact hS
    · rename_i hl
      have hn := renamed_of_not (renames_of_none hl)
      rw [hn] at hv
      rw [reAssign]
      have hput : ∀ c v, Same (renamed m) X (put σ l.t c v) (put τ l.t c v) := by
        intro c v
        have := hS.put hg ht c v
        rw [hn] at this; exact this
      split
      · rename_i hs
        rw [replaceTE_same m e hs] at ih
        simp only [exec, ih, hv]
        split
        · exact hput _ _
        · exact hS
      · simp only [exec, ih, hv]
        split
        · exact hput _ _
        · exact hS
  | yield a is e =>
    intro hX hp rels ρ σ τ hS
    rw [Stmt.tensors] at hX
    rw [Stmt.plainOn] at hp
    have ih := eval_tensors dim M rels hS e hX hp ρ
    rw [replaceTS, reYield]
    split
    · rename_i hs
      rw [replaceTE_same m e hs] at ih
      exact ⟨hS.1, by simp only [exec, ih, hS.2]⟩
    · exact ⟨hS.1, by simp only [exec, ih, hS.2]⟩
  | loop a i at' s ih =>
    intro hX hp rels ρ σ τ hS
    rw [Stmt.tensors] at hX
    rw [Stmt.plainOn] at hp
    have key : ∀ (l : List Nat) (σ τ : St V), Same (renamed m) X σ τ →
        Same (renamed m) X (l.foldl (fun σ v => exec M z dim s rels (ρ.set i v) σ) σ)
          (l.foldl (fun σ v => exec M z dim (replaceTS m s) rels (ρ.set i v) σ) τ) := by
      intro l
      induction l with
      | nil => intro σ τ h; exact h
      | cons v l ihl => intro σ τ h; exact ihl _ _ (ih hX hp rels _ σ τ h)
    rw [replaceTS, reLoop]
    split
    · rename_i hs
      rw [replaceTS_same m s hs] at key
      exact key _ σ τ hS
    · exact key _ σ τ hS
  | wher a c p ih1 ih2 =>
    intro hX hp rels ρ σ τ hS
    rw [Stmt.tensors] at hX
    rw [Stmt.plainOn] at hp
    have ha : ∀ t ∈ p.assigned, t ∈ X := fun t ht => hX t (List.mem_append_right _ (assigned_sub p t ht))
    have e2 := ih2 (fun t h => hX t (List.mem_append_right _ h)) hp.2 rels ρ _ _ (hS.clear hg ha M.zero)
    have e1 := ih1 (fun t h => hX t (List.mem_append_left _ h)) hp.1 rels ρ _ _ e2
    have e3 := hS.restore e1 hg ha
    rw [← assigned_tensors] at e3
    rw [replaceTS, reWher]
    split
    · rename_i hs
      rw [Bool.and_eq_true] at hs
      rw [replaceTS_same m c hs.2, replaceTS_same m p hs.1] at e3
      exact e3
    · exact e3
  | seq a c p ih1 ih2 =>
    intro hX hp rels ρ σ τ hS
    rw [Stmt.tensors] at hX
    rw [Stmt.plainOn] at hp
    have e1 := ih1 (fun t h => hX t (List.mem_append_left _ h)) hp.1 rels ρ _ _ hS
    have e2 := ih2 (fun t h => hX t (List.mem_append_right _ h)) hp.2 rels ρ _ _ e1
    rw [replaceTS, reSeq]
    split
    · rename_i hs
      rw [Bool.and_eq_true] at hs
      rw [replaceTS_same m c hs.1, replaceTS_same m p hs.2] at e2
      exact e2
    · exact e2
  | assemble a c p rs ih1 ih2 =>
    intro hX hp rels ρ σ τ hS
    rw [Stmt.tensors] at hX
    rw [Stmt.plainOn] at hp
    have e1 := ih1 (fun t h => hX t (List.mem_append_right _ (List.mem_append_left _ h))) hp.2.1
      rels ρ _ _ hS
    have e3 := e1.setUp hg (rs := rs) (fun r hr => by
      have hmem : ∀ x, x = r.1 ∨ x = r.2 → x ∈ X := fun x hx =>
        hX x (List.mem_append_left _ (List.mem_flatMap.2 ⟨r, hr, by cases hx <;> simp [*]⟩))
      exact ⟨hmem _ (Or.inl rfl), hmem _ (Or.inr rfl), renamed_of_not (hp.1 r hr).1,
        renamed_of_not (hp.1 r hr).2⟩) z M.zero
    have e2 := ih2 (fun t h => hX t (List.mem_append_right _ (List.mem_append_right _ h))) hp.2.2
      rels ρ _ _ e3
    rw [replaceTS, reAssemble]
    split
    · rename_i hs
      rw [Bool.and_eq_true] at hs
      rw [replaceTS_same m c hs.1, replaceTS_same m p hs.2] at e2
      exact e2
    · exact e2
  | multi a c p ih1 ih2 =>
    intro hX hp rels ρ σ τ hS
    rw [Stmt.tensors] at hX
    rw [Stmt.plainOn] at hp
    have e1 := ih1 (fun t h => hX t (List.mem_append_left _ h)) hp.1 rels ρ _ _ hS
    have e2 := ih2 (fun t h => hX t (List.mem_append_right _ h)) hp.2 rels ρ _ _ e1
    rw [replaceTS, reMulti]
    split
    · rename_i hs
      rw [Bool.and_eq_true] at hs
      rw [replaceTS_same m c hs.1, replaceTS_same m p hs.2] at e2
      exact e2
    · exact e2
  | such a s ps ih =>
    intro hX hp rels ρ σ τ hS
    rw [Stmt.tensors] at hX
    rw [Stmt.plainOn] at hp
    have e1 := ih hX hp (ps ++ rels) ρ _ _ hS
    rw [replaceTS, reSuch]
    split
    · rename_i hs
      rw [replaceTS_same m s hs] at e1
      exact e1
    · exact e1

end Verif.Replace
