import Verif.Rewrite.Lemmas
/-! What every rewriting keeps: values, and the statements without their expressions; what it removes. -/
namespace Verif.Rewrite
open Verif.Types Model

variable {f : Expr → Option Expr} {g : Stmt → Option Stmt}

/-! ### Values -/

/-- What is shown about an expression and its rewriting. -/
structure SameVal {V : Type} (M : Meaning V) (σ : Nat → V) (e e' : Expr) : Prop where
  type : typeOf e' = typeOf e
  given : e ≠ .undef → e' ≠ .undef
  val : value M σ e' = value M σ e

theorem SameVal.refl {V : Type} (M : Meaning V) (σ : Nat → V) (e : Expr) : SameVal M σ e e := ⟨rfl, id, rfl⟩

theorem sameVal_over {V : Type} {M : Meaning V} {σ : Nat → V} {e new : Expr} {b : Bool}
    (hf : ∀ e', f e = some e' → SameVal M σ e e') (hn : f e = none → b = false → SameVal M σ e new) :
    SameVal M σ e (over (f e) (keepOr b e new)).1 := by
  cases h : f e with
  | some e' => exact hf e' h
  | none => cases b with
    | true => exact .refl M σ e
    | false => exact hn h rfl

theorem sameVal_base {V : Type} {M : Meaning V} {σ : Nat → V} {e : Expr}
    (hf : ∀ e', f e = some e' → SameVal M σ e e') : SameVal M σ e (over (f e) (e, true)).1 := by
  cases h : f e with
  | some e' => exact hf e' h
  | none => exact .refl M σ e

mutual
theorem rwE_value {V : Type} {M : Meaning V} {σ : Nat → V} (hf : ∀ e e', BuiltE e → f e = some e' → SameVal M σ e e') :
    ∀ e : Expr, BuiltE e → SameVal M σ e (rwE f e).1
  | .undef, _ => .refl M σ _
  | .lit .., _ => by unfold rwE; exact sameVal_base (fun e' => hf _ e' (by simp only [BuiltE]))
  | .var .., _ => by unfold rwE; exact sameVal_base (fun e' => hf _ e' (by simp only [BuiltE]))
  | .sizeof _, _ => by unfold rwE; exact sameVal_base (fun e' => hf _ e' (by simp only [BuiltE]))
  | .un o ty a, hb => by
    have hb0 := hb
    simp only [BuiltE] at hb
    unfold rwE
    refine sameVal_over (fun e' => hf _ e' hb0) (fun _ _ => ?_)
    have ha := rwE_value hf a hb.2
    rw [makeUn_eq hb.1 ha.type]
    exact ⟨rfl, (fun _ h => nomatch h), by simp only [value, ha.val]⟩
  | .bin o ty a b, hb => by
    have hb0 := hb
    simp only [BuiltE] at hb
    unfold rwE
    refine sameVal_over (fun e' => hf _ e' hb0) (fun _ _ => ?_)
    have ha := rwE_value hf a hb.2.1
    have hb' := rwE_value hf b hb.2.2
    cases hx : isText o with
    | false =>
      rw [rebuildBin_eq hb.1 ha.type hb'.type hb'.given hx]
      exact ⟨rfl, (fun _ h => nomatch h), by simp only [value, ha.val, hb'.val]⟩
    | true =>
      cases o with
      | text p q r =>
        have hty : ty = .float64 := hb.1
        subst hty
        exact .refl M σ _
      | _ => cases hx
  | .many o ty l, hb => by
    have hb0 := hb
    simp only [BuiltE] at hb
    unfold rwE
    refine sameVal_over (fun e' => hf _ e' hb0) (fun _ _ => ?_)
    have hl := rwL_value hf l hb.2
    rw [makeMany_eq hb.1 hl.2]
    exact ⟨rfl, (fun _ h => nomatch h), by simp only [value, hl.1]⟩
  | .prop ty t p m i n, hb => by
    have hb0 := hb
    simp only [BuiltE] at hb
    unfold rwE
    refine sameVal_over (fun e' => hf _ e' hb0) (fun _ _ => ?_)
    have ht := rwE_value hf t hb.2
    unfold makeProp
    rw [ht.type, ← hb.1]
    exact ⟨rfl, (fun _ h => nomatch h), by simp only [value, ht.val]⟩
theorem rwL_value {V : Type} {M : Meaning V} {σ : Nat → V} (hf : ∀ e e', BuiltE e → f e = some e' → SameVal M σ e e') :
    ∀ l : List Expr, BuiltL l → values M σ (rwL f l).1 = values M σ l ∧
      ∀ a r, l = a :: r → ∃ a' r', (rwL f l).1 = a' :: r' ∧ typeOf a' = typeOf a
  | [], _ => ⟨rfl, fun _ _ h => nomatch h⟩
  | e :: l, hb => by
    simp only [BuiltL] at hb
    have he := rwE_value hf e hb.1
    refine ⟨by simp only [rwL, values, he.val, (rwL_value hf l hb.2).1], fun a r h => ?_⟩
    cases h
    exact ⟨_, _, rfl, he.type⟩
end

/-! ### The outline -/

/-- What is shown about a statement and its rewriting. -/
structure SameOut (s r : Stmt) : Prop where
  out : outline r = outline s
  scope : isScope r = isScope s
  empty : Empty r = Empty s
  given : given r = given s

theorem SameOut.refl (s : Stmt) : SameOut s s := ⟨rfl, rfl, rfl, rfl⟩

theorem sameOut_keep {s new : Stmt} {b : Bool} (h : SameOut s new) :
    SameOut s (over (nothing s) (keepOr b s new)).1 := by
  cases b with
  | true => exact .refl s
  | false => exact h

theorem outline_inScope {s : Stmt} (h : isScope s = true) : outline (inScope s) = outline s := by
  rw [inScope_scope h]

theorem outlines_filter (l : List Stmt) (h : ∀ s ∈ l, Empty s = false) :
    outlines (l.filter (fun s => !Empty s)) = outlines l := by rw [filter_full h]

theorem isScope_inScope (s : Stmt) : isScope (inScope s) = true := by cases s <;> rfl

/-- What is shown about lists of statements. -/
structure SameOuts (l r : List Stmt) : Prop where
  out : outlines r = outlines l
  length : r.length = l.length
  scope : (∀ s ∈ l, isScope s = true) → ∀ s ∈ r, isScope s = true
  full : (∀ s ∈ l, Empty s = false) → ∀ s ∈ r, Empty s = false

mutual
theorem rwS_outline : ∀ s : Stmt, BuiltS s → SameOut s (rwS f nothing s).1
  | .undef, _ => .refl _
  | .comment _, _ => .refl _
  | .blank, _ => .refl _
  | .continue, _ => .refl _
  | .break, _ => .refl _
  | .block l, hb => by
    simp only [BuiltS] at hb
    unfold rwS
    refine sameOut_keep ?_
    have hl := rwSs_outline l hb.2
    rw [makeBlock_eq, filter_full (hl.full hb.1)]
    refine ⟨hl.out, rfl, ?_, rfl⟩
    have hlen := hl.length
    cases h : (rwSs f nothing l).1 with
    | nil => rw [h] at hlen; cases l with
      | nil => rfl
      | cons => cases hlen
    | cons x xs => rw [h] at hlen; cases l with
      | nil => cases hlen
      | cons => rfl
  | .scope s, hb => by
    simp only [BuiltS] at hb
    unfold rwS
    refine sameOut_keep ?_
    have hs := rwS_outline s hb.2
    rw [makeScope_eq, inScope_other (hs.scope.trans hb.1)]
    exact ⟨by simp only [outline, hs.out], rfl, rfl, rfl⟩
  | .store .., _ => by unfold rwS; exact sameOut_keep ⟨rfl, rfl, rfl, rfl⟩
  | .ite c a b, hb => by
    simp only [BuiltS] at hb
    unfold rwS
    refine sameOut_keep ?_
    have ha := rwS_outline a hb.2.2.2.1
    have hb' := rwS_outline b hb.2.2.2.2
    unfold makeIte
    rw [makeScope_eq, other_eq, inScope_scope (ha.scope.trans hb.2.1)]
    have ho : otherBranch (rwS f nothing b).1 = (rwS f nothing b).1 := by
      apply other_same
      rcases hb.2.2.1 with h | h
      · exact Or.inl (hb'.scope.trans h)
      · right; subst h; rfl
    rw [ho]
    exact ⟨by simp only [outline, ha.out, hb'.out, hb'.given], rfl, rfl, rfl⟩
  | .case cs bs al, hb => by
    simp only [BuiltS] at hb
    unfold rwS
    refine sameOut_keep ?_
    have hl := rwSs_outline bs hb.2.2
    unfold makeCase
    rw [(funext makeScope_eq : makeScope = inScope), map_inScope (hl.scope hb.2.1)]
    exact ⟨by simp only [outline, hl.out, hl.length], rfl, rfl, rfl⟩
  | .switch cs bs e, hb => by
    simp only [BuiltS] at hb
    unfold rwS
    refine sameOut_keep ?_
    have hl := rwSs_outline bs hb.2.2.2
    unfold makeSwitch
    rw [(funext makeScope_eq : makeScope = inScope), map_inScope (hl.scope hb.2.2.1)]
    exact ⟨by simp only [outline, hl.out, hl.length], rfl, rfl, rfl⟩
  | .loop x a b c s k u n w, hb => by
    simp only [BuiltS] at hb
    unfold rwS
    refine sameOut_keep ?_
    have hs := rwS_outline s hb.2.2.2.2.2
    unfold makeFor
    rw [makeScope_eq, inScope_scope (hs.scope.trans hb.2.2.2.2.1)]
    exact ⟨by simp only [outline, hs.out], rfl, rfl, rfl⟩
  | .while c s k w, hb => by
    simp only [BuiltS] at hb
    unfold rwS
    refine sameOut_keep ?_
    have hs := rwS_outline s hb.2.2
    unfold makeWhile
    rw [makeScope_eq, inScope_scope (hs.scope.trans hb.2.1)]
    exact ⟨by simp only [outline, hs.out], rfl, rfl, rfl⟩
  | .func n os is s, hb => by
    simp only [BuiltS] at hb
    unfold rwS
    refine sameOut_keep ?_
    have hs := rwS_outline s hb.2.2.2
    unfold makeFunc
    rw [makeScope_eq, inScope_scope (hs.scope.trans hb.2.2.1)]
    exact ⟨by simp only [outline, hs.out], rfl, rfl, rfl⟩
  | .decl .., _ => by unfold rwS; exact sameOut_keep ⟨rfl, rfl, rfl, rfl⟩
  | .assign .., _ => by unfold rwS; exact sameOut_keep ⟨rfl, rfl, rfl, rfl⟩
  | .yield .., _ => by unfold rwS; exact sameOut_keep ⟨rfl, rfl, rfl, rfl⟩
  | .alloc .., _ => by unfold rwS; exact sameOut_keep ⟨rfl, rfl, rfl, rfl⟩
  | .free .., _ => by unfold rwS; exact sameOut_keep ⟨rfl, rfl, rfl, rfl⟩
  | .print .., _ => by unfold rwS; exact sameOut_keep ⟨rfl, rfl, rfl, rfl⟩
  | .sort .., _ => by unfold rwS; exact sameOut_keep ⟨rfl, rfl, rfl, rfl⟩
theorem rwSs_outline : ∀ l : List Stmt, BuiltSs l → SameOuts l (rwSs f nothing l).1
  | [], _ => ⟨rfl, rfl, fun h => h, fun h => h⟩
  | s :: l, hb => by
    simp only [BuiltSs] at hb
    have hs := rwS_outline s hb.1
    have hl := rwSs_outline l hb.2
    simp only [rwSs]
    refine ⟨by simp only [outlines, hs.out, hl.out], by simp only [List.length_cons, hl.length], fun h t ht => ?_,
      fun h t ht => ?_⟩
    · rcases List.mem_cons.1 ht with rfl | ht
      · exact hs.scope.trans (h s List.mem_cons_self)
      · exact hl.scope (fun t ht => h t (List.mem_cons_of_mem _ ht)) t ht
    · rcases List.mem_cons.1 ht with rfl | ht
      · exact hs.empty.trans (h s List.mem_cons_self)
      · exact hl.full (fun t ht => h t (List.mem_cons_of_mem _ ht)) t ht
end

/-! ### Replaced variables -/

theorem instead_none {x : Nat} {r e : Expr} (h : instead x r e = none) : ∀ y ty n, e = .var y ty n → ¬ (x = y ∧ typeOf r = ty) := by
  intro y ty n he hc
  subst he
  simp only [instead, hc.1, hc.2, and_self, if_true] at h
  cases h

mutual
theorem replE_gone {x : Nat} {r : Expr} (hr : occE x (typeOf r) r = false) :
    ∀ e, occE x (typeOf r) (replE (instead x r) e) = false
  | .undef => rfl
  | .lit .. => rfl
  | .sizeof _ => rfl
  | .var y ty n => by
    unfold replE
    by_cases h : x = y ∧ typeOf r = ty
    · have : instead x r (.var y ty n) = some r := by simp only [instead, h.1, h.2, and_self, if_true]
      rw [this]; exact hr
    · have : instead x r (.var y ty n) = none := by simp only [instead, h, if_false]
      rw [this]
      show (x == y && typeOf r == ty) = false
      rw [Bool.and_eq_false_iff, beq_eq_false_iff_ne, beq_eq_false_iff_ne]
      by_cases h1 : x = y
      · exact Or.inr (fun h2 => h ⟨h1, h2⟩)
      · exact Or.inl h1
  | .un o ty a => replE_gone hr a
  | .bin o ty a b => by
    show (occE x (typeOf r) (replE (instead x r) a) || occE x (typeOf r) (replE (instead x r) b)) = false
    rw [replE_gone hr a, replE_gone hr b]; rfl
  | .many o ty l => replL_gone hr l
  | .prop ty t p m i n => replE_gone hr t
theorem replL_gone {x : Nat} {r : Expr} (hr : occE x (typeOf r) r = false) :
    ∀ l, occL x (typeOf r) (replL (instead x r) l) = false
  | [] => rfl
  | e :: l => by
    show (occE x (typeOf r) (replE (instead x r) e) || occL x (typeOf r) (replL (instead x r) l)) = false
    rw [replE_gone hr e, replL_gone hr l]; rfl
end

theorem occ_inScope (x : Nat) (k : Kind) (s : Stmt) : occS x k (inScope s) = occS x k s := by cases s <;> rfl
theorem occ_other (x : Nat) (k : Kind) (s : Stmt) : occS x k (otherBranch s) = occS x k s := by cases s <;> rfl
theorem occ_map (x : Nat) (k : Kind) (l : List Stmt) : occSs x k (l.map inScope) = occSs x k l := by
  induction l with
  | nil => rfl
  | cons s l ih => simp only [List.map_cons, occSs, occ_inScope, ih]
theorem occ_filter (x : Nat) (k : Kind) (p : Stmt → Bool) (l : List Stmt) (h : occSs x k l = false) :
    occSs x k (l.filter p) = false := by
  induction l with
  | nil => rfl
  | cons s l ih =>
    simp only [occSs, Bool.or_eq_false_iff] at h
    rw [List.filter_cons]
    split
    · simp only [occSs, h.1, ih h.2, Bool.or_false]
    · exact ih h.2

/-- The statement that a pass puts here does not mention the variable. -/
def Clean (g : Stmt → Option Stmt) (x : Nat) (k : Kind) : Prop := ∀ s s', g s = some s' → occS x k s' = false

theorem gone_over {x : Nat} {k : Kind} {s s' : Stmt} (hg : Clean g x k) (h : occS x k s' = false) :
    occS x k (orElse (g s) s') = false := by
  cases hs : g s with
  | none => exact h
  | some t => exact hg _ _ hs

mutual
theorem replS_gone {x : Nat} {r : Expr} (hr : occE x (typeOf r) r = false) (hg : Clean g x (typeOf r)) :
    ∀ s, occS x (typeOf r) (replS (instead x r) g s) = false
  | .undef => rfl
  | .comment _ => gone_over hg rfl
  | .blank => gone_over hg rfl
  | .continue => gone_over hg rfl
  | .break => gone_over hg rfl
  | .block l => by unfold replS; exact gone_over hg (occ_filter _ _ _ _ (replSs_gone hr hg l))
  | .scope s => by unfold replS; refine gone_over hg ?_; rw [occ_inScope]; exact replS_gone hr hg s
  | .store a b c _ _ => by
    unfold replS; refine gone_over hg ?_; simp only [occS, replE_gone hr, Bool.or_false]
  | .ite c a b => by
    unfold replS; refine gone_over hg ?_
    simp only [occS, replE_gone hr, occ_inScope, occ_other, replS_gone hr hg a, replS_gone hr hg b, Bool.or_false]
  | .case cs bs _ => by
    unfold replS; refine gone_over hg ?_
    simp only [occS, replL_gone hr, occ_map, replSs_gone hr hg bs, Bool.or_false]
  | .switch cs bs e => by
    unfold replS; refine gone_over hg ?_
    simp only [occS, replE_gone hr, replL_gone hr, occ_map, replSs_gone hr hg bs, Bool.or_false]
  | .loop _ _ _ _ s _ _ _ _ => by
    unfold replS; refine gone_over hg ?_
    simp only [occS, replE_gone hr, occ_inScope, replS_gone hr hg s, Bool.or_false]
  | .while _ s _ _ => by
    unfold replS; refine gone_over hg ?_
    simp only [occS, replE_gone hr, occ_inScope, replS_gone hr hg s, Bool.or_false]
  | .func _ _ _ s => by
    unfold replS; refine gone_over hg ?_
    simp only [occS, replL_gone hr, occ_inScope, replS_gone hr hg s, Bool.or_false]
  | .decl .. => by unfold replS; refine gone_over hg ?_; simp only [occS, replE_gone hr, Bool.or_false]
  | .assign .. => by unfold replS; refine gone_over hg ?_; simp only [occS, replE_gone hr, Bool.or_false]
  | .yield .. => by unfold replS; refine gone_over hg ?_; simp only [occS, replE_gone hr, replL_gone hr, Bool.or_false]
  | .alloc .. => by unfold replS; refine gone_over hg ?_; simp only [occS, replE_gone hr, Bool.or_false]
  | .free _ => by unfold replS; refine gone_over hg ?_; simp only [occS, replE_gone hr]
  | .print .. => by unfold replS; refine gone_over hg ?_; simp only [occS, replL_gone hr]
  | .sort _ => by unfold replS; refine gone_over hg ?_; simp only [occS, replL_gone hr]
theorem replSs_gone {x : Nat} {r : Expr} (hr : occE x (typeOf r) r = false) (hg : Clean g x (typeOf r)) :
    ∀ l, occSs x (typeOf r) (replSs (instead x r) g l) = false
  | [] => rfl
  | s :: l => by
    show (occS x (typeOf r) (replS (instead x r) g s) || occSs x (typeOf r) (replSs (instead x r) g l)) = false
    rw [replS_gone hr hg s, replSs_gone hr hg l]; rfl
end

theorem instead_types {x : Nat} {r : Expr} (hr : r ≠ .undef) : KeepsTypes (instead x r) := by
  intro e e' _ h
  cases e with
  | var y ty n =>
    simp only [instead] at h
    split at h
    · rename_i hc
      cases h
      exact ⟨hc.2, hr⟩
    · cases h
  | _ => cases h

theorem undeclare_clean (x y : Nat) (k l : Kind) : Clean (undeclare x k) y l := by
  intro s s' h
  unfold undeclare at h
  split at h
  · split at h
    · cases h; rfl
    · cases h
  · cases h

theorem nothing_clean (x : Nat) (k : Kind) : Clean nothing x k := fun _ _ h => nomatch h

/-! ### Workspaces -/

theorem append_inj_left {a b c : String} (h : a ++ c = b ++ c) : a = b := by
  have h' := congrArg String.toList h
  simp only [String.toList_append] at h'
  exact String.toList_inj.1 (List.append_cancel_right h')

theorem dimName_inj {a b : String} {m : Nat} (h : dimName a m = dimName b m) : a = b :=
  append_inj_left (append_inj_left h)

theorem findTemp_none {ts : List Temp} {n : String} {m : Nat} (h : ∀ t ∈ ts, t.name ≠ n) :
    findTemp m (dimName n m) ts = none := by
  induction ts with
  | nil => rfl
  | cons t ts ih =>
    have h' := ih (fun t ht => h t (List.mem_cons_of_mem _ ht))
    unfold findTemp
    split
    · rw [if_neg]
      · exact h'
      · intro hc
        exact h t List.mem_cons_self (dimName_inj (m := m) hc)
    · exact h'

theorem findTemp_some {ts : List Temp} {t : Temp} {m : Nat} {es : List Expr} {e : Expr} (ht : t ∈ ts)
    (hs : t.sizes = some es) (he : es[m]? = some e) (hd : ts.Pairwise (fun a b => a.name ≠ b.name)) :
    findTemp m (dimName t.name m) ts = some e := by
  induction ts with
  | nil => cases ht
  | cons a ts ih =>
    rw [List.pairwise_cons] at hd
    rcases List.mem_cons.1 ht with rfl | ht'
    · unfold findTemp
      rw [hs]
      show (if dimName t.name m = dimName t.name m then _ else _) = _
      rw [if_pos rfl, he]
    · have h' := ih ht' hd.2
      unfold findTemp
      split
      · rw [if_neg]
        · exact h'
        · intro hc
          exact hd.1 t ht' (dimName_inj (m := m) hc)
      · exact h'

theorem findTemp_mem {ts : List Temp} {n : String} {m : Nat} {e : Expr} (h : findTemp m n ts = some e) :
    ∃ t ∈ ts, ∃ es, t.sizes = some es ∧ e ∈ es := by
  induction ts with
  | nil => cases h
  | cons t ts ih =>
    have next (h : findTemp m n ts = some e) : ∃ a ∈ t :: ts, ∃ es, a.sizes = some es ∧ e ∈ es := by
      obtain ⟨a, ha, h'⟩ := ih h
      exact ⟨a, List.mem_cons_of_mem _ ha, h'⟩
    unfold findTemp at h
    split at h
    · rename_i es hs
      split at h
      · exact ⟨t, List.mem_cons_self, es, hs, List.mem_of_getElem? h⟩
      · exact next h
    · exact next h

theorem wsDim_types {ts : List Temp}
    (hs : ∀ t ∈ ts, ∀ es, t.sizes = some es → ∀ e ∈ es, typeOf e = .int32 ∧ e ≠ .undef) : KeepsTypes (wsDim ts) := by
  intro e e' hb h
  unfold wsDim at h
  split at h
  · obtain ⟨t, ht, es, h1, h2⟩ := findTemp_mem h
    simp only [BuiltE] at hb
    rw [(hs t ht es h1 e' h2).1]
    exact ⟨hb.1.symm, (hs t ht es h1 e' h2).2⟩
  · cases h

end Verif.Rewrite
