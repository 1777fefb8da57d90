import Verif.Rewrite.Spec
import Verif.Rewrite.Model
/-! Lemmas about the rewriter. -/
namespace Verif.Rewrite
open Verif.Types Model

variable {f : Expr → Option Expr} {g : Stmt → Option Stmt}

theorem over_none {α : Type} (b : α × Bool) : over none b = b := rfl
theorem over_some {α : Type} (e : α) (b : α × Bool) : over (some e) b = (e, false) := rfl
theorem orElse_none {α : Type} (b : α) : orElse none b = b := rfl
theorem orElse_some {α : Type} (e b : α) : orElse (some e) b = e := rfl
theorem keepOr_true {α : Type} (a b : α) : keepOr true a b = (a, true) := rfl
theorem keepOr_false {α : Type} (a b : α) : keepOr false a b = (b, false) := rfl

theorem makeScope_eq (s : Stmt) : makeScope s = inScope s := by cases s <;> rfl
theorem nop_eq (s : Stmt) : nop s = Empty s := by
  cases s with
  | block l => cases l <;> rfl
  | _ => rfl

theorem makeBlock_eq (l : List Stmt) : makeBlock (l.filter defined) = .block (l.filter (fun s => !Empty s)) := by
  unfold makeBlock
  rw [List.filter_filter]
  congr 1
  apply List.filter_congr
  intro s _
  rw [nop_eq]
  cases s <;> simp [Empty, defined]

/-! ### The flag is right -/

theorem over_keep_same {α : Type} {r : Option α} {b : Bool} {old new : α}
    (h : (over r (keepOr b old new)).2 = true) : (over r (keepOr b old new)).1 = old := by
  cases r with
  | some e => cases h
  | none => cases b with
    | true => rfl
    | false => cases h

theorem over_base_same {α : Type} {r : Option α} {old : α}
    (h : (over r (old, true)).2 = true) : (over r (old, true)).1 = old := by
  cases r with
  | some e => cases h
  | none => rfl

theorem rwE_same (e : Expr) (h : (rwE f e).2 = true) : (rwE f e).1 = e := by
  cases e with
  | undef => rfl
  | lit => exact over_base_same h
  | var => exact over_base_same h
  | sizeof => exact over_base_same h
  | un => unfold rwE at h ⊢; exact over_keep_same h
  | bin => unfold rwE at h ⊢; exact over_keep_same h
  | many => unfold rwE at h ⊢; exact over_keep_same h
  | prop => unfold rwE at h ⊢; exact over_keep_same h

theorem rwL_same (l : List Expr) (h : (rwL f l).2 = true) : (rwL f l).1 = l := by
  induction l with
  | nil => rfl
  | cons e l ih =>
    simp only [rwL, Bool.and_eq_true] at h ⊢
    rw [rwE_same e h.1, ih h.2]

theorem rwS_same (s : Stmt) (h : (rwS f g s).2 = true) : (rwS f g s).1 = s := by
  cases s with
  | undef => rfl
  | comment => exact over_base_same h
  | blank => exact over_base_same h
  | «continue» => exact over_base_same h
  | «break» => exact over_base_same h
  | _ => unfold rwS at h ⊢; exact over_keep_same h

theorem rwSs_same (l : List Stmt) (h : (rwSs f g l).2 = true) : (rwSs f g l).1 = l := by
  induction l with
  | nil => rfl
  | cons e l ih =>
    simp only [rwSs, Bool.and_eq_true] at h ⊢
    rw [rwS_same e h.1, ih h.2]

/-! ### Nothing to replace -/

mutual
theorem rwE_free : ∀ e : Expr, FreeE f e → rwE f e = (e, true)
  | .undef, _ => rfl
  | .lit .., h => by simp only [FreeE] at h; simp only [rwE, h]; rfl
  | .var .., h => by simp only [FreeE] at h; simp only [rwE, h]; rfl
  | .sizeof _, h => by simp only [FreeE] at h; simp only [rwE, h]; rfl
  | .un o ty a, h => by simp only [FreeE] at h; simp only [rwE, h.1, rwE_free a h.2]; rfl
  | .bin o ty a b, h => by
    simp only [FreeE] at h; simp only [rwE, h.1, rwE_free a h.2.1, rwE_free b h.2.2]; rfl
  | .many o ty l, h => by simp only [FreeE] at h; simp only [rwE, h.1, rwL_free l h.2]; rfl
  | .prop ty t p m i n, h => by simp only [FreeE] at h; simp only [rwE, h.1, rwE_free t h.2]; rfl
theorem rwL_free : ∀ l : List Expr, FreeL f l → rwL f l = (l, true)
  | [], _ => rfl
  | e :: l, h => by simp only [FreeL] at h; simp only [rwL, rwE_free e h.1, rwL_free l h.2]; rfl
end

mutual
theorem replE_free : ∀ e : Expr, FreeE f e → replE f e = e
  | .undef, _ => rfl
  | .lit .., h => by simp only [FreeE] at h; simp only [replE, h]; rfl
  | .var .., h => by simp only [FreeE] at h; simp only [replE, h]; rfl
  | .sizeof _, h => by simp only [FreeE] at h; simp only [replE, h]; rfl
  | .un o ty a, h => by simp only [FreeE] at h; simp only [replE, h.1, replE_free a h.2]; rfl
  | .bin o ty a b, h => by
    simp only [FreeE] at h; simp only [replE, h.1, replE_free a h.2.1, replE_free b h.2.2]; rfl
  | .many o ty l, h => by simp only [FreeE] at h; simp only [replE, h.1, replL_free l h.2]; rfl
  | .prop ty t p m i n, h => by simp only [FreeE] at h; simp only [replE, h.1, replE_free t h.2]; rfl
theorem replL_free : ∀ l : List Expr, FreeL f l → replL f l = l
  | [], _ => rfl
  | e :: l, h => by simp only [FreeL] at h; simp only [replL, replE_free e h.1, replL_free l h.2]
end

mutual
theorem rwS_free : ∀ s : Stmt, FreeS f g s → rwS f g s = (s, true)
  | .undef, _ => rfl
  | .block l, h => by simp only [FreeS] at h; simp only [rwS, h.1, rwSs_free l h.2]; rfl
  | .scope s, h => by simp only [FreeS] at h; simp only [rwS, h.1, rwS_free s h.2]; rfl
  | .store a b c _ _, h => by
    simp only [FreeS] at h; simp only [rwS, h.1, rwE_free a h.2.1, rwE_free b h.2.2.1, rwE_free c h.2.2.2]; rfl
  | .ite c a b, h => by
    simp only [FreeS] at h; simp only [rwS, h.1, rwE_free c h.2.1, rwS_free a h.2.2.1, rwS_free b h.2.2.2]; rfl
  | .case cs bs _, h => by
    simp only [FreeS] at h; simp only [rwS, h.1, rwL_free cs h.2.1, rwSs_free bs h.2.2]; rfl
  | .switch cs bs e, h => by
    simp only [FreeS] at h
    simp only [rwS, h.1, rwE_free e h.2.1, rwL_free cs h.2.2.1, rwSs_free bs h.2.2.2]; rfl
  | .loop x a b c s _ _ _ _, h => by
    simp only [FreeS] at h
    simp only [rwS, h.1, rwE_free x h.2.1, rwE_free a h.2.2.1, rwE_free b h.2.2.2.1, rwE_free c h.2.2.2.2.1,
      rwS_free s h.2.2.2.2.2]; rfl
  | .while c s _ _, h => by
    simp only [FreeS] at h; simp only [rwS, h.1, rwE_free c h.2.1, rwS_free s h.2.2]; rfl
  | .func _ os is s, h => by
    simp only [FreeS] at h
    simp only [rwS, h.1, rwL_free os h.2.1, rwL_free is h.2.2.1, rwS_free s h.2.2.2]; rfl
  | .decl x r, h => by simp only [FreeS] at h; simp only [rwS, h.1, rwE_free x h.2.1, rwE_free r h.2.2]; rfl
  | .assign x r _ _, h => by simp only [FreeS] at h; simp only [rwS, h.1, rwE_free x h.2.1, rwE_free r h.2.2]; rfl
  | .yield cs v, h => by simp only [FreeS] at h; simp only [rwS, h.1, rwL_free cs h.2.1, rwE_free v h.2.2]; rfl
  | .alloc x n o _ _, h => by simp only [FreeS] at h; simp only [rwS, h.1, rwE_free x h.2.1, rwE_free n h.2.2.1]; rfl
  | .free x, h => by simp only [FreeS] at h; simp only [rwS, h.1, rwE_free x h.2]; rfl
  | .comment t, h => by simp only [FreeS] at h; simp only [rwS, h]; rfl
  | .blank, h => by simp only [FreeS] at h; simp only [rwS, h]; rfl
  | .continue, h => by simp only [FreeS] at h; simp only [rwS, h]; rfl
  | .break, h => by simp only [FreeS] at h; simp only [rwS, h]; rfl
  | .print t ps, h => by simp only [FreeS] at h; simp only [rwS, h.1, rwL_free ps h.2]; rfl
  | .sort as, h => by simp only [FreeS] at h; simp only [rwS, h.1, rwL_free as h.2]; rfl
theorem rwSs_free : ∀ l : List Stmt, FreeSs f g l → rwSs f g l = (l, true)
  | [], _ => rfl
  | e :: l, h => by simp only [FreeSs] at h; simp only [rwSs, rwS_free e h.1, rwSs_free l h.2]; rfl
end

/-! ### Types -/

theorem replE_type (hf : KeepsTypes f) (e : Expr) (hb : BuiltE e) : typeOf (replE f e) = typeOf e := by
  cases e with
  | undef => rfl
  | lit ty v => unfold replE; cases h : f (.lit ty v) with
    | none => rfl
    | some e' => exact (hf _ _ hb h).1
  | var x ty n => unfold replE; cases h : f (.var x ty n) with
    | none => rfl
    | some e' => exact (hf _ _ hb h).1
  | sizeof k => unfold replE; cases h : f (.sizeof k) with
    | none => rfl
    | some e' => exact (hf _ _ hb h).1
  | un o ty a => unfold replE; cases h : f (.un o ty a) with
    | none => rfl
    | some e' => exact (hf _ _ hb h).1
  | bin o ty a b => unfold replE; cases h : f (.bin o ty a b) with
    | none => rfl
    | some e' => exact (hf _ _ hb h).1
  | many o ty l => unfold replE; cases h : f (.many o ty l) with
    | none => rfl
    | some e' => exact (hf _ _ hb h).1
  | prop ty t p m i n => unfold replE; cases h : f (.prop ty t p m i n) with
    | none => rfl
    | some e' => exact (hf _ _ hb h).1

theorem replE_ne (hf : KeepsTypes f) (e : Expr) (hb : BuiltE e) (he : e ≠ .undef) : replE f e ≠ .undef := by
  cases e with
  | undef => exact absurd rfl he
  | lit ty v => unfold replE; cases h : f (.lit ty v) with
    | none => exact fun h => nomatch h
    | some e' => exact (hf _ _ hb h).2
  | var x ty n => unfold replE; cases h : f (.var x ty n) with
    | none => exact fun h => nomatch h
    | some e' => exact (hf _ _ hb h).2
  | sizeof k => unfold replE; cases h : f (.sizeof k) with
    | none => exact fun h => nomatch h
    | some e' => exact (hf _ _ hb h).2
  | un o ty a => unfold replE; cases h : f (.un o ty a) with
    | none => exact fun h => nomatch h
    | some e' => exact (hf _ _ hb h).2
  | bin o ty a b => unfold replE; cases h : f (.bin o ty a b) with
    | none => exact fun h => nomatch h
    | some e' => exact (hf _ _ hb h).2
  | many o ty l => unfold replE; cases h : f (.many o ty l) with
    | none => exact fun h => nomatch h
    | some e' => exact (hf _ _ hb h).2
  | prop ty t p m i n => unfold replE; cases h : f (.prop ty t p m i n) with
    | none => exact fun h => nomatch h
    | some e' => exact (hf _ _ hb h).2

/-! ### Expressions -/

theorem over_keep_eq {α : Type} {r : Option α} {b : Bool} {old new spec : α}
    (hs : r = none → b = true → old = spec) (hn : r = none → b = false → new = spec) :
    (over r (keepOr b old new)).1 = orElse r spec := by
  cases r with
  | some e => rfl
  | none => cases b with
    | true => exact hs rfl rfl
    | false => exact hn rfl rfl

theorem over_base_eq {α : Type} {r : Option α} {old : α} : (over r (old, true)).1 = orElse r old := by
  cases r <;> rfl

theorem rebuildBin_eq {o : BiOp} {ty : Kind} {a b a' b' : Expr} (ht : biType o ty a b) (ha : typeOf a' = typeOf a)
    (hb : typeOf b' = typeOf b) (hu : b ≠ .undef → b' ≠ .undef) (hx : isText o = false) :
    rebuildBin o a b a' b' = .bin o ty a' b' := by
  have arith (h : maxType (typeOf a) (typeOf b) = some ty) : maxExprType a' b' = ty := by
    unfold maxExprType; rw [ha, hb, h]; rfl
  cases o with
  | text => cases hx
  | load =>
    have hb := hu ht.2
    unfold rebuildBin
    cases hb' : b' with
    | undef => exact absurd hb' hb
    | _ => show Expr.bin .load (typeOf a') _ _ = _; rw [ha, ← ht.1]
  | add => show Expr.bin _ (maxExprType _ _) _ _ = _; rw [arith ht]
  | sub => show Expr.bin _ (maxExprType _ _) _ _ = _; rw [arith ht]
  | mul => show Expr.bin _ (maxExprType _ _) _ _ = _; rw [arith ht]
  | div => show Expr.bin _ (maxExprType _ _) _ _ = _; rw [arith ht]
  | rem => show Expr.bin _ (maxExprType _ _) _ _ = _; rw [arith ht]
  | _ => have h : ty = _ := ht; rw [h]; rfl

theorem makeUn_eq {o : UnOp} {ty : Kind} {a a' : Expr} (ht : unType o ty a) (ha : typeOf a' = typeOf a) :
    makeUn o ty a' = .un o ty a' := by
  cases o with
  | neg => have h : ty = _ := ht; show Expr.un _ (typeOf a') _ = _; rw [ha, h]
  | sqrt => have h : ty = _ := ht; show Expr.un _ (typeOf a') _ = _; rw [ha, h]
  | cast => rfl
  | malloc => have h : ty = _ := ht; rw [h]; rfl

theorem makeMany_eq {o : ManyOp} {ty : Kind} {l l' : List Expr} (ht : manyType o ty l)
    (hl : ∀ a r, l = a :: r → ∃ a' r', l' = a' :: r' ∧ typeOf a' = typeOf a) :
    makeMany o ty l' = .many o ty l' := by
  cases o with
  | call => rfl
  | min => 
    obtain ⟨a, r, h, h'⟩ := ht
    obtain ⟨a', r', h2, h3⟩ := hl a r h
    subst h2; simp only [makeMany, List.head?_cons, Option.map_some, Option.getD_some, h3, h']
  | max => 
    obtain ⟨a, r, h, h'⟩ := ht
    obtain ⟨a', r', h2, h3⟩ := hl a r h
    subst h2; simp only [makeMany, List.head?_cons, Option.map_some, Option.getD_some, h3, h']

mutual
theorem rwE_eq (hf : KeepsTypes f) : ∀ e : Expr, BuiltE e → KeptE f e → (rwE f e).1 = replE f e
  | .undef, _, _ => rfl
  | .lit .., _, _ => by unfold rwE replE; exact over_base_eq
  | .var .., _, _ => by unfold rwE replE; exact over_base_eq
  | .sizeof _, _, _ => by unfold rwE replE; exact over_base_eq
  | .un o ty a, hb, hk => by
    unfold rwE replE
    simp only [BuiltE] at hb; simp only [KeptE] at hk
    refine over_keep_eq (fun hn h => ?_) (fun hn h => ?_)
    · rw [← rwE_eq hf a hb.2 (hk hn), rwE_same a h]
    · rw [rwE_eq hf a hb.2 (hk hn)]; exact makeUn_eq hb.1 (replE_type hf a hb.2)
  | .bin o ty a b, hb, hk => by
    unfold rwE replE
    simp only [BuiltE] at hb; simp only [KeptE] at hk
    refine over_keep_eq (fun hn h => ?_) (fun hn h => ?_)
    · simp only [Bool.and_eq_true] at h
      rw [← rwE_eq hf a hb.2.1 (hk hn).2.1, rwE_same a h.1, ← rwE_eq hf b hb.2.2 (hk hn).2.2, rwE_same b h.2]
    · rw [rwE_eq hf a hb.2.1 (hk hn).2.1, rwE_eq hf b hb.2.2 (hk hn).2.2]
      cases hx : isText o with
      | false => exact rebuildBin_eq hb.1 (replE_type hf a hb.2.1) (replE_type hf b hb.2.2) (replE_ne hf b hb.2.2) hx
      | true =>
        have hfree := (hk hn).1 hx
        rw [rwE_free a hfree.1, rwE_free b hfree.2] at h
        cases h
  | .many o ty l, hb, hk => by
    unfold rwE replE
    simp only [BuiltE] at hb; simp only [KeptE] at hk
    refine over_keep_eq (fun hn h => ?_) (fun hn h => ?_)
    · rw [← rwL_eq hf l hb.2 (hk hn), rwL_same l h]
    · rw [rwL_eq hf l hb.2 (hk hn)]; exact makeMany_eq hb.1 (fun x r h => ⟨_, _, by rw [h]; rfl, replE_type hf x (by have := hb.2; rw [h] at this; exact this.1)⟩)
  | .prop ty t p m i n, hb, hk => by
    unfold rwE replE
    simp only [BuiltE] at hb; simp only [KeptE] at hk
    refine over_keep_eq (fun hn h => ?_) (fun hn h => ?_)
    · rw [← rwE_eq hf t hb.2 (hk hn), rwE_same t h]
    · rw [rwE_eq hf t hb.2 (hk hn)]; unfold makeProp; rw [replE_type hf t hb.2, ← hb.1]
theorem rwL_eq (hf : KeepsTypes f) : ∀ l : List Expr, BuiltL l → KeptL f l → (rwL f l).1 = replL f l
  | [], _, _ => rfl
  | e :: l, hb, hk => by
    simp only [BuiltL] at hb; simp only [KeptL] at hk
    simp only [rwL, replL, rwE_eq hf e hb.1 hk.1, rwL_eq hf l hb.2 hk.2]
end

/-! ### Statements -/

theorem inScope_scope {s : Stmt} (h : isScope s = true) : inScope s = s := by
  cases s <;> first | rfl | cases h

theorem inScope_other {s : Stmt} (h : isScope s = false) : inScope s = .scope s := by
  cases s <;> first | rfl | cases h

theorem map_inScope {l : List Stmt} (h : ∀ s ∈ l, isScope s = true) : l.map inScope = l := by
  induction l with
  | nil => rfl
  | cons s l ih =>
    rw [List.map_cons, inScope_scope (h s List.mem_cons_self), ih (fun t ht => h t (List.mem_cons_of_mem _ ht))]

theorem filter_full {l : List Stmt} (h : ∀ s ∈ l, Empty s = false) : l.filter (fun s => !Empty s) = l := by
  rw [List.filter_eq_self]; intro s hs; rw [h s hs]; rfl

theorem other_eq (b : Stmt) : (if defined b then makeScope b else b) = otherBranch b := by
  cases b <;> rfl

theorem other_same {b : Stmt} (h : isScope b = true ∨ b = .undef) : otherBranch b = b := by
  rcases h with h | h
  · cases b <;> first | rfl | cases h
  · subst h; rfl

mutual
theorem rwS_eq (hf : KeepsTypes f) : ∀ s : Stmt, BuiltS s → KeptS f g s → (rwS f g s).1 = replS f g s
  | .undef, _, _ => rfl
  | .comment _, _, _ => by unfold rwS replS; exact over_base_eq
  | .blank, _, _ => by unfold rwS replS; exact over_base_eq
  | .continue, _, _ => by unfold rwS replS; exact over_base_eq
  | .break, _, _ => by unfold rwS replS; exact over_base_eq
  | .block l, hb, hk => by
    unfold rwS replS
    simp only [BuiltS] at hb; simp only [KeptS] at hk
    refine over_keep_eq (fun hn h => ?_) (fun hn h => ?_)
    · rw [← rwSs_eq hf l hb.2 (hk hn), rwSs_same l h, filter_full hb.1]
    · rw [rwSs_eq hf l hb.2 (hk hn), makeBlock_eq]
  | .scope s, hb, hk => by
    unfold rwS replS
    simp only [BuiltS] at hb; simp only [KeptS] at hk
    refine over_keep_eq (fun hn h => ?_) (fun hn h => ?_)
    · rw [← rwS_eq hf s hb.2 (hk hn), rwS_same s h, inScope_other hb.1]
    · rw [rwS_eq hf s hb.2 (hk hn), makeScope_eq]
  | .store a b c at_ u, hb, hk => by
    unfold rwS replS
    simp only [BuiltS] at hb; simp only [KeptS] at hk
    refine over_keep_eq (fun hn h => ?_) (fun hn h => ?_)
    · simp only [Bool.and_eq_true] at h
      rw [← rwE_eq hf a hb.1 (hk hn).2.1, rwE_same a h.1.1, ← rwE_eq hf b hb.2.1 (hk hn).2.2.1, rwE_same b h.1.2,
        ← rwE_eq hf c hb.2.2 (hk hn).2.2.2, rwE_same c h.2]
    · rcases (hk hn).1 with hu | hfree
      · rw [rwE_eq hf a hb.1 (hk hn).2.1, rwE_eq hf b hb.2.1 (hk hn).2.2.1, rwE_eq hf c hb.2.2 (hk hn).2.2.2, hu]; rfl
      · rw [rwE_free a hfree.1, rwE_free b hfree.2.1, rwE_free c hfree.2.2] at h; cases h
  | .ite c a b, hb, hk => by
    unfold rwS replS
    simp only [BuiltS] at hb; simp only [KeptS] at hk
    refine over_keep_eq (fun hn h => ?_) (fun hn h => ?_)
    · simp only [Bool.and_eq_true] at h
      rw [← rwE_eq hf c hb.1 (hk hn).1, rwE_same c h.1.1, ← rwS_eq hf a hb.2.2.2.1 (hk hn).2.1, rwS_same a h.1.2,
        ← rwS_eq hf b hb.2.2.2.2 (hk hn).2.2, rwS_same b h.2, inScope_scope hb.2.1, other_same hb.2.2.1]
    · unfold makeIte
      rw [rwE_eq hf c hb.1 (hk hn).1, rwS_eq hf a hb.2.2.2.1 (hk hn).2.1, rwS_eq hf b hb.2.2.2.2 (hk hn).2.2,
        makeScope_eq, other_eq]
  | .case cs bs al, hb, hk => by
    unfold rwS replS
    simp only [BuiltS] at hb; simp only [KeptS] at hk
    refine over_keep_eq (fun hn h => ?_) (fun hn h => ?_)
    · simp only [Bool.and_eq_true] at h
      rw [← rwL_eq hf cs hb.1 (hk hn).1, rwL_same cs h.1, ← rwSs_eq hf bs hb.2.2 (hk hn).2, rwSs_same bs h.2,
        map_inScope hb.2.1]
    · unfold makeCase
      rw [rwL_eq hf cs hb.1 (hk hn).1, rwSs_eq hf bs hb.2.2 (hk hn).2, (funext makeScope_eq : makeScope = inScope)]
  | .switch cs bs e, hb, hk => by
    unfold rwS replS
    simp only [BuiltS] at hb; simp only [KeptS] at hk
    refine over_keep_eq (fun hn h => ?_) (fun hn h => ?_)
    · simp only [Bool.and_eq_true] at h
      rw [← rwE_eq hf e hb.1 (hk hn).1, rwE_same e h.1, ← rwL_eq hf cs hb.2.1 (hk hn).2.1, rwL_same cs h.2.1,
        ← rwSs_eq hf bs hb.2.2.2 (hk hn).2.2, rwSs_same bs h.2.2, map_inScope hb.2.2.1]
    · unfold makeSwitch
      rw [rwE_eq hf e hb.1 (hk hn).1, rwL_eq hf cs hb.2.1 (hk hn).2.1, rwSs_eq hf bs hb.2.2.2 (hk hn).2.2,
        (funext makeScope_eq : makeScope = inScope)]
  | .loop x a b c s k u n w, hb, hk => by
    unfold rwS replS
    simp only [BuiltS] at hb; simp only [KeptS] at hk
    refine over_keep_eq (fun hn h => ?_) (fun hn h => ?_)
    · simp only [Bool.and_eq_true] at h
      rw [← rwE_eq hf x hb.1 (hk hn).1, rwE_same x h.1.1.1.1, ← rwE_eq hf a hb.2.1 (hk hn).2.1, rwE_same a h.1.1.1.2,
        ← rwE_eq hf b hb.2.2.1 (hk hn).2.2.1, rwE_same b h.1.1.2, ← rwE_eq hf c hb.2.2.2.1 (hk hn).2.2.2.1,
        rwE_same c h.1.2, ← rwS_eq hf s hb.2.2.2.2.2 (hk hn).2.2.2.2, rwS_same s h.2, inScope_scope hb.2.2.2.2.1]
    · unfold makeFor
      rw [rwE_eq hf x hb.1 (hk hn).1, rwE_eq hf a hb.2.1 (hk hn).2.1, rwE_eq hf b hb.2.2.1 (hk hn).2.2.1,
        rwE_eq hf c hb.2.2.2.1 (hk hn).2.2.2.1, rwS_eq hf s hb.2.2.2.2.2 (hk hn).2.2.2.2, makeScope_eq]
  | .while c s k w, hb, hk => by
    unfold rwS replS
    simp only [BuiltS] at hb; simp only [KeptS] at hk
    refine over_keep_eq (fun hn h => ?_) (fun hn h => ?_)
    · simp only [Bool.and_eq_true] at h
      rw [← rwE_eq hf c hb.1 (hk hn).1, rwE_same c h.1, ← rwS_eq hf s hb.2.2 (hk hn).2, rwS_same s h.2,
        inScope_scope hb.2.1]
    · unfold makeWhile
      rw [rwE_eq hf c hb.1 (hk hn).1, rwS_eq hf s hb.2.2 (hk hn).2, makeScope_eq]
  | .func n os is s, hb, hk => by
    unfold rwS replS
    simp only [BuiltS] at hb; simp only [KeptS] at hk
    refine over_keep_eq (fun hn h => ?_) (fun hn h => ?_)
    · simp only [Bool.and_eq_true] at h
      rw [← rwL_eq hf os hb.1 (hk hn).1, rwL_same os h.2.2, ← rwL_eq hf is hb.2.1 (hk hn).2.1, rwL_same is h.2.1,
        ← rwS_eq hf s hb.2.2.2 (hk hn).2.2, rwS_same s h.1, inScope_scope hb.2.2.1]
    · unfold makeFunc
      rw [rwL_eq hf os hb.1 (hk hn).1, rwL_eq hf is hb.2.1 (hk hn).2.1, rwS_eq hf s hb.2.2.2 (hk hn).2.2, makeScope_eq]
  | .decl x r, hb, hk => by
    unfold rwS replS
    simp only [BuiltS] at hb; simp only [KeptS] at hk
    refine over_keep_eq (fun hn h => ?_) (fun hn h => ?_)
    · simp only [Bool.and_eq_true] at h
      rw [← rwE_eq hf x hb.1 (hk hn).1, rwE_same x h.1, ← rwE_eq hf r hb.2 (hk hn).2, rwE_same r h.2]
    · rw [rwE_eq hf x hb.1 (hk hn).1, rwE_eq hf r hb.2 (hk hn).2]
  | .assign x r at_ u, hb, hk => by
    unfold rwS replS
    simp only [BuiltS] at hb; simp only [KeptS] at hk
    refine over_keep_eq (fun hn h => ?_) (fun hn h => ?_)
    · simp only [Bool.and_eq_true] at h
      rw [← rwE_eq hf x hb.1 (hk hn).2.1, rwE_same x h.1, ← rwE_eq hf r hb.2 (hk hn).2.2, rwE_same r h.2]
    · rcases (hk hn).1 with hu | hfree
      · rw [rwE_eq hf x hb.1 (hk hn).2.1, rwE_eq hf r hb.2 (hk hn).2.2, hu]; rfl
      · rw [rwE_free x hfree.1, rwE_free r hfree.2] at h; cases h
  | .yield cs v, hb, hk => by
    unfold rwS replS
    simp only [BuiltS] at hb; simp only [KeptS] at hk
    refine over_keep_eq (fun hn h => ?_) (fun hn h => ?_)
    · simp only [Bool.and_eq_true] at h
      rw [← rwE_eq hf v hb.2 (hk hn).2, rwE_same v h.1, replL_free cs (hk hn).1]
    · rw [rwE_eq hf v hb.2 (hk hn).2, replL_free cs (hk hn).1]
  | .alloc x n o ag cl, hb, hk => by
    unfold rwS replS
    simp only [BuiltS] at hb; simp only [KeptS] at hk
    refine over_keep_eq (fun hn h => ?_) (fun hn h => ?_)
    · simp only [Bool.and_eq_true] at h
      rw [← rwE_eq hf x hb.1 (hk hn).1, rwE_same x h.1, ← rwE_eq hf n hb.2.1 (hk hn).2.1, rwE_same n h.2,
        replE_free o (hk hn).2.2]
    · rw [rwE_eq hf x hb.1 (hk hn).1, rwE_eq hf n hb.2.1 (hk hn).2.1, replE_free o (hk hn).2.2]
  | .free x, hb, hk => by
    unfold rwS replS
    simp only [BuiltS] at hb; simp only [KeptS] at hk
    refine over_keep_eq (fun hn h => ?_) (fun hn h => ?_)
    · rw [← rwE_eq hf x hb (hk hn), rwE_same x h]
    · rw [rwE_eq hf x hb (hk hn)]
  | .print t ps, hb, hk => by
    unfold rwS replS
    simp only [BuiltS] at hb; simp only [KeptS] at hk
    refine over_keep_eq (fun hn h => ?_) (fun hn h => ?_)
    · rw [← rwL_eq hf ps hb (hk hn), rwL_same ps h]
    · rw [rwL_eq hf ps hb (hk hn)]
  | .sort as, hb, hk => by
    unfold rwS replS
    simp only [BuiltS] at hb; simp only [KeptS] at hk
    refine over_keep_eq (fun hn h => ?_) (fun hn h => ?_)
    · rw [← rwL_eq hf as hb (hk hn), rwL_same as h]
    · rw [rwL_eq hf as hb (hk hn)]
theorem rwSs_eq (hf : KeepsTypes f) : ∀ l : List Stmt, BuiltSs l → KeptSs f g l → (rwSs f g l).1 = replSs f g l
  | [], _, _ => rfl
  | e :: l, hb, hk => by
    simp only [BuiltSs] at hb; simp only [KeptSs] at hk
    simp only [rwSs, replSs, rwS_eq hf e hb.1 hk.1, rwSs_eq hf l hb.2 hk.2]
end

end Verif.Rewrite
