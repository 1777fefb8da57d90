import Verif.Replace.Spec
/-! Lemmas about replacing parts of expressions and statements. -/
namespace Verif.Replace

variable {V : Type}

/-! ### Addresses -/

theorem sameAddr_iff {A : Type} [DecidableEq A] {x y : Option A} :
    sameAddr x y = true ↔ ∃ p, x = some p ∧ y = some p := by
  cases x <;> cases y <;> simp [sameAddr, eq_comm]

theorem lookup_mem {A B : Type} [DecidableEq A] {m : List (A × B)} {a : A} {b : B}
    (h : m.lookup a = some b) : (a, b) ∈ m := by
  induction m with
  | nil => simp at h
  | cons p m ih =>
    obtain ⟨x, y⟩ := p
    rw [List.lookup_cons] at h
    by_cases hx : a = x
    · subst hx; simp at h; subst h; exact List.mem_cons_self
    · rw [beq_eq_false_iff_ne.mpr hx] at h
      exact List.mem_cons_of_mem _ (ih h)

/-- The substitution of the specification that a list of pairs describes. -/
def asMap {A B : Type} [DecidableEq A] (m : List (A × B)) (a : A) : Option B := m.lookup a

theorem entry_eq {A B : Type} [DecidableEq A] (m : List (A × B)) (a : Option A) :
    entry m a = a.bind (asMap m) := by cases a <;> rfl

/-- At the address of the expression there is the expression. -/
def Top (h : Addr → Expr) (e : Expr) : Prop := ∀ a, e.addr = some a → h a = e

theorem Expr.on.top {h : Addr → Expr} {e : Expr} (H : e.on h) : Top h e := by
  cases e <;> exact H.1

theorem same_eq {h : Addr → Expr} {x y : Expr} (hx : Top h x) (hy : Top h y)
    (hs : same x y = true) : x = y := by
  obtain ⟨p, h1, h2⟩ := sameAddr_iff.1 hs
  rw [← hx p h1, ← hy p h2]

theorem top_none {h : Addr → Expr} {e : Expr} (he : e.addr = none) : Top h e := by
  intro a ha; rw [he] at ha; exact nomatch ha

mutual
theorem replaceE_top {h : Addr → Expr} {m : List (Addr × Expr)}
    (hm : ∀ a x, (a, x) ∈ m → x.on h) : ∀ (e : Expr), e.on h → Top h (replaceE m e)
  | .lit a v, H => by
    rw [replaceE]
    cases hl : entry m (a.map .node) with
    | none => exact H.top
    | some x => exact replaceE_top_aux hm hl
  | .ivar i, H => by
    rw [replaceE]
    cases hl : entry m (some (.var i)) with
    | none => exact H.top
    | some x => exact replaceE_top_aux hm hl
  | .acc a t is ms st, H => by
    rw [replaceE]
    cases hl : entry m (a.map .node) with
    | none => exact H.top
    | some x => exact replaceE_top_aux hm hl
  | .un a op e, H => by
    rw [replaceE]
    cases hl : entry m (a.map .node) with
    | none =>
      simp only [orElse, reUn]
      split
      · exact H.top
      · exact top_none rfl
    | some x => exact replaceE_top_aux hm hl
  | .bin a op e f, H => by
    rw [replaceE]
    cases hl : entry m (a.map .node) with
    | none =>
      simp only [orElse, reBin]
      split
      · exact H.top
      · exact top_none rfl
    | some x => exact replaceE_top_aux hm hl
  | .cast a ty e, H => by
    rw [replaceE, reCast]
    split
    · exact H.top
    · exact top_none rfl
  | .call a f es, H => by
    rw [replaceE]
    cases hl : entry m (a.map .node) with
    | none =>
      simp only [orElse, reCall]
      split
      · exact H.top
      · exact top_none rfl
    | some x => exact replaceE_top_aux hm hl
  | .red a op i e, H => by
    rw [replaceE]
    cases hl : entry m (a.map .node) with
    | none =>
      simp only [orElse, reRed]
      split
      · exact H.top
      · exact top_none rfl
    | some x => exact replaceE_top_aux hm hl
theorem replaceE_top_aux {h : Addr → Expr} {m : List (Addr × Expr)}
    (hm : ∀ a x, (a, x) ∈ m → x.on h) {a : Option Addr} {x : Expr} (hl : entry m a = some x) :
    Top h x := by
  cases a with
  | none => simp [entry] at hl
  | some p => exact (hm _ _ (lookup_mem hl)).top
end

theorem sameArgs_eq {h : Addr → Expr} {m : List (Addr × Expr)}
    (hm : ∀ a x, (a, x) ∈ m → x.on h) : ∀ (es : Args), es.on h →
    sameArgs (replaceArgs m es) es = true → replaceArgs m es = es
  | .nil, _, _ => rfl
  | .cons e es, H, hs => by
    rw [replaceArgs, sameArgs, Bool.and_eq_true] at hs
    rw [Args.on] at H
    rw [replaceArgs, same_eq (replaceE_top hm e H.1) H.1.top hs.1, sameArgs_eq hm es H.2 hs.2]

mutual
theorem replaceE_subst {h : Addr → Expr} {m : List (Addr × Expr)}
    (hm : ∀ a x, (a, x) ∈ m → x.on h) (hc : NoCast h m) : ∀ (e : Expr), e.on h →
    (replaceE m e).erase = (e.subst (asMap m)).erase
  | .lit a v, H => by
    rw [replaceE, Expr.subst, entry_eq]
    simp only [Expr.addr]
    cases (a.map Addr.node).bind (asMap m) <;> rfl
  | .ivar i, H => by
    rw [replaceE, Expr.subst, entry_eq]
    simp only [Expr.addr]
    cases (some (Addr.var i)).bind (asMap m) <;> rfl
  | .acc a t is ms st, H => by
    rw [replaceE, Expr.subst, entry_eq]
    simp only [Expr.addr]
    cases (a.map Addr.node).bind (asMap m) <;> rfl
  | .un a op e, H => by
    rw [replaceE, Expr.subst, entry_eq]
    simp only [Expr.addr]
    cases (a.map Addr.node).bind (asMap m) with
    | some x => rfl
    | none =>
      rw [Expr.on] at H
      have ih := replaceE_subst hm hc e H.2
      simp only [orElse, reUn]
      split
      · rename_i hs
        rw [same_eq (replaceE_top hm e H.2) H.2.top hs] at ih
        simp only [Expr.erase, ih]
      · simp only [Expr.erase, ih]
  | .bin a op e f, H => by
    rw [replaceE, Expr.subst, entry_eq]
    simp only [Expr.addr]
    cases (a.map Addr.node).bind (asMap m) with
    | some x => rfl
    | none =>
      rw [Expr.on] at H
      have ih := replaceE_subst hm hc e H.2.1
      have ih2 := replaceE_subst hm hc f H.2.2
      simp only [orElse, reBin]
      split
      · rename_i hs
        rw [Bool.and_eq_true] at hs
        rw [same_eq (replaceE_top hm e H.2.1) H.2.1.top hs.1] at ih
        rw [same_eq (replaceE_top hm f H.2.2) H.2.2.top hs.2] at ih2
        simp only [Expr.erase, ih, ih2]
      · simp only [Expr.erase, ih, ih2]
  | .cast a ty e, H => by
    rw [replaceE, Expr.subst]
    simp only [Expr.addr]
    have hk : (a.map Addr.node).bind (asMap m) = none := by
      cases a with
      | none => rfl
      | some n =>
        cases hl : asMap m (.node n) with
        | none => simp [hl]
        | some x =>
          rw [Expr.on] at H
          exact absurd (H.1 (.node n) rfl) (hc _ _ (lookup_mem hl) _ _ _)
    rw [hk]
    rw [Expr.on] at H
    have ih := replaceE_subst hm hc e H.2
    simp only [reCast]
    split
    · rename_i hs
      rw [same_eq (replaceE_top hm e H.2) H.2.top hs] at ih
      simp only [Expr.erase, ih]
    · simp only [Expr.erase, ih]
  | .call a f es, H => by
    rw [replaceE, Expr.subst, entry_eq]
    simp only [Expr.addr]
    cases (a.map Addr.node).bind (asMap m) with
    | some x => rfl
    | none =>
      rw [Expr.on] at H
      have ih := replaceArgs_subst hm hc es H.2
      simp only [orElse, reCall]
      split
      · rename_i hs
        rw [sameArgs_eq hm es H.2 hs] at ih
        simp only [Expr.erase, ih]
      · simp only [Expr.erase, ih]
  | .red a op i e, H => by
    rw [replaceE, Expr.subst, entry_eq]
    simp only [Expr.addr]
    cases (a.map Addr.node).bind (asMap m) with
    | some x => rfl
    | none =>
      rw [Expr.on] at H
      have ih := replaceE_subst hm hc e H.2
      simp only [orElse, reRed]
      split
      · rename_i hs
        rw [same_eq (replaceE_top hm e H.2) H.2.top hs] at ih
        simp only [Expr.erase, ih]
      · simp only [Expr.erase, ih]
theorem replaceArgs_subst {h : Addr → Expr} {m : List (Addr × Expr)}
    (hm : ∀ a x, (a, x) ∈ m → x.on h) (hc : NoCast h m) : ∀ (es : Args), es.on h →
    (replaceArgs m es).erase = (es.subst (asMap m)).erase
  | .nil, _ => rfl
  | .cons e es, H => by
    rw [Args.on] at H
    rw [replaceArgs, Args.subst, Args.erase, Args.erase, replaceE_subst hm hc e H.1,
      replaceArgs_subst hm hc es H.2]
end

/-! ### Statements -/

/-- At the address of the statement there is the statement. -/
def TopS (hs : Nat → Stmt) (s : Stmt) : Prop := ∀ a, s.addr = some a → hs a = s

theorem Stmt.on.top {h : Addr → Expr} {hs : Nat → Stmt} {s : Stmt} (H : s.on h hs) : TopS hs s := by
  cases s <;> exact H.1

theorem sameS_eq {hs : Nat → Stmt} {x y : Stmt} (hx : TopS hs x) (hy : TopS hs y)
    (H : sameS x y = true) : x = y := by
  obtain ⟨p, h1, h2⟩ := sameAddr_iff.1 H
  rw [← hx p h1, ← hy p h2]

theorem topS_none {hs : Nat → Stmt} {s : Stmt} (he : s.addr = none) : TopS hs s := by
  intro a ha; rw [he] at ha; exact nomatch ha

theorem topS_aux {h : Addr → Expr} {hs : Nat → Stmt} {ms : List (Nat × Stmt)}
    (hm : ∀ a x, (a, x) ∈ ms → x.on h hs) {a : Option Nat} {x : Stmt} (hl : entry ms a = some x) :
    TopS hs x := by
  cases a with
  | none => simp [entry] at hl
  | some p => exact (hm _ _ (lookup_mem hl)).top

theorem replaceS_top {h : Addr → Expr} {hs : Nat → Stmt} {m : List (Addr × Expr)}
    {ms : List (Nat × Stmt)} (hm : ∀ a x, (a, x) ∈ ms → x.on h hs) (s : Stmt) (H : s.on h hs) :
    TopS hs (replaceS m ms s) := by
  have key : ∀ (a : Option Nat) (y : Stmt), TopS hs y → TopS hs (orElse (entry ms a) y) := by
    intro a y hy
    cases hl : entry ms a with
    | none => exact hy
    | some x => exact topS_aux hm hl
  have H' := H.top
  cases s <;> rw [replaceS] <;> apply key <;>
    simp only [reAssign, reYield, reLoop, reWher, reSeq, reAssemble, reMulti, reSuch] <;> split <;>
    first | exact H' | exact topS_none rfl

theorem replaceS_subst {h : Addr → Expr} {hs : Nat → Stmt} {m : List (Addr × Expr)}
    {ms : List (Nat × Stmt)} (hm : ∀ a x, (a, x) ∈ m → x.on h) (hc : NoCast h m)
    (hms : ∀ a x, (a, x) ∈ ms → x.on h hs) : ∀ (s : Stmt), s.on h hs →
    (replaceS m ms s).erase = (s.subst (asMap m) (asMap ms)).erase
  | .assign a l op e, H => by
    rw [replaceS, Stmt.subst, entry_eq]
    simp only [Stmt.addr]
    cases a.bind (asMap ms) with
    | some x => rfl
    | none =>
      rw [Stmt.on] at H
      have ih := replaceE_subst hm hc e H.2
      simp only [orElse, reAssign]
      split
      · rename_i hs
        rw [same_eq (replaceE_top hm e H.2) H.2.top hs] at ih
        simp only [Stmt.erase, ih]
      · simp only [Stmt.erase, ih]
  | .yield a is e, H => by
    rw [replaceS, Stmt.subst, entry_eq]
    simp only [Stmt.addr]
    cases a.bind (asMap ms) with
    | some x => rfl
    | none =>
      rw [Stmt.on] at H
      have ih := replaceE_subst hm hc e H.2
      simp only [orElse, reYield]
      split
      · rename_i hs
        rw [same_eq (replaceE_top hm e H.2) H.2.top hs] at ih
        simp only [Stmt.erase, ih]
      · simp only [Stmt.erase, ih]
  | .loop a i at' s, H => by
    rw [replaceS, Stmt.subst, entry_eq]
    simp only [Stmt.addr]
    cases a.bind (asMap ms) with
    | some x => rfl
    | none =>
      rw [Stmt.on] at H
      have ih := replaceS_subst hm hc hms s H.2
      simp only [orElse, reLoop]
      split
      · rename_i hs
        rw [sameS_eq (replaceS_top hms s H.2) H.2.top hs] at ih
        simp only [Stmt.erase, ih]
      · simp only [Stmt.erase, ih]
  | .wher a c p, H => by
    rw [replaceS, Stmt.subst, entry_eq]
    simp only [Stmt.addr]
    cases a.bind (asMap ms) with
    | some x => rfl
    | none =>
      rw [Stmt.on] at H
      have ih := replaceS_subst hm hc hms c H.2.1
      have ih2 := replaceS_subst hm hc hms p H.2.2
      simp only [orElse, reWher]
      split
      · rename_i hs
        rw [Bool.and_eq_true] at hs
        rw [sameS_eq (replaceS_top hms c H.2.1) H.2.1.top hs.2] at ih
        rw [sameS_eq (replaceS_top hms p H.2.2) H.2.2.top hs.1] at ih2
        simp only [Stmt.erase, ih, ih2]
      · simp only [Stmt.erase, ih, ih2]
  | .seq a c p, H => by
    rw [replaceS, Stmt.subst, entry_eq]
    simp only [Stmt.addr]
    cases a.bind (asMap ms) with
    | some x => rfl
    | none =>
      rw [Stmt.on] at H
      have ih := replaceS_subst hm hc hms c H.2.1
      have ih2 := replaceS_subst hm hc hms p H.2.2
      simp only [orElse, reSeq]
      split
      · rename_i hs
        rw [Bool.and_eq_true] at hs
        rw [sameS_eq (replaceS_top hms c H.2.1) H.2.1.top hs.1] at ih
        rw [sameS_eq (replaceS_top hms p H.2.2) H.2.2.top hs.2] at ih2
        simp only [Stmt.erase, ih, ih2]
      · simp only [Stmt.erase, ih, ih2]
  | .assemble a c p rs, H => by
    rw [replaceS, Stmt.subst, entry_eq]
    simp only [Stmt.addr]
    cases a.bind (asMap ms) with
    | some x => rfl
    | none =>
      rw [Stmt.on] at H
      have ih := replaceS_subst hm hc hms c H.2.1
      have ih2 := replaceS_subst hm hc hms p H.2.2
      simp only [orElse, reAssemble]
      split
      · rename_i hs
        rw [Bool.and_eq_true] at hs
        rw [sameS_eq (replaceS_top hms c H.2.1) H.2.1.top hs.1] at ih
        rw [sameS_eq (replaceS_top hms p H.2.2) H.2.2.top hs.2] at ih2
        simp only [Stmt.erase, ih, ih2]
      · simp only [Stmt.erase, ih, ih2]
  | .multi a c p, H => by
    rw [replaceS, Stmt.subst, entry_eq]
    simp only [Stmt.addr]
    cases a.bind (asMap ms) with
    | some x => rfl
    | none =>
      rw [Stmt.on] at H
      have ih := replaceS_subst hm hc hms c H.2.1
      have ih2 := replaceS_subst hm hc hms p H.2.2
      simp only [orElse, reMulti]
      split
      · rename_i hs
        rw [Bool.and_eq_true] at hs
        rw [sameS_eq (replaceS_top hms c H.2.1) H.2.1.top hs.1] at ih
        rw [sameS_eq (replaceS_top hms p H.2.2) H.2.2.top hs.2] at ih2
        simp only [Stmt.erase, ih, ih2]
      · simp only [Stmt.erase, ih, ih2]
  | .such a s ps, H => by
    rw [replaceS, Stmt.subst, entry_eq]
    simp only [Stmt.addr]
    cases a.bind (asMap ms) with
    | some x => rfl
    | none =>
      rw [Stmt.on] at H
      have ih := replaceS_subst hm hc hms s H.2
      simp only [orElse, reSuch]
      split
      · rename_i hs
        rw [sameS_eq (replaceS_top hms s H.2) H.2.top hs] at ih
        simp only [Stmt.erase, ih]
      · simp only [Stmt.erase, ih]

/-! ### Addresses do not matter for the meaning -/

mutual
theorem eval_erase (M : Sem V) (dim : Nat → Nat) (rels : List Rel) (σ : St V) :
    ∀ (e : Expr) (ρ : Env), eval M dim rels σ ρ e.erase = eval M dim rels σ ρ e
  | .lit a v, ρ => rfl
  | .ivar i, ρ => rfl
  | .acc a t is ms st, ρ => rfl
  | .un a op e, ρ => by rw [Expr.erase, eval, eval, eval_erase M dim rels σ e ρ]
  | .bin a op e f, ρ => by
    rw [Expr.erase, eval, eval, eval_erase M dim rels σ e ρ, eval_erase M dim rels σ f ρ]
  | .cast a ty e, ρ => by rw [Expr.erase, eval, eval, eval_erase M dim rels σ e ρ]
  | .call a f es, ρ => by rw [Expr.erase, eval, eval, evalArgs_erase M dim rels σ es ρ]
  | .red a op i e, ρ => by
    rw [Expr.erase, eval, eval]
    congr 2
    funext v
    exact eval_erase M dim rels σ e (ρ.set i v)
theorem evalArgs_erase (M : Sem V) (dim : Nat → Nat) (rels : List Rel) (σ : St V) :
    ∀ (es : Args) (ρ : Env), evalArgs M dim rels σ ρ es.erase = evalArgs M dim rels σ ρ es
  | .nil, ρ => rfl
  | .cons e es, ρ => by
    rw [Args.erase, evalArgs, evalArgs, eval_erase M dim rels σ e ρ, evalArgs_erase M dim rels σ es ρ]
end

theorem assigned_erase (s : Stmt) : s.erase.assigned = s.assigned := by
  induction s <;> simp_all [Stmt.erase, Stmt.assigned]

theorem exec_erase (M : Sem V) (z : V → Bool) (dim : Nat → Nat) (s : Stmt) :
    ∀ (rels : List Rel) (ρ : Env) (σ : St V),
      exec M z dim s.erase rels ρ σ = exec M z dim s rels ρ σ := by
  induction s with
  | assign a l op e => intro rels ρ σ; simp only [Stmt.erase, exec, eval_erase]
  | yield a is e => intro rels ρ σ; simp only [Stmt.erase, exec, eval_erase]
  | loop a i at' s ih => intro rels ρ σ; simp only [Stmt.erase, exec, ih]
  | wher a c p ih1 ih2 => intro rels ρ σ; simp only [Stmt.erase, exec, ih1, ih2, assigned_erase]
  | seq a c p ih1 ih2 => intro rels ρ σ; simp only [Stmt.erase, exec, ih1, ih2]
  | assemble a c p rs ih1 ih2 => intro rels ρ σ; simp only [Stmt.erase, exec, ih1, ih2]
  | multi a c p ih1 ih2 => intro rels ρ σ; simp only [Stmt.erase, exec, ih1, ih2]
  | such a s ps ih => intro rels ρ σ; simp only [Stmt.erase, exec, ih]

/-! ### Substituting equals -/

mutual
theorem eval_subst {h : Addr → Expr} {m : Addr → Option Expr} (M : Sem V) (dim : Nat → Nat)
    (heq : ∀ a x, m a = some x → ∀ rels σ ρ, eval M dim rels σ ρ x = eval M dim rels σ ρ (h a))
    (rels : List Rel) (σ : St V) : ∀ (e : Expr) (ρ : Env), e.on h →
      eval M dim rels σ ρ (e.subst m) = eval M dim rels σ ρ e
  | .lit a v, ρ, H => by
    rw [Expr.subst]
    split
    · rename_i x hx
      obtain ⟨p, h1, h2⟩ := Option.bind_eq_some_iff.1 hx
      rw [heq p x h2, H.top p h1]
    · rfl
  | .ivar i, ρ, H => by
    rw [Expr.subst]
    split
    · rename_i x hx
      obtain ⟨p, h1, h2⟩ := Option.bind_eq_some_iff.1 hx
      rw [heq p x h2, H.top p h1]
    · rfl
  | .acc a t is ms st, ρ, H => by
    rw [Expr.subst]
    split
    · rename_i x hx
      obtain ⟨p, h1, h2⟩ := Option.bind_eq_some_iff.1 hx
      rw [heq p x h2, H.top p h1]
    · rfl
  | .un a op e, ρ, H => by
    rw [Expr.subst]
    split
    · rename_i x hx
      obtain ⟨p, h1, h2⟩ := Option.bind_eq_some_iff.1 hx
      rw [heq p x h2, H.top p h1]
    · rw [Expr.on] at H
      simp only [eval, eval_subst M dim heq rels σ e ρ H.2]
  | .bin a op e f, ρ, H => by
    rw [Expr.subst]
    split
    · rename_i x hx
      obtain ⟨p, h1, h2⟩ := Option.bind_eq_some_iff.1 hx
      rw [heq p x h2, H.top p h1]
    · rw [Expr.on] at H
      simp only [eval, eval_subst M dim heq rels σ e ρ H.2.1, eval_subst M dim heq rels σ f ρ H.2.2]
  | .cast a ty e, ρ, H => by
    rw [Expr.subst]
    split
    · rename_i x hx
      obtain ⟨p, h1, h2⟩ := Option.bind_eq_some_iff.1 hx
      rw [heq p x h2, H.top p h1]
    · rw [Expr.on] at H
      simp only [eval, eval_subst M dim heq rels σ e ρ H.2]
  | .call a f es, ρ, H => by
    rw [Expr.subst]
    split
    · rename_i x hx
      obtain ⟨p, h1, h2⟩ := Option.bind_eq_some_iff.1 hx
      rw [heq p x h2, H.top p h1]
    · rw [Expr.on] at H
      simp only [eval, evalArgs_subst M dim heq rels σ es ρ H.2]
  | .red a op i e, ρ, H => by
    rw [Expr.subst]
    split
    · rename_i x hx
      obtain ⟨p, h1, h2⟩ := Option.bind_eq_some_iff.1 hx
      rw [heq p x h2, H.top p h1]
    · rw [Expr.on] at H
      simp only [eval]
      congr 2
      funext v
      exact eval_subst M dim heq rels σ e (ρ.set i v) H.2
theorem evalArgs_subst {h : Addr → Expr} {m : Addr → Option Expr} (M : Sem V) (dim : Nat → Nat)
    (heq : ∀ a x, m a = some x → ∀ rels σ ρ, eval M dim rels σ ρ x = eval M dim rels σ ρ (h a))
    (rels : List Rel) (σ : St V) : ∀ (es : Args) (ρ : Env), es.on h →
      evalArgs M dim rels σ ρ (es.subst m) = evalArgs M dim rels σ ρ es
  | .nil, _, _ => rfl
  | .cons e es, ρ, H => by
    rw [Args.on] at H
    rw [Args.subst, evalArgs, evalArgs, eval_subst M dim heq rels σ e ρ H.1,
      evalArgs_subst M dim heq rels σ es ρ H.2]
end

theorem assigned_subst {h : Addr → Expr} {hs : Nat → Stmt} {m : Addr → Option Expr}
    {ms : Nat → Option Stmt} (has : ∀ a x, ms a = some x → x.assigned = (hs a).assigned) (s : Stmt)
    (H : s.on h hs) : (s.subst m ms).assigned = s.assigned := by
  induction s <;> rw [Stmt.subst] <;> split <;>
    first
    | (rename_i x hx
       obtain ⟨p, h1, h2⟩ := Option.bind_eq_some_iff.1 hx
       rw [has p x h2, H.top p h1])
    | (rw [Stmt.on] at H; simp_all [Stmt.assigned])

theorem exec_subst {h : Addr → Expr} {hs : Nat → Stmt} {m : Addr → Option Expr}
    {ms : Nat → Option Stmt} (M : Sem V) (z : V → Bool) (dim : Nat → Nat)
    (heq : ∀ a x, m a = some x → ∀ rels σ ρ, eval M dim rels σ ρ x = eval M dim rels σ ρ (h a))
    (has : ∀ a x, ms a = some x → x.assigned = (hs a).assigned)
    (hst : ∀ a x, ms a = some x → ∀ rels ρ σ, exec M z dim x rels ρ σ = exec M z dim (hs a) rels ρ σ)
    (s : Stmt) : s.on h hs → ∀ (rels : List Rel) (ρ : Env) (σ : St V),
      exec M z dim (s.subst m ms) rels ρ σ = exec M z dim s rels ρ σ := by
  have key : ∀ (s y : Stmt), s.on h hs →
      (∀ rels ρ σ, exec M z dim y rels ρ σ = exec M z dim s rels ρ σ) →
      ∀ rels ρ σ, exec M z dim (match s.addr.bind ms with | some x => x | none => y) rels ρ σ
        = exec M z dim s rels ρ σ := by
    intro s y H hy rels ρ σ
    split
    · rename_i x hx
      obtain ⟨p, h1, h2⟩ := Option.bind_eq_some_iff.1 hx
      rw [hst p x h2, H.top p h1]
    · exact hy rels ρ σ
  induction s with
  | assign a l op e =>
    intro H; rw [Stmt.subst]; refine key _ _ H ?_; intro rels ρ σ
    rw [Stmt.on] at H; simp only [exec, eval_subst M dim heq _ _ e _ H.2]
  | yield a is e =>
    intro H; rw [Stmt.subst]; refine key _ _ H ?_; intro rels ρ σ
    rw [Stmt.on] at H; simp only [exec, eval_subst M dim heq _ _ e _ H.2]
  | loop a i at' s ih =>
    intro H; rw [Stmt.subst]; refine key _ _ H ?_; intro rels ρ σ
    rw [Stmt.on] at H; simp only [exec, ih H.2]
  | wher a c p ih1 ih2 =>
    intro H; rw [Stmt.subst]; refine key _ _ H ?_; intro rels ρ σ
    rw [Stmt.on] at H
    simp only [exec, ih1 H.2.1, ih2 H.2.2, assigned_subst has p H.2.2]
  | seq a c p ih1 ih2 =>
    intro H; rw [Stmt.subst]; refine key _ _ H ?_; intro rels ρ σ
    rw [Stmt.on] at H; simp only [exec, ih1 H.2.1, ih2 H.2.2]
  | assemble a c p rs ih1 ih2 =>
    intro H; rw [Stmt.subst]; refine key _ _ H ?_; intro rels ρ σ
    rw [Stmt.on] at H; simp only [exec, ih1 H.2.1, ih2 H.2.2]
  | multi a c p ih1 ih2 =>
    intro H; rw [Stmt.subst]; refine key _ _ H ?_; intro rels ρ σ
    rw [Stmt.on] at H; simp only [exec, ih1 H.2.1, ih2 H.2.2]
  | such a s ps ih =>
    intro H; rw [Stmt.subst]; refine key _ _ H ?_; intro rels ρ σ
    rw [Stmt.on] at H; simp only [exec, ih H.2]

end Verif.Replace
