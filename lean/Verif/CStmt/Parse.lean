import Verif.CStmt.Lex

/-! The parser reads the printed tokens as the printed statements. -/

namespace Verif.CStmt

open Verif.CPrint

/-- With every sufficient bound the result is this. -/
def Evt {α : Type} (g : Nat → Option α) (a : α) : Prop := ∃ n, ∀ f, n ≤ f → g f = some a

theorem Evt.bind {α β : Type} {g : Nat → Option α} {h : Nat → α → Option β} {a : α} {b : β} (h1 : Evt g a) (h2 : Evt (fun f => h f a) b) :
    Evt (fun f => (g f).bind (h f)) b := by
  obtain ⟨n, h1⟩ := h1
  obtain ⟨m, h2⟩ := h2
  refine ⟨max n m, fun f hf => ?_⟩
  show (g f).bind (h f) = some b
  rw [h1 f (by omega)]
  exact h2 f (by omega)

theorem Evt.map {α β : Type} {g : Nat → Option α} {h : α → β} {a : α} (h1 : Evt g a) : Evt (fun f => (g f).map h) (h a) := by
  obtain ⟨n, h1⟩ := h1
  refine ⟨n, fun f hf => ?_⟩
  show (g f).map h = some (h a)
  rw [h1 f hf]; rfl

theorem Evt.const {α : Type} {x : Option α} {a : α} (h : x = some a) : Evt (fun _ => x) a := ⟨0, fun _ _ => h⟩

theorem Evt.succ {α : Type} {g : Nat → Option α} {a : α} (h : Evt (fun f => g (f + 1)) a) : Evt g a := by
  obtain ⟨n, h⟩ := h
  refine ⟨n + 1, fun f hf => ?_⟩
  obtain ⟨k, rfl⟩ : ∃ k, f = k + 1 := ⟨f - 1, by omega⟩
  exact h k (by omega)

theorem Evt.congr {α : Type} {g g' : Nat → Option α} {a : α} (h : Evt g' a) (hg : ∀ f, g f = g' f) : Evt g a :=
  let ⟨n, h⟩ := h
  ⟨n, fun f hf => (hg f).trans (h f hf)⟩

abbrev SEv (m : SMode) (ts : List Tok) (r : List Stm × List Tok) : Prop := Evt (fun f => stmts f m ts) r

/-! ### Expressions in statements -/

theorem lvl_le (a : E .expr) (p : Nat) : lvl a p ≤ 9 := by
  cases a with
  | bin op _ _ => simp only [lvl]; split; decide; cases op <;> decide
  | _ => exact (by decide : 1 ≤ 9)

theorem expect_self (s : List Char) (ts : List Tok) : expect s (.sym s :: ts) = some ts := by simp [expect]

theorem expectWord_self (s : List Char) (ts : List Tok) : expectWord s (.word s :: ts) = some ts := by simp [expectWord]

theorem exprThen_ev {ts r : List Tok} {a : C} {s : List Char} (h : Ev (.level 9) ts (a, .sym s :: r)) : Evt (fun f => exprThen f s ts) (a, r) := by
  obtain ⟨n, h⟩ := h
  refine ⟨n, fun f hf => ?_⟩
  show (parse f (.level 9) ts).bind _ = _
  rw [h f hf]
  simp only [Option.bind_some, expect_self]
  rfl

theorem ex_ev {e : E .expr} (h : WF e) {c : Char} (hc : c = ')' ∨ c = ']' ∨ c = ',' ∨ c = ';' ∨ c = ':') (p : Nat) (rest : List Tok) :
    Ev (.level 9) (toks (pr e p).1 ++ .sym [c] :: rest) (denotes e, .sym [c] :: rest) :=
  (parses e p (.sym [c] :: rest) h).2 9 (lvl_le e p) (.sym hc _ _)

theorem ex_then {e : E .expr} (h : WF e) {c : Char} (hc : c = ')' ∨ c = ']' ∨ c = ',' ∨ c = ';' ∨ c = ':') (p : Nat) (rest : List Tok) :
    Evt (fun f => exprThen f [c] (toks (pr e p).1 ++ .sym [c] :: rest)) (denotes e, rest) := exprThen_ev (ex_ev h hc p rest)

theorem parens_ev {e : E .expr} (h : WF e) (p : Nat) (rest : List Tok) :
    Evt (fun f => parens f (.sym ['('] :: (toks (pr e p).1 ++ .sym [')'] :: rest))) (denotes e, rest) := by
  obtain ⟨n, h⟩ := ex_then h (c := ')') (by simp) p rest
  exact ⟨n, fun f hf => by simp only [parens, expect_self, Option.bind_some]; exact h f hf⟩

theorem ident_ok {x : List Char} (h : nameOK x = true) (ts : List Tok) : ident (.word x :: ts) = some (x, ts) := by simp [ident, h]

theorem typeWordsOf_of (ty : List (List Char)) (h : ∀ w ∈ ty, isType w = true) (rest : List Tok) (hr : typeWordsOf rest = ([], rest)) :
    typeWordsOf (toks (typeWords ty) ++ rest) = (ty, rest) := by
  induction ty with
  | nil => exact hr
  | cons w ws ih =>
    have hw := h w List.mem_cons_self
    have := ih fun z hz => h z (List.mem_cons_of_mem _ hz)
    have e : toks (typeWords (w :: ws)) ++ rest = .word w :: (toks (typeWords ws) ++ rest) := by
      cases ws <;> rfl
    rw [e]
    simp only [typeWordsOf, hw, if_true, this]

theorem typeWordsOf_sym (s : List Char) (ts : List Tok) : typeWordsOf (.sym s :: ts) = ([], .sym s :: ts) := rfl

theorem typeWordsOf_name {x : List Char} (h : nameOK x = true) (ts : List Tok) : typeWordsOf (.word x :: ts) = ([], .word x :: ts) := by
  simp [typeWordsOf, name_type h]

theorem name0 {w : List Char} {ts : List Tok} {r} (h : nameOK w = true) (hp : Ev (.post (.id w)) ts r) : Ev (.level 0) (.word w :: ts) r := by
  cases w with
  | nil => cases h
  | cons c cs =>
    have hd : isDigit c = false := by
      simp only [nameOK, Bool.and_eq_true, Bool.not_eq_true'] at h
      exact h.1.1.1
    refine .word0 (name_type h) (name_keyword h) ?_
    rw [hd]; exact hp

theorem post_incr {ts : List Tok} {a : C} {r} (h : Ev (.post (.un ['+', '+', ' '] a)) ts r) : Ev (.post a) (.sym ['+', '+'] :: ts) r :=
  .step1 h fun f e => by
    have h1 : (['+', '+'] : List Char) ≠ ['['] := by decide
    have h2 : (['+', '+'] : List Char) ≠ ['('] := by decide
    simp only [parse, if_neg h1, if_neg h2, true_or, if_true]
    exact e

/-- The condition of a loop. -/
theorem cond_ev {x : List Char} {b : E .expr} (hx : nameOK x = true) (h : WF b) (rest : List Tok) :
    Ev (.level 9) (.word x :: .sym ['<'] :: (toks (pr b 0).1 ++ .sym [';'] :: rest)) (.bin .lt (.id x) (denotes b), .sym [';'] :: rest) := by
  have h0 : lvl b 0 ≤ 3 := by
    cases b with
    | bin op _ _ => simp only [lvl]; cases op <;> decide
    | _ => exact (by decide : 1 ≤ 3)
  have h1 : Ev (.level 3) (.word x :: .sym ['<'] :: (toks (pr b 0).1 ++ .sym [';'] :: rest)) (.id x, .sym ['<'] :: (toks (pr b 0).1 ++ .sym [';'] :: rest)) :=
    (Ev.name hx (Ev.post_end (ts := .sym ['<'] :: (toks (pr b 0).1 ++ .sym [';'] :: rest)) ⟨by decide, by decide, by decide, by decide⟩)).climb
      (Nat.le_refl 1) (by decide) (Stop.op (op := .lt) (by decide) _)
  have hs : ∀ n, Stop n (.sym [';'] :: rest) := fun n => .sym (by simp) _ _
  have h2 := (parses b 0 (.sym [';'] :: rest) h).2 3 h0 (hs 3)
  exact (Ev.level h1 (.chain_op (op := .lt) rfl h2 (.chain_end ((hs 4).1 4 (Nat.le_refl _))))).climb (by decide) (by decide) (hs 9)

theorem isLitOne_eq {a : E .expr} (h : isLitOne a = true) : a = .lit false ['1'] := by
  unfold isLitOne at h
  split at h
  · rfl
  · cases h

theorem isVar_eq {x : List Char} {a : E .expr} (h : isVar x a = true) : a = .var x := by
  cases a with
  | var y => have : x = y := by simpa [isVar] using h
             rw [this]
  | _ => cases h

/-! ### Steps of the parser -/

theorem kind_name {x : List Char} (h : nameOK x = true) : kind x = .other := by
  have hk := name_keyword h
  have ne : ∀ k ∈ keywords, x ≠ k.toList := by
    intro k hk' e
    have : isKeyword x = true := List.any_eq_true.2 ⟨k, hk', by rw [e]; exact beq_self_eq_true _⟩
    rw [hk] at this; cases this
  unfold kind
  rw [if_neg (ne _ (by decide)), if_neg (ne _ (by decide)), if_neg (ne _ (by decide)), if_neg (ne _ (by decide)),
    if_neg (ne _ (by decide)), if_neg (ne _ (by decide))]

theorem name_ne {x : List Char} (h : nameOK x = true) {k : String} (hk : k ∈ keywords) : x ≠ k.toList := by
  intro e
  have : isKeyword x = true := List.any_eq_true.2 ⟨k, hk, by rw [e]; exact beq_self_eq_true _⟩
  rw [name_keyword h] at this; cases this

theorem type_kind {w : List Char} (h : isType w = true) : kind w = .other := by
  simp only [isType, typeNames, List.any_cons, List.any_nil, Bool.or_eq_true, beq_iff_eq, Bool.or_false] at h
  rcases h with h | h | h | h | h | h | h | h | h | h | h | h | h | h <;> subst h <;> decide

theorem simple_type {w : List Char} (h : (isType w || isKeyword w) = true) (f : Nat) (ts : List Tok) : simple f (.word w :: ts) = none := by
  unfold simple
  cases f with
  | zero => rfl
  | succ f =>
    have : parse (f + 1) (.level 0) (.word w :: ts) = none := by simp only [parse, h, if_true]
    rw [this]; rfl

/-- How the tokens of one statement begin. -/
theorem one_starts {ts : List Tok} {r} (h : SEv .one ts r) : atEnd ts = false ∧ isDecl ts = false ∧ expect ['{'] ts = none := by
  obtain ⟨n, h⟩ := h
  have h := h (n + 1) (by omega)
  cases ts with
  | nil => simp only [stmts] at h; cases h
  | cons t ts =>
    cases t with
    | sym s =>
      simp only [stmts] at h
      split at h
      · rename_i hd
        have h1 : s ≠ ['}'] := by rintro rfl; exact absurd hd.1 (by decide)
        have h2 : s ≠ ['{'] := by rintro rfl; exact absurd hd.1 (by decide)
        refine ⟨by simp [atEnd, h1], rfl, by simp [expect, h2]⟩
      · cases h
    | word w =>
      refine ⟨rfl, ?_, rfl⟩
      cases ht : isType w with
      | false => simp [isDecl, typeWordsOf, ht]
      | true =>
        simp only [stmts, type_kind ht, simple_type (w := w) (by rw [ht]; rfl)] at h
        cases h

/-- Statements do not begin with `else`. -/
theorem items_noElse {ts : List Tok} {r} (h : SEv .items ts r) : expectWord "else".toList ts = none := by
  cases ts with
  | nil => rfl
  | cons t ts =>
    cases t with
    | sym s => rfl
    | word w =>
      by_cases hw : w = "else".toList
      · subst hw
        exfalso
        obtain ⟨n, h⟩ := h
        have h : stmts (n + 2) .items (.word "else".toList :: ts) = some r := h (n + 2) (by omega)
        have hd : isDecl (.word "else".toList :: ts) = false := by
          simp only [isDecl, typeWordsOf, show isType "else".toList = false by decide]
          rfl
        have ho : stmts (n + 1) .one (.word "else".toList :: ts) = none := by
          simp only [stmts, show kind "else".toList = .other by decide, simple_type (w := "else".toList) (by decide)]
          rfl
        rw [stmts, if_neg (by simp [atEnd]), if_neg (by rw [hd]; simp), ho] at h
        cases h
      · exact if_neg hw

theorem items_one {ts ts' r : List Tok} {a b : List Stm} (h1 : SEv .one ts (a, ts')) (h2 : SEv .items ts' (b, r)) : SEv .items ts (a ++ b, r) := by
  obtain ⟨e1, e2, _⟩ := one_starts h1
  refine .succ (Evt.congr (Evt.bind (h := fun f q => (stmts f .items q.2).map fun r => (q.1 ++ r.1, r.2)) h1 (Evt.map (h := fun r => (a ++ r.1, r.2)) h2)) fun f => ?_)
  show stmts (f + 1) .items ts = _
  rw [stmts]
  simp only [e1, e2, Bool.false_eq_true, if_false]

theorem items_decl {ts ts' r : List Tok} {s : Stm} {b : List Stm} (hd : isDecl ts = true) (he : atEnd ts = false)
    (h1 : Evt (fun f => declaration f ts) (s, ts')) (h2 : SEv .items ts' (b, r)) : SEv .items ts (s :: b, r) := by
  refine .succ (Evt.congr (Evt.bind (h := fun f q => (stmts f .items q.2).map fun r => (q.1 ++ r.1, r.2)) (Evt.map (h := one) h1) (Evt.map (h := fun r => ([s] ++ r.1, r.2)) h2)) fun f => ?_)
  show stmts (f + 1) .items ts = _
  rw [stmts]
  simp only [he, hd, Bool.false_eq_true, if_false, if_true]

theorem items_end {ts : List Tok} (h : atEnd ts = true) : SEv .items ts ([], ts) :=
  .succ ⟨0, fun f _ => by show stmts (f + 1) .items ts = _; rw [stmts, if_pos h]⟩

theorem body_brace {ts r : List Tok} {l : List Stm} (h : SEv .items ts (l, .sym ['}'] :: r)) : SEv .body (.sym ['{'] :: ts) (l, r) := by
  refine .succ (Evt.congr (Evt.bind (h := fun _ q => (expect ['}'] q.2).map fun ts => (q.1, ts)) h (Evt.const (by rw [expect_self]; rfl))) fun f => ?_)
  show stmts (f + 1) .body _ = _
  rw [stmts, expect_self]

theorem body_one {ts : List Tok} {r} (h : SEv .one ts r) : SEv .body ts r := by
  refine .succ (Evt.congr h fun f => ?_)
  show stmts (f + 1) .body _ = _
  rw [stmts, (one_starts h).2.2]

theorem one_pragma {d : List Char} {ts r : List Tok} {a : List Stm} (hd : dirOK d) (h : SEv .one ts (a, r)) :
    SEv .one (.sym d :: ts) (a.map (.pragma d), r) := by
  refine .succ (Evt.congr (Evt.map (h := fun q => (q.1.map (Stm.pragma d), q.2)) h) fun f => ?_)
  obtain ⟨⟨t, rfl, ht⟩, _⟩ := hd
  show stmts (f + 1) .one _ = _
  rw [stmts, if_pos ⟨rfl, by simp [ht]⟩]

/-- What follows the first branch of a conditional. -/
def elsePart (c : C) (th : List Stm) (ts : List Tok) (f : Nat) : Option (List Stm × List Tok) :=
  match expectWord "else".toList ts with
  | some ts => (stmts f .body ts).map fun el => ([.ite c th el.1], el.2)
  | none => some ([.ite c th []], ts)

theorem one_if {ts t1 t2 : List Tok} {c : C} {th : List Stm} {r} (h1 : Evt (fun f => parens f ts) (c, t1)) (h2 : SEv .body t1 (th, t2))
    (h3 : Evt (elsePart c th t2) r) : SEv .one (.word "if".toList :: ts) r := by
  refine .succ (Evt.congr (Evt.bind (h := fun f q => (stmts f .body q.2).bind fun th => elsePart q.1 th.1 th.2 f) h1
    (Evt.bind (h := fun f (th : List Stm × List Tok) => elsePart c th.1 th.2 f) h2 h3)) fun f => ?_)
  show stmts (f + 1) .one _ = _
  rw [stmts]
  rfl

theorem else_none {ts : List Tok} {c : C} {th : List Stm} (h : expectWord "else".toList ts = none) :
    Evt (elsePart c th ts) ([.ite c th []], ts) := ⟨0, fun f _ => by unfold elsePart; rw [h]⟩

theorem else_some {ts r : List Tok} {c : C} {th el : List Stm} (h : SEv .body ts (el, r)) :
    Evt (elsePart c th (.word "else".toList :: ts)) ([.ite c th el], r) := by
  refine Evt.congr (Evt.map (h := fun q => ([Stm.ite c th q.1], q.2)) h) fun f => ?_
  unfold elsePart
  rw [expectWord_self]

theorem one_while {ts t1 r : List Tok} {c : C} {b : List Stm} (h1 : Evt (fun f => parens f ts) (c, t1)) (h2 : SEv .body t1 (b, r)) :
    SEv .one (.word "while".toList :: ts) ([.loop c b], r) := by
  refine .succ (Evt.congr (Evt.bind (h := fun f q => (stmts f .body q.2).map fun b => ([Stm.loop q.1 b.1], b.2)) h1
    (Evt.map (h := fun b => ([Stm.loop c b.1], b.2)) h2)) fun f => ?_)
  show stmts (f + 1) .one _ = _
  rw [stmts]
  rfl

theorem one_for {ts t1 r : List Tok} {h : ForHead} {b : List Stm} (h1 : Evt (fun f => forHead f ts) (h, t1)) (h2 : SEv .body t1 (b, r)) :
    SEv .one (.word "for".toList :: ts) ([.for h.ty h.x h.start h.cond h.step b], r) := by
  refine .succ (Evt.congr (Evt.bind (h := fun f q => (stmts f .body q.2).map fun b => ([Stm.for q.1.ty q.1.x q.1.start q.1.cond q.1.step b.1], b.2)) h1
    (Evt.map (h := fun b => ([Stm.for h.ty h.x h.start h.cond h.step b.1], b.2)) h2)) fun f => ?_)
  show stmts (f + 1) .one _ = _
  rw [stmts]
  rfl

theorem one_switch {ts t1 : List Tok} {c : C} {r} (h1 : Evt (fun f => parens f ts) (c, .sym ['{'] :: t1)) (h2 : SEv (.cases c []) t1 r) :
    SEv .one (.word "switch".toList :: ts) r := by
  refine .succ (Evt.congr (Evt.bind (h := fun f q => (expect ['{'] q.2).bind fun ts => stmts f (.cases q.1 []) ts) h1
    (Evt.congr h2 fun f => by simp only [expect_self, Option.bind_some])) fun f => ?_)
  show stmts (f + 1) .one _ = _
  rw [stmts]
  rfl

theorem one_cont (ts : List Tok) : SEv .one (.word "continue".toList :: .sym [';'] :: ts) ([.cont], ts) :=
  .succ ⟨0, fun f _ => by show stmts (f + 1) .one _ = _; rw [stmts]; rfl⟩

theorem one_brk (ts : List Tok) : SEv .one (.word "break".toList :: .sym [';'] :: ts) ([.brk], ts) :=
  .succ ⟨0, fun f _ => by show stmts (f + 1) .one _ = _; rw [stmts]; rfl⟩

theorem one_simple {x : List Char} (hx : nameOK x = true) {ts r : List Tok} {s : Stm} (h : Evt (fun f => simple f (.word x :: ts)) (s, r)) :
    SEv .one (.word x :: ts) ([s], r) := by
  refine .succ (Evt.congr (Evt.map (h := one) h) fun f => ?_)
  show stmts (f + 1) .one _ = _
  rw [stmts]
  simp only [kind_name hx]

theorem cases_end (c : C) (done : List (C × List Stm)) (ts : List Tok) : SEv (.cases c done) (.sym ['}'] :: ts) ([.switch c done], ts) :=
  .succ ⟨0, fun f _ => by show stmts (f + 1) (.cases c done) _ = _; rw [stmts, expect_self]⟩

theorem cases_more {c v : C} {done : List (C × List Stm)} {b : List Stm} {ts t1 t2 : List Tok} {r}
    (h1 : Evt (fun f => exprThen f [':'] ts) (v, .sym ['{'] :: t1)) (h2 : SEv .items t1 (b, .sym ['}'] :: t2))
    (h3 : SEv (.cases c (done ++ [(v, b)])) t2 r) : SEv (.cases c done) (.word "case".toList :: ts) r := by
  refine .succ (Evt.congr (Evt.bind (h := fun f (v : C × List Tok) => (expect ['{'] v.2).bind fun ts =>
        (stmts f .items ts).bind fun b => (expect ['}'] b.2).bind fun ts => stmts f (.cases c (done ++ [(v.1, b.1)])) ts) h1
    (Evt.congr (Evt.bind (h := fun f (b : List Stm × List Tok) => (expect ['}'] b.2).bind fun ts => stmts f (.cases c (done ++ [(v, b.1)])) ts) h2
      (Evt.congr h3 fun f => by simp only [expect_self, Option.bind_some])) fun f => by simp only [expect_self, Option.bind_some])) fun f => ?_)
  show stmts (f + 1) (.cases c done) _ = _
  rw [stmts]
  simp only [expect, expectWord_self, Option.bind_some]

/-! ### Simple statements -/

/-- The text of an expression does not begin with a cast to a pointer. -/
theorem pointerCast_none (e : E .expr) : WF e → ∀ (p : Nat) (rest : List Tok), pointerCast (toks (pr e p).1 ++ rest) = none := by
  have hword : ∀ w ts, pointerCast (.word w :: ts) = none := fun w ts => rfl
  have hsym : ∀ s ts, s ≠ ['('] → pointerCast (.sym s :: ts) = none := fun s ts h => by simp [pointerCast, expect, h]
  have hparen : ∀ ts, (typeWordsOf ts).1 = [] → pointerCast (.sym ['('] :: ts) = none := by
    intro ts h
    simp only [pointerCast, expect_self, Option.bind_some, h, if_true]
  generalize hs : Sort'.expr = s at e
  induction e with
  | lit n t =>
    intro _ p rest
    cases n
    · exact hword _ _
    · exact hsym _ _ (by decide)
  | cplx rn r im i =>
    intro hw
    exact hw.elim
  | var x => intro _ p rest; exact hword _ _
  | neg b a =>
    intro _ p rest
    refine hsym _ _ ?_
    cases b <;> decide
  | bin op a b iha ihb =>
    intro hw p rest
    simp only [pr]
    split
    · simp only [toks_append, toks_sp, toks_sym, toks_nil, List.append_assoc, List.cons_append, List.nil_append]
      exact hparen _ (parses a op.prec _ hw.1).1.1
    · simp only [toks_append, toks_sp, toks_sym, toks_nil, List.append_assoc, List.cons_append, List.nil_append]
      exact iha rfl hw.1 _ _
  | cast ty a =>
    intro hw p rest
    simp only [pr, toks_append, toks_sp, toks_sym, toks_nil, List.append_assoc, List.cons_append, List.nil_append]
    simp only [pointerCast, expect_self, Option.bind_some, typeWordsOf_typeWords ty hw.1 hw.2.1, hw.1, if_false]
    rfl
  | call f as => intro _ p rest; exact hword _ _
  | sqrt a => intro _ p rest; exact hword _ _
  | minmax f a b => intro _ p rest; exact hword _ _
  | load x a => intro _ p rest; exact hword _ _
  | malloc a => intro _ p rest; exact hword _ _
  | nil => cases hs
  | cons => cases hs

theorem simple_set {ts t r : List Tok} {l e : C} (h1 : Ev (.level 0) ts (l, .sym ['='] :: t)) (hp : pointerCast t = none)
    (h2 : Evt (fun f => exprThen f [';'] t) (e, r)) : Evt (fun f => simple f ts) (.set l e, r) := by
  obtain ⟨n, h1⟩ := h1
  obtain ⟨m, h2⟩ := h2
  refine ⟨max n m, fun f hf => ?_⟩
  show simple f ts = _
  unfold simple
  rw [h1 f (by omega)]
  have h2 := h2 f (by omega)
  try dsimp only at h2
  simp only [Option.bind_some, if_neg (show (['='] : List Char) ≠ [';'] by decide), if_true, hp]
  rw [h2]
  rfl

theorem simple_incr {x : List Char} (hx : nameOK x = true) (r : List Tok) :
    Evt (fun f => simple f (.word x :: .sym ['+', '+'] :: .sym [';'] :: r)) (.set (.id x) (.bin .add (.id x) (.num ['1'])), r) := by
  obtain ⟨n, h⟩ := name0 hx (post_incr (.post_end (ts := .sym [';'] :: r) ⟨by decide, by decide, by decide, by decide⟩))
  refine ⟨n, fun f hf => ?_⟩
  show simple f _ = _
  unfold simple
  rw [h f hf]
  simp only [Option.bind_some, if_true]

theorem simple_compound {ts t r : List Tok} {l e : C} {s : List Char} {op : BOp} (h1 : Ev (.level 0) ts (l, .sym s :: t)) (hs : compound s = some op)
    (hs1 : s ≠ [';']) (hs2 : s ≠ ['=']) (h2 : Evt (fun f => exprThen f [';'] t) (e, r)) : Evt (fun f => simple f ts) (.set l (.bin op l e), r) := by
  obtain ⟨n, h1⟩ := h1
  obtain ⟨m, h2⟩ := h2
  refine ⟨max n m, fun f hf => ?_⟩
  show simple f ts = _
  unfold simple
  rw [h1 f (by omega)]
  have h2 := h2 f (by omega)
  try dsimp only at h2
  simp only [Option.bind_some, if_neg hs1, if_neg hs2, hs]
  rw [h2]
  rfl

theorem simple_call {ts r : List Tok} {g : C} {args : List C} (h1 : Ev (.level 0) ts (.call g args, .sym [';'] :: r)) :
    Evt (fun f => simple f ts) (.expr (.call g args), r) := by
  obtain ⟨n, h⟩ := h1
  refine ⟨n, fun f hf => ?_⟩
  show simple f _ = _
  unfold simple
  rw [h f hf]
  simp only [Option.bind_some, if_true]

theorem assign_ev {x : List Char} {e : E .expr} (hx : nameOK x = true) (he : WF e) (rest : List Tok) :
    SEv .one (toks (prAssign x e) ++ rest) ([.set (.id x) (denotes e)], rest) := by
  have l0 : ∀ (s : List Char) (t : List Tok), s ≠ ['['] → s ≠ ['('] → s ≠ ['+', '+'] → s ≠ ['-', '-'] → Ev (.level 0) (.word x :: .sym s :: t) (.id x, .sym s :: t) :=
    fun s t h1 h2 h3 h4 => name0 hx (.post_end (ts := .sym s :: t) ⟨h1, h2, h3, h4⟩)
  have eq : ∀ a : E .expr, WF a → SEv .one (toks ([.word x, .sp, .sym ['='], .sp] ++ (pr a 20).1 ++ [.sym [';']]) ++ rest) ([.set (.id x) (denotes a)], rest) := by
    intro a ha
    simp only [toks_append, toks_sp, toks_sym, toks_word, toks_nil, List.append_assoc, List.cons_append, List.nil_append]
    exact one_simple hx (simple_set (l0 _ _ (by decide) (by decide) (by decide) (by decide)) (pointerCast_none a ha _ _) (ex_then ha (by simp) _ _))
  have comp : ∀ (s : List Char) (op : BOp) (a : E .expr), WF a → compound s = some op → s ≠ [';'] → s ≠ ['='] → s ≠ ['['] → s ≠ ['('] → s ≠ ['+', '+'] → s ≠ ['-', '-'] →
      SEv .one (toks ([.word x, .sp, .sym s, .sp] ++ (pr a 20).1 ++ [.sym [';']]) ++ rest) ([.set (.id x) (.bin op (.id x) (denotes a))], rest) := by
    intro s op a ha hs h1 h2 h3 h4 h5 h6
    simp only [toks_append, toks_sp, toks_sym, toks_word, toks_nil, List.append_assoc, List.cons_append, List.nil_append]
    exact one_simple hx (simple_compound (l0 _ _ h3 h4 h5 h6) hs h1 h2 (ex_then ha (by simp) _ _))
  unfold prAssign
  split
  · rename_i a b
    split
    · rename_i hv
      have hv := isVar_eq hv
      subst hv
      split
      · rename_i ho
        have ho := isLitOne_eq ho
        subst ho
        exact one_simple hx (simple_incr hx rest)
      · exact comp ['+', '='] .add b he.2 rfl (by decide) (by decide) (by decide) (by decide) (by decide) (by decide)
    · exact eq _ he
  · rename_i a b
    split
    · rename_i hv
      have hv := isVar_eq hv
      subst hv
      exact comp ['*', '='] .mul b he.2 rfl (by decide) (by decide) (by decide) (by decide) (by decide) (by decide)
    · exact eq _ he
  · rename_i a b
    split
    · rename_i hv
      have hv := isVar_eq hv
      subst hv
      exact comp ['|', '='] .bor b he.2 rfl (by decide) (by decide) (by decide) (by decide) (by decide) (by decide)
    · exact eq _ he
  · exact eq _ he

theorem store_ev {a : List Char} {i e : E .expr} (ha : nameOK a = true) (hi : WF i) (he : WF e) (rest : List Tok) :
    SEv .one (toks ([.word a, .sym ['[']] ++ (pr i 20).1 ++ [.sym [']'], .sp, .sym ['='], .sp] ++ (pr e 20).1 ++ [.sym [';']]) ++ rest)
      ([.set (.index (.id a) (denotes i)) (denotes e)], rest) := by
  simp only [toks_append, toks_sp, toks_sym, toks_word, toks_nil, List.append_assoc, List.cons_append, List.nil_append]
  refine one_simple ha (simple_set (t := toks (pr e 20).1 ++ .sym [';'] :: rest) ?_ (pointerCast_none e he _ _) (ex_then he (by simp) _ _))
  exact name0 ha (.index (ex_ev hi (by simp) _ _) (.post_end ⟨by decide, by decide, by decide, by decide⟩))

theorem free_ev {x : List Char} (hx : nameOK x = true) (rest : List Tok) :
    SEv .one (.word "free".toList :: .sym ['('] :: .word x :: .sym [')'] :: .sym [';'] :: rest) ([.expr (.call (.id "free".toList) [.id x])], rest) := by
  have hf : nameOK "free".toList = true := by decide
  refine one_simple hf (simple_call (name0 hf (.callArgs (by simp) (.args_last (a := .id x) (done := []) (rest := .sym [';'] :: rest) ?_
    (.post_end ⟨by decide, by decide, by decide, by decide⟩)))))
  exact ex_ev (e := .var x) hx (c := ')') (by simp) 20 _

/-- An argument list with `cmp` at the end. -/
def withCmp : {k : Sort'} → E k → E k
  | _, .nil => .cons (.var "cmp".toList) .nil
  | _, .cons a as => .cons a (withCmp as)
  | _, e => e

theorem withCmp_wf (args : E .args) (h : WF args) : WF (withCmp args) := by
  match args, h with
  | .nil, _ => exact ⟨(by decide : nameOK "cmp".toList = true), trivial⟩
  | .cons a as, h => exact ⟨h.1, withCmp_wf as h.2⟩

theorem withCmp_denotes (args : E .args) : denotes (withCmp args) = List.append (α := C) (denotes args) [.id "cmp".toList] := by
  match args with
  | .nil => rfl
  | .cons a as =>
    show (denotes a : C) :: denotes (withCmp as) = _
    rw [withCmp_denotes as]; rfl

theorem withCmp_cons (b : E .expr) (bs : E .args) : ∃ d ds, withCmp (.cons b bs) = .cons d ds := ⟨_, _, rfl⟩

theorem withCmp_pr (a : E .expr) (as : E .args) (p : Nat) :
    (pr (withCmp (.cons a as)) p).1 = (pr (.cons a as) p).1 ++ [.sym [','], .sp, .word "cmp".toList] := by
  match as with
  | .nil => simp [withCmp, pr]
  | .cons b bs =>
    have ih := withCmp_pr b bs (pr a p).2
    show (pr (.cons a (.cons b (withCmp bs))) p).1 = (pr (.cons a (.cons b bs)) p).1 ++ _
    simp only [pr, List.append_assoc]
    rw [show E.cons b (withCmp bs) = withCmp (.cons b bs) from rfl, ih]

theorem sort_ev {args : E .args} (h : WF args) (hne : ∃ a as, args = .cons a as) (rest : List Tok) :
    SEv .one (toks ([word "qsort", .sym ['(']] ++ (pr args 2).1 ++ [.sym [','], .sp, word "cmp", .sym [')'], .sym [';']]) ++ rest)
      ([.expr (.call (.id "qsort".toList) (List.append (α := C) (denotes args) [.id "cmp".toList]))], rest) := by
  obtain ⟨a, as, rfl⟩ := hne
  have hq : nameOK "qsort".toList = true := by decide
  have e : toks ([word "qsort", .sym ['(']] ++ (pr (.cons a as) 2).1 ++ [.sym [','], .sp, word "cmp", .sym [')'], .sym [';']]) ++ rest =
      .word "qsort".toList :: .sym ['('] :: (toks (pr (withCmp (.cons a as)) 2).1 ++ .sym [')'] :: .sym [';'] :: rest) := by
    rw [withCmp_pr]
    simp only [toks_append, toks_sp, toks_sym, toks_word, toks_nil, word, List.append_assoc, List.cons_append, List.nil_append]
  rw [e, ← withCmp_denotes]
  refine one_simple hq (simple_call (name0 hq (.callArgs ?_ ?_)))
  · exact ((parses (withCmp (.cons a as)) 2 (.sym [')'] :: .sym [';'] :: rest) (withCmp_wf _ h)) _ _ rfl).1.2
  · refine ((parses (withCmp (.cons a as)) 2 (.sym [';'] :: rest) (withCmp_wf _ h)) _ _ rfl).2 (.id "qsort".toList) [] _ ?_
    exact .post_end ⟨by decide, by decide, by decide, by decide⟩

theorem size_ev {ty : List (List Char)} {n : E .expr} (hty : typeOK ty) (hn : WF n) (rest : List Tok) :
    Evt (fun f => sizeArg f (.word "sizeof".toList :: .sym ['('] :: (toks (typeWords ty) ++ .sym [')'] :: .sym ['*'] :: (toks (pr n 5).1 ++ .sym [')'] :: rest))))
      (.bin .mul (sizeOf ty) (denotes n), rest) := by
  have h1 : lvl n 5 ≤ 1 := by
    cases n with
    | bin op _ _ => simp only [lvl]; cases op <;> decide
    | _ => exact Nat.le_refl 1
  have hs : ∀ k, Stop k (.sym [')'] :: rest) := fun k => .sym (by simp) _ _
  have h2 := (parses n 5 (.sym [')'] :: rest) hn).2 1 h1 (hs 1)
  obtain ⟨k, h3⟩ := Ev.chain_op (n := 2) (op := .mul) (a := sizeOf ty) (ts := .sym ['*'] :: (toks (pr n 5).1 ++ .sym [')'] :: rest)) rfl h2
    (.chain_end ((hs 2).1 2 (Nat.le_refl _)))
  refine ⟨k, fun f hf => ?_⟩
  show sizeArg f _ = _
  unfold sizeArg
  simp only [expectWord_self, expect_self, Option.bind_some, typeWordsOf_of ty hty.2 _ (typeWordsOf_sym _ _)]
  rw [h3 f hf]
  simp only [Option.bind_some, expect_self]
  rfl

theorem allocation_malloc {ts r : List Tok} {g : List Char} {s : C} (hg : nameOK g = true) (h : Evt (fun f => sizeArg f ts) (s, .sym [';'] :: r)) :
    Evt (fun f => allocation f (.word g :: .sym ['('] :: ts)) ((g, [s]), r) := by
  obtain ⟨n, h⟩ := h
  refine ⟨n, fun f hf => ?_⟩
  show allocation f _ = _
  unfold allocation
  have h := h f hf
  try dsimp only at h
  simp only [ident_ok hg, expect_self, Option.bind_some]
  rw [h]
  simp only [expect_self]
  rfl

theorem allocation_more {ts t1 r : List Tok} {g : List Char} {a s : C} (hg : nameOK g = true) (hn : ∀ f, sizeArg f ts = none)
    (h1 : Evt (fun f => exprThen f [','] ts) (a, t1)) (h : Evt (fun f => sizeArg f t1) (s, .sym [';'] :: r)) :
    Evt (fun f => allocation f (.word g :: .sym ['('] :: ts)) ((g, [a, s]), r) := by
  obtain ⟨n, h⟩ := h
  obtain ⟨m, h1⟩ := h1
  refine ⟨max n m, fun f hf => ?_⟩
  show allocation f _ = _
  unfold allocation
  have h := h f (by omega)
  try dsimp only at h
  have h1 := h1 f (by omega)
  try dsimp only at h1
  simp only [ident_ok hg, expect_self, Option.bind_some, hn]
  rw [h1]
  simp only [Option.bind_some]
  rw [h]
  simp only [Option.bind_some, expect_self]
  rfl

theorem simple_alloc {ts t u r : List Tok} {l : C} {ty : List (List Char)} {g : List Char} {args : List C} (h1 : Ev (.level 0) ts (l, .sym ['='] :: t))
    (hp : pointerCast t = some (ty, u)) (h2 : Evt (fun f => allocation f u) ((g, args), r)) : Evt (fun f => simple f ts) (.alloc l ty g args, r) := by
  obtain ⟨n, h1⟩ := h1
  obtain ⟨m, h2⟩ := h2
  refine ⟨max n m, fun f hf => ?_⟩
  show simple f ts = _
  unfold simple
  rw [h1 f (by omega)]
  have h2 := h2 f (by omega)
  try dsimp only at h2
  simp only [Option.bind_some, if_neg (show (['='] : List Char) ≠ [';'] by decide), if_true, hp]
  rw [h2]
  rfl

theorem alloc_ev {k : Alloc} {ty : List (List Char)} {x : List Char} {n : E .expr} (hty : typeOK ty) (hx : nameOK x = true) (hn : WF n) (rest : List Tok) :
    SEv .one (toks (prAlloc k ty x n) ++ rest) (den (.alloc k ty x n), rest) := by
  have hp : ∀ u, pointerCast (.sym ['('] :: (toks (typeWords ty) ++ .sym ['*'] :: .sym [')'] :: u)) = some (ty, u) := by
    intro u
    simp only [pointerCast, expect_self, Option.bind_some, typeWordsOf_of ty hty.2 _ (typeWordsOf_sym _ _), hty.1, if_false]
    rfl
  have l0 : ∀ t, Ev (.level 0) (.word x :: .sym ['='] :: t) (.id x, .sym ['='] :: t) :=
    fun t => name0 hx (.post_end (ts := .sym ['='] :: t) ⟨by decide, by decide, by decide, by decide⟩)
  cases k with
  | malloc =>
    simp only [prAlloc, toks_append, toks_sp, toks_sym, toks_word, toks_nil, word, List.append_assoc, List.cons_append, List.nil_append]
    exact one_simple hx (simple_alloc (l0 _) (hp _) (allocation_malloc (by decide) (size_ev hty hn _)))
  | calloc =>
    simp only [prAlloc, toks_append, toks_sp, toks_sym, toks_word, toks_nil, word, List.append_assoc, List.cons_append, List.nil_append]
    refine one_simple hx (simple_alloc (l0 _) (hp _) (allocation_more (by decide) (fun f => rfl) ?_ (size_ev hty hn _)))
    exact ex_then (e := .lit false ['1']) (by exact (by decide : (numOK ['1'] || nameOK ['1']) = true)) (c := ',') (by simp) 20 _
  | realloc =>
    simp only [prAlloc, toks_append, toks_sp, toks_sym, toks_word, toks_nil, word, List.append_assoc, List.cons_append, List.nil_append]
    refine one_simple hx (simple_alloc (l0 _) (hp _) (allocation_more (by decide) (fun f => ?_) ?_ (size_ev hty hn _)))
    · unfold sizeArg
      rw [show expectWord "sizeof".toList (.word x :: _) = none from if_neg (name_ne hx (k := "sizeof") (by decide))]
      rfl
    · exact ex_then (e := .var x) hx (c := ',') (by simp) 20 _

theorem decl_ev {ty : List (List Char)} {ptr : Bool} {x : List Char} {e : E .expr} (hty : typeOK ty) (hx : nameOK x = true) (he : WF e) (rest : List Tok) :
    Evt (fun f => declaration f (toks (prDecl ty ptr x e) ++ rest)) (.decl ty ptr x (denotes e), rest) ∧
      isDecl (toks (prDecl ty ptr x e) ++ rest) = true ∧ atEnd (toks (prDecl ty ptr x e) ++ rest) = false := by
  obtain ⟨n, h⟩ := ex_then he (c := ';') (by simp) 20 rest
  have hat : ∀ r, atEnd (toks (typeWords ty) ++ r) = false := by
    intro r
    cases ty with
    | nil => exact absurd rfl hty.1
    | cons w ws => cases ws <;> rfl
  cases ptr with
  | true =>
    simp only [prDecl, toks_append, toks_sp, toks_sym, toks_word, toks_nil, word, if_true, List.append_assoc, List.cons_append, List.nil_append]
    have ht := fun r => typeWordsOf_of ty hty.2 _ (typeWordsOf_sym ['*'] r)
    refine ⟨⟨n, fun f hf => ?_⟩, ?_, hat _⟩
    · have h := h f hf
      try dsimp only at h
      simp only [declaration, ht, expect_self, expectWord_self, Option.bind_some, Option.getD_some, Option.isSome_some, ident_ok hx]
      rw [h]
      rfl
    · simp [isDecl, ht, hty.1]
  | false =>
    simp only [prDecl, toks_append, toks_sp, toks_sym, toks_word, toks_nil, word, Bool.false_eq_true, if_false, List.append_assoc, List.cons_append, List.nil_append]
    have ht := fun r => typeWordsOf_of ty hty.2 _ (typeWordsOf_name hx r)
    have hno : ∀ r, expect ['*'] (.word x :: r) = none := fun r => rfl
    refine ⟨⟨n, fun f hf => ?_⟩, ?_, hat _⟩
    · have h := h f hf
      try dsimp only at h
      simp only [declaration, ht, hno, Option.bind_none, Option.getD_none, Option.isSome_none, ident_ok hx, expect_self, Option.bind_some]
      rw [h]
      rfl
    · simp [isDecl, ht, hty.1]

theorem step_ev {x : List Char} {i : E .expr} (hi : WF i) (p : Nat) (rest : List Tok) :
    Evt (fun f => forStep f x (toks (prStep x i p).1 ++ .sym [')'] :: rest)) (denotes i, rest) := by
  unfold prStep
  split
  · rename_i h
    have := isLitOne_eq h
    subst this
    refine ⟨0, fun f _ => ?_⟩
    simp only [forStep, toks_word, toks_sym, toks_nil, List.cons_append, List.nil_append, expectWord_self, expect_self, Option.bind_some]
    rfl
  · obtain ⟨n, h⟩ := ex_then hi (c := ')') (by simp) p rest
    refine ⟨n, fun f hf => ?_⟩
    have hno : ∀ r, expect ['+', '+'] (.sym ['+', '='] :: r) = none := fun r => rfl
    simp only [forStep, toks_append, toks_sp, toks_word, toks_sym, toks_nil, List.append_assoc, List.cons_append, List.nil_append, expectWord_self, hno, expect_self,
      Option.bind_some]
    exact h f hf

theorem for_ev {ty : List (List Char)} {x : List Char} {a b i : E .expr} (hty : typeOK ty) (hx : nameOK x = true) (ha : WF a) (hb : WF b)
    (hi : WF i) (p : Nat) (rest : List Tok) :
    ∃ ts, toks (prFor ty x a b i p).1 ++ rest = .word "for".toList :: ts ∧
      Evt (fun f => forHead f ts) (⟨ty, x, denotes a, .bin .lt (.id x) (denotes b), denotes i⟩, .sym ['{'] :: rest) := by
  simp only [prFor, prLoopCond, toks_append, toks_sp, toks_sym, toks_word, toks_nil, word, List.append_assoc, List.cons_append, List.nil_append]
  refine ⟨_, rfl, ?_⟩
  have ht := fun r => typeWordsOf_of ty hty.2 _ (typeWordsOf_name hx r)
  obtain ⟨n1, h1⟩ := ex_then ha (c := ';') (by simp) p (.word x :: .sym ['<'] :: (toks (pr b 0).1 ++ .sym [';'] ::
    (toks (prStep x i (pr b 0).2).1 ++ .sym [')'] :: .sym ['{'] :: rest)))
  obtain ⟨n2, h2⟩ := exprThen_ev (cond_ev hx hb (toks (prStep x i (pr b 0).2).1 ++ .sym [')'] :: .sym ['{'] :: rest))
  obtain ⟨n3, h3⟩ := step_ev (x := x) hi (pr b 0).2 (.sym ['{'] :: rest)
  refine ⟨max n1 (max n2 n3), fun f hf => ?_⟩
  have h1 := h1 f (by omega)
  try dsimp only at h1
  have h2 := h2 f (by omega)
  try dsimp only at h2
  have h3 := h3 f (by omega)
  try dsimp only at h3
  simp only [forHead, expect_self, Option.bind_some, ht, hty.1, if_false, ident_ok hx]
  rw [h1]
  simp only [Option.bind_some]
  rw [h2]
  simp only [Option.bind_some]
  rw [h3]
  rfl

/-! ### Statements -/

theorem head_toks (k : List Piece) (c : E .expr) : toks (prHead k c) = toks k ++ .sym ['('] :: (toks (pr c 20).1 ++ [.sym [')']]) := by
  simp only [prHead, toks_append, toks_sp, toks_sym, toks_nil, List.append_assoc, List.cons_append, List.nil_append]

theorem under_one {d : Option (List Char)} (hd : ∀ e, d = some e → dirOK e) {n : Nat} {ts r : List Tok} {s : Stm} (h : SEv .one ts ([s], r)) :
    SEv .one (toksP (pragmaLine n d) ++ ts) ([under d s], r) := by
  cases d with
  | none => exact h
  | some d =>
    simp only [pragmaLine, toksP_dirLine, List.cons_append, List.nil_append]
    exact one_pragma (hd d rfl) h

theorem atomic_eq (n : Nat) (b : Bool) : atomicLine n b = pragmaLine n (if b then some "#pragma omp atomic".toList else none) := by
  cases b <;> rfl

/-- Statements followed by statements. -/
def ItemsOK {k : K} (pr : Nat → Nat → List P × Nat) (d : List Stm) (_ : S k) : Prop :=
  ∀ n p rest l r, SEv .items rest (l, r) → SEv .items (toksP (pr n p).1 ++ rest) (d ++ l, r)

/-- One statement followed by anything that does not continue it. -/
def OneOK (s : S .stmt) : Prop :=
  ∀ n p rest, (openIf s = true → expectWord "else".toList rest = none) → SEv .one (toksP (prS s n p).1 ++ rest) (den s, rest)

/-- What the proof shows of statements, lists and clauses. -/
def ParseS : {k : K} → S k → Prop
  | .stmt, s => ItemsOK (prS s) (den s) s ∧ (single s = true → OneOK s)
  | .list, s => ItemsOK (prS s) (den s) s
  | .clauses, s =>
    (∀ always n p rest c th, (isLast s = true ∨ always = false → expectWord "else".toList rest = none) →
      Evt (elsePart c th (toksP (prS s (.case false always) n p).1 ++ rest)) ([.ite c th ((den s).1 false always)], rest)) ∧
    (∀ always n p rest, isLast s = false → (openIf (.case s always) = true → expectWord "else".toList rest = none) →
      SEv .one (toksP (prS s (.case true always) n p).1 ++ rest) ((den s).1 true always, rest)) ∧
    (∀ n p rest c done, SEv (.cases c done) (toksP (prS s .switch n p).1 ++ .sym ['}'] :: rest) ([.switch c (done ++ (den s).2)], rest))

theorem OneOK.items {s : S .stmt} (h : OneOK s) : ItemsOK (prS s) (den s) s :=
  fun n p rest _ _ hr => items_one (h n p rest fun _ => items_noElse hr) hr

theorem of_one {s : S .stmt} (h : OneOK s) : ParseS s := ⟨h.items, fun _ => h⟩

theorem braces {s : S .stmt} (h : ParseS s) (n p : Nat) (rest : List Tok) :
    SEv .body (.sym ['{'] :: (toksP (prS s n p).1 ++ .sym ['}'] :: rest)) (den s, rest) := by
  have := h.1 n p (.sym ['}'] :: rest) [] (.sym ['}'] :: rest) (items_end rfl)
  have e : List.append (α := Stm) (den s) [] = den s := List.append_nil _
  replace this : SEv .items (toksP (prS s n p).1 ++ .sym ['}'] :: rest) (List.append (α := Stm) (den s) [], .sym ['}'] :: rest) := this
  rw [e] at this
  exact body_brace this

/-- The tokens of the first branch of a conditional. -/
theorem then_ev {c : E .expr} {th : S .stmt} (hok : thenOK th = true) (ih : ParseS th) (n p : Nat) (rest : List Tok)
    (hopen : openIf th = true → expectWord "else".toList rest = none) :
    ∃ ts, toksP (prThen (branch th) n c (prS th 0 p).1 (prS th (n + 1) p).1) ++ rest = .word "if".toList :: .sym ['('] :: (toks (pr c 20).1 ++ .sym [')'] :: ts) ∧
      SEv .body ts (den th, rest) := by
  have oth : ∀ t t', SEv .one (toksP t ++ rest) (den th, rest) → ∃ ts, toksP (prThen .other n c t' t) ++ rest = .word "if".toList :: .sym ['('] :: (toks (pr c 20).1 ++ .sym [')'] :: ts) ∧
      SEv .body ts (den th, rest) := by
    intro t t' h
    refine ⟨_, ?_, body_one h⟩
    simp only [prThen, toksP_append, toksP_line, head_toks, word, toks_word, toks_nil, List.append_assoc, List.cons_append, List.nil_append]
  cases th with
  | block l =>
    refine ⟨_, ?_, braces ih (n + 1) p rest⟩
    simp only [branch, prThen, toksP_append, toksP_on, toksP_line, toks_append, toks_indent, head_toks, word, toks_word, toks_sp, toks_sym, toks_nil, List.append_assoc, List.cons_append, List.nil_append]
  | assign x e atomic =>
    refine ⟨_, ?_, body_one (ih.2 rfl 0 p rest hopen)⟩
    simp only [branch, prThen, toksP_append, toksP_on, toks_append, toks_indent, head_toks, word, toks_word, toks_sp, toks_nil, List.append_assoc, List.cons_append, List.nil_append]
  | scope s => cases hok
  | decl => cases hok
  | blank => cases hok
  | _ => exact oth _ _ (ih.2 hok (n + 1) p rest hopen)

theorem den_clause (c : E .expr) (body : S .stmt) (rest : S .clauses) (first always : Bool) :
    (den (.clause c body rest)).1 first always =
      if isLast rest && always && !first then den body else [.ite (denotes c) (den body) ((den rest).1 false always)] := by
  cases rest with
  | noClause => simp only [den, isLast, Bool.true_and]; rfl
  | clause c' b' r' => rfl

theorem parseS {k : K} (s : S k) : WFS s → ParseS s := by
  induction s with
  | block l ih => exact fun h => ⟨fun n p => ih h n p, fun h => by cases h⟩
  | scope s ih => exact fun h => ⟨fun n p => (ih h).1 (n + 1) p, fun h => by cases h⟩
  | ifThen c th ih =>
    intro h
    refine of_one fun n p rest hopen => ?_
    have hr := hopen rfl
    obtain ⟨ts, e, hb⟩ := then_ev (c := c) h.2.2 (ih h.2.1) n (pr c 20).2 rest fun _ => hr
    have e' : toksP (prS (.ifThen c th) n p).1 ++ rest = .word "if".toList :: .sym ['('] :: (toks (pr c 20).1 ++ .sym [')'] :: ts) := by
      rw [← e]
      simp only [prS, toksP_append, toksP_nl, toksP_nil, List.append_nil]
    rw [e']
    exact one_if (parens_ev h.1 _ _) hb (else_none hr)
  | ifElse c th el iht ihe =>
    intro h
    refine of_one fun n p rest _ => ?_
    obtain ⟨ts, e, hb⟩ := then_ev (c := c) h.2.2.1 (iht h.2.1) n (pr c 20).2
      (.word "else".toList :: .sym ['{'] :: (toksP (prS el (n + 1) (prS th (n + 1) (pr c 20).2).2).1 ++ .sym ['}'] :: rest)) fun ho => by
        rw [h.2.2.2.1] at ho; cases ho
    have e' : toksP (prS (.ifElse c th el) n p).1 ++ rest = .word "if".toList :: .sym ['('] :: (toks (pr c 20).1 ++ .sym [')'] :: ts) := by
      rw [← e]
      simp only [prS, toksP_append, toksP_line, toksP_nl, toksP_nil, word, toks_word, toks_sp, toks_sym, toks_nil, List.append_assoc, List.cons_append, List.nil_append]
    rw [e']
    exact one_if (parens_ev h.1 _ _) hb (else_some (braces (ihe h.2.2.2.2) _ _ _))
  | case cl always ih =>
    intro h
    have hone : single (.case cl always) = true → OneOK (.case cl always) := by
      intro hs n p rest hopen
      refine (ih h).2.1 always n p rest ?_ hopen
      cases cl with
      | noClause => cases hs
      | clause => rfl
    refine ⟨?_, hone⟩
    cases cl with
    | noClause => exact fun n p rest l r hr => hr
    | clause c b rest => exact (hone rfl).items
  | switch e cs ih =>
    intro h
    refine of_one fun n p rest _ => ?_
    have := (ih h.2).2.2 (n + 1) (pr e p).2 rest (denotes e) []
    have e' : toksP (prS (.switch e cs) n p).1 ++ rest = .word "switch".toList :: .sym ['('] :: (toks (pr e p).1 ++ .sym [')'] :: .sym ['{'] ::
        (toksP (prS cs .switch (n + 1) (pr e p).2).1 ++ .sym ['}'] :: rest)) := by
      simp only [prS, toksP_append, toksP_line, word, toks_append, toks_word, toks_sp, toks_sym, toks_nil, List.append_assoc, List.cons_append, List.nil_append]
    rw [e']
    exact one_switch (parens_ev h.1 _ _) this
  | store a i e atomic =>
    intro h
    refine of_one fun n p rest _ => ?_
    have := under_one (d := if atomic then some "#pragma omp atomic".toList else none) (n := n) (by
      intro e he
      cases atomic
      · cases he
      · cases he; exact atomic_ok) (store_ev h.1 h.2.1 h.2.2 rest)
    simp only [prS, toksP_append, toksP_line, atomic_eq, List.append_assoc] at this ⊢
    simp only [toks_append, List.append_assoc] at this ⊢
    exact this
  | assign x e atomic =>
    intro h
    refine of_one fun n p rest _ => ?_
    have := under_one (d := if atomic then some "#pragma omp atomic".toList else none) (n := n) (by
      intro e he
      cases atomic
      · cases he
      · cases he; exact atomic_ok) (assign_ev h.1 h.2 rest)
    simp only [prS, toksP_append, toksP_line, atomic_eq, List.append_assoc]
    exact this
  | decl ty ptr x e =>
    intro h
    refine ⟨fun n p rest l r hr => ?_, fun h => by cases h⟩
    obtain ⟨h1, h2, h3⟩ := decl_ev (ptr := ptr) h.1 h.2.1 h.2.2 rest
    simp only [prS, toksP_line]
    exact items_decl h2 h3 h1 hr
  | loop w c body ih =>
    intro h
    refine of_one fun n p rest _ => ?_
    have := one_while (parens_ev h.1 20 _) (braces (ih h.2) (n + 1) (pr c 20).2 rest)
    have := under_one (d := w.bind fun w => (Pragma.vectorize w).text) (n := n) (by
      intro e he
      cases w with
      | none => cases he
      | some w => exact pragma_ok (.vectorize w) e he) this
    simp only [prS, toksP_append, toksP_line, head_toks, word, toks_append, toks_word, toks_sp, toks_sym, toks_nil, List.append_assoc, List.cons_append, List.nil_append] at this ⊢
    exact this
  | «for» pg ty x a b i body ih =>
    intro h
    refine of_one fun n p rest _ => ?_
    obtain ⟨ts, e, hh⟩ := for_ev h.1 h.2.1 h.2.2.1 h.2.2.2.1 h.2.2.2.2.1 p (toksP (prS body (n + 1) (prFor ty x a b i p).2).1 ++ .sym ['}'] :: rest)
    have := one_for hh (braces (ih h.2.2.2.2.2) (n + 1) (prFor ty x a b i p).2 rest)
    have := under_one (d := pg.text) (n := n) (pragma_ok pg) this
    have e' : toksP (prS (.for pg ty x a b i body) n p).1 ++ rest = toksP (pragmaLine n pg.text) ++ .word "for".toList :: ts := by
      rw [← e]
      simp only [prS, toksP_append, toksP_line, toks_sym, toks_nil, List.append_assoc, List.cons_append, List.nil_append]
    rw [e']
    exact this
  | alloc k ty x e =>
    intro h
    refine of_one fun n p rest _ => ?_
    simp only [prS, toksP_line]
    exact alloc_ev h.1 h.2.1 h.2.2 rest
  | free x =>
    intro h
    refine of_one fun n p rest _ => ?_
    simp only [prS, toksP_line]
    exact free_ev h rest
  | sort args =>
    intro h
    refine of_one fun n p rest _ => ?_
    simp only [prS, toksP_line]
    exact sort_ev h.1 h.2 rest
  | cont =>
    intro h
    refine of_one fun n p rest _ => ?_
    simp only [prS, toksP_line]
    exact one_cont rest
  | brk =>
    intro h
    refine of_one fun n p rest _ => ?_
    simp only [prS, toksP_line]
    exact one_brk rest
  | blank => exact fun h => ⟨fun n p rest l r hr => hr, fun h => by cases h⟩
  | nil => exact fun h n p rest l r hr => hr
  | cons a l iha ihl =>
    intro h n p rest l' r hr
    have h1 := ihl h.2 n (prS a n p).2 rest l' r hr
    have h2 := (iha h.1).1 n p _ _ _ h1
    simp only [prS, toksP_append, List.append_assoc]
    show SEv .items _ (List.append (α := Stm) (den a) (den l) ++ l', r)
    have e : List.append (α := Stm) (den a) (den l) ++ l' = List.append (α := Stm) (den a) (List.append (den l) l') := List.append_assoc _ _ _
    rw [e]
    exact h2
  | noClause =>
    intro h
    refine ⟨fun always n p rest c th hn => ?_, fun always n p rest hl => (by simp [isLast] at hl), fun n p rest c done => ?_⟩
    · exact else_none (hn (.inl rfl))
    · have := cases_end c done rest
      show SEv _ _ ([.switch c (done ++ [])], rest)
      rw [List.append_nil]
      exact this
  | clause c body rest ihb ihr =>
    intro h
    have hb := ihb h.2.1
    have hr := ihr h.2.2
    -- a clause with its condition
    have test : ∀ always n q R, (isLast rest = true ∨ always = false → expectWord "else".toList R = none) →
        SEv .one (.word "if".toList :: .sym ['('] :: (toks (pr c 20).1 ++ .sym [')'] :: .sym ['{'] :: (toksP (prS body (n + 1) q).1 ++ .sym ['}'] ::
          (toksP (prS rest (.case false always) n (prS body (n + 1) q).2).1 ++ R)))) ([.ite (denotes c) (den body) ((den rest).1 false always)], R) :=
      fun always n q R hn => one_if (parens_ev h.1 _ _) (braces hb (n + 1) q _) (hr.1 always n _ R _ _ hn)
    refine ⟨fun always n p R c' th hn => ?_, fun always n p R _ hopen => ?_, fun n p R c' done => ?_⟩
    · have hn : always = false → expectWord "else".toList R = none := fun h => hn (.inr h)
      rw [den_clause]
      show Evt (elsePart c' th (toksP (prClause c false (isLast rest) always (prS body) (prS rest (.case false always)) n p).1 ++ R)) _
      cases hla : isLast rest && always with
      | true =>
        simp only [Bool.and_eq_true] at hla
        obtain ⟨hl, ha⟩ := hla
        subst ha
        have hrest : rest = .noClause := by cases rest with
          | noClause => rfl
          | clause => cases hl
        subst hrest
        simp only [prClause, prClauseHead, hl, Bool.and_self, Bool.false_eq_true, if_false, if_true, toksP_append, toksP_nl, toksP_nil, toksP_on, toksP_line, toks_append, toks_indent,
          word, toks_word, toks_sp, toks_sym, toks_nil, prS, Bool.not_false, List.append_assoc, List.cons_append, List.nil_append]
        exact else_some (braces hb _ _ _)
      | false =>
        simp only [prClause, prClauseHead, hla, Bool.false_and, Bool.false_eq_true, if_false, toksP_append, toksP_nl, toksP_nil, toksP_on, toksP_line, toks_append, toks_indent, head_toks,
          word, toks_word, toks_sp, toks_sym, toks_nil, List.append_assoc, List.cons_append, List.nil_append]
        refine else_some (body_one (test always n _ R ?_))
        rintro (h1 | h1)
        · rw [h1, Bool.true_and] at hla; exact hn hla
        · exact hn h1
    · rw [den_clause]
      show SEv .one (toksP (prClause c true (isLast rest) always (prS body) (prS rest (.case false always)) n p).1 ++ R) _
      simp only [prClause, prClauseHead, if_true, toksP_append, toksP_nil, toksP_on, toksP_line, toks_append, toks_indent, head_toks,
        word, toks_word, toks_sp, toks_sym, toks_nil, Bool.not_true, Bool.and_false, Bool.false_eq_true, if_false, List.append_assoc, List.cons_append, List.nil_append]
      refine test always n _ R fun hl => hopen ?_
      rcases hl with hl | hl
      · cases rest with
        | noClause => rfl
        | clause => cases hl
      · subst hl
        cases rest <;> rfl
    · show SEv _ (toksP (prSwitchCase c (prS body) (prS rest .switch) n).1 ++ _) _
      simp only [prSwitchCase, toksP_append, toksP_nl, toksP_nil, toksP_line, toks_append, word, toks_word, toks_sp, toks_sym, toks_nil, List.append_assoc, List.cons_append, List.nil_append]
      have h1 := hr.2.2 n (prS body (n + 1) (pr c 20).2).2 R c' (List.append (α := C × List Stm) done [(denotes c, List.append (α := Stm) (den body) [.brk])])
      refine cases_more (t2 := toksP (prS rest .switch n (prS body (n + 1) (pr c 20).2).2).1 ++ .sym ['}'] :: R) (ex_then h.1 (by simp) _ _) (b := List.append (α := Stm) (den body) [.brk]) ?_ ?_
      · exact hb.1 (n + 1) (pr c 20).2 _ [.brk] _ (items_one (one_brk _) (items_end rfl))
      · refine Eq.mp ?_ h1
        congr 3
        exact congrArg (Stm.switch c') (List.append_assoc _ _ _)

end Verif.CStmt
