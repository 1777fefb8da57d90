import Verif.CStmt.Parse
import Verif.CStmt.Mono

/-!
# C76: C reads the printed statements as the statements of the kernel

`prS` prints; `tokensOf` and `stmts` are a reader of C statements that is written from the grammar of C and does not use the
printer; `den` is the C program a statement stands for.
-/

namespace Verif.CStmt

open Verif.CPrint

/-- A reader reads a text in at most one way. -/
theorem reads_unique {text : List Char} {a b : List Stm} (ha : ReadsStms text a) (hb : ReadsStms text b) : a = b := by
  obtain ⟨n, ha⟩ := ha
  obtain ⟨m, hb⟩ := hb
  have h1 := ha (max n m) (by omega)
  rw [hb (max n m) (by omega)] at h1
  cases h1
  rfl

/-- The text of every well-formed statement, with any indentation and precedence the printer is in, is read as that
statement. Partial: the first branch of a conditional has to be a block or one statement that is not an atomic assignment,
and before an `else` it must not end in a conditional without `else`. -/
theorem printed_statement_partial (s : S .stmt) (h : WFS s) (n p : Nat) : ReadsStms (renderP (prS s n p).1) (den s) := by
  obtain ⟨m, hm⟩ := (parseS s h).1 n p [] [] [] (items_end rfl)
  refine ⟨m, fun f hf => ?_⟩
  have := hm f hf
  rw [tokens_prS s h n p]
  have e1 : toksP (prS s n p).1 ++ [] = toksP (prS s n p).1 := List.append_nil _
  have e2 : List.append (α := Stm) (den s) [] = den s := List.append_nil _
  have this : stmts f .items (toksP (prS s n p).1 ++ []) = some (List.append (α := Stm) (den s) [], []) := this
  rw [e1, e2] at this
  exact this

/-- The text says what the statement is: statements with the same text stand for the same C program. -/
theorem text_determines_partial (s t : S .stmt) (hs : WFS s) (ht : WFS t) (n p m q : Nat)
    (h : renderP (prS s n p).1 = renderP (prS t m q).1) : den s = den t :=
  reads_unique (text := renderP (prS s n p).1) (printed_statement_partial s hs n p) (h ▸ printed_statement_partial t ht m q)

/-- Consecutive statements are read one after the other: a statement never takes part of what follows it. -/
theorem printed_sequence_partial (a : S .stmt) (l : S .list) (ha : WFS a) (hl : WFS l) (n p : Nat) :
    ReadsStms (renderP (prS (.block (.cons a l)) n p).1) (List.append (α := Stm) (den a) (den (.block l))) :=
  printed_statement_partial (.block (.cons a l)) ⟨ha, hl⟩ n p

/-! ### A kernel the theorem applies to -/

namespace Sample

def v (s : String) : E .expr := .var s.toList

def unit : E .expr := .lit false ['1']

/-- A parallel loop with a declaration, a conditional, cases, a switch, allocations, an atomic store and a sort. -/
def kernel : S .stmt :=
  .for .dynamic ["int32_t".toList] "i".toList (v "a") (.bin .add (v "n") unit) unit
    (.block (.cons (.decl ["double".toList] true "t".toList (v "q")) (.cons .blank (.cons
      (.ifElse (.bin .lt (v "x") (v "y")) (.assign "k".toList (.bin .add (v "k") unit) false)
        (.store "A".toList (.bin .add (.bin .mul (v "i") (v "n")) (v "j")) (v "z") true))
      (.cons (.loop none (.bin .lt (v "p") (v "e"))
        (.case (.clause (v "b1") .cont (.clause (v "b2") (.alloc .realloc ["float".toList] "p".toList (.bin .add (v "n") (v "m")))
          (.clause (v "b3") .brk .noClause))) true))
      (.cons (.switch (v "w") (.clause (.lit false ['3']) (.sort (.cons (v "a") (.cons (v "b") .nil))) .noClause))
      (.cons (.ifThen (v "d") (.ifElse (v "f") (.block (.cons (.free "t".toList) .nil)) .cont)) .nil)))))))

end Sample

open Sample in
example : WFS kernel ∧ (stmts 40 .items (tokensOf (renderP (prS kernel 0 20).1))).isSome = true := by
  refine ⟨?_, by decide +kernel⟩
  simp [kernel, v, unit, WFS, WF, typeOK, thenOK, openIf, single]
  decide

/-! ### Where the printer is wrong -/

section Fails

open Sample

/-- `if (c) if (d) x = 1; else { x = 2; }`: the `else` of the outer conditional is printed behind the inner one, and read as
belonging to it. -/
def dangling : S .stmt :=
  .ifElse (v "c") (.ifThen (v "d") (.assign "x".toList unit false)) (.assign "x".toList (.lit false ['2']) false)

/-- The same statement with the `else` at the inner conditional. -/
def inner : S .stmt :=
  .ifThen (v "c") (.ifElse (v "d") (.assign "x".toList unit false) (.assign "x".toList (.lit false ['2']) false))

theorem tokens_dangling : tokensOf (renderP (prS dangling 0 20).1) = tokensOf (renderP (prS inner 0 20).1) := by decide +kernel

/-- The full statement fails: the printed text of a conditional whose first branch is a conditional without `else` is read
as another program. -/
theorem dangling_else_fails : ReadsStms (renderP (prS dangling 0 20).1) (den inner) ∧ ¬ ReadsStms (renderP (prS dangling 0 20).1) (den dangling) := by
  have h : WFS inner := by
    simp [inner, v, unit, WFS, WF, thenOK, openIf, single]
    decide
  have h1 := printed_statement_partial inner h 0 20
  have h2 : ReadsStms (renderP (prS dangling 0 20).1) (den inner) := by
    unfold ReadsStms at h1 ⊢
    rw [tokens_dangling]
    exact h1
  refine ⟨h2, fun h3 => ?_⟩
  have := reads_unique h2 h3
  injection this with this _
  injection this with _ _ this
  cases this

/-- A conditional whose first branch prints nothing swallows the statement that follows it. -/
def swallow : S .stmt := .block (.cons (.ifThen (v "c") .blank) (.cons (.assign "x".toList unit false) .nil))

theorem empty_branch_fails : ReadsStms (renderP (prS swallow 0 20).1) [.ite (.id ['c']) [.set (.id ['x']) (.num ['1'])] []] ∧
    den swallow = [.ite (.id ['c']) [] [], .set (.id ['x']) (.num ['1'])] := by
  refine ⟨?_, rfl⟩
  have h : WFS (.ifThen (v "c") (.assign "x".toList unit false)) := by
    simp [v, unit, WFS, WF, thenOK]
    decide
  have h1 := printed_statement_partial _ h 0 20
  have ht : tokensOf (renderP (prS swallow 0 20).1) = tokensOf (renderP (prS (.ifThen (v "c") (.assign "x".toList unit false)) 0 20).1) := by decide +kernel
  unfold ReadsStms at h1 ⊢
  rw [ht]
  exact h1

/-- A conditional around an atomic assignment is not C: the directive is printed behind the condition, on the same line. -/
theorem atomic_branch_fails : Rejects (renderP (prS (.ifThen (v "c") (.assign "x".toList (.bin .add (v "x") (v "y")) true)) 0 20).1) := by
  have ht : tokensOf (renderP (prS (.ifThen (v "c") (.assign "x".toList (.bin .add (v "x") (v "y")) true)) 0 20).1) =
      .word "if".toList :: .sym ['('] :: .word ['c'] :: .sym [')'] :: .sym ['#'] ::
        [.word "pragma".toList, .word "omp".toList, .word "atomic".toList, .word ['x'], .sym ['+', '='], .word ['y'], .sym [';']] := by decide +kernel
  intro m r hm hr
  rw [ht] at hm
  have hb : ∀ f ts, stmts f .body (.sym ['#'] :: ts) = none := by
    intro f ts
    cases f with
    | zero => rfl
    | succ f =>
      rw [stmts, show expect ['{'] (.sym ['#'] :: ts) = none from rfl]
      cases f with
      | zero => rfl
      | succ f =>
        show stmts (f + 1) .one (.sym ['#'] :: ts) = none
        rw [stmts, if_neg (by decide)]
  have ho : ∀ f ts, stmts f .one (.word "if".toList :: .sym ['('] :: .word ['c'] :: .sym [')'] :: .sym ['#'] :: ts) = none := by
    intro f ts
    cases f with
    | zero => rfl
    | succ f =>
      rw [stmts]
      show (parens f _).bind _ = none
      cases hp : parens f (.sym ['('] :: .word ['c'] :: .sym [')'] :: .sym ['#'] :: ts) with
      | none => rfl
      | some q =>
        obtain ⟨k, hk⟩ := parens_ev (e := v "c") (by decide : nameOK ['c'] = true) 20 (.sym ['#'] :: ts)
        have := parens_mono (Nat.le_max_left f k) hp
        have h2 : parens (max f k) (.sym ['('] :: .word ['c'] :: .sym [')'] :: .sym ['#'] :: ts) = some (.id ['c'], .sym ['#'] :: ts) := hk (max f k) (Nat.le_max_right _ _)
        rw [h2] at this
        cases this
        show (stmts f .body _).bind _ = none
        rw [hb]; rfl
  cases m with
  | zero => cases hm
  | succ m =>
    rw [stmts, if_neg (by decide), if_neg (by decide), ho] at hm
    cases hm

end Fails

theorem repr_inj {a b : Nat} (h : (Nat.repr a).toList = (Nat.repr b).toList) : a = b := by
  rw [Nat.toList_repr, Nat.toList_repr] at h
  rw [← Nat.ofDigitChars_ten_toDigits (n := a), h, Nat.ofDigitChars_ten_toDigits]

/-- The first letter of a pragma's second word. -/
def letter : Pragma → Option Char
  | .plain => none
  | .vectorize _ => some 'c'
  | .unroll _ => some 'u'
  | _ => some 'o'

theorem letter_text (p : Pragma) : (p.text.bind fun s => s[8]?) = letter p := by
  cases p with
  | vectorize w =>
    cases w with
    | zero => decide +kernel
    | succ w =>
      show (_ ++ _ ++ _ : List Char)[8]? = _
      rw [List.append_assoc, List.getElem?_append_left (by decide +kernel)]
      show _ = some 'c'
      decide +kernel
  | unroll n =>
    show (_ ++ _ : List Char)[8]? = _
    rw [List.getElem?_append_left (by decide +kernel)]
    show _ = some 'u'
    decide +kernel
  | _ => decide +kernel

/-- What a pragma says is determined by its text: no two kinds of loops, widths or factors share one. -/
theorem pragma_determined (p q : Pragma) (h : p.text = q.text) : p = q := by
  have hl : letter p = letter q := by rw [← letter_text, ← letter_text, h]
  have wide : ∀ w : Nat, (Pragma.vectorize 0).text ≠ (Pragma.vectorize (w + 1)).text := by
    intro w h
    have := congrArg (fun t => t.bind fun s : List Char => s[47]?) h
    replace this : ("#pragma clang loop interleave(enable) vectorize(enable)".toList)[47]? =
      ("#pragma clang loop interleave(enable) vectorize_width(".toList ++ (Nat.repr (w + 1)).toList ++ [')'])[47]? := this
    rw [List.append_assoc, List.getElem?_append_left (by decide +kernel)] at this
    revert this
    decide +kernel
  cases p with
  | vectorize a =>
    cases q with
    | vectorize b =>
      cases a with
      | zero =>
        cases b with
        | zero => rfl
        | succ b => exact absurd h (wide b)
      | succ a =>
        cases b with
        | zero => exact absurd h.symm (wide a)
        | succ b =>
          simp only [Pragma.text, Option.some.injEq, List.append_cancel_left_eq, List.append_cancel_right_eq] at h
          rw [repr_inj h]
    | _ => exact absurd hl (by simp [letter])
  | unroll a =>
    cases q with
    | unroll b =>
      simp only [Pragma.text, Option.some.injEq, List.append_cancel_left_eq] at h
      rw [repr_inj h]
    | _ => exact absurd hl (by simp [letter])
  | plain =>
    cases q with
    | plain => rfl
    | _ => exact absurd hl (by simp [letter])
  | _ =>
    cases q with
    | vectorize b => exact absurd hl (by simp [letter])
    | unroll b => exact absurd hl (by simp [letter])
    | plain => exact absurd hl (by simp [letter])
    | _ => first | rfl | (exfalso; revert h; decide +kernel)

end Verif.CStmt
