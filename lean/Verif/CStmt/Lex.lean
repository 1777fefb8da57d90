import Verif.CStmt.Spec
import Verif.CPrint.Parse

/-! The tokens of the printed text are the printed pieces. -/

namespace Verif.CStmt

open Verif.CPrint

/-- The tokens of what is written. -/
def toksP (ps : List P) : List Tok := ps.flatMap fun q => match q with
  | .tok p => toks [p]
  | .nl => []
  | .dir d => [.sym d]

@[simp] theorem toksP_nil : toksP [] = [] := rfl
@[simp] theorem toksP_append (a b : List P) : toksP (a ++ b) = toksP a ++ toksP b := by simp [toksP]
@[simp] theorem toksP_nl (ps : List P) : toksP (.nl :: ps) = toksP ps := rfl
@[simp] theorem toksP_dir (d : List Char) (ps : List P) : toksP (.dir d :: ps) = .sym d :: toksP ps := rfl

theorem toks_cons (p : Piece) (ps : List Piece) : toks (p :: ps) = toks [p] ++ toks ps := by
  rw [← toks_append]; rfl

@[simp] theorem toksP_on (ps : List Piece) : toksP (on ps) = toks ps := by
  induction ps with
  | nil => rfl
  | cons p ps ih => rw [toks_cons, ← ih]; rfl

@[simp] theorem toks_indent (n : Nat) : toks (indent n) = [] := by
  unfold indent
  induction 2 * n with
  | zero => rfl
  | succ k ih => rw [List.replicate_succ]; exact ih

@[simp] theorem toksP_line (n : Nat) (ps : List Piece) : toksP (line n ps) = toks ps := by simp [line]

@[simp] theorem toksP_dirLine (n : Nat) (d : List Char) : toksP (dirLine n d) = [.sym d] := by simp [dirLine]

/-! ### Lines -/

theorem splitLines_line (l r : List Char) (h : '\n' ∉ l) : splitLines (l ++ '\n' :: r) = l :: splitLines r := by
  induction l with
  | nil => simp [splitLines]
  | cons c l ih =>
    have hc : c ≠ '\n' := fun e => h (e ▸ List.mem_cons_self)
    have := ih fun e => h (List.mem_cons_of_mem _ e)
    rw [List.cons_append, splitLines, if_neg hc, this]

/-- Punctuation other than `#` and newlines. -/
def cleanPiece : Piece → Bool
  | .sym s => s.all fun c => c != '#' && c != '\n'
  | _ => true

/-- A line of pieces that are read as they are written. -/
def lineOK (ps : List Piece) : Prop := Fits ps ∧ ps.all cleanPiece = true

theorem continues_ne {acc : List Char} {c : Char} (h : continues acc c = true) : c ≠ '#' ∧ c ≠ '\n' := by
  unfold continues at h
  constructor
  · intro e; subst e
    have h1 : isWordChar '#' = false := by decide
    simp [h1] at h
  · intro e; subst e
    have h1 : isWordChar '\n' = false := by decide
    simp [h1] at h

theorem runs_ne (w : List Char) : ∀ acc, runs acc w = true → ∀ c ∈ w, c ≠ '#' ∧ c ≠ '\n' := by
  induction w with
  | nil => intro _ _ c hc; cases hc
  | cons d ds ih =>
    intro acc h c hc
    simp only [runs, Bool.and_eq_true] at h
    rcases List.mem_cons.1 hc with rfl | hc
    · exact continues_ne h.1
    · exact ih _ h.2 c hc

theorem lineOK_chars {ps : List Piece} (h : lineOK ps) : ∀ c ∈ render ps, c ≠ '#' ∧ c ≠ '\n' := by
  obtain ⟨h1, h2⟩ := h
  induction ps with
  | nil => intro c hc; cases hc
  | cons p ps ih =>
    intro c hc
    rw [render_cons, List.mem_append] at hc
    rw [List.all_cons, Bool.and_eq_true] at h2
    rcases hc with hc | hc
    · cases p with
      | sp => have : c = ' ' := by simpa [Piece.text] using hc
              subst this; exact ⟨by decide, by decide⟩
      | word w => exact runs_ne w [] h1.1.2 c hc
      | sym s =>
        have := h2.1
        simp only [cleanPiece, List.all_eq_true, Bool.and_eq_true, bne_iff_ne] at this
        exact this c hc
    · exact ih h1.2.2 h2.2 c hc

theorem dropWhile_mem (f : Char → Bool) (l : List Char) : ∀ c ∈ l.dropWhile f, c ∈ l := by
  induction l with
  | nil => intro c hc; exact hc
  | cons d l ih =>
    intro c hc
    rw [List.dropWhile_cons] at hc
    split at hc
    · exact List.mem_cons_of_mem _ (ih c hc)
    · exact hc

theorem lineToks_line {ps : List Piece} (h : lineOK ps) : lineToks (render ps) = toks ps := by
  unfold lineToks
  split
  · rename_i d hd
    have : '#' ∈ render ps := dropWhile_mem _ _ _ (by rw [hd]; exact List.mem_cons_self)
    exact absurd rfl (lineOK_chars h _ this).1
  · exact lex_fits _ h.1

/-- A pragma. -/
def dirOK (d : List Char) : Prop := (∃ t, d = '#' :: t ∧ t ≠ []) ∧ '\n' ∉ d

theorem dropWhile_spaces (n : Nat) (c : Char) (hc : c ≠ ' ') (t : List Char) :
    (List.replicate n ' ' ++ c :: t).dropWhile (· == ' ') = c :: t := by
  induction n with
  | zero => simp [hc]
  | succ n ih => rw [List.replicate_succ, List.cons_append, List.dropWhile_cons]; exact ih

theorem render_indent (n : Nat) : render (indent n) = List.replicate (2 * n) ' ' := by
  unfold indent
  induction 2 * n with
  | zero => rfl
  | succ k ih => rw [List.replicate_succ, render_cons, ih]; rfl

/-- Text made of lines that are read as they are written. -/
inductive Good : List P → Prop
  | nil : Good []
  | line {ps : List Piece} {rest : List P} : lineOK ps → Good rest → Good (on ps ++ .nl :: rest)
  | dir (n : Nat) {d : List Char} {rest : List P} : dirOK d → Good rest → Good (on (indent n) ++ .dir d :: .nl :: rest)

theorem Good.append {a b : List P} (ha : Good a) (hb : Good b) : Good (a ++ b) := by
  induction ha with
  | nil => exact hb
  | line h _ ih => rw [List.append_assoc, List.cons_append]; exact .line h ih
  | dir n h _ ih => rw [List.append_assoc, List.cons_append, List.cons_append]; exact .dir n h ih

theorem renderP_append (a b : List P) : renderP (a ++ b) = renderP a ++ renderP b := by simp [renderP]

theorem renderP_on (ps : List Piece) : renderP (on ps) = render ps := by
  induction ps with
  | nil => rfl
  | cons p ps ih => rw [render_cons, ← ih]; rfl

theorem Good.tokens {ps : List P} (h : Good ps) : tokensOf (renderP ps) = toksP ps := by
  induction h with
  | nil => rfl
  | @line ps rest h _ ih =>
    rw [renderP_append, renderP_on, toksP_append, toksP_on, toksP_nl, ← ih]
    show tokensOf (render ps ++ '\n' :: renderP rest) = _
    unfold tokensOf
    rw [splitLines_line _ _ fun hm => (lineOK_chars h _ hm).2 rfl, List.flatMap_cons, lineToks_line h]
  | @dir n d rest h _ ih =>
    rw [renderP_append, renderP_on, toksP_append, toksP_on, toks_indent, toksP_dir, toksP_nl, ← ih, render_indent]
    show tokensOf (List.replicate (2 * n) ' ' ++ (d ++ '\n' :: renderP rest)) = _
    obtain ⟨⟨t, rfl, _⟩, hn⟩ := h
    unfold tokensOf
    have hm : '\n' ∉ List.replicate (2 * n) ' ' ++ '#' :: t := by
      rw [List.mem_append]
      rintro (h | h)
      · exact absurd (List.eq_of_mem_replicate h) (by decide)
      · exact hn h
    rw [← List.append_assoc, splitLines_line _ _ hm, List.flatMap_cons]
    have : lineToks (List.replicate (2 * n) ' ' ++ '#' :: t) = [.sym ('#' :: t)] := by
      unfold lineToks
      rw [dropWhile_spaces _ _ (by decide)]
      rfl
    rw [this]
    rfl

/-! ### The printed lines -/

theorem signed_clean (n : Bool) (t : List Char) : (signed n t).all cleanPiece = true := by cases n <;> rfl

theorem typeWords_clean (ty : List (List Char)) : (typeWords ty).all cleanPiece = true := by
  induction ty with
  | nil => rfl
  | cons w ws ih =>
    cases ws with
    | nil => rfl
    | cons w' ws => exact ih

theorem op_clean (op : BOp) : cleanPiece (.sym op.text) = true := by cases op <;> decide

theorem pr_clean {s : Sort'} (e : E s) : ∀ p, (pr e p).1.all cleanPiece = true := by
  have c1 : ∀ d : Char, d ≠ '#' → d ≠ '\n' → cleanPiece (.sym [d]) = true := by
    intro d h1 h2
    simp [cleanPiece, h1, h2]
  have cw : ∀ w, cleanPiece (.word w) = true := fun _ => rfl
  have cs : cleanPiece .sp = true := rfl
  induction e with
  | lit n t => exact fun p => signed_clean n t
  | cplx rn r im i =>
    intro p
    simp only [pr, List.all_append, List.all_cons, List.all_nil, signed_clean, cw, cs, Bool.and_true, Bool.true_and]
    decide
  | var x => exact fun p => rfl
  | neg b a ih =>
    intro p
    simp only [pr, List.all_cons, ih, Bool.and_true]
    cases b <;> decide
  | bin op a b iha ihb =>
    intro p
    simp only [pr]
    split <;> simp only [List.all_append, List.all_cons, List.all_nil, iha, ihb, op_clean, cw, cs, Bool.and_true, Bool.true_and] <;> decide
  | cast ty a ih =>
    intro p
    simp only [pr, List.all_append, List.all_cons, List.all_nil, ih, typeWords_clean, cw, cs, Bool.and_true, Bool.true_and]; decide
  | call f as ih =>
    intro p
    simp only [pr, List.all_append, List.all_cons, List.all_nil, ih, cw, cs, Bool.and_true, Bool.true_and]; decide
  | sqrt a ih =>
    intro p
    simp only [pr, List.all_append, List.all_cons, List.all_nil, ih, cw, cs, Bool.and_true, Bool.true_and]; decide
  | malloc a ih =>
    intro p
    simp only [pr, List.all_append, List.all_cons, List.all_nil, ih, cw, cs, Bool.and_true, Bool.true_and]; decide
  | minmax f a b iha ihb =>
    intro p
    simp only [pr, List.all_append, List.all_cons, List.all_nil, iha, ihb, cw, cs, Bool.and_true, Bool.true_and]; decide
  | load x a ih =>
    intro p
    simp only [pr, List.all_append, List.all_cons, List.all_nil, ih, cw, cs, Bool.and_true, Bool.true_and]; decide
  | nil => exact fun _ => rfl
  | cons a as iha ihas =>
    intro p
    cases as with
    | nil => exact iha p
    | cons b bs =>
      simp only [pr, List.all_append, List.all_cons, List.all_nil, iha, ihas, cw, cs, Bool.and_true, Bool.true_and]; decide

theorem indent_clean (n : Nat) : (indent n).all cleanPiece = true := by
  unfold indent
  induction 2 * n with
  | zero => rfl
  | succ k ih => rw [List.replicate_succ, List.all_cons, ih]; rfl

theorem indent_fits (n : Nat) {ps : List Piece} (h : Fits ps) : Fits (indent n ++ ps) := by
  unfold indent
  induction 2 * n with
  | zero => exact h
  | succ k ih => rw [List.replicate_succ, List.cons_append]; exact Fits.sp ih

theorem lineOK.indent {ps : List Piece} (h : lineOK ps) (n : Nat) : lineOK (indent n ++ ps) :=
  ⟨indent_fits n h.1, by rw [List.all_append, indent_clean, h.2]; rfl⟩

theorem Good.one {ps : List Piece} (h : lineOK ps) (n : Nat) : Good (Verif.CStmt.line n ps) := Good.line (h.indent n) .nil

theorem Good.oneDir {d : List Char} (h : dirOK d) (n : Nat) : Good (dirLine n d) := .dir n h .nil

/-- An operator between spaces. -/
theorem fits_symSp {s : List Char} {ps : List Piece} (hs : symOK s) (h1 : ∀ d, s = [d] → (d, ' ') ∉ twoChars) (h : Fits ps) :
    Fits (.sym s :: .sp :: ps) := by
  refine ⟨hs, fun d hd => ?_, Fits.sp h⟩
  have : d = ' ' := by simpa [render_cons, Piece.text] using hd.symm
  subst this
  match s, h1 with
  | [d], h1 => exact h1 d rfl
  | [_, _], _ => trivial
  | [], _ => trivial
  | _ :: _ :: _ :: _, _ => trivial

theorem fits_eq {ps : List Piece} (h : Fits ps) : Fits (.sym ['='] :: .sp :: ps) :=
  fits_symSp ⟨by decide, by decide⟩ (fun d hd => by cases hd; decide) h

theorem fits_starSp {ps : List Piece} (h : Fits ps) : Fits (.sym ['*'] :: .sp :: ps) :=
  fits_symSp ⟨by decide, by decide⟩ (fun d hd => by cases hd; decide) h

theorem fits_starParen {ps : List Piece} (h : Fits ps) : Fits (.sym ['*'] :: .sym [')'] :: ps) := by
  refine ⟨⟨by decide, by decide⟩, fun d hd => ?_, h.punct (by simp)⟩
  have : d = ')' := by simpa [render_cons, Piece.text] using hd.symm
  subst this
  show ('*', ')') ∉ twoChars
  decide

theorem fits_plusEq {ps : List Piece} (h : Fits ps) : Fits (.sym ['+', '='] :: .sp :: ps) :=
  fits_symSp ⟨by decide, by decide, by decide⟩ (fun d hd => by cases hd) h

theorem fits_lt {ps : List Piece} (h : Fits ps) : Fits (.sym ['<'] :: .sp :: ps) := Fits.op (op := .lt) h

theorem fits_incr {x : List Char} (hx : nameOK x = true) {d : Char} {ps : List Piece} (h : Fits (.sym [d] :: ps)) :
    Fits (.word x :: .sym ['+', '+'] :: .sym [d] :: ps) := by
  refine ⟨nameOK_wordOK hx, fun c hc => ?_, ⟨⟨by decide, by decide, by decide⟩, fun _ _ => trivial, h⟩⟩
  have : c = '+' := by simpa [render_cons, Piece.text] using hc.symm
  subst this
  cases x with
  | nil => cases hx
  | cons c cs =>
    have hd : isDigit c = false := by
      simp only [nameOK, Bool.and_eq_true, Bool.not_eq_true'] at hx
      exact hx.1.1.1
    have hp : isWordChar '+' = false := by decide
    simp [okNext, continues, hd, hp]

theorem ends_nil : ends [] := by intro c hc; cases hc

theorem fits_e {e : E .expr} {p : Nat} {ps : List Piece} (hw : WF e) (h : Fits ps) (he : ends ps) : Fits ((pr e p).1 ++ ps) := (fits e p ps hw h he).1

/-- Proves that pieces fit. -/
macro "fit" : tactic => `(tactic| repeat (first
  | exact trivial
  | assumption
  | exact ends_sp
  | exact ends_nil
  | exact ends_punct (by simp [stop])
  | (refine fits_eq ?_)
  | (refine fits_plusEq ?_)
  | (refine fits_starSp ?_)
  | (refine fits_starParen ?_)
  | (refine fits_lt ?_)
  | (refine Fits.sp ?_)
  | (refine Fits.punct ?_ (by simp))
  | (refine Fits.word (nameOK_wordOK (by assumption)) ?_ ?_)
  | (refine Fits.word ⟨by decide, by decide⟩ ?_ ?_)
  | (refine fits_e (by assumption) ?_ ?_)
  | (refine typeWords_fits _ (by assumption) (by assumption) ?_ ?_)))

theorem head_fits {k : List Piece} {c : E .expr} (hc : WF c) {ps : List Piece} (h : Fits ps) (hk : ∀ qs, Fits qs → Fits (k ++ .sp :: qs)) :
    Fits (prHead k c ++ ps) := by
  simp only [prHead, List.append_assoc, List.cons_append, List.nil_append]
  apply hk
  fit

theorem if_fits {c : E .expr} (hc : WF c) {ps : List Piece} (h : Fits ps) : Fits (prHead [word "if"] c ++ ps) :=
  head_fits hc h fun qs hq => by simp only [List.cons_append, List.nil_append, word]; fit

theorem while_fits {c : E .expr} (hc : WF c) {ps : List Piece} (h : Fits ps) : Fits (prHead [word "while"] c ++ ps) :=
  head_fits hc h fun qs hq => by simp only [List.cons_append, List.nil_append, word]; fit

theorem elseIf_fits {c : E .expr} (hc : WF c) {ps : List Piece} (h : Fits ps) : Fits (prHead [word "else", .sp, word "if"] c ++ ps) :=
  head_fits hc h fun qs hq => by simp only [List.cons_append, List.nil_append, word]; fit

theorem prHead_clean (k : List Piece) (c : E .expr) (hk : k.all cleanPiece = true) : (prHead k c).all cleanPiece = true := by
  simp only [prHead, List.all_append, hk, pr_clean, List.all_cons, List.all_nil, Bool.and_true, Bool.true_and]; decide

theorem assign_fits {x : List Char} {e : E .expr} (hx : nameOK x = true) (he : WF e) : Fits (prAssign x e) := by
  have plain : ∀ (s : List Char) (a : E .expr), WF a → symOK s → (∀ d, s = [d] → (d, ' ') ∉ twoChars) →
      Fits ([.word x, .sp, .sym s, .sp] ++ (pr a 20).1 ++ [.sym [';']]) := by
    intro s a ha h1 h2
    simp only [List.append_assoc, List.cons_append, List.nil_append]
    refine Fits.word (nameOK_wordOK hx) (Fits.sp (fits_symSp h1 h2 ?_)) ends_sp
    fit
  have eq := fun a ha => plain ['='] a ha ⟨by decide, by decide⟩ (fun d hd => by cases hd; decide)
  unfold prAssign
  split
  · split
    · split
      · exact fits_incr hx (Fits.punct (ps := []) trivial (by simp))
      · exact plain _ _ he.2 ⟨by decide, by decide, by decide⟩ (fun d hd => by cases hd)
    · exact eq _ he
  · split
    · exact plain _ _ he.2 ⟨by decide, by decide, by decide⟩ (fun d hd => by cases hd)
    · exact eq _ he
  · split
    · exact plain _ _ he.2 ⟨by decide, by decide, by decide⟩ (fun d hd => by cases hd)
    · exact eq _ he
  · exact eq _ he

theorem assign_clean (x : List Char) (e : E .expr) : (prAssign x e).all cleanPiece = true := by
  have plain : ∀ (s : List Char) (a : E .expr), cleanPiece (.sym s) = true →
      ([Piece.word x, .sp, .sym s, .sp] ++ (pr a 20).1 ++ [Piece.sym [';']]).all cleanPiece = true := by
    intro s a h
    simp only [List.all_append, List.all_cons, List.all_nil, h, pr_clean, Bool.and_true]
    rfl
  unfold prAssign
  split
  · split
    · split
      · rfl
      · exact plain ['+', '='] _ rfl
    · exact plain ['='] _ rfl
  · split
    · exact plain ['*', '='] _ rfl
    · exact plain ['='] _ rfl
  · split
    · exact plain ['|', '='] _ rfl
    · exact plain ['='] _ rfl
  · exact plain ['='] _ rfl

theorem step_fits {x : List Char} {i : E .expr} (hx : nameOK x = true) (hi : WF i) (p : Nat) {ps : List Piece} (h : Fits ps) :
    Fits ((prStep x i p).1 ++ .sym [')'] :: ps) := by
  unfold prStep
  split
  · exact fits_incr hx (h.punct (by simp))
  · simp only [List.append_assoc, List.cons_append, List.nil_append]
    fit

theorem for_ok {ty : List (List Char)} {x : List Char} {a b i : E .expr} (hty : typeOK ty) (hx : nameOK x = true) (ha : WF a) (hb : WF b)
    (hi : WF i) (p : Nat) : lineOK (prFor ty x a b i p).1 := by
  obtain ⟨h1, h2⟩ := hty
  constructor
  · simp only [prFor, prLoopCond, word, List.append_assoc, List.cons_append, List.nil_append]
    have hstep := step_fits hx hi (pr b 0).2 (ps := [.sp, .sym ['{']]) (by fit)
    fit
  · have hs : ∀ q, (prStep x i q).1.all cleanPiece = true := by
      intro q
      unfold prStep
      split
      · rfl
      · simp only [List.all_append, List.all_cons, List.all_nil, pr_clean, Bool.and_true]
        rfl
    simp only [prFor, prLoopCond, List.all_append, List.all_cons, List.all_nil, pr_clean, typeWords_clean, hs, Bool.and_true]
    rfl

theorem alloc_ok {k : Alloc} {ty : List (List Char)} {x : List Char} {n : E .expr} (hty : typeOK ty) (hx : nameOK x = true) (hn : WF n) :
    lineOK (prAlloc k ty x n) := by
  obtain ⟨h1, h2⟩ := hty
  constructor
  · cases k <;>
    · simp only [prAlloc, word, List.append_assoc, List.cons_append, List.nil_append]
      fit
  · cases k <;>
    · simp only [prAlloc, List.all_append, List.all_cons, List.all_nil, pr_clean, typeWords_clean, Bool.and_true]
      rfl

theorem decl_ok {ty : List (List Char)} {ptr : Bool} {x : List Char} {e : E .expr} (hty : typeOK ty) (hx : nameOK x = true) (he : WF e) :
    lineOK (prDecl ty ptr x e) := by
  obtain ⟨h1, h2⟩ := hty
  constructor
  · cases ptr <;>
    · simp only [prDecl, word, List.append_assoc, List.cons_append, List.nil_append, if_true, Bool.false_eq_true, if_false]
      fit
  · cases ptr <;>
    · simp only [prDecl, List.all_append, List.all_cons, List.all_nil, pr_clean, typeWords_clean, Bool.and_true, if_true, Bool.false_eq_true, if_false]
      rfl

theorem store_ok {a : List Char} {i e : E .expr} (ha : nameOK a = true) (hi : WF i) (he : WF e) :
    lineOK ([.word a, .sym ['[']] ++ (pr i 20).1 ++ [.sym [']'], .sp, .sym ['='], .sp] ++ (pr e 20).1 ++ [.sym [';']]) := by
  constructor
  · simp only [List.append_assoc, List.cons_append, List.nil_append]
    fit
  · simp only [List.all_append, List.all_cons, List.all_nil, pr_clean, Bool.and_true]
    rfl

theorem sort_ok {args : E .args} (h : WF args) :
    lineOK ([word "qsort", .sym ['(']] ++ (pr args 2).1 ++ [.sym [','], .sp, word "cmp", .sym [')'], .sym [';']]) := by
  constructor
  · have h1 : Fits ((pr args 2).1 ++ [.sym [','], .sp, word "cmp", .sym [')'], .sym [';']]) := by
      refine (fits args 2 _ h ?_ ?_).1
      · simp only [word]; fit
      · fit
    simp only [List.append_assoc, List.cons_append, List.nil_append, word] at h1 ⊢
    fit
  · simp only [List.all_append, List.all_cons, List.all_nil, pr_clean, Bool.and_true]
    rfl

theorem switch_ok {e : E .expr} (h : WF e) (p : Nat) : lineOK ([word "switch", .sp, .sym ['(']] ++ (pr e p).1 ++ [.sym [')'], .sp, .sym ['{']]) := by
  constructor
  · simp only [List.append_assoc, List.cons_append, List.nil_append, word]
    fit
  · simp only [List.all_append, List.all_cons, List.all_nil, pr_clean, Bool.and_true]
    rfl

theorem case_ok {e : E .expr} (h : WF e) : lineOK ([word "case", .sp] ++ (pr e 20).1 ++ [.sym [':'], .sp, .sym ['{']]) := by
  constructor
  · simp only [List.append_assoc, List.cons_append, List.nil_append, word]
    fit
  · simp only [List.all_append, List.all_cons, List.all_nil, pr_clean, Bool.and_true]
    rfl

theorem open_ok {k : List Piece} {c : E .expr} (h : ∀ ps, Fits ps → Fits (prHead k c ++ ps)) (hk : k.all cleanPiece = true) :
    lineOK (prHead k c ++ [.sp, .sym ['{']]) := by
  constructor
  · exact h _ (by fit)
  · rw [List.all_append, prHead_clean k c hk]; rfl

theorem free_ok {x : List Char} (h : nameOK x = true) : lineOK [word "free", .sym ['('], .word x, .sym [')'], .sym [';']] :=
  ⟨by simp only [word]; fit, rfl⟩
theorem cont_ok : lineOK [word "continue", .sym [';']] := ⟨by simp only [word]; fit, rfl⟩
theorem brk_ok : lineOK [word "break", .sym [';']] := ⟨by simp only [word]; fit, rfl⟩
theorem brace_ok : lineOK [.sym ['}']] := ⟨by fit, rfl⟩
theorem else_ok : lineOK [word "else", .sp, .sym ['{']] := ⟨by simp only [word]; fit, rfl⟩

theorem repr_ne (n : Nat) : '\n' ∉ (Nat.repr n).toList := by
  rw [Nat.toList_repr]
  intro h
  have := Nat.isDigit_of_mem_toDigits (by decide) (by decide) h
  revert this
  decide

theorem pragma_ok (pg : Pragma) : ∀ d, pg.text = some d → dirOK d := by
  intro d hd
  have ap : ∀ (s : String) (t u : List Char), (∃ r, s.toList = '#' :: r ∧ r ≠ []) → '\n' ∉ s.toList → '\n' ∉ t → '\n' ∉ u → dirOK (s.toList ++ t ++ u) := by
    intro s t u ⟨r, h, hr⟩ h1 h2 h3
    refine ⟨⟨r ++ t ++ u, by rw [h]; rfl, by simp [hr]⟩, ?_⟩
    simp only [List.mem_append, not_or]
    exact ⟨⟨h1, h2⟩, h3⟩
  have lit : ∀ s : String, (∃ r, s.toList = '#' :: r ∧ r ≠ []) → '\n' ∉ s.toList → dirOK s.toList := fun s h1 h2 => ⟨h1, h2⟩
  cases pg with
  | plain => cases hd
  | vectorize w =>
    cases w with
    | zero => cases hd; exact lit _ ⟨_, rfl, by decide⟩ (by decide)
    | succ w => cases hd; exact ap _ _ _ ⟨_, rfl, by decide⟩ (by decide) (repr_ne _) (by decide)
  | static => cases hd; exact lit _ ⟨_, rfl, by decide⟩ (by decide)
  | dynamic => cases hd; exact lit _ ⟨_, rfl, by decide⟩ (by decide)
  | runtime => cases hd; exact lit _ ⟨_, rfl, by decide⟩ (by decide)
  | chunked => cases hd; exact lit _ ⟨_, rfl, by decide⟩ (by decide)
  | unroll n =>
    cases hd
    have := ap "#pragma unroll " (Nat.repr n).toList [] ⟨_, rfl, by decide⟩ (by decide) (repr_ne _) (by decide)
    rwa [List.append_nil] at this

theorem atomic_ok : dirOK atomicPragma := ⟨⟨_, rfl, by decide⟩, by decide⟩

theorem Good.atomic (n : Nat) (b : Bool) : Good (atomicLine n b) := by
  cases b
  · exact .nil
  · exact .oneDir atomic_ok n

theorem Good.pragma (n : Nat) (d : Option (List Char)) (h : ∀ e, d = some e → dirOK e) : Good (pragmaLine n d) := by
  cases d with
  | none => exact .nil
  | some d => exact .oneDir (h d rfl) n

theorem Good.while (n : Nat) (w : Option Nat) : Good (pragmaLine n (w.bind fun w => (Pragma.vectorize w).text)) := by
  refine .pragma _ _ fun d hd => ?_
  cases w with
  | none => cases hd
  | some w => exact pragma_ok (.vectorize w) d hd

theorem lineOK_nil : lineOK [] := ⟨trivial, rfl⟩

theorem Good.then {n : Nat} {c : E .expr} (hc : WF c) {th : S .stmt} (hok : thenOK th = true) (hw : WFS th) (p : Nat)
    (ih : ∀ n p, Good (prS th n p).1) : Good (prThen (branch th) n c (prS th 0 p).1 (prS th (n + 1) p).1 ++ [.nl]) := by
  have blk : ∀ t1, Good t1 → Good (prThen .block n c [] t1 ++ [.nl]) := by
    intro t1 h1
    simp only [prThen, List.append_assoc]
    exact (Good.one (open_ok (fun _ => if_fits hc) rfl) n).append (h1.append (.one brace_ok n))
  have oth : ∀ t1, Good t1 → Good (prThen .other n c [] t1 ++ [.nl]) := by
    intro t1 h1
    simp only [prThen, List.append_assoc]
    refine (Good.one ⟨?_, prHead_clean [word "if"] c rfl⟩ n).append (h1.append (.line (ps := []) lineOK_nil .nil))
    have := if_fits hc (ps := []) trivial
    rwa [List.append_nil] at this
  cases th with
  | block l => exact blk _ (ih _ _)
  | assign x e atomic =>
    have ha : atomic = false := by simpa [thenOK] using hok
    subst ha
    show Good (on (indent n ++ prHead [word "if"] c ++ [.sp]) ++ (on (indent 0 ++ prAssign x e) ++ [.nl]) ++ [.nl])
    have : on (indent n ++ prHead [word "if"] c ++ [.sp]) ++ (on (indent 0 ++ prAssign x e) ++ [.nl]) ++ [.nl] =
        on (indent n ++ (prHead [word "if"] c ++ .sp :: prAssign x e)) ++ .nl :: (on [] ++ .nl :: []) := by
      simp [on, indent]
    rw [this]
    refine .line (lineOK.indent ⟨if_fits hc (Fits.sp (assign_fits hw.1 hw.2)), ?_⟩ n) (.line lineOK_nil .nil)
    rw [List.all_append, prHead_clean _ c rfl, List.all_cons, assign_clean]; rfl
  | _ => exact oth _ (ih _ _)

/-- What Good says of statements and of clauses. -/
def GoodS : {k : K} → S k → Prop
  | .stmt, s => ∀ n p, Good (prS s n p).1
  | .list, s => ∀ n p, Good (prS s n p).1
  | .clauses, s => (∀ first always n p ps, (first = true → ps = []) → lineOK ps → Good (on ps ++ (prS s (.case first always) n p).1)) ∧
      ∀ n p, Good (prS s .switch n p).1

theorem good {k : K} (s : S k) : WFS s → GoodS s := by
  induction s with
  | block l ih => exact fun h n p => ih h n p
  | scope s ih => exact fun h n p => ih h (n + 1) p
  | ifThen c th ih => exact fun h n p => Good.then h.1 h.2.2 h.2.1 _ (ih h.2.1)
  | ifElse c th el iht ihe =>
    intro h n p
    exact (((Good.then h.1 h.2.2.1 h.2.1 _ (iht h.2.1)).append (.one else_ok n)).append (ihe h.2.2.2.2 _ _)).append (.one brace_ok n)
  | case cl always ih =>
    intro h n p
    exact (ih h).1 true always n p [] (fun _ => rfl) lineOK_nil
  | switch e cs ih =>
    intro h n p
    exact ((Good.one (switch_ok h.1 p) n).append ((ih h.2).2 _ _)).append (.one brace_ok n)
  | store a i e atomic =>
    intro h n p
    exact (Good.atomic n atomic).append (.one (store_ok h.1 h.2.1 h.2.2) n)
  | assign x e atomic =>
    intro h n p
    exact (Good.atomic n atomic).append (.one ⟨assign_fits h.1 h.2, assign_clean x e⟩ n)
  | decl ty ptr x e => exact fun h n p => .one (decl_ok h.1 h.2.1 h.2.2) n
  | loop w c body ih =>
    intro h n p
    exact (((Good.while n w).append (.one (open_ok (fun _ => while_fits h.1) rfl) n)).append (ih h.2 _ _)).append (.one brace_ok n)
  | «for» pg ty x a b i body ih =>
    intro h n p
    exact (((Good.pragma n pg.text (pragma_ok pg)).append (.one (for_ok h.1 h.2.1 h.2.2.1 h.2.2.2.1 h.2.2.2.2.1 p) n)).append
      (ih h.2.2.2.2.2 _ _)).append (.one brace_ok n)
  | alloc k ty x e => exact fun h n p => .one (alloc_ok h.1 h.2.1 h.2.2) n
  | free x =>
    intro h n p
    exact .one (free_ok h) n
  | sort args => exact fun h n p => .one (sort_ok h.1) n
  | cont => exact fun h n p => .one cont_ok n
  | brk => exact fun h n p => .one brk_ok n
  | blank => exact fun h n p => .line (ps := []) lineOK_nil .nil
  | nil => exact fun h n p => .nil
  | cons a l iha ihl => exact fun h n p => (iha h.1 _ _).append (ihl h.2 _ _)
  | noClause => exact fun h => ⟨fun first always n p ps _ hp => .line hp .nil, fun n p => .nil⟩
  | clause c body rest ihb ihr =>
    intro h
    refine ⟨fun first always n p ps hf hp => ?_, fun n p => ?_⟩
    · show Good (on ps ++ (prClause c first (isLast rest) always (prS body) (prS rest (.case false always)) n p).1)
      have hrest : ∀ q, Good (on (indent n ++ [.sym ['}']]) ++ (prS rest (.case false always) n q).1) :=
        fun q => (ihr h.2.2).1 false always n q _ (by intro h; cases h) (brace_ok.indent n)
      have hbody := ihb h.2.1
      have hhead : Good (on ps ++ prClauseHead n c first (isLast rest) always) := by
        cases first with
        | true =>
          rw [hf rfl]
          exact .one (open_ok (fun _ => if_fits h.1) rfl) n
        | false =>
          refine .line hp (.one ?_ n)
          rw [if_neg (by decide)]
          split
          · exact else_ok
          · exact open_ok (fun _ => elseIf_fits h.1) rfl
      simp only [prClause, List.append_assoc]
      rw [← List.append_assoc]
      exact hhead.append ((hbody _ _).append (hrest _))
    · show Good (prSwitchCase c (prS body) (prS rest .switch) n).1
      simp only [prSwitchCase]
      exact ((((((Good.one (case_ok h.1) n).append (ihb h.2.1 _ _)).append (.line (ps := []) lineOK_nil .nil)).append
        (.one brk_ok (n + 1))).append (.one brace_ok n))).append ((ihr h.2.2).2 _ _)

/-- The tokens of a printed statement. -/
theorem tokens_prS (s : S .stmt) (h : WFS s) (n p : Nat) : tokensOf (renderP (prS s n p).1) = toksP (prS s n p).1 := (good s h n p).tokens

end Verif.CStmt
