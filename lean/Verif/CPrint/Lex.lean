import Verif.CPrint.Spec
/-! The tokens of printed text are the printed pieces. -/
namespace Verif.CPrint

/-- The tokens of the pieces. -/
def toks (ps : List Piece) : List Tok := ps.filterMap fun p => match p with
  | .word w => some (.word w)
  | .sym s => some (.sym s)
  | .sp => none

@[simp] theorem toks_nil : toks [] = [] := rfl
@[simp] theorem toks_word (w : List Char) (ps) : toks (.word w :: ps) = .word w :: toks ps := rfl
@[simp] theorem toks_sym (w : List Char) (ps) : toks (.sym w :: ps) = .sym w :: toks ps := rfl
@[simp] theorem toks_sp (ps) : toks (.sp :: ps) = toks ps := rfl
@[simp] theorem toks_append (a b) : toks (a ++ b) = toks a ++ toks b := by simp [toks]

theorem lex_cons (c : Char) (cs : List Char) : lex (.word []) (c :: cs) = lex (begin c) cs := by
  simp only [lex, continues, begin, List.head?_nil, Bool.and_false, Bool.false_and, Bool.or_false, flush, List.nil_append, if_true]
  split <;> rfl

/-- Every character of the word continues what precedes it. -/
def runs : List Char → List Char → Bool
  | _, [] => true
  | acc, d :: ds => continues acc d && runs (acc ++ [d]) ds

theorem lex_runs (w : List Char) : ∀ (acc rest : List Char), runs acc w = true → lex (.word acc) (w ++ rest) = lex (.word (acc ++ w)) rest := by
  induction w with
  | nil => intro acc rest _; simp
  | cons d ds ih =>
    intro acc rest h
    simp only [runs, Bool.and_eq_true] at h
    show lex (.word acc) (d :: (ds ++ rest)) = _
    rw [lex, if_pos h.1, ih _ _ h.2]; simp

def wordOK (w : List Char) : Prop := w ≠ [] ∧ runs [] w = true

/-- What may follow a piece. -/
def okNext : Piece → Char → Prop
  | .word w, c => continues w c = false
  | .sym [d], c => (d, c) ∉ twoChars
  | _, _ => True

def symOK : List Char → Prop
  | [d] => isWordChar d = false ∧ d ≠ ' '
  | [d, e] => isWordChar d = false ∧ d ≠ ' ' ∧ (d, e) ∈ twoChars
  | _ => False

def pieceOK : Piece → Prop
  | .word w => wordOK w
  | .sym s => symOK s
  | .sp => True

/-- Pieces that are read as they are written. -/
def Fits : List Piece → Prop
  | [] => True
  | p :: ps => pieceOK p ∧ (∀ c ∈ (render ps).head?, okNext p c) ∧ Fits ps

theorem render_cons (p : Piece) (ps : List Piece) : render (p :: ps) = p.text ++ render ps := rfl

theorem render_append (a b : List Piece) : render (a ++ b) = render a ++ render b := by simp [render]

theorem begin_sym {d : Char} (h1 : isWordChar d = false) (h2 : d ≠ ' ') : begin d = .sym d := by
  simp [begin, h1, h2]

theorem lex_fits (ps : List Piece) (h : Fits ps) : lex (.word []) (render ps) = toks ps := by
  induction ps with
  | nil => rfl
  | cons p ps ih =>
    obtain ⟨h1, h2, h3⟩ := h
    have ih := ih h3
    rw [render_cons]
    match p, h1, h2 with
    | .sp, _, _ =>
      show lex (.word []) (' ' :: render ps) = _
      rw [lex_cons]
      exact ih
    | .word w, h1, h2 =>
      show lex (.word []) (w ++ render ps) = _
      rw [lex_runs w _ _ h1.2, List.nil_append]
      show _ = .word w :: toks ps
      rw [← ih]
      cases hr : render ps with
      | nil => simp [lex, flush, h1.1]
      | cons c cs =>
        have hc : continues w c = false := h2 c (by rw [hr]; rfl)
        rw [lex, if_neg (by rw [hc]; decide), lex_cons]
        simp [flush, h1.1]
    | .sym [d], h1, h2 =>
      show lex (.word []) (d :: render ps) = .sym [d] :: toks ps
      rw [lex_cons, begin_sym h1.1 h1.2, ← ih]
      cases hr : render ps with
      | nil => rfl
      | cons c cs =>
        have hc : (d, c) ∉ twoChars := h2 c (by rw [hr]; rfl)
        rw [lex_cons c cs, lex, if_neg hc]
    | .sym [d, e], h1, h2 =>
      show lex (.word []) (d :: e :: render ps) = .sym [d, e] :: toks ps
      rw [lex_cons, begin_sym h1.1 h1.2.1, lex, if_pos h1.2.2, ih]
    | .sym [], h1, _ => exact h1.elim
    | .sym (_ :: _ :: _ :: _), h1, _ => exact h1.elim

/-- The characters that may follow an operand. -/
def stop (c : Char) : Prop := c = ' ' ∨ c = ')' ∨ c = ']' ∨ c = '[' ∨ c = '(' ∨ c = ',' ∨ c = ';' ∨ c = ':' ∨ c = '*'

theorem stop_word {w : List Char} {c : Char} (h : stop c) : continues w c = false := by
  rcases h with rfl | rfl | rfl | rfl | rfl | rfl | rfl | rfl | rfl
  all_goals (unfold continues; simp (decide := true))

theorem runs_names (w : List Char) : ∀ acc, w.all isWordChar = true → runs acc w = true := by
  induction w with
  | nil => intro _ _; rfl
  | cons c cs ih =>
    intro acc h
    simp only [List.all_cons, Bool.and_eq_true] at h
    simp only [runs, Bool.and_eq_true]
    exact ⟨by unfold continues; rw [h.1]; rfl, ih _ h.2⟩

theorem nameOK_wordOK {w : List Char} (h : nameOK w = true) : wordOK w := by
  cases w with
  | nil => cases h
  | cons c cs =>
    simp only [nameOK, Bool.and_eq_true, List.all_eq_true] at h
    exact ⟨by simp, runs_names _ _ (List.all_eq_true.2 fun d hd => (h.1.1.2 d hd).1)⟩

theorem numOK_go (w : List Char) : ∀ acc, numOK.go acc w = runs acc w := by
  induction w with
  | nil => intro _; rfl
  | cons c cs ih => intro acc; simp only [numOK.go, runs, ih]

theorem digit_word {c : Char} (h : isDigit c = true) : isWordChar c = true := by simp [isWordChar, h]

theorem numOK_wordOK {w : List Char} (h : numOK w = true) : wordOK w := by
  cases w with
  | nil => cases h
  | cons c cs =>
    simp only [numOK, Bool.and_eq_true, numOK_go] at h
    refine ⟨by simp, ?_⟩
    simp only [runs, Bool.and_eq_true]
    exact ⟨by unfold continues; rw [digit_word h.1]; rfl, h.2⟩

theorem isType_chars {w : List Char} (h : isType w = true) : w ≠ [] ∧ w.all isWordChar = true ∧ ∃ c cs, w = c :: cs ∧ isDigit c = false := by
  simp only [isType, typeNames, List.any_cons, List.any_nil, Bool.or_eq_true, beq_iff_eq, Bool.or_false] at h
  rcases h with h | h | h | h | h | h | h | h | h | h | h | h | h | h <;> subst h <;>
    exact ⟨by decide, by decide, _, _, rfl, by decide⟩

theorem isType_wordOK {w : List Char} (h : isType w = true) : wordOK w :=
  ⟨(isType_chars h).1, runs_names _ _ (isType_chars h).2.1⟩

theorem wordOK_head {w : List Char} (h : wordOK w) : ∃ c cs, w = c :: cs ∧ isWordChar c = true := by
  cases w with
  | nil => exact absurd rfl h.1
  | cons c cs =>
    refine ⟨c, cs, rfl, ?_⟩
    have := h.2
    simp only [runs, Bool.and_eq_true] at this
    have h1 := this.1
    unfold continues at h1
    simpa using h1

/-! ### Printed pieces are read as they are written -/

/-- How the text of an expression begins. -/
def first (c : Char) : Prop := isWordChar c = true ∨ c = '(' ∨ c = '-' ∨ c = '!'

def ends (ps : List Piece) : Prop := ∀ c ∈ (render ps).head?, stop c

/-- The pieces begin with an operand. -/
def begins (ps : List Piece) : Prop := ∃ c, (render ps).head? = some c ∧ first c

theorem Fits.word {w : List Char} {ps : List Piece} (hw : wordOK w) (h : Fits ps) (he : ends ps) : Fits (.word w :: ps) :=
  ⟨hw, fun c hc => stop_word (he c hc), h⟩

theorem begins_word {w : List Char} (hw : wordOK w) (ps : List Piece) : begins (.word w :: ps) := by
  obtain ⟨c, cs, rfl, hc⟩ := wordOK_head hw
  exact ⟨c, rfl, Or.inl hc⟩

/-- Punctuation that never joins with what follows. -/
theorem Fits.punct {d : Char} {ps : List Piece} (h : Fits ps) (hd : d = '(' ∨ d = ')' ∨ d = '[' ∨ d = ']' ∨ d = ',' ∨ d = ';' ∨ d = ':' ∨ d = '{' ∨ d = '}') :
    Fits (.sym [d] :: ps) := by
  refine ⟨?_, fun c _ => ?_, h⟩
  · rcases hd with rfl | rfl | rfl | rfl | rfl | rfl | rfl | rfl | rfl <;> exact ⟨by decide, by decide⟩
  · show (d, c) ∉ twoChars
    rcases hd with rfl | rfl | rfl | rfl | rfl | rfl | rfl | rfl | rfl <;> simp [twoChars]

theorem ends_punct {d : Char} {ps : List Piece} (hd : stop d) : ends (.sym [d] :: ps) := by
  intro c hc
  have : c = d := by simpa [render_cons, Piece.text] using hc.symm
  exact this ▸ hd

theorem ends_sp {ps : List Piece} : ends (.sp :: ps) := by
  intro c hc
  have : c = ' ' := by simpa [render_cons, Piece.text] using hc.symm
  exact Or.inl this

theorem Fits.sp {ps : List Piece} (h : Fits ps) : Fits (.sp :: ps) := ⟨trivial, fun _ _ => trivial, h⟩

/-- A minus sign before something that does not begin with one. -/
theorem Fits.minus {ps : List Piece} (h : Fits ps) (hb : ∀ c ∈ (render ps).head?, first c ∧ c ≠ '-') : Fits (.sym ['-'] :: ps) := by
  refine ⟨⟨by decide, by decide⟩, fun c hc => ?_, h⟩
  show ('-', c) ∉ twoChars
  obtain ⟨h1, h2⟩ := hb c hc
  simp only [twoChars, List.mem_cons, Prod.mk.injEq, List.not_mem_nil, or_false, true_and]
  rcases h1 with h1 | rfl | rfl | rfl
  · rintro (h | h | h | h | h | h | h | h | h | h | h | h | h | h | h | h | h | h) <;> (try (obtain ⟨h', _⟩ := h; revert h'; decide)) <;>
      (subst h; revert h1; decide)
  · decide
  · exact absurd rfl h2
  · decide

theorem Fits.not {ps : List Piece} (h : Fits ps) (hb : begins ps) : Fits (.sym ['!'] :: ps) := by
  refine ⟨⟨by decide, by decide⟩, fun c hc => ?_, h⟩
  show ('!', c) ∉ twoChars
  obtain ⟨d, hd, h1⟩ := hb
  rw [hd] at hc
  cases hc
  simp only [twoChars, List.mem_cons, Prod.mk.injEq, List.not_mem_nil, or_false, true_and]
  rcases h1 with h1 | rfl | rfl | rfl
  · rintro (h | h | h | h | h | h | h | h | h | h | h | h | h | h | h | h | h | h) <;> (try (obtain ⟨h', _⟩ := h; revert h'; decide)) <;>
      (subst h; revert h1; decide)
  · decide
  · decide
  · decide

theorem Fits.op {op : BOp} {ps : List Piece} (h : Fits ps) : Fits (.sym op.text :: .sp :: ps) := by
  refine ⟨?_, fun c hc => ?_, h.sp⟩
  · cases op <;> simp [pieceOK, BOp.text, symOK] <;> decide
  · have : c = ' ' := by simpa [render_cons, Piece.text] using hc.symm
    subst this
    cases op <;> simp [okNext, BOp.text, twoChars]

theorem typeWords_fits (ty : List (List Char)) (hne : ty ≠ []) (h : ∀ w ∈ ty, isType w = true) {ps : List Piece} (hp : Fits ps) (he : ends ps) :
    Fits (typeWords ty ++ ps) := by
  induction ty with
  | nil => exact absurd rfl hne
  | cons w ws ih =>
    have hw := isType_wordOK (h w List.mem_cons_self)
    cases ws with
    | nil => exact hp.word hw he
    | cons w' ws =>
      exact Fits.word hw (Fits.sp (ih (by simp) fun z hz => h z (List.mem_cons_of_mem _ hz))) ends_sp

theorem signed_fits (n : Bool) {t : List Char} (ht : wordOK t) {ps : List Piece} (hp : Fits ps) (he : ends ps) :
    Fits (signed n t ++ ps) ∧ ∃ c, (render (signed n t ++ ps)).head? = some c ∧ first c ∧ (c = '-' → n = true) := by
  obtain ⟨c, cs, rfl, hc⟩ := wordOK_head ht
  cases n with
  | true =>
    refine ⟨Fits.minus (hp.word ht he) fun d hd => ?_, '-', rfl, Or.inr (Or.inr (Or.inl rfl)), fun _ => rfl⟩
    have hd : d = c := by simpa [render_cons, Piece.text] using hd.symm
    subst hd
    exact ⟨Or.inl hc, fun h => by subst h; revert hc; decide⟩
  | false =>
    exact ⟨hp.word ht he, c, rfl, Or.inl hc, fun h => by subst h; revert hc; decide⟩

theorem fits {s : Sort'} (e : E s) : ∀ (p : Nat) (ps : List Piece), WF e → Fits ps → ends ps →
    Fits ((pr e p).1 ++ ps) ∧ match s with
      | .expr => ∃ c, (render ((pr e p).1 ++ ps)).head? = some c ∧ first c ∧ (p ≤ 3 → c = '-' → minus e = true)
      | .args => True := by
  have word : ∀ (w : List Char) (p : Nat) (qs : List Piece) (e : E .expr), wordOK w →
      ∃ c, (render (.word w :: qs)).head? = some c ∧ first c ∧ (p ≤ 3 → c = '-' → minus e = true) := by
    intro w p qs e hw
    obtain ⟨c, cs, rfl, hc⟩ := wordOK_head hw
    exact ⟨c, rfl, Or.inl hc, fun _ h => absurd hc (by subst h; decide)⟩
  induction e with
  | lit n t =>
    intro p ps hw hp he
    have ht : wordOK t := by
      have hw : (numOK t || nameOK t) = true := hw
      rcases Bool.or_eq_true_iff.1 hw with h | h
      · exact numOK_wordOK h
      · exact nameOK_wordOK h
    obtain ⟨h1, c, h2, h3, h4⟩ := signed_fits n ht hp he
    exact ⟨h1, c, h2, h3, fun _ h => h4 h⟩
  | cplx => intro p ps hw; exact hw.elim
  | var x => intro p ps hw hp he; exact ⟨hp.word (nameOK_wordOK hw) he, word _ _ _ _ (nameOK_wordOK hw)⟩
  | neg b a ih =>
    intro p ps hw hp he
    obtain ⟨h1, c, h2, h3, h4⟩ := ih 3 ps hw.1 hp he
    cases b with
    | true => exact ⟨Fits.not h1 ⟨c, h2, h3⟩, '!', rfl, Or.inr (Or.inr (Or.inr rfl)), fun _ h => absurd h (by decide)⟩
    | false =>
      refine ⟨Fits.minus h1 fun d hd => ?_, '-', rfl, Or.inr (Or.inr (Or.inl rfl)), fun _ _ => rfl⟩
      have hd := h2.symm.trans hd
      cases hd
      refine ⟨h3, fun h => ?_⟩
      have := h4 (Nat.le_refl 3) h
      rw [hw.2 rfl] at this
      cases this
  | bin op a b iha ihb =>
    intro p ps hw hp he
    have hbody : ∀ qs, Fits qs → ends qs → Fits ((pr a op.prec).1 ++ [.sp, .sym op.text, .sp] ++ (pr b op.prec).1 ++ qs) ∧
        ∃ c, (render ((pr a op.prec).1 ++ [.sp, .sym op.text, .sp] ++ (pr b op.prec).1 ++ qs)).head? = some c ∧ first c := by
      intro qs hq hqe
      obtain ⟨b1, _⟩ := ihb op.prec qs hw.2 hq hqe
      have b2 : Fits (.sp :: .sym op.text :: .sp :: ((pr b op.prec).1 ++ qs)) := Fits.sp (Fits.op b1)
      obtain ⟨a1, c, a2, a3, _⟩ := iha op.prec _ hw.1 b2 ends_sp
      simp only [List.append_assoc, List.cons_append, List.nil_append]
      exact ⟨a1, c, a2, a3⟩
    simp only [pr]
    by_cases hn : needsParens op.prec p = true
    · rw [if_pos hn]
      obtain ⟨q1, _⟩ := hbody (.sym [')'] :: ps) (hp.punct (by simp)) (ends_punct (by simp [stop]))
      simp only [List.append_assoc, List.cons_append, List.nil_append] at q1 ⊢
      exact ⟨Fits.punct q1 (by simp), '(', rfl, Or.inr (Or.inl rfl), fun _ h => absurd h (by decide)⟩
    · rw [if_neg hn]
      obtain ⟨q1, c, q2, q3⟩ := hbody ps hp he
      refine ⟨q1, c, q2, q3, fun h => ?_⟩
      exfalso
      apply hn
      simp only [needsParens, Bool.or_eq_true, decide_eq_true_eq]
      left
      cases op <;> simp only [BOp.prec] <;> omega
  | cast ty a ih =>
    intro p ps hw hp he
    obtain ⟨h1, _⟩ := ih 3 ps hw.2.2 hp he
    have h2 : Fits (.sym [')'] :: ((pr a 3).1 ++ ps)) := h1.punct (by simp)
    have h3 := typeWords_fits ty hw.1 hw.2.1 h2 (ends_punct (by simp [stop]))
    simp only [pr, List.append_assoc, List.cons_append, List.nil_append]
    exact ⟨Fits.punct h3 (by simp), '(', rfl, Or.inr (Or.inl rfl), fun _ h => absurd h (by decide)⟩
  | call f as ih =>
    intro p ps hw hp he
    obtain ⟨h1, _⟩ := ih 2 (.sym [')'] :: ps) hw.2 (hp.punct (by simp)) (ends_punct (by simp [stop]))
    simp only [pr, List.append_assoc, List.cons_append, List.nil_append]
    exact ⟨Fits.word (nameOK_wordOK hw.1) (Fits.punct h1 (by simp)) (ends_punct (by simp [stop])), word _ _ _ _ (nameOK_wordOK hw.1)⟩
  | sqrt a ih =>
    intro p ps hw hp he
    obtain ⟨h1, _⟩ := ih p (.sym [')'] :: ps) hw (hp.punct (by simp)) (ends_punct (by simp [stop]))
    simp only [pr, List.append_assoc, List.cons_append, List.nil_append]
    have hn : wordOK ['s', 'q', 'r', 't'] := ⟨by decide, by decide⟩
    exact ⟨Fits.word hn (Fits.punct h1 (by simp)) (ends_punct (by simp [stop])), word _ _ _ _ hn⟩
  | malloc a ih =>
    intro p ps hw hp he
    obtain ⟨h1, _⟩ := ih 20 (.sym [')'] :: ps) hw (hp.punct (by simp)) (ends_punct (by simp [stop]))
    simp only [pr, List.append_assoc, List.cons_append, List.nil_append]
    have hn : wordOK ['m', 'a', 'l', 'l', 'o', 'c'] := ⟨by decide, by decide⟩
    exact ⟨Fits.word hn (Fits.punct h1 (by simp)) (ends_punct (by simp [stop])), word _ _ _ _ hn⟩
  | minmax f a b iha ihb =>
    intro p ps hw hp he
    obtain ⟨h1, _⟩ := ihb (pr a p).2 (.sym [')'] :: ps) hw.2.2 (hp.punct (by simp)) (ends_punct (by simp [stop]))
    obtain ⟨h2, _⟩ := iha p _ hw.2.1 (Fits.punct (d := ',') h1 (by simp)) (ends_punct (by simp [stop]))
    simp only [pr, List.append_assoc, List.cons_append, List.nil_append]
    exact ⟨Fits.word (nameOK_wordOK hw.1) (Fits.punct h2 (by simp)) (ends_punct (by simp [stop])), word _ _ _ _ (nameOK_wordOK hw.1)⟩
  | load x a ih =>
    intro p ps hw hp he
    obtain ⟨h1, _⟩ := ih 2 (.sym [']'] :: ps) hw.2 (hp.punct (by simp)) (ends_punct (by simp [stop]))
    simp only [pr, List.append_assoc, List.cons_append, List.nil_append]
    exact ⟨Fits.word (nameOK_wordOK hw.1) (Fits.punct h1 (by simp)) (ends_punct (by simp [stop])), word _ _ _ _ (nameOK_wordOK hw.1)⟩
  | nil => intro p ps _ hp _; exact ⟨hp, trivial⟩
  | cons a as iha ihas =>
    intro p ps hw hp he
    cases as with
    | nil => exact ⟨(iha p ps hw.1 hp he).1, trivial⟩
    | cons b bs =>
      obtain ⟨h1, _⟩ := ihas (pr a p).2 ps hw.2 hp he
      obtain ⟨h2, _⟩ := iha p (.sym [','] :: .sp :: ((pr (.cons b bs) (pr a p).2).1 ++ ps)) hw.1 (Fits.punct (Fits.sp h1) (by simp))
        (ends_punct (by simp [stop]))
      simp only [pr, List.append_assoc, List.cons_append, List.nil_append]
      exact ⟨h2, trivial⟩

/-- The tokens of a printed expression. -/
theorem tokens_pr (e : E .expr) (p : Nat) (h : WF e) : tokens (render (pr e p).1) = toks (pr e p).1 := by
  have := (fits e p [] h trivial (by intro c hc; cases hc)).1
  rw [List.append_nil] at this
  exact lex_fits _ this

end Verif.CPrint
