import Verif.IndexText.Spec
/-! The lexer reads the printed text as the printed tokens, and loses nothing when there is no complex literal. -/
namespace Verif.IndexText

/-- The lexer gives these tokens, with every sufficient bound. -/
def Lx (s : List Char) (ts : List Token) : Prop := ∃ n, ∀ f, n ≤ f → lexAll f s = some ts

theorem Lx.nil : Lx [] [.eot] := ⟨1, fun f hf => by
  obtain ⟨g, rfl⟩ : ∃ g, f = g + 1 := ⟨f - 1, by omega⟩
  rfl⟩

theorem Lx.tok {s rest : List Char} {t : Token} {ts : List Token} (h : getToken s = some (t, rest)) (ht : t ≠ .eot)
    (hr : Lx rest ts) : Lx s (t :: ts) := by
  obtain ⟨n, hn⟩ := hr
  refine ⟨n + 1, fun f hf => ?_⟩
  obtain ⟨g, rfl⟩ : ∃ g, f = g + 1 := ⟨f - 1, by omega⟩
  have hg := hn g (by omega)
  cases t with
  | eot => exact absurd rfl ht
  | _ => simp only [lexAll, h, hg, Option.map_some]

theorem getToken_space (s : List Char) : getToken (' ' :: s) = getToken s := by
  unfold getToken
  have : (' ' :: s).dropWhile isSpace = s.dropWhile isSpace := by
    rw [List.dropWhile_cons]; simp [isSpace]
  rw [this]

theorem Lx.space {s : List Char} {ts : List Token} (h : Lx s ts) : Lx (' ' :: s) ts := by
  obtain ⟨n, hn⟩ := h
  refine ⟨n + 1, fun f hf => ?_⟩
  obtain ⟨g, rfl⟩ : ∃ g, f = g + 1 := ⟨f - 1, by omega⟩
  have hg := hn (g + 1) (by omega)
  simp only [lexAll, getToken_space] at hg ⊢
  exact hg

theorem symbols_spec : ∀ c ∈ symbols, isSpace c = false ∧ isAlpha c = false ∧ isDigit c = false := by decide

theorem getToken_sym {c : Char} (hc : c ∈ symbols) (s : List Char) : getToken (c :: s) = some (.sym c, s) := by
  obtain ⟨h1, h2, h3⟩ := symbols_spec c hc
  unfold getToken
  have : (c :: s).dropWhile isSpace = c :: s := by rw [List.dropWhile_cons]; simp [h1]
  rw [this]
  simp [h2, h3, hc]

theorem Lx.sym {c : Char} (hc : c ∈ symbols) {s : List Char} {ts : List Token} (h : Lx s ts) : Lx (c :: s) (.sym c :: ts) :=
  .tok (getToken_sym hc s) (by simp) h

/-- What may follow a name or a number in printed text. -/
def Sep (s : List Char) : Prop := ∀ c ∈ s.head?, isAlnum c = false ∧ c ≠ '.' ∧ c ≠ 'u'

theorem takeWhile_stop {p : Char → Bool} {w rest : List Char} (hw : ∀ d ∈ w, p d = true) (hr : ∀ c ∈ rest.head?, p c = false) :
    (w ++ rest).takeWhile p = w ∧ (w ++ rest).dropWhile p = rest := by
  induction w with
  | nil =>
    cases rest with
    | nil => exact ⟨rfl, rfl⟩
    | cons c cs =>
      have := hr c (by simp)
      simp [List.takeWhile_cons, List.dropWhile_cons, this]
  | cons d ds ih =>
    have hd := hw d (by simp)
    obtain ⟨h1, h2⟩ := ih fun x hx => hw x (by simp [hx])
    simp [List.takeWhile_cons, List.dropWhile_cons, hd, h1, h2]

theorem alpha_not_space {c : Char} (h : isAlpha c = true) : isSpace c = false := by
  unfold isAlpha at h; unfold isSpace
  simp only [Bool.or_eq_true, Bool.and_eq_true, decide_eq_true_eq] at h
  simp only [Bool.or_eq_false_iff, Bool.and_eq_false_iff, decide_eq_false_iff_not, beq_eq_false_iff_ne, ne_eq]
  constructor
  · rintro rfl
    revert h; decide
  · omega

theorem digit_not {c : Char} (h : isDigit c = true) : isSpace c = false ∧ isAlpha c = false := by
  unfold isDigit at h; unfold isSpace isAlpha
  simp only [Bool.and_eq_true, decide_eq_true_eq] at h
  refine ⟨?_, ?_⟩
  · simp only [Bool.or_eq_false_iff, Bool.and_eq_false_iff, decide_eq_false_iff_not, beq_eq_false_iff_ne, ne_eq]
    constructor
    · rintro rfl
      revert h; decide
    · omega
  · simp only [Bool.or_eq_false_iff, Bool.and_eq_false_iff, decide_eq_false_iff_not]
    omega

theorem getToken_name {w : List Char} (hw : nameOK w) {rest : List Char} (hr : Sep rest) :
    getToken (w ++ rest) = some (.ident w, rest) := by
  obtain ⟨⟨c, cs, rfl, hc, hcs⟩, h1, h2⟩ := hw
  have h1' : ¬ (c :: cs = ['c', 'o', 'm', 'p', 'l', 'e', 'x'] ∨ c :: cs = ['C', 'o', 'm', 'p', 'l', 'e', 'x']) := by
    rintro (h | h)
    · exact h1 h
    · exact h2 h
  unfold getToken
  have h0 : (c :: cs ++ rest).dropWhile isSpace = c :: (cs ++ rest) := by
    rw [List.cons_append, List.dropWhile_cons]; simp [alpha_not_space hc]
  obtain ⟨ht, hd⟩ := takeWhile_stop (p := isAlnum) (w := cs) (rest := rest) hcs fun d hd => (hr d hd).1
  rw [h0]
  simp only [hc, if_true, ht, hd, if_neg h1']

theorem getToken_num {w : List Char} (hne : w ≠ []) (hw : ∀ d ∈ w, isDigit d = true) {rest : List Char} (hr : Sep rest) :
    getToken (w ++ rest) = some (.int w, rest) := by
  cases w with
  | nil => exact absurd rfl hne
  | cons c cs =>
    have hc := hw c (by simp)
    obtain ⟨hs, ha⟩ := digit_not hc
    unfold getToken
    have h0 : (c :: cs ++ rest).dropWhile isSpace = c :: (cs ++ rest) := by
      rw [List.cons_append, List.dropWhile_cons]; simp [hs]
    obtain ⟨ht, hd⟩ := takeWhile_stop (p := isDigit) (w := cs) (rest := rest) (fun d hd => hw d (by simp [hd])) fun d hd => by
      have := (hr d hd).1
      unfold isAlnum at this
      simp only [Bool.or_eq_false_iff] at this
      exact this.2
    rw [h0]
    simp only [ha, Bool.false_eq_true, if_false, hc, if_true, ht, hd]
    cases rest with
    | nil => rfl
    | cons d ds =>
      obtain ⟨_, h2, h3⟩ := hr d (by simp)
      unfold numToken
      split
      · rename_i e; injection e with e1; exact absurd e1 h2
      · rename_i e; injection e with e1; exact absurd e1 h3
      · rfl

/-! ### The printed tokens -/

/-- The tokens of a variable list. -/
def varToks : List (List Char) → List Token
  | [] => []
  | [v] => [.ident v]
  | v :: vs => .ident v :: .sym ',' :: varToks vs

def intToks (n : Int) : List Token := if n < 0 then [.sym '-', .int (dec n.natAbs)] else [.int (dec n.natAbs)]

def accToks (name : List Char) (vars : List (List Char)) : List Token :=
  if vars = [] then [.ident name] else .ident name :: .sym '(' :: varToks vars ++ [.sym ')']

/-- The tokens of a printed expression. -/
def prT : X → Nat → List Token
  | .lit n, _ => intToks n
  | .other _, _ => []
  | .acc name vars, _ => accToks name vars
  | .neg a, p => if 3 > p then .sym '-' :: .sym '(' :: prT a 3 ++ [.sym ')'] else .sym '-' :: prT a 3
  | .bin op a b, p =>
    let body := prT a op.prec ++ .sym op.char :: prT b op.prec
    if op.prec > p then .sym '(' :: body ++ [.sym ')'] else body

theorem sep_space (s : List Char) : Sep (' ' :: s) := fun c hc => by simp at hc; subst hc; decide
theorem sep_rparen (s : List Char) : Sep (')' :: s) := fun c hc => by simp at hc; subst hc; decide
theorem sep_lparen (s : List Char) : Sep ('(' :: s) := fun c hc => by simp at hc; subst hc; decide
theorem sep_comma (s : List Char) : Sep (',' :: s) := fun c hc => by simp at hc; subst hc; decide
theorem sep_nil : Sep [] := fun c hc => by simp at hc

theorem Lx.name {w : List Char} (hw : nameOK w) {rest : List Char} (hr : Sep rest) {ts : List Token} (h : Lx rest ts) :
    Lx (w ++ rest) (.ident w :: ts) := .tok (getToken_name hw hr) (by simp) h

theorem lx_vars : ∀ {vars : List (List Char)}, (∀ v ∈ vars, nameOK v) → ∀ {rest : List Char}, Sep rest → ∀ {ts : List Token}, Lx rest ts →
    Lx (joinVars vars ++ rest) (varToks vars ++ ts)
  | [], _, _, _, _, h => h
  | [v], hv, _, hr, _, h => Lx.name (hv v (by simp)) hr h
  | v :: v' :: vs, hv, rest, hr, ts, h => by
    have ih := lx_vars (vars := v' :: vs) (fun x hx => hv x (by simp [hx])) hr h
    have := Lx.name (hv v (by simp)) (sep_comma _) (Lx.sym (c := ',') (by decide) ih)
    simpa [joinVars, varToks] using this

theorem lx_acc {name : List Char} {vars : List (List Char)} (hn : nameOK name) (hv : ∀ v ∈ vars, nameOK v) {p : Nat} {rest : List Char}
    (hr : Sep rest) {ts : List Token} (h : Lx rest ts) : Lx (pr (.acc name vars) p ++ rest) (accToks name vars ++ ts) := by
  simp only [pr, accToks]
  by_cases hvs : vars = []
  · rw [if_pos hvs, if_pos hvs]
    exact Lx.name hn hr h
  · rw [if_neg hvs, if_neg hvs]
    have := Lx.name hn (sep_lparen _) (Lx.sym (c := '(') (by decide) (lx_vars hv (sep_rparen _) (Lx.sym (c := ')') (by decide) h)))
    simpa using this

theorem op_sym (op : Op) : op.char ∈ symbols := by cases op <;> decide

/-- The printed text is read as the printed tokens. -/
theorem lx_pr : ∀ (e : X) (p : Nat), WF e → ∀ {rest : List Char}, Sep rest → ∀ {ts : List Token}, Lx rest ts →
    Lx (pr e p ++ rest) (prT e p ++ ts)
  | .lit n, p, _, rest, hr, ts, h => by
    have hnum : Lx (dec n.natAbs ++ rest) (.int (dec n.natAbs) :: ts) :=
      .tok (getToken_num (dec_ne_nil _) (dec_digits _) hr) (by simp) h
    simp only [pr, prT, showInt, intToks]
    by_cases hn : n < 0
    · rw [if_pos hn, if_pos hn]
      exact Lx.sym (by decide) hnum
    · rw [if_neg hn, if_neg hn]
      exact hnum
  | .other w, p, hw, _, _, _, _ => hw.elim
  | .acc name vars, p, hw, rest, hr, ts, h => lx_acc hw.1 hw.2 hr h
  | .neg a, p, hw, rest, hr, ts, h => by
    simp only [pr, prT]
    by_cases hp : 3 > p
    · rw [if_pos hp, if_pos hp]
      have := Lx.sym (c := '-') (by decide) (Lx.sym (c := '(') (by decide) (lx_pr a 3 hw (sep_rparen rest) (Lx.sym (c := ')') (by decide) h)))
      simpa using this
    · rw [if_neg hp, if_neg hp]
      exact Lx.sym (by decide) (lx_pr a 3 hw hr h)
  | .bin op a b, p, hw, rest, hr, ts, h => by
    have hbody : ∀ {rest : List Char}, Sep rest → ∀ {ts : List Token}, Lx rest ts →
        Lx ((pr a op.prec ++ ' ' :: op.char :: ' ' :: pr b op.prec) ++ rest) ((prT a op.prec ++ .sym op.char :: prT b op.prec) ++ ts) := by
      intro rest hr ts h
      have := lx_pr a op.prec hw.1 (sep_space _) (Lx.space (Lx.sym (op_sym op) (Lx.space (lx_pr b op.prec hw.2.1 hr h))))
      simpa using this
    simp only [pr, prT]
    by_cases hp : op.prec > p
    · rw [if_pos hp, if_pos hp]
      have := Lx.sym (c := '(') (by decide) (hbody (sep_rparen rest) (Lx.sym (c := ')') (by decide) h))
      simpa using this
    · rw [if_neg hp, if_neg hp]
      exact hbody hr h

/-! ### Every text without a complex literal -/

theorem takeWhile_text {p : Char → Bool} (s : List Char) : s.takeWhile p ++ s.dropWhile p = s := List.takeWhile_append_dropWhile

theorem takeWhile_all {p : Char → Bool} : ∀ (s : List Char), ∀ c ∈ s.takeWhile p, p c = true
  | [], c, h => by simp at h
  | d :: ds, c, h => by
    rw [List.takeWhile_cons] at h
    split at h
    · rename_i hd
      rcases List.mem_cons.mp h with rfl | h
      · exact hd
      · exact takeWhile_all ds c h
    · simp at h

/-- One call: it returns, and the text before the rest is white space and the text of the token. -/
theorem getToken_spec (s : List Char) (h1 : ¬ "complex".toList <:+: s) (h2 : ¬ "Complex".toList <:+: s) :
    ∃ t rest sp, getToken s = some (t, rest) ∧ s = sp ++ t.text ++ rest ∧ (∀ c ∈ sp, isSpace c = true) ∧
      (∀ c ∈ t.text, isSpace c = false) ∧ (t = .eot ∨ t.text ≠ []) ∧ (t = .eot → rest = []) := by
  have hs := takeWhile_text (p := isSpace) s
  have hsp := takeWhile_all (p := isSpace) s
  cases hd : s.dropWhile isSpace with
  | nil =>
    refine ⟨.eot, [], s.takeWhile isSpace, ?_, ?_, hsp, by simp [Token.text], .inl rfl, fun _ => rfl⟩
    · simp only [getToken, hd]
    · simp only [Token.text, List.append_nil]
      rw [hd, List.append_nil] at hs
      exact hs.symm
  | cons c cs =>
    have hc : isSpace c = false := by
      have := List.head?_dropWhile_not isSpace s
      rw [hd] at this
      simpa using this
    rw [hd] at hs
    by_cases ha : isAlpha c = true
    · have hcs := takeWhile_text (p := isAlnum) cs
      have hw : ¬ (c :: cs.takeWhile isAlnum = ['c', 'o', 'm', 'p', 'l', 'e', 'x'] ∨ c :: cs.takeWhile isAlnum = ['C', 'o', 'm', 'p', 'l', 'e', 'x']) := by
        have hin : (c :: cs.takeWhile isAlnum) <:+: s :=
          ⟨s.takeWhile isSpace, cs.dropWhile isAlnum, by rw [List.append_assoc, List.cons_append, hcs, hs]⟩
        rintro (h | h)
        · rw [h] at hin; exact h1 hin
        · rw [h] at hin; exact h2 hin
      refine ⟨.ident (c :: cs.takeWhile isAlnum), cs.dropWhile isAlnum, s.takeWhile isSpace, ?_, ?_, hsp, ?_, .inr (by simp [Token.text]), by simp⟩
      · simp only [getToken, hd, ha, if_true, if_neg hw]
      · simp only [Token.text]
        rw [List.append_assoc, List.cons_append, hcs, hs]
      · simp only [Token.text]
        intro d hd
        rcases List.mem_cons.mp hd with rfl | hd
        · exact hc
        · have := takeWhile_all (p := isAlnum) cs d hd
          unfold isAlnum at this
          rcases Bool.or_eq_true _ _ ▸ this with h | h
          · exact alpha_not_space h
          · exact (digit_not h).1
    · have ha : isAlpha c = false := by simpa using ha
      by_cases hdig : isDigit c = true
      · have hcs := takeWhile_text (p := isDigit) cs
        have hnum : ∀ d ∈ c :: cs.takeWhile isDigit, isSpace d = false := by
          intro d hd
          rcases List.mem_cons.mp hd with rfl | hd
          · exact hc
          · exact (digit_not (takeWhile_all (p := isDigit) cs d hd)).1
        have hg : getToken s = some (numToken (c :: cs.takeWhile isDigit) (cs.dropWhile isDigit)) := by
          simp only [getToken, hd, ha, Bool.false_eq_true, if_false, hdig, if_true]
        by_cases hdot : ∃ ds, cs.dropWhile isDigit = '.' :: ds
        · obtain ⟨ds, hds⟩ := hdot
          have hcs2 := takeWhile_text (p := isDigit) ds
          refine ⟨.float ((c :: cs.takeWhile isDigit) ++ '.' :: ds.takeWhile isDigit), ds.dropWhile isDigit, s.takeWhile isSpace, ?_, ?_, hsp, ?_, .inr (by simp [Token.text]), by simp⟩
          · rw [hg, hds]; rfl
          · simp only [Token.text]
            rw [hds] at hcs
            rw [List.append_assoc, List.append_assoc, List.cons_append, List.cons_append, hcs2, hcs, hs]
          · simp only [Token.text]
            intro d hd
            rcases List.mem_append.mp hd with hd | hd
            · exact hnum d hd
            · rcases List.mem_cons.mp hd with rfl | hd
              · decide
              · exact (digit_not (takeWhile_all (p := isDigit) ds d hd)).1
        · by_cases hu : ∃ ds, cs.dropWhile isDigit = 'u' :: ds
          · obtain ⟨ds, hds⟩ := hu
            refine ⟨.uint (c :: cs.takeWhile isDigit), ds, s.takeWhile isSpace, ?_, ?_, hsp, ?_, .inr (by simp [Token.text]), by simp⟩
            · rw [hg, hds]; rfl
            · simp only [Token.text]
              rw [hds] at hcs
              rw [List.append_assoc, List.append_assoc, List.cons_append, List.singleton_append, hcs, hs]
            · simp only [Token.text]
              intro d hd
              rcases List.mem_append.mp hd with hd | hd
              · exact hnum d hd
              · rw [List.mem_singleton.mp hd]; decide
          · refine ⟨.int (c :: cs.takeWhile isDigit), cs.dropWhile isDigit, s.takeWhile isSpace, ?_, ?_, hsp, ?_, .inr (by simp [Token.text]), by simp⟩
            · rw [hg]
              unfold numToken
              split
              · rename_i ds e; exact absurd ⟨ds, e⟩ hdot
              · rename_i ds e; exact absurd ⟨ds, e⟩ hu
              · rfl
            · simp only [Token.text]
              rw [List.append_assoc, List.cons_append, hcs, hs]
            · exact hnum
      · have hdig : isDigit c = false := by simpa using hdig
        by_cases hsym : c ∈ symbols
        · refine ⟨.sym c, cs, s.takeWhile isSpace, ?_, ?_, hsp, ?_, .inr (by simp [Token.text]), by simp⟩
          · simp only [getToken, hd, ha, hdig, Bool.false_eq_true, if_false, if_pos hsym]
          · simp only [Token.text, List.append_assoc, List.singleton_append]; exact hs.symm
          · simp only [Token.text, List.mem_singleton]; rintro d rfl; exact hc
        · refine ⟨.error c, cs, s.takeWhile isSpace, ?_, ?_, hsp, ?_, .inr (by simp [Token.text]), by simp⟩
          · simp only [getToken, hd, ha, hdig, Bool.false_eq_true, if_false, if_neg hsym]
          · simp only [Token.text, List.append_assoc, List.singleton_append]; exact hs.symm
          · simp only [Token.text, List.mem_singleton]; rintro d rfl; exact hc

end Verif.IndexText
