import Verif.CPrint.Parse
/-! C27: generated C expressions and assignments are read by C as the expressions they were printed from. -/
namespace Verif.CPrint

/-- Whatever was printed before (`p` is the precedence left in the printer), C reads the text of an expression as
that expression.

Partial: no complex literals, and no minus sign directly before a negative number or a negation (`WF`). The
theorems below show what happens there. -/
theorem printed_expression_partial (e : E .expr) (p : Nat) (h : WF e) : Reads (render (pr e p).1) (denotes e) := by
  show Ev _ _ _
  rw [tokens_pr e p h]
  have := (parses e p [] h).2 9 ?_ (.nil 9)
  · rw [List.append_nil] at this
    exact this
  · cases e with
    | bin op _ _ => simp only [lvl]; split; decide; cases op <;> decide
    | _ => exact (by decide : 1 ≤ 9)

/-- C reads a text in one way. -/
theorem reads_unique {s : List Char} {a b : C} (ha : Reads s a) (hb : Reads s b) : a = b := by
  obtain ⟨n, ha⟩ := ha
  obtain ⟨m, hb⟩ := hb
  have h := (ha (max n m) (by omega)).symm.trans (hb (max n m) (by omega))
  injection h with h
  exact congrArg Prod.fst h

/-- The condition of a loop is read as a comparison of the loop variable with the whole bound. -/
theorem printed_loop_condition_partial (x : List Char) (stop : E .expr) (hx : nameOK x = true) (h : WF stop) :
    Reads (render (prLoopCond x stop)) (.bin .lt (.id x) (denotes stop)) := by
  show Ev _ _ _
  have hf := (fits stop 0 [] h trivial (by intro c hc; cases hc)).1
  rw [List.append_nil] at hf
  have ht : tokens (render (prLoopCond x stop)) = .word x :: .sym ['<'] :: toks (pr stop 0).1 := by
    have : Fits (prLoopCond x stop) := Fits.word (nameOK_wordOK hx) (Fits.sp (Fits.op (op := .lt) hf)) ends_sp
    exact lex_fits _ this
  rw [ht]
  have h0 : lvl stop 0 ≤ 3 := by
    cases stop with
    | bin op _ _ => simp only [lvl]; cases op <;> decide
    | _ => exact (by decide : 1 ≤ 3)
  have h1 : Ev (.level 3) (.word x :: .sym ['<'] :: toks (pr stop 0).1) (.id x, .sym ['<'] :: toks (pr stop 0).1) :=
    (Ev.name hx (Ev.post_end (ts := .sym ['<'] :: toks (pr stop 0).1) ⟨by decide, by decide, by decide, by decide⟩)).climb (Nat.le_refl 1) (by decide) (Stop.op (op := .lt) (by decide) _)
  have h2 := (parses stop 0 [] h).2 3 h0 (.nil 3)
  rw [List.append_nil] at h2
  exact (Ev.level h1 (.chain_op (op := .lt) rfl h2 (.chain_end rfl))).climb (by decide) (by decide) (.nil 9)

/-- An assignment, with its shorthands `+=`, `*=`, `|=` and `++`, is read as the assignment of the expression. -/
theorem printed_assignment_partial (x : List Char) (e : E .expr) (hx : nameOK x = true) (h : WF e) :
    ReadsAssign (render (prAssign x e)) x (denotes e) := by
  have h9 : ∀ a : E .expr, lvl a 20 ≤ 9 := by
    intro a
    cases a with
    | bin op _ _ => simp only [lvl]; split; decide; cases op <;> decide
    | _ => exact (by decide : 1 ≤ 9)
  have plain : ∀ (s : List Char) (a : E .expr) (c : C), WF a → symOK s → (∀ d, s = [d] → (d, ' ') ∉ twoChars) →
      s ≠ ['+', '+'] →
      (if s = ['='] then some (x, (denotes a : C)) else if s = ['+', '='] then some (x, .bin .add (.id x) (denotes a))
        else if s = ['*', '='] then some (x, .bin .mul (.id x) (denotes a))
        else if s = ['|', '='] then some (x, .bin .bor (.id x) (denotes a)) else none) = some (x, c) →
      ReadsAssign (render ([.word x, .sp, .sym s, .sp] ++ (pr a 20).1 ++ [.sym [';']])) x c := by
    intro s a c ha hs hsp hne hc
    have hf := (fits a 20 [.sym [';']] ha (Fits.punct (ps := []) trivial (by simp)) (ends_punct (by simp [stop]))).1
    have hF : Fits ([.word x, .sp, .sym s, .sp] ++ (pr a 20).1 ++ [.sym [';']]) := by
      rw [List.append_assoc]
      refine Fits.word (nameOK_wordOK hx) (Fits.sp ⟨hs, fun d hd => ?_, Fits.sp hf⟩) ends_sp
      have : d = ' ' := by simpa [render_cons, Piece.text] using hd.symm
      subst this
      match s, hsp with
      | [d], hsp => exact hsp d rfl
      | [_, _], _ => trivial
      | [], _ => trivial
      | _ :: _ :: _ :: _, _ => trivial
    have ht := lex_fits _ hF
    simp only [toks_append, toks_sp, toks_sym, toks_word, toks_nil, List.append_assoc, List.cons_append, List.nil_append] at ht
    obtain ⟨n, hn⟩ := (parses a 20 [.sym [';']] ha).2 9 (h9 a) (.sym (by simp) _ _)
    refine ⟨n, fun m hm => ?_⟩
    have ht' : tokens (render ([.word x, .sp, .sym s, .sp] ++ (pr a 20).1 ++ [.sym [';']])) =
        .word x :: .sym s :: (toks (pr a 20).1 ++ [.sym [';']]) := by
      rw [show [Piece.word x, .sp, .sym s, .sp] ++ (pr a 20).1 ++ [.sym [';']] =
        .word x :: .sp :: .sym s :: .sp :: ((pr a 20).1 ++ [.sym [';']]) by simp]
      exact ht
    rw [ht']
    have : ∀ ts, parseAssign m (.word x :: .sym s :: ts) = match parse m (.level 9) ts with
        | some (e, [.sym [';']]) =>
          if s = ['='] then some (x, e)
          else if s = ['+', '='] then some (x, .bin .add (.id x) e)
          else if s = ['*', '='] then some (x, .bin .mul (.id x) e)
          else if s = ['|', '='] then some (x, .bin .bor (.id x) e)
          else none
        | _ => none := by
      intro ts
      unfold parseAssign
      split
      · rename_i heq
        injection heq with _ h
        injection h with h _
        injection h with h
        exact absurd h hne
      · rename_i heq
        injection heq with h1 h
        injection h1 with h1
        injection h with h2 h
        injection h2 with h2
        subst h1 h2 h
        rfl
      · rename_i h1 h2
        exact absurd rfl (h2 _ _ _)
    rw [this, hn m hm]
    exact hc
  have eq : ∀ a : E .expr, WF a → ReadsAssign (render ([.word x, .sp, .sym ['='], .sp] ++ (pr a 20).1 ++ [.sym [';']])) x (denotes a) :=
    fun a ha => plain ['='] a _ ha ⟨by decide, by decide⟩ (fun d hd => by cases hd; decide) (by decide) rfl
  have hvar : ∀ a : E .expr, isVar x a = true → a = .var x := by
    intro a ha
    cases a with
    | var y => have : x = y := by simpa [isVar] using ha
               rw [this]
    | _ => cases ha
  have hone : ∀ a : E .expr, isLitOne a = true → a = .lit false ['1'] := by
    intro a ha
    unfold isLitOne at ha
    split at ha
    · rfl
    · cases ha
  unfold prAssign
  split
  · rename_i a b
    split
    · rename_i hv
      have hv := hvar a hv
      subst hv
      split
      · rename_i ho
        have ho := hone b ho
        subst ho
        refine ⟨0, fun m _ => ?_⟩
        have hF : Fits [.word x, .sym ['+', '+'], .sym [';']] := by
          refine ⟨nameOK_wordOK hx, fun c hc => ?_, ⟨⟨by decide, by decide, by decide⟩, fun _ _ => trivial, Fits.punct (ps := []) trivial (by simp)⟩⟩
          have : c = '+' := by simpa [render_cons, Piece.text] using hc.symm
          subst this
          cases x with
          | nil => cases hx
          | cons c cs =>
            have hd : isDigit c = false := by
              simp only [nameOK, Bool.and_eq_true, Bool.not_eq_true'] at hx
              exact hx.1.1.1
            have hp : isWordChar '+' = false := by decide
            simp [okNext, continues, hd, hp]
        have ht : tokens (render [.word x, .sym ['+', '+'], .sym [';']]) = [.word x, .sym ['+', '+'], .sym [';']] := lex_fits _ hF
        rw [ht]
        rfl
      · exact plain ['+', '='] b _ h.2 ⟨by decide, by decide, by decide⟩ (fun d hd => by cases hd) (by decide) rfl
    · exact eq _ h
  · rename_i a b
    split
    · rename_i hv
      have hv := hvar a hv
      subst hv
      exact plain ['*', '='] b _ h.2 ⟨by decide, by decide, by decide⟩ (fun d hd => by cases hd) (by decide) rfl
    · exact eq _ h
  · rename_i a b
    split
    · rename_i hv
      have hv := hvar a hv
      subst hv
      exact plain ['|', '='] b _ h.2 ⟨by decide, by decide, by decide⟩ (fun d hd => by cases hd) (by decide) rfl
    · exact eq _ h
  · exact eq _ h

/-! ### The hypotheses are met -/

/-- `-(a[(i + 1)] - 2.5e-07 * (b - c)) * (int32_t)(x < y)` -/
def sample : E .expr :=
  .bin .mul (.neg false (.bin .sub (.load ['a'] (.bin .add (.var ['i']) (.lit false ['1'])))
    (.bin .mul (.lit false ['2', '.', '5', 'e', '-', '0', '7']) (.bin .sub (.var ['b']) (.var ['c'])))))
    (.cast ["int32_t".toList] (.bin .lt (.var ['x']) (.call ['f'] (.cons (.var ['y']) (.cons (.lit true ['1']) .nil)))))

example : WF sample := by
  simp only [sample, WF, minus]
  decide

example : String.ofList (render (pr sample 20).1) = "-(a[(i + 1)] - 2.5e-07 * (b - c)) * (int32_t)(x < f(y, -1))" := by decide +kernel

/-! ### Where C reads something else -/

/-- `-(-x)` is printed `--x`: a decrement. -/
theorem printed_negation_fails : ∃ e : E .expr, ∃ c, String.ofList (render (pr e 20).1) = "--x" ∧ Reads (render (pr e 20).1) c ∧
    c = .un ['-', '-'] (.id ['x']) ∧ denotes e = .un ['-'] (.un ['-'] (.id ['x'])) ∧ c ≠ denotes e := by
  refine ⟨.neg false (.neg false (.var ['x'])), .un ['-', '-'] (.id ['x']), by decide +kernel, ?_, rfl, rfl, fun h => ?_⟩
  · have ht : tokens (render (pr (.neg false (.neg false (.var ['x']))) 20).1) = [.sym ['-', '-'], .word ['x']] := by decide +kernel
    show Ev _ _ _
    rw [ht]
    exact (Ev.unary (by decide) (Ev.name (w := ['x']) (by decide) (Ev.post_end (ts := []) trivial))).climb (Nat.le_refl 1) (by decide) (.nil 9)
  · have h : C.un ['-', '-'] (.id ['x']) = C.un ['-'] (.un ['-'] (.id ['x'])) := h
    injection h with h
    exact absurd h (by decide)

/-- A complex literal is printed without parentheses: `x * (1 + 2i)` is read as `(x * 1) + I * 2`. -/
theorem printed_complex_fails : ∃ e : E .expr, ∃ c, String.ofList (render (pr e 20).1) = "x * 1 + I*2" ∧ Reads (render (pr e 20).1) c ∧
    c = .bin .add (.bin .mul (.id ['x']) (.num ['1'])) (.bin .mul (.id ['I']) (.num ['2'])) ∧
    denotes e = .bin .mul (.id ['x']) (.bin .add (.num ['1']) (.bin .mul (.id ['I']) (.num ['2']))) ∧ c ≠ denotes e := by
  refine ⟨.bin .mul (.var ['x']) (.cplx false ['1'] false ['2']), _, by decide +kernel, ?_, rfl, rfl, fun h => ?_⟩
  · have ht : tokens (render (pr (.bin .mul (.var ['x']) (.cplx false ['1'] false ['2'])) 20).1) =
      tokens (render (pr (.bin .add (.bin .mul (.var ['x']) (.lit false ['1'])) (.bin .mul (.var ['I']) (.lit false ['2']))) 20).1) := by decide +kernel
    have := printed_expression_partial (.bin .add (.bin .mul (.var ['x']) (.lit false ['1'])) (.bin .mul (.var ['I']) (.lit false ['2']))) 20
      (by simp only [WF]; decide)
    unfold Reads at this ⊢
    rw [ht]
    exact this
  · have h : C.bin .add (.bin .mul (.id ['x']) (.num ['1'])) (.bin .mul (.id ['I']) (.num ['2'])) =
      C.bin .mul (.id ['x']) (.bin .add (.num ['1']) (.bin .mul (.id ['I']) (.num ['2']))) := h
    injection h with h
    cases h

end Verif.CPrint
