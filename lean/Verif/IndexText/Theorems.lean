import Verif.IndexText.Parse
/-!
# C28 Printed index expressions parse back to an equal expression; C29 the lexer consumes every input
-/
namespace Verif.IndexText

theorem read_of_print {e : X} (h : WF e) : ∃ n, ∀ f, n ≤ f → readExpr f (pr e 20) = some (g e none) := by
  have hl := lx_pr e 20 h sep_nil Lx.nil
  rw [List.append_nil] at hl
  obtain ⟨n1, h1⟩ := hl
  have hs : ∀ c : Char, ∀ t ∈ ([Token.eot] : List Token).head?, t ≠ .sym c := by intro c t ht; simp at ht; subst ht; simp
  obtain ⟨n2, h2⟩ := (good e h).E1 20 [.eot] _ (by decide) (fun t ht => ⟨hs _ t ht, hs _ t ht⟩) (fun t ht => ⟨hs _ t ht, hs _ t ht⟩)
    (.exprEnd fun t ht => ⟨hs _ t ht, hs _ t ht⟩)
  refine ⟨max n1 n2, fun f hf => ?_⟩
  unfold readExpr
  rw [h1 f (by omega), Option.bind_some, h2 f (by omega)]
  rfl

/-- Printing an index expression and parsing the text gives an expression with the same value, in every number
system with exact arithmetic, provided that names are plain identifiers, literals are 64-bit integers, no right
operand of a subtraction is a sum or difference and no right operand of a division is a product or quotient.
The full property asks for all expressions and is false: see `printed_difference_fails` and its neighbours. -/
theorem printed_expression_partial (e : X) (h : WF e) :
    ∃ e', (∃ n, ∀ f, n ≤ f → readExpr f (pr e 20) = some e') ∧
      ∀ (V : Type) (A : Alg V), Laws A → eval A e' = eval A e :=
  ⟨g e none, read_of_print h, fun _ _ hA => (eval_g hA e h).1⟩

/-- Literals are not negative and no right operand has the precedence of its operator: what `+`, `-`, `*`, `/` in a
C++ program give without parentheses around right operands. -/
def LeftNested : X → Prop
  | .lit n => 0 ≤ n
  | .other _ => True
  | .acc _ _ => True
  | .neg a => LeftNested a
  | .bin op a b => LeftNested a ∧ LeftNested b ∧ (op.prec = 6 → b.isAdd = false) ∧ (op.prec = 5 → b.isMul = false)

theorem g_id : ∀ (e : X), LeftNested e → g e none = e ∧
    ∀ (o : Op) l, (o.prec = 6 → e.isAdd = false) → (o.prec = 5 → e.isMul = false) → g e (some (o, l)) = .bin o l e := by
  intro e
  induction e with
  | lit n =>
    intro h
    have : (if n < 0 then X.neg (.lit n.natAbs) else .lit n.natAbs) = .lit n := by
      have h : 0 ≤ n := h
      rw [if_neg (by omega)]
      congr 1; omega
    exact ⟨this, fun o l _ _ => congrArg (X.bin o l) this⟩
  | other w => intro _; exact ⟨rfl, fun _ _ _ _ => rfl⟩
  | acc n vs => intro _; exact ⟨rfl, fun _ _ _ _ => rfl⟩
  | neg a ih =>
    intro h
    have : g (.neg a) none = .neg a := congrArg X.neg (ih h).1
    exact ⟨this, fun o l _ _ => congrArg (X.bin o l) this⟩
  | bin o' a b iha ihb =>
    intro h
    have h0 : g b (some (o', g a none)) = .bin o' a b := by
      rw [(ihb h.2.1).2 o' _ h.2.2.1 h.2.2.2, (iha h.1).1]
    refine ⟨h0, fun o l h6 h5 => ?_⟩
    have hp : ¬ o'.prec = o.prec := by
      intro hp
      cases o <;> cases o' <;> simp [Op.prec, X.isAdd, X.isMul] at hp h6 h5
    simp only [g, if_neg hp, h0]

/-- An expression nested to the left is read back as it is, in every number system. -/
theorem printed_left_nested (e : X) (h : WF e) (hl : LeftNested e) :
    ∃ n, ∀ f, n ≤ f → readExpr f (pr e 20) = some e := by
  have := read_of_print h
  rwa [(g_id e hl).1] at this

/-- Printing an assignment and parsing the text gives the same left-hand side, the same kind of assignment and an
equal right-hand side. Missing: as in `printed_expression_partial`. -/
theorem printed_assignment_partial (s : Assign) (hn : nameOK s.name) (hv : ∀ v ∈ s.vars, nameOK v) (h : WF s.rhs) :
    ∃ e', (∃ n, ∀ f, n ≤ f → readAssign f (prAssign s) = some { s with rhs := e' }) ∧
      ∀ (V : Type) (A : Alg V), Laws A → eval A e' = eval A s.rhs := by
  refine ⟨g s.rhs none, ?_, fun _ _ hA => (eval_g hA _ h).1⟩
  have hs : ∀ c : Char, ∀ t ∈ ([Token.eot] : List Token).head?, t ≠ .sym c := by intro c t ht; simp at ht; subst ht; simp
  have hl := lx_pr s.rhs 20 h sep_nil Lx.nil
  rw [List.append_nil] at hl
  obtain ⟨n2, h2⟩ := (good s.rhs h).E1 20 [.eot] _ (by decide) (fun t ht => ⟨hs _ t ht, hs _ t ht⟩) (fun t ht => ⟨hs _ t ht, hs _ t ht⟩)
    (.exprEnd fun t ht => ⟨hs _ t ht, hs _ t ht⟩)
  obtain ⟨name, vars, acc, rhs⟩ := s
  cases acc with
  | false =>
    obtain ⟨n1, h1⟩ := lx_acc (p := 20) hn hv (sep_space _) (Lx.space (Lx.sym (c := '=') (by decide) (Lx.space hl)))
    refine ⟨max n1 n2, fun f hf => ?_⟩
    have e1 : prAssign ⟨name, vars, false, rhs⟩ = pr (.acc name vars) 20 ++ ' ' :: '=' :: ' ' :: pr rhs 20 := by
      simp [prAssign]
    have hfol : Follow (.sym '=' :: (prT rhs 20 ++ [.eot])) := by intro t ht; simp at ht; subst ht; decide
    unfold readAssign
    rw [e1, h1 f (by omega), Option.bind_some]
    unfold parseAssign
    rw [parseAccess_toks hfol]
    simp only [Option.bind_some]
    rw [h2 f (by omega)]
    rfl
  | true =>
    obtain ⟨n1, h1⟩ := lx_acc (p := 20) hn hv (sep_space _) (Lx.space (Lx.sym (c := '+') (by decide) (Lx.sym (c := '=') (by decide) (Lx.space hl))))
    refine ⟨max n1 n2, fun f hf => ?_⟩
    have e1 : prAssign ⟨name, vars, true, rhs⟩ = pr (.acc name vars) 20 ++ ' ' :: '+' :: '=' :: ' ' :: pr rhs 20 := by
      simp [prAssign]
    have hfol : Follow (.sym '+' :: .sym '=' :: (prT rhs 20 ++ [.eot])) := by intro t ht; simp at ht; subst ht; decide
    unfold readAssign
    rw [e1, h1 f (by omega), Option.bind_some]
    unfold parseAssign
    rw [parseAccess_toks hfol]
    simp only [Option.bind_some]
    rw [h2 f (by omega)]
    rfl

/-! ### The hypotheses are met -/

/-- The integers, every access being its number of variables plus one. -/
def intAlg : Alg Int where
  lit n := n
  other _ := 0
  acc _ vs := vs.length + 1
  neg a := -a
  bin op a b := match op with
    | .add => a + b
    | .sub => a - b
    | .mul => a * b
    | .div => a / b

private def a : X := .acc ['a'] []
private def b : X := .acc ['b'] [['i']]
private def c : X := .acc ['c'] [['i'], ['j']]

private theorem name1 (c : Char) (h : isAlpha c = true) : nameOK [c] :=
  ⟨⟨c, [], rfl, h, by simp⟩, by simp, by simp⟩

/-- `a * -(b(i) + 3) - c(i,j) / a + (b(i) - -2)`, with a right operand that is regrouped. -/
example : WF (.bin .add (.bin .sub (.bin .mul a (.neg (.bin .add b (.lit 3)))) (.bin .div c a)) (.bin .sub b (.lit (-2)))) ∧
    pr (.bin .add (.bin .sub (.bin .mul a (.neg (.bin .add b (.lit 3)))) (.bin .div c a)) (.bin .sub b (.lit (-2)))) 20 =
      "a * -(b(i) + 3) - c(i,j) / a + b(i) - -2".toList := by
  refine ⟨?_, ?_⟩
  · have ha : WF a := ⟨name1 _ (by decide), by simp⟩
    have hb : WF b := ⟨name1 _ (by decide), fun v hv => by simp at hv; subst hv; exact name1 _ (by decide)⟩
    have hc : WF c := ⟨name1 _ (by decide), fun v hv => by
      simp at hv; rcases hv with rfl | rfl <;> exact name1 _ (by decide)⟩
    have h3 : WF (.lit 3) := by show Int.natAbs _ ≤ _; decide
    have h2 : WF (.lit (-2)) := by show Int.natAbs _ ≤ _; decide
    exact ⟨⟨⟨ha, ⟨hb, h3, by simp, by simp⟩, by simp, by simp⟩, ⟨hc, ha, by simp, fun _ => rfl⟩, fun _ => rfl, by simp⟩, ⟨hb, h2, fun _ => rfl, by simp⟩, by simp, by simp⟩
  · decide +kernel

/-- The rational numbers, every access being its number of variables plus one. -/
def ratAlg : Alg Rat where
  lit n := n
  other _ := 0
  acc _ vs := vs.length + 1
  neg a := -a
  bin op a b := match op with
    | .add => a + b
    | .sub => a - b
    | .mul => a * b
    | .div => a / b

/-- The rational numbers obey the laws. -/
example : Laws ratAlg := by
  constructor
  · intro n; exact (Rat.intCast_neg n).symm
  · intro a b c; exact (Rat.add_assoc a b c).symm
  · intro a b c; show a + (b - c) = a + b - c; rw [Rat.sub_eq_add_neg, Rat.sub_eq_add_neg, Rat.add_assoc]
  · intro a b c; exact (Rat.mul_assoc a b c).symm
  · intro a b c; show a * (b / c) = a * b / c; rw [Rat.div_def, Rat.div_def, Rat.mul_assoc]

/-! ### Where it fails -/

/-- `a - (b - c)` prints as `a - b - c`, which is read as `(a - b) - c`: another value. -/
theorem printed_difference_fails :
    pr (.bin .sub a (.bin .sub b c)) 20 = "a - b(i) - c(i,j)".toList ∧
    readExpr 30 (pr (.bin .sub a (.bin .sub b c)) 20) = some (.bin .sub (.bin .sub a b) c) ∧
    eval intAlg (.bin .sub (.bin .sub a b) c) ≠ eval intAlg (.bin .sub a (.bin .sub b c)) := by
  refine ⟨by decide, by decide +kernel, by decide⟩

/-- `a - (b + c)` prints as `a - b + c`. -/
theorem printed_difference_of_sum_fails :
    readExpr 30 (pr (.bin .sub a (.bin .add b c)) 20) = some (.bin .add (.bin .sub a b) c) ∧
    eval intAlg (.bin .add (.bin .sub a b) c) ≠ eval intAlg (.bin .sub a (.bin .add b c)) := by
  refine ⟨by decide +kernel, by decide⟩

/-- `c / (a * b)` prints as `c / a * b`: here `3 / (1 * 2)` is 1 and `3 / 1 * 2` is 6. -/
theorem printed_quotient_fails :
    readExpr 30 (pr (.bin .div c (.bin .mul a b)) 20) = some (.bin .mul (.bin .div c a) b) ∧
    eval intAlg (.bin .mul (.bin .div c a) b) ≠ eval intAlg (.bin .div c (.bin .mul a b)) := by
  refine ⟨by decide +kernel, by decide⟩

/-- With integer division `b * (c / b)` is not what is read, `(b * c) / b`: here 2 and 3. The law `mul_div` is needed. -/
theorem printed_integer_division_fails :
    readExpr 30 (pr (.bin .mul b (.bin .div c b)) 20) = some (.bin .div (.bin .mul b c) b) ∧
    eval intAlg (.bin .div (.bin .mul b c) b) ≠ eval intAlg (.bin .mul b (.bin .div c b)) := by
  refine ⟨by decide +kernel, by decide⟩

/-- A stream prints the double 0.00001 as `1e-05`; the parser reads that as the integer 1 and ignores the rest. -/
theorem printed_exponent_fails : readAssign 10 "a = 1e-05".toList = some ⟨['a'], [], false, .lit 1⟩ := by decide +kernel

/-- Text after an assignment is ignored: `a = b c` is read as `a = b`, and an unbalanced parenthesis is accepted. -/
theorem trailing_text_fails :
    readAssign 10 "a = b c".toList = readAssign 10 "a = b".toList ∧
    readAssign 10 "a = b)".toList = readAssign 10 "a = b".toList ∧
    readAssign 10 "a = b $".toList = readAssign 10 "a = b".toList ∧
    readAssign 10 "a = b".toList = some ⟨['a'], [], false, .acc ['b'] []⟩ := by decide +kernel

/-- A tensor named `a_t` prints as `a_t(i)`; the parser reads the access `a(t)` and ignores `(i)`. -/
theorem printed_underscore_fails :
    pr (.acc ['a', '_', 't'] [['i']]) 20 = "a_t(i)".toList ∧
    readExpr 10 (pr (.acc ['a', '_', 't'] [['i']]) 20) = some (.acc ['a'] [['t']]) := by
  refine ⟨by decide, by decide +kernel⟩

/-! ### C29 -/

/-- Lexing ends after finitely many tokens, the last and only the last of which is the end of the text, and the texts
of the tokens are the input without its white space, for every text in which the word `complex` does not occur.
Missing: texts with that word, where it is false (`lexer_complex_fails`, `lexer_complex_text_fails`). -/
theorem lexer_consumes_partial : ∀ (s : List Char), ¬ "complex".toList <:+: s → ¬ "Complex".toList <:+: s →
    ∃ ts, (∀ f, s.length < f → lexAll f s = some (ts ++ [.eot])) ∧ .eot ∉ ts ∧
      ts.flatMap Token.text = s.filter (fun c => !isSpace c) := by
  intro s
  induction hl : s.length using Nat.strongRecOn generalizing s with
  | _ l ih =>
    intro h1 h2
    obtain ⟨t, rest, sp, hg, hs, hsp, htext, hne, hend⟩ := getToken_spec s h1 h2
    have hfsp : sp.filter (fun c => !isSpace c) = [] := by
      rw [List.filter_eq_nil_iff]; intro c hc; simp [hsp c hc]
    have hft : t.text.filter (fun c => !isSpace c) = t.text := by
      rw [List.filter_eq_self]; intro c hc; simp [htext c hc]
    by_cases ht : t = .eot
    · subst ht
      have hr := hend rfl
      refine ⟨[], fun f hf => ?_, by simp, ?_⟩
      · obtain ⟨g, rfl⟩ : ∃ g, f = g + 1 := ⟨f - 1, by omega⟩
        simp only [lexAll, hg, List.nil_append]
      · rw [hs, hr]
        simp only [Token.text, List.append_nil, List.flatMap_nil]
        exact hfsp.symm
    · have htne : t.text ≠ [] := hne.resolve_left ht
      have hlen : rest.length < l := by
        have hpos : 0 < t.text.length := List.length_pos_iff.mpr htne
        have : s.length = sp.length + t.text.length + rest.length := by
          have := congrArg List.length hs
          simpa [List.length_append, Nat.add_assoc] using this
        omega
      have hsuf : rest <:+ s := ⟨sp ++ t.text, hs.symm⟩
      obtain ⟨ts, hf, hnot, htx⟩ := ih rest.length hlen rest rfl (fun h => h1 (h.trans hsuf.isInfix)) (fun h => h2 (h.trans hsuf.isInfix))
      refine ⟨t :: ts, fun f hf' => ?_, ?_, ?_⟩
      · obtain ⟨g, rfl⟩ : ∃ g, f = g + 1 := ⟨f - 1, by omega⟩
        have hgg := hf g (by omega)
        cases t with
        | eot => exact absurd rfl ht
        | _ => simp only [lexAll, hg, hgg, Option.map_some, List.cons_append]
      · simp only [List.mem_cons, not_or]
        exact ⟨fun e => ht e.symm, hnot⟩
      · rw [List.flatMap_cons, htx, hs, List.filter_append, List.filter_append, hfsp, hft, List.nil_append]

/-- A text with names, numbers of every kind, an illegal character and white space. -/
example : lexAll 40 " y(i) = 3.5*A_{i,j} + 7u?".toList = some [.ident ['y'], .sym '(', .ident ['i'], .sym ')', .sym '=', .float ['3', '.', '5'],
    .sym '*', .ident ['A'], .sym '_', .sym '{', .ident ['i'], .sym ',', .ident ['j'], .sym '}', .sym '+', .uint ['7'], .error '?', .eot] := by
  decide +kernel

/-- The word `complex` without a closing parenthesis after it: lexing does not end, whatever the bound. -/
theorem lexer_complex_fails : ∀ f, lexAll f "complex(1,2".toList = none := by
  intro f
  cases f with
  | zero => rfl
  | succ f =>
    have : getToken "complex(1,2".toList = none := by decide +kernel
    simp only [lexAll, this]

/-- A variable named `complex` swallows the text up to the next parenthesis: `complex = b(i)` is one literal. -/
theorem lexer_complex_text_fails :
    lexAll 10 "complex = b(i)".toList = some [.complex " =b(i)".toList, .eot] ∧
    ([.complex " =b(i)".toList, .eot].flatMap Token.text) ≠ "complex = b(i)".toList.filter (fun c => !isSpace c) := by
  decide +kernel

end Verif.IndexText
