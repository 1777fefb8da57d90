import Verif.Schedule.Lemmas
/-!
# C50 Schedule strings parse into their items
-/
namespace Verif.Schedule
open Verif.IndexText

/-- A schedule is parsed into its directives, each a name and its arguments, whatever white space is between its
characters. Arguments may contain matched parentheses and braces with commas inside them; names and arguments are not
empty. Missing: floating-point numbers, unsigned numbers `8u`, characters without a token and the word `complex`; the
last three are changed (`schedule_unsigned_fails`, `schedule_illegal_fails`, `schedule_complex_fails`). -/
theorem schedule_parsed_partial (items : List (List (List Char))) (h : ∀ i ∈ items, ItemOK i) (text : List Char) (ht : TextOK text)
    (hs : text.filter (fun c => !isSpace c) = scheduleText items) :
    ∀ f, text.length < f → scheduleParser f text = some items := by
  intro f hf
  obtain ⟨ts, hl, htx, hfa⟩ := lex_ok ht
  unfold scheduleParser
  rw [hl f hf, Option.bind_some, List.dropLast_concat, steps_text hfa, htx, hs, run_schedule h []]
  rfl

/-- A list of variables in braces is parsed into its variables, and a single variable without braces into itself. -/
theorem var_list_parsed_partial (vars : List (List Char)) (hne : vars ≠ []) (h : ∀ v ∈ vars, v ≠ [] ∧ Plain v) (text : List Char) (ht : TextOK text)
    (hs : text.filter (fun c => !isSpace c) = '{' :: commas vars ++ ['}'] ∨ ∃ v, vars = [v] ∧ text.filter (fun c => !isSpace c) = v) :
    ∀ f, text.length < f → varListParser f text = some vars := by
  intro f hf
  obtain ⟨ts, hl, htx, hfa⟩ := lex_ok ht
  unfold varListParser
  rw [hl f hf, Option.bind_some, List.dropLast_concat, stepsVar_text hfa, htx]
  rcases hs with hs | ⟨v, rfl, hs⟩
  · rw [hs]
    have e2 : stepVC ⟨0, [], []⟩ '{' = some ⟨1, [], []⟩ := by simp [stepVC, stepVar]
    rw [List.cons_append, List.foldlM_cons, e2]
    show ((commas vars ++ ['}']).foldlM stepVC ⟨1, [], []⟩).bind _ = _
    rw [run_vars hne (fun v hv => (h v hv).2)]
    simp
  · rw [hs, stepVC_plain (h v (by simp)).2]
    have : 0 < v.length := List.length_pos_iff.mpr (h v (by simp)).1
    simp [this]

/-- Different parsed schedules are serialised to different texts, when no element contains a quote. -/
theorem serialize_injective (p q : List (List (List Char))) (hp : ∀ i ∈ p, ∀ e ∈ i, '\'' ∉ e) (hq : ∀ i ∈ q, ∀ e ∈ i, '\'' ∉ e)
    (h : serialize p = serialize q) : p = q := by
  unfold serialize at h
  simp only [List.cons_append, List.cons.injEq, true_and] at h
  exact serItems_inj hp hq h

/-! ### The hypotheses are met -/

/-- `precompute(B(i,j), {j,k}, jw), reorder(j,i), noargs` with white space. -/
example :
    let items := [["precompute".toList, "B(i,j)".toList, "{j,k}".toList, "jw".toList], ["reorder".toList, "j".toList, "i".toList], ["noargs".toList]]
    let text := "precompute(B(i, j), {j,k}, jw),\n reorder(j,i), noargs".toList
    (∀ i ∈ items, ItemOK i) ∧ text.filter (fun c => !isSpace c) = scheduleText items ∧ scheduleParser 100 text = some items := by
  refine ⟨?_, by decide +kernel, by decide +kernel⟩
  simp only [List.mem_cons, List.not_mem_nil, or_false]
  rintro i (rfl | rfl | rfl)
  · exact ⟨by decide +kernel, by unfold Plain; decide +kernel, by simp [Balanced]⟩
  · exact ⟨by decide +kernel, by unfold Plain; decide +kernel, by simp [Balanced]⟩
  · exact ⟨by decide +kernel, by unfold Plain; decide +kernel, by simp⟩

/-- That a text is read without loss can be decided. -/
theorem textOK_of {s : List Char} (h1 : s.all (fun c => isSpace c || isAlnum c || decide (c ∈ symbols)) = true)
    (h2 : ∀ d, isDigit d = true → ¬ [d, 'u'] <:+: s) (h3 : ¬ "complex".toList <:+: s) (h4 : ¬ "Complex".toList <:+: s) : TextOK s := by
  refine ⟨fun c hc => ?_, h2, h3, h4⟩
  have := List.all_eq_true.mp h1 c hc
  simp only [Bool.or_eq_true, decide_eq_true_eq] at this
  rcases this with (h | h) | h
  · exact .inl h
  · exact .inr (.inl h)
  · exact .inr (.inr h)

example : TextOK "split(i, i0, i1, 32)".toList := by
  refine textOK_of (by decide +kernel) (fun d hd h => ?_) (by decide +kernel) (by decide +kernel)
  have : 'u' ∈ "split(i, i0, i1, 32)".toList := h.subset (by simp)
  revert this; decide +kernel

example : varListParser 20 "{ i , jw2 }".toList = some [['i'], ['j', 'w', '2']] := by decide +kernel

/-! ### Where it fails -/

/-- The suffix of an unsigned number is lost. -/
theorem schedule_unsigned_fails : scheduleParser 20 "f(8u)".toList = some [[['f'], ['8']]] := by decide +kernel

/-- A character without a token is replaced by the word `error`. -/
theorem schedule_illegal_fails : scheduleParser 20 "f(a<b)".toList = some [["f".toList, "aerrorb".toList]] := by decide +kernel

/-- The name `complex` and the text after it become a literal. -/
theorem schedule_complex_fails : scheduleParser 20 "f(complex,i)".toList = none ∧ scheduleParser 20 "f(complex,g(i))".toList = some [["f".toList, ",g(i)".toList]] := by
  decide +kernel

/-- A brace that is not closed is not reported: the directives after it become part of the argument. -/
theorem schedule_unclosed_brace_fails :
    scheduleParser 40 "f({i),g(j)".toList = some [["f".toList, "{i,g".toList, "j".toList]] := by decide +kernel

/-- A directive without arguments is parsed differently at the end and before another directive. -/
theorem schedule_empty_arguments_fails :
    scheduleParser 40 "f()".toList = some [["f".toList]] ∧ scheduleParser 40 "f(),g(i)".toList = some [["f".toList, []], ["g".toList, "i".toList]] := by
  decide +kernel

theorem braces_filter : ∀ (text : List Char) (c : Nat), Braces c (text.filter (fun c => !isSpace c)) ↔ Braces c text
  | [], c => Iff.rfl
  | x :: xs, c => by
    by_cases hx : isSpace x = true
    · have h1 : x ≠ '{' := by rintro rfl; revert hx; decide
      have h2 : x ≠ '}' := by rintro rfl; revert hx; decide
      rw [List.filter_cons, if_neg (by simp [hx]), braces_filter xs c]
      simp [Braces, h1, h2]
    · rw [List.filter_cons, if_pos (by simp [hx])]
      simp only [Braces]
      split
      · exact braces_filter xs (c + 1)
      · split
        · rw [braces_filter xs (c - 1)]
        · exact braces_filter xs c

/-- The number of open braces after a character; `none`: the parser stops. -/
theorem stepVC_curly (s : VSt) (x : Char) :
    (x = '{' → ∃ s', stepVC s x = some s' ∧ s'.curly = s.curly + 1) ∧
    (x = '}' → (s.curly = 0 → stepVC s x = none) ∧ (0 < s.curly → ∃ s', stepVC s x = some s' ∧ s'.curly = s.curly - 1)) ∧
    (x ≠ '{' → x ≠ '}' → ∃ s', stepVC s x = some s' ∧ s'.curly = s.curly) := by
  refine ⟨?_, ?_, ?_⟩
  · rintro rfl; exact ⟨_, rfl, rfl⟩
  · rintro rfl
    refine ⟨fun h => by simp [stepVC, stepVar, h], fun h => ?_⟩
    by_cases h1 : s.curly = 1
    · exact ⟨_, by simp [stepVC, stepVar, h1]; rfl, by simp [h1]⟩
    · exact ⟨_, by simp [stepVC, stepVar, h1, Nat.ne_of_gt h]; rfl, rfl⟩
  · intro h1 h2
    by_cases h3 : x = ','
    · subst h3
      by_cases h : s.curly > 0
      · exact ⟨{ s with parsed := s.parsed ++ [s.elem], elem := [] }, by simp [stepVC, stepVar, h], rfl⟩
      · exact ⟨{ s with elem := s.elem ++ tokenString (.sym ',') }, by simp [stepVC, stepVar, h], rfl⟩
    · by_cases h4 : x = '('
      · subst h4; exact ⟨s, rfl, rfl⟩
      · by_cases h5 : x = ')'
        · subst h5; exact ⟨s, rfl, rfl⟩
        · exact ⟨_, stepVar_plain (by simp [h1, h2, h3, h4, h5]), rfl⟩

theorem run_braces : ∀ (cs : List Char) (s : VSt), (∃ s', cs.foldlM stepVC s = some s' ∧ s'.curly = 0) ↔ Braces s.curly cs
  | [], s => by simp [Braces]
  | x :: xs, s => by
    obtain ⟨h1, h2, h3⟩ := stepVC_curly s x
    rw [List.foldlM_cons]
    simp only [Braces]
    split
    · rename_i hx
      obtain ⟨s', e, hc⟩ := h1 hx
      rw [e, ← hc, ← run_braces xs s']; rfl
    · split
      · rename_i hx
        by_cases h0 : s.curly = 0
        · rw [(h2 hx).1 h0]; simp [h0]
        · obtain ⟨s', e, hc⟩ := (h2 hx).2 (Nat.pos_of_ne_zero h0)
          rw [e, ← hc, ← run_braces xs s']
          exact ⟨fun h => ⟨Nat.pos_of_ne_zero h0, h⟩, fun h => h.2⟩
      · rename_i ha hb
        obtain ⟨s', e, hc⟩ := h3 ha hb
        rw [e, ← hc, ← run_braces xs s']; rfl

/-- A list of variables is accepted exactly when its braces match, however deep they are nested. -/
theorem var_list_accepted_partial (text : List Char) (ht : TextOK text) :
    ∀ f, text.length < f → ((∃ vars, varListParser f text = some vars) ↔ Braces 0 text) := by
  intro f hf
  obtain ⟨ts, hl, htx, hfa⟩ := lex_ok ht
  unfold varListParser
  rw [hl f hf, Option.bind_some, List.dropLast_concat, stepsVar_text hfa, htx, ← braces_filter, ← run_braces _ ⟨0, [], []⟩]
  cases (text.filter (fun c => !isSpace c)).foldlM stepVC ⟨0, [], []⟩ with
  | none => simp
  | some s =>
    by_cases h : s.curly = 0
    · simp [h]
    · simp [h]

example : varListParser 40 "{{i,{j}},k}".toList = some [['i'], ['j'], ['k']] ∧ varListParser 40 "{{i,{j}},k".toList = none ∧ varListParser 40 "{i}}".toList = none := by
  decide +kernel

end Verif.Schedule
