import Verif.Report.Model
/-! C100: reports of mistakes. -/
namespace Verif.Report

/-! ### Helper facts -/

theorem drop_says : ∀ {l : List (Eval Text)} {m : Text}, Says l m → dropOperands l = .goesOn
  | [], _, _ => rfl
  | _ :: es, _, ⟨_, _, rfl, h, _⟩ => by
    rw [dropOperands]
    exact drop_says h

theorem append_says : ∀ {l : List (Eval Text)} {m : Text} (p : Text), Says l m → appendOperands p l = .exception (p ++ m)
  | [], m, p, h => by
    have : m = [] := h
    simp [appendOperands, this]
  | _ :: _, _, p, ⟨a, b, rfl, h, rfl⟩ => by
    rw [appendOperands, append_says (p ++ a) h, List.append_assoc]

/-- The beginning of a report says what is to be blamed and where. -/
theorem header_report (c : Check) (hw : c.warning = false) (m : Text) (h : Says c.message m) :
    IsReportOf c (header c ++ m) := by
  refine ⟨m, header c, h, rfl, ?_, ?_, ?_, ?_⟩
  · unfold header
    cases c.kind <;> simp only [hw, List.append_assoc] <;> exact List.prefix_append _ _
  · unfold header
    cases c.kind <;> simp only [hw]
    · exact ⟨"Error at ".toList, " in ".toList ++ c.func ++ ":\n ".toList, by simp⟩
    · exact ⟨"Compiler bug at ".toList, " in ".toList ++ c.func ++ "\nPlease report it to developers".toList ++
        condition c.condText ++ "\n ".toList, by simp⟩
    · exact ⟨"Temporary assumption broken at ".toList, "\n Not supported yet, but planned for the future".toList ++
        condition c.condText ++ "\n ".toList, by simp⟩
  · intro hk
    unfold header
    cases hc : c.kind with
    | user => exact ⟨"Error at ".toList ++ c.file ++ ':' :: c.line ++ " in ".toList, ":\n ".toList, by simp [hw]⟩
    | internal => exact ⟨"Compiler bug at ".toList ++ c.file ++ ':' :: c.line ++ " in ".toList, "\nPlease report it to developers".toList ++
        condition c.condText ++ "\n ".toList, by simp [hw]⟩
    | temporary => exact absurd hc hk
  · intro hk t ht
    unfold header
    cases hc : c.kind with
    | user => exact absurd hc hk
    | internal => exact ⟨"Compiler bug at ".toList ++ c.file ++ ':' :: c.line ++ " in ".toList ++ c.func ++
        "\nPlease report it to developers\n Condition failed: ".toList, "\n ".toList, by simp [hw, ht, condition]⟩
    | temporary => exact ⟨"Temporary assumption broken at ".toList ++ c.file ++ ':' :: c.line ++
        "\n Not supported yet, but planned for the future\n Condition failed: ".toList, "\n ".toList, by simp [ht, condition]⟩

/-- A check whose expressions have values and that is no warning. -/
def Plain (c : Check) : Prop := c.warning = false ∧ (∃ b, c.cond = .value b) ∧ ∃ m, Says c.message m

/-- A check that this build of the library makes. -/
def Made (asserts : Bool) (c : Check) : Prop := asserts = true ∨ c.kind ≠ .internal

theorem check_holds {asserts : Bool} {c : Check} (h : Plain c) (hc : Made asserts c → c.cond = .value true) :
    check asserts c = .goesOn := by
  obtain ⟨_, _, m, hm⟩ := h
  unfold check
  split
  · exact drop_says hm
  · rename_i hn
    have : Made asserts c := by
      unfold Made
      cases asserts
      · exact .inr fun e => hn ⟨e, rfl⟩
      · exact .inl rfl
    rw [hc this]
    exact drop_says hm

theorem check_broken {asserts : Bool} {c : Check} (h : Plain c) (hm : Made asserts c) (hc : c.cond = .value false) :
    ∃ what, check asserts c = .exception what ∧ IsReportOf c what := by
  obtain ⟨hw, _, m, hs⟩ := h
  refine ⟨header c ++ m, ?_, header_report c hw m hs⟩
  unfold check
  rw [if_neg, hc]
  · exact append_says _ hs
  · rintro ⟨h1, h2⟩
    rcases hm with h | h
    · rw [h] at h2; cases h2
    · exact h h1

/-! ### Theorems -/

/-- For all lists of checks whose expressions have values: a call goes on behind its checks exactly if every condition
that this build looks at holds. -/
theorem goes_on_partial (asserts : Bool) (cs : List Check) (h : ∀ c ∈ cs, Plain c) :
    call asserts cs = .goesOn ↔ ∀ c ∈ cs, Made asserts c → c.cond = .value true := by
  induction cs with
  | nil => simp [call]
  | cons c cs ih =>
    have hc := h c (by simp)
    have ih := ih fun d hd => h d (by simp [hd])
    by_cases hh : Made asserts c → c.cond = .value true
    · simp only [call, check_holds hc hh, ih, List.mem_cons, forall_eq_or_imp]
      exact ⟨fun a => ⟨hh, a⟩, fun a => a.2⟩
    · have hm : Made asserts c := Classical.byContradiction fun n => hh fun m => absurd m n
      have hf : c.cond = .value false := by
        obtain ⟨b, hb⟩ := hc.2.1
        cases b
        · exact hb
        · exact absurd (fun _ => hb) hh
      obtain ⟨w, e, _⟩ := check_broken hc hm hf
      constructor
      · intro he
        simp [call, e] at he
      · intro ha
        exact absurd (ha c (by simp)) hh

/-- … and otherwise it reports the first that does not hold, with its message, its place and who is to blame: nothing
that comes after it matters. -/
theorem first_reported_partial (asserts : Bool) (before after : List Check) (c : Check)
    (hb : ∀ d ∈ before, Plain d) (hbc : ∀ d ∈ before, Made asserts d → d.cond = .value true) (hc : Plain c)
    (hm : Made asserts c) (hf : c.cond = .value false) :
    ∃ what, call asserts (before ++ c :: after) = .exception what ∧ IsReportOf c what := by
  induction before with
  | nil =>
    obtain ⟨w, e, hr⟩ := check_broken hc hm hf
    exact ⟨w, by simp [call, e], hr⟩
  | cons d ds ih =>
    obtain ⟨w, e, hr⟩ := ih (fun x hx => hb x (by simp [hx])) (fun x hx => hbc x (by simp [hx]))
    exact ⟨w, by simp only [List.cons_append, call, check_holds (hb d (by simp)) (hbc d (by simp)), e], hr⟩

def wrongOrder : Check :=
  ⟨.user, false, "tensor.h".toList, "941".toList, "insert".toList, .value false, some "size == order".toList,
    [.value "Wrong number of ".toList, .value "indices".toList]⟩

example : Plain wrongOrder ∧ Made false wrongOrder := ⟨⟨rfl, ⟨false, rfl⟩, "Wrong number of indices".toList,
  _, _, rfl, ⟨_, _, rfl, rfl, rfl⟩, by decide +kernel⟩, .inr (by decide)⟩
example : call false [wrongOrder] =
    .exception "Error at tensor.h:941 in insert:\n Wrong number of indices".toList := by decide +kernel

/-- Without assertions, calls do what they would do without their internal checks, if the messages of these have values:
for all lists of checks, whatever else is evaluated. -/
theorem release_drops_internal (cs : List Check) (h : ∀ c ∈ cs, c.kind = .internal → ∃ m, Says c.message m) :
    call false cs = call false (cs.filter fun c => c.kind ≠ .internal) := by
  induction cs with
  | nil => rfl
  | cons c cs ih =>
    have ih := ih fun d hd => h d (by simp [hd])
    by_cases hk : c.kind = .internal
    · obtain ⟨m, hm⟩ := h c (by simp) hk
      rw [List.filter_cons_of_neg (by simp [hk]), ← ih, call, check, if_pos ⟨hk, rfl⟩, drop_says hm]
    · rw [List.filter_cons_of_pos (by simp [hk]), call, call, ih]

/-- So a broken internal check is not reported by such a build, which is what README.md tells users to make: the call goes on
with what it took for impossible. For all internal checks, those without a condition (`taco_unreachable`) included. -/
theorem internal_goes_on_fails (c : Check) (hk : c.kind = .internal) (hp : Plain c) (hf : c.cond = .value false) :
    call false [c] = .goesOn ∧ ∃ what, call true [c] = .exception what := by
  refine ⟨(goes_on_partial false [c] (by simpa using hp)).mpr ?_, ?_⟩
  · intro d hd hm
    rw [List.mem_singleton.mp hd] at hm
    rcases hm with h | h
    · cases h
    · exact absurd hk h
  · obtain ⟨w, h, _⟩ := first_reported_partial true [] [] c (by simp) (by simp) hp (.inl rfl) hf
    exact ⟨w, h⟩

example : Plain { wrongOrder with kind := .internal } := ⟨rfl, ⟨false, rfl⟩, "Wrong number of indices".toList,
  _, _, rfl, ⟨_, _, rfl, rfl, rfl⟩, by decide +kernel⟩
example : call false [{ wrongOrder with kind := .internal }] = .goesOn := by decide +kernel

/-- A warning ends the call like an error: for all warnings whose message has a value. -/
theorem warning_fails (asserts : Bool) (c : Check) (rest : List Check) (hk : c.kind = .user) (hw : c.warning = true)
    (hf : c.cond = .value false) (m : Text) (hm : Says c.message m) :
    ∃ t, call asserts (c :: rest) = .exception ("Warning".toList ++ t) := by
  have e : check asserts c = .exception (header c ++ m) := by
    unfold check
    rw [if_neg (by simp [hk]), hf]
    exact append_says _ hm
  refine ⟨" at ".toList ++ c.file ++ ':' :: c.line ++ " in ".toList ++ c.func ++ ":\n ".toList ++ m, ?_⟩
  simp [call, e, header, hk, hw]

example : call true [{ wrongOrder with warning := true }] =
    .exception "Warning at tensor.h:941 in insert:\n Wrong number of indices".toList := by decide +kernel

/-- If the message of a broken check cannot be computed, the process is terminated: nothing can be caught. For all checks
and all operands in front of the one that throws. -/
theorem message_throws_fails (asserts : Bool) (c : Check) (rest : List Check) (hm : Made asserts c)
    (hf : c.cond = .value false) (es es' : List (Eval Text)) (w m : Text) (he : Says es m)
    (hc : c.message = es ++ .throws w :: es') : call asserts (c :: rest) = .terminated := by
  have key : ∀ (l : List (Eval Text)) (m p : Text), Says l m → appendOperands p (l ++ .throws w :: es') = .terminated := by
    intro l
    induction l with
    | nil => intro m p _; rfl
    | cons x xs ih =>
      rintro m p ⟨a, b, rfl, h, _⟩
      exact ih b (p ++ a) h
  have e : check asserts c = .terminated := by
    unfold check
    rw [if_neg, hf, hc]
    · exact key es m _ he
    · rintro ⟨h1, h2⟩
      rcases hm with h | h
      · rw [h] at h2; cases h2
      · exact h h1
  simp [call, e]

example : call false [{ wrongOrder with message := [.value "tensor ".toList, .throws "no name".toList] }] = .terminated := by
  decide +kernel

/-- Messages are computed although the condition holds: a call without mistakes fails with its message, in all builds
and for all kinds of checks. -/
theorem message_evaluated_fails (asserts : Bool) (c : Check) (rest : List Check) (hh : c.cond = .value true)
    (w : Text) (es : List (Eval Text)) (hc : c.message = .throws w :: es) :
    call asserts (c :: rest) = .exception w := by
  have e : check asserts c = .exception w := by
    unfold check
    split
    · rw [hc]; rfl
    · rw [hh, hc]; rfl
  simp [call, e]

example : call false [{ wrongOrder with cond := .value true, message := [.throws "no name".toList] }] =
    .exception "no name".toList := by decide +kernel

end Verif.Report
