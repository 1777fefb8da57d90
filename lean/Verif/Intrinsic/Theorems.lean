import Verif.Intrinsic.Lemmas
/-
Property C46: arguments declared as zero-preserving are zero-preserving.
-/
namespace Verif.Intrinsic

/-- C46: if the arguments of a declared set are zero, the intrinsic is zero, whatever the
other arguments are.  Missing from the full property: a remainder by zero and a power
with an exponent that is not positive (`zero_preserving_mod_fails`,
`zero_preserving_pow_fails`), and comparisons of arguments of different kinds
(`zero_preserving_mixed_fails`). -/
theorem zero_preserving_partial (f : Fn) (args : List Arg) (sets : List (List Nat))
    (h : zeroPreservingArgs f args = some sets) (s : List Nat) (hs : s ∈ sets)
    (hk : SameKind args) (vals : List ℝ) (hfit : Fits args vals)
    (hz : ∀ i ∈ s, vals[i]? = some 0) (hex : ¬ Excluded f vals) :
    value f vals = some 0 := by
  match args with
  | [] => simp [zeroPreservingArgs] at h
  | [a] =>
    obtain ⟨v, rfl, _⟩ := fits1 hfit
    obtain ⟨h0, rfl⟩ := value1_zero h hs
    have hv : v = 0 := by simpa using hz 0 (by simp)
    rw [hv]
    exact h0
  | [a, b] =>
    obtain ⟨v, w, rfl, ha, hb⟩ := fits2 hfit
    exact value2_zero h hs (hk a (by simp) b (by simp)) ha hb hz hex
  | _ :: _ :: _ :: _ => simp [zeroPreservingArgs] at h

/-- The hypotheses are met by `gt(x, 3)` at `x = 0`, and the declaration is `{{0}}`. -/
example : ∃ args sets s vals, zeroPreservingArgs .gt args = some sets ∧ s ∈ sets ∧
    SameKind args ∧ Fits args vals ∧ (∀ i ∈ s, vals[i]? = some 0) ∧ ¬ Excluded .gt vals := by
  refine ⟨[⟨.float, none⟩, ⟨.float, some 3⟩], [[0]], [0], [0, 3], by decide, by simp, ?_, ?_,
    by simp, by simp [Excluded]⟩
  · intro a ha b hb; simp at ha hb; rcases ha with rfl | rfl <;> rcases hb with rfl | rfl <;> rfl
  · refine .cons ⟨by simp, by simp⟩ (.cons ⟨?_, by simp⟩ .nil)
    intro q hq
    simp at hq
    subst hq
    norm_num

/-- C46 fails for `mod`: its second argument is declared zero-preserving, but a
remainder by zero is not zero (it is an error). -/
theorem zero_preserving_mod_fails :
    ∃ args sets s vals, zeroPreservingArgs .mod args = some sets ∧ s ∈ sets ∧ SameKind args ∧
      Fits args vals ∧ (∀ i ∈ s, vals[i]? = some 0) ∧ value .mod vals ≠ some 0 := by
  refine ⟨[⟨.float, none⟩, ⟨.float, none⟩], [[0], [1]], [1], [7, 0], by decide, by simp, ?_, ?_,
    by simp, by simp [value, value2]⟩
  · intro a ha b hb; simp at ha hb; rw [ha, hb]
  · exact .cons ⟨by simp, by simp⟩ (.cons ⟨by simp, by simp⟩ .nil)

/-- C46 fails for `pow`: the base is declared zero-preserving, but zero to the power zero
is one. -/
theorem zero_preserving_pow_fails :
    ∃ args sets s vals, zeroPreservingArgs .pow args = some sets ∧ s ∈ sets ∧ SameKind args ∧
      Fits args vals ∧ (∀ i ∈ s, vals[i]? = some 0) ∧ value .pow vals = some 1 := by
  refine ⟨[⟨.float, none⟩, ⟨.float, none⟩], [[0]], [0], [0, 0], by decide, by simp, ?_, ?_,
    by simp, by simp [value, value2, cpow]⟩
  · intro a ha b hb; simp at ha hb; rw [ha, hb]
  · exact .cons ⟨by simp, by simp⟩ (.cons ⟨by simp, by simp⟩ .nil)

/-- C46 fails for `lt` of a signed and an unsigned argument: only the second argument's
type is looked at, and a negative number is less than an unsigned zero. -/
theorem zero_preserving_mixed_fails :
    ∃ args sets s vals, zeroPreservingArgs .lt args = some sets ∧ s ∈ sets ∧
      Fits args vals ∧ (∀ i ∈ s, vals[i]? = some 0) ∧ ¬ Excluded .lt vals ∧
      value .lt vals = some 1 := by
  refine ⟨[⟨.sint, none⟩, ⟨.uint, none⟩], [[1]], [1], [-1, 0], by decide, by simp, ?_,
    by simp, by simp [Excluded], ?_⟩
  · exact .cons ⟨by simp, by simp⟩ (.cons ⟨by simp, by simp⟩ .nil)
  · simp only [value, value2, Option.some.injEq]
    exact truth_true (by norm_num)

/-- C46, as the loops use it: at a point outside the iteration space built for an
intrinsic its value is zero. -/
theorem intrinsic_skipped_zero_partial (f : Fn) (args : List Arg) (sets : List (List Nat))
    (h : zeroPreservingArgs f args = some sets) (hk : SameKind args)
    (inRegion : Nat → Bool) (vals : List ℝ) (hfit : Fits args vals)
    (hfill : ∀ s ∈ sets, ∀ i ∈ s, inRegion i = false → vals[i]? = some 0)
    (hex : ¬ Excluded f vals) (hout : iterated sets inRegion = false) :
    value f vals = some 0 := by
  have : ∃ s ∈ sets, s.any inRegion = false := by
    unfold iterated at hout
    rw [List.all_eq_false] at hout
    obtain ⟨s, hs, hn⟩ := hout
    exact ⟨s, hs, by simpa using hn⟩
  obtain ⟨s, hs, hn⟩ := this
  refine zero_preserving_partial f args sets h s hs hk vals hfit ?_ hex
  intro i hi
  exact hfill s hs i hi (by rw [List.any_eq_false] at hn; simpa using hn i hi)

/-- C46, as the zero rewriter uses it (also C22): when the rewritten call vanishes and
the vanished arguments are zero, the call is zero. -/
theorem intrinsic_vanishes_zero_partial (f : Fn) (args : List (Arg × Bool))
    (h : zeroIntrinsic f args = some true) (hk : SameKind (args.map Prod.fst))
    (vals : List ℝ) (hfit : Fits (args.map Prod.fst) vals)
    (hz : ∀ (i : Nat) (a : Arg), args[i]? = some (a, true) → vals[i]? = some 0) (hex : ¬ Excluded f vals) :
    value f vals = some 0 := by
  unfold zeroIntrinsic at h
  obtain ⟨sets, hsets, hany⟩ := Option.map_eq_some_iff.mp h
  rw [List.any_eq_true] at hany
  obtain ⟨s, hs, hall⟩ := hany
  rw [List.all_eq_true] at hall
  refine zero_preserving_partial f _ sets hsets s hs ?_ vals ?_ ?_ hex
  · intro a ha b hb
    obtain ⟨x, hx, rfl⟩ := List.mem_map.mp ha
    obtain ⟨y, hy, rfl⟩ := List.mem_map.mp hb
    have key : ∀ (v : Bool) (a : Arg), (zeroArg v a).kind = a.kind := by
      intro v a; unfold zeroArg; split <;> rfl
    rw [key, key]
    exact hk _ (List.mem_map_of_mem hx) _ (List.mem_map_of_mem hy)
  · unfold Fits at hfit ⊢
    rw [List.forall₂_map_left_iff] at hfit ⊢
    rw [List.forall₂_iff_get] at hfit ⊢
    refine ⟨hfit.1, ?_⟩
    intro i h1 h2
    have hf := hfit.2 i h1 h2
    have hget : args[i]? = some (args.get ⟨i, h1⟩) := List.getElem?_eq_getElem h1
    have hvget : vals[i]? = some (vals.get ⟨i, h2⟩) := List.getElem?_eq_getElem h2
    have hz' := hz i (args.get ⟨i, h1⟩).1
    generalize args.get ⟨i, h1⟩ = p at *
    generalize vals.get ⟨i, h2⟩ = v at *
    rcases p with ⟨a, b⟩
    cases b with
    | false => simpa [zeroArg] using hf
    | true =>
      have hv : v = 0 := by
        have := hz' hget
        rw [hvget] at this
        simpa using this
      refine ⟨?_, ?_⟩
      · intro q hq
        simp [zeroArg] at hq
        subst hq
        simp [hv]
      · intro _; rw [hv]
  · intro i hi
    have := hall i hi
    cases hg : args[i]? with
    | none => rw [hg] at this; simp at this
    | some p =>
      rw [hg] at this
      rcases p with ⟨a, b⟩
      simp at this
      subst this
      exact hz i a hg

/-- `neq(x, y)` vanishes when both operands have, and `x > y` over unsigned numbers when
`x` has. -/
example : zeroIntrinsic .neq [(⟨.float, none⟩, true), (⟨.float, none⟩, true)] = some true ∧
    zeroIntrinsic .neq [(⟨.float, none⟩, true), (⟨.float, none⟩, false)] = some false ∧
    zeroIntrinsic .gt [(⟨.uint, none⟩, true), (⟨.uint, none⟩, false)] = some true := by
  decide

/-- C46: the shortcuts taken for literal arguments agree with the function wherever it
has a value.  Missing: a power of the literal zero with exponent zero
(`lower_pow_fails`). -/
theorem lower_sound_partial (f : Fn) (args : List Arg) (vals : List ℝ)
    (hfit : Fits args vals) (r : ℝ) (hr : value f vals = some r)
    (hpow : f = .pow → ¬ (vals[0]? = some 0 ∧ vals[1]? = some 0)) :
    loweredValue f vals (lower f args) = some r := by
  match args with
  | [] => exact hr
  | [a] =>
    obtain ⟨v, rfl, ha, _⟩ := fits1 hfit
    have h0 : a.lit = some 0 → v = 0 := fun h => by simpa using ha 0 h
    have h1 : a.lit = some 1 → v = 1 := fun h => by simpa using ha 1 h
    have hm : a.lit = some (-1) → v = -1 := fun h => by simpa using ha (-1) h
    simp only [lower]
    cases f <;> simp only [lower1]
    case acos => exact hr
    case acosh => exact hr
    case sqrt =>
      split
      · rename_i h
        rcases h with h | h
        · have := h0 h; subst this; simp [value, value1] at hr; simp [loweredValue, hr]
        · have := h1 h; subst this; simp [value, value1] at hr; simp [loweredValue, hr]
      · exact hr
    case cbrt =>
      split
      · rename_i h
        rcases h with h | h | h
        · have := h0 h; subst this
          simp [value, value1, ccbrt_zero] at hr; simp [loweredValue, hr]
        · have := h1 h; subst this
          simp [value, value1, ccbrt_one] at hr; simp [loweredValue, hr]
        · have := hm h; subst this
          simp only [value, value1, ccbrt_neg_one] at hr
          simpa [loweredValue] using hr
      · exact hr
    all_goals
      split
      · rename_i h
        first
          | (have := h0 h; subst this; simp [value, value1, truth] at hr;
             simp [loweredValue, hr]; done)
          | (have := h1 h; subst this; simp [value, value1] at hr;
             simp [loweredValue, hr]; done)
          | (simp [value, value1] at hr; done)
      · exact hr
  | [a, b] =>
    obtain ⟨v, w, rfl, ⟨ha, _⟩, hb, _⟩ := fits2 hfit
    have ha0 : a.lit = some 0 → v = 0 := fun h => by simpa using ha 0 h
    have hb0 : b.lit = some 0 → w = 0 := fun h => by simpa using hb 0 h
    have hb1 : b.lit = some 1 → w = 1 := fun h => by simpa using hb 1 h
    simp only [lower]
    cases f <;> simp only [lower2] <;> try exact hr
    case mod =>
      split
      · rename_i h
        have := ha0 h; subst this
        simp only [value, value2] at hr
        split at hr
        · cases hr
        · simp [trunc_zero] at hr; simp [loweredValue, hr]
      · exact hr
    case pow =>
      split
      · rename_i h
        rcases h with h | h
        · have := ha0 h; subst this
          simp only [value, value2, cpow] at hr
          split at hr
          · rename_i hw; exact absurd ⟨by simp, by simp [hw]⟩ (hpow rfl)
          · simp only [if_true] at hr
            split at hr
            · simp at hr; simp [loweredValue, hr]
            · cases hr
        · have := hb1 h; subst this
          simp only [value, value2, cpow, one_ne_zero, if_false, zero_lt_one, if_true] at hr
          split at hr
          · rename_i hv; simp at hr; simp [loweredValue, hv, hr]
          · split at hr
            · simp at hr; simp [loweredValue, hr]
            · simp at hr; simp [loweredValue, hr]
      · split
        · rename_i h
          have := hb0 h; subst this
          simp [value, value2, cpow] at hr
          simp [loweredValue, hr]
        · exact hr
    case atan2 =>
      split
      · rename_i h
        have h1 := ha0 h.1; have h2 := hb0 h.2; subst h1 h2
        simp only [value, value2, Option.some.injEq] at hr
        have : (⟨0, 0⟩ : ℂ) = 0 := rfl
        rw [this, Complex.arg_zero] at hr
        simp [loweredValue, ← hr]
      · exact hr
    case max =>
      split
      · rename_i h
        have h1 := ha0 h.1; have h2 := hb0 h.2; subst h1 h2
        simp [value, value2] at hr; simp [loweredValue, hr]
      · exact hr
    case min =>
      split
      · rename_i h
        have h1 := ha0 h.1; have h2 := hb0 h.2; subst h1 h2
        simp [value, value2] at hr; simp [loweredValue, hr]
      · exact hr
    case heaviside =>
      split
      · rename_i h
        have h1 := ha0 h; subst h1
        simp [value, value2, truth] at hr; simp [loweredValue, hr]
      · exact hr
  | _ :: _ :: _ :: _ => exact hr

/-- `heaviside(0, y)` is lowered to `y`, and its value is `y`. -/
example : ∃ args vals r, Fits args vals ∧ value .heaviside vals = some r ∧
    lower .heaviside args = .arg 1 ∧ r = 1 / 2 := by
  refine ⟨[⟨.float, some 0⟩, ⟨.float, none⟩], [0, 1 / 2], 1 / 2, ?_, ?_, by decide, rfl⟩
  · refine .cons ⟨?_, by simp⟩ (.cons ⟨by simp, by simp⟩ .nil)
    intro q hq; simp at hq; subst hq; simp
  · simp [value, value2, truth]

/-- C46 fails for the literal zero as the base of a power: it is lowered to zero, while
the same call with the base not written as a literal gives one. -/
theorem lower_pow_fails :
    ∃ args args' vals, Fits args vals ∧ Fits args' vals ∧
      loweredValue .pow vals (lower .pow args) = some 0 ∧
      loweredValue .pow vals (lower .pow args') = some 1 := by
  refine ⟨[⟨.float, some 0⟩, ⟨.float, none⟩], [⟨.float, none⟩, ⟨.float, none⟩], [0, 0],
    ?_, ?_, ?_, ?_⟩
  · refine .cons ⟨?_, by simp⟩ (.cons ⟨by simp, by simp⟩ .nil)
    intro q hq; simp at hq; subst hq; simp
  · exact .cons ⟨by simp, by simp⟩ (.cons ⟨by simp, by simp⟩ .nil)
  · have : lower .pow [⟨.float, some 0⟩, ⟨.float, none⟩] = .arg 0 := by decide
    rw [this]; rfl
  · have : lower .pow [⟨.float, none⟩, ⟨.float, none⟩] = .call := by decide
    rw [this]
    simp [loweredValue, value, value2, cpow]

end Verif.Intrinsic
