import Verif.Target.Model
/-! C96: texts that describe targets. -/
namespace Verif.Target

/-! ### Helper facts -/

theorem findChar_none {c : Char} : ∀ {s : List Char}, findChar c s = none ↔ c ∉ s
  | [] => by simp [findChar]
  | d :: s => by
    unfold findChar
    by_cases h : d = c
    · simp [h]
    · rw [if_neg h, Option.map_eq_none_iff, findChar_none (s := s), List.mem_cons, not_or]
      exact ⟨fun h2 => ⟨fun e => h e.symm, h2⟩, fun h2 => h2.2⟩

theorem cut_throws (p : Nat) : ∀ (n : Nat) (rest : List Char) (ts : List (List Char)), rest.length < n → cut (some p) n rest ts = .outOfRange
  | 0, _, _, h => absurd h (Nat.not_lt_zero _)
  | n + 1, rest, ts, h => by
    unfold cut
    by_cases hp : p + 1 ≤ rest.length
    · simp only [substr, if_pos hp]
      exact cut_throws p n _ _ (by rw [List.length_drop]; omega)
    · simp only [substr, if_neg hp]

theorem findFrom_some {w : List Char} : ∀ {s : List Char} {i p : Nat}, findFrom w s i = some p → ∃ q, p = i + q ∧ First w s q
  | [], i, p, h => by
    unfold findFrom at h
    split at h
    · rename_i hw
      cases h
      refine ⟨0, rfl, ⟨[], [], ?_, rfl⟩, fun q _ => Nat.zero_le q⟩
      have := List.isPrefixOf_iff_prefix.mp hw
      simp [List.prefix_nil.mp this]
    · cases h
  | c :: s, i, p, h => by
    unfold findFrom at h
    split at h
    · rename_i hw
      cases h
      obtain ⟨v, hv⟩ := List.isPrefixOf_iff_prefix.mp hw
      exact ⟨0, rfl, ⟨[], v, hv.symm, rfl⟩, fun q _ => Nat.zero_le q⟩
    · rename_i hw
      obtain ⟨q, hq, ⟨u, v, hs, hu⟩, hmin⟩ := findFrom_some (s := s) h
      refine ⟨q + 1, by omega, ⟨c :: u, v, by rw [hs]; rfl, by simp [hu]⟩, ?_⟩
      rintro r ⟨u', v', hs', hr⟩
      cases u' with
      | nil => exact absurd (List.isPrefixOf_iff_prefix.mpr ⟨v', hs'.symm⟩) hw
      | cons d u' =>
        have e : s = u' ++ w ++ v' := (List.cons.inj hs').2
        have := hmin u'.length ⟨u', v', e, rfl⟩
        rw [List.length_cons] at hr
        omega

theorem findFrom_occurs {w : List Char} : ∀ {s : List Char} {i q : Nat}, OccursAt w s q → findFrom w s i ≠ none
  | [], i, q, ⟨u, v, hs, _⟩ => by
    have := congrArg List.length hs
    simp only [List.length_append, List.length_nil] at this
    have hw : w = [] := List.length_eq_zero_iff.mp (by omega)
    unfold findFrom
    rw [hw]
    simp
  | c :: s, i, q, ⟨u, v, hs, _⟩ => by
    unfold findFrom
    split
    · exact fun h => nomatch h
    · rename_i hw
      cases u with
      | nil => exact absurd (List.isPrefixOf_iff_prefix.mpr ⟨v, hs.symm⟩) hw
      | cons d u => exact findFrom_occurs (s := s) ⟨u, v, (List.cons.inj hs).2, rfl⟩

/-- `find` from a position. -/
theorem find_ne_none {w s : List Char} {i : Nat} : find w s i ≠ none ↔ ∃ p, i ≤ p ∧ OccursAt w s p := by
  unfold find
  constructor
  · intro h
    split at h
    · rename_i hi
      cases hf : findFrom w (s.drop i) i with
      | none => exact absurd hf h
      | some p =>
        obtain ⟨q, _, ⟨u, v, hs, hu⟩, _⟩ := findFrom_some hf
        refine ⟨i + q, by omega, s.take i ++ u, v, ?_, by rw [List.length_append, List.length_take, hu]; omega⟩
        have := List.take_append_drop i s
        rw [hs] at this
        exact this.symm.trans (by simp only [List.append_assoc])
    · exact absurd rfl h
  · rintro ⟨p, hp, u, v, hs, hu⟩
    have hi : i ≤ s.length := by rw [hs, List.length_append, List.length_append]; omega
    rw [if_pos hi]
    refine findFrom_occurs (q := p - i) ⟨u.drop i, v, ?_, by rw [List.length_drop]; omega⟩
    rw [hs, List.append_assoc, List.drop_append_of_le_length (by omega), List.append_assoc]

theorem find_zero {w s : List Char} {p : Nat} : find w s 0 = some p ↔ First w s p := by
  have key : find w s 0 = findFrom w s 0 := by simp [find]
  rw [key]
  constructor
  · intro h
    obtain ⟨q, rfl, hq⟩ := findFrom_some h
    rw [Nat.zero_add]; exact hq
  · intro h
    cases hf : findFrom w s 0 with
    | none => exact absurd hf (findFrom_occurs h.1)
    | some r =>
      obtain ⟨q, rfl, hq⟩ := findFrom_some hf
      rw [Nat.zero_add]
      exact congrArg some (Nat.le_antisymm (hq.2 p h.1) (h.2 q hq.1))

theorem find_zero_none {w s : List Char} (h : ∀ p, ¬ OccursAt w s p) : find w s 0 = none := by
  cases hf : find w s 0 with
  | none => rfl
  | some p => exact absurd (find_zero.mp hf).1 (h p)

theorem locate_some {s : List Char} {i : Nat} : ∀ {ws : List (List Char)} {r : Option Nat}, (locate s i ws r).isSome = true ↔ r.isSome = true ∨ ∃ w ∈ ws, find w s i ≠ none
  | [], r => by simp [locate]
  | w :: ws, r => by
    unfold locate
    cases hf : find w s i with
    | none => 
      show (locate s i ws r).isSome = true ↔ _
      rw [locate_some]; simp [hf]
    | some p =>
      show (locate s i ws (some p)).isSome = true ↔ _
      rw [locate_some]; simp [hf]

/-! ### Properties -/

/-- No text makes a target: with a hyphen the constructor throws `std::out_of_range`, without one the text is rejected. -/
theorem construct_fails (s : List Char) (n : Nat) (hn : s.length < n) : construct n s = if '-' ∈ s then .outOfRange else .rejected := by
  unfold construct
  cases hf : findChar '-' s with
  | none =>
    rw [if_neg (findChar_none.mp hf)]
    cases n with
    | zero => cases hn
    | succ n => rfl
  | some p =>
    rw [cut_throws p n s [] hn, if_pos]
    refine Classical.not_not.mp fun h => ?_
    rw [findChar_none.mpr h] at hf
    cases hf

/-- In particular, none of the texts that the header describes. -/
theorem construct_means_fails (s : List Char) (a : Arch) (o : OS) (h : Means s a o) (n : Nat) (hn : s.length < n) : construct n s = .outOfRange := by
  rw [construct_fails s n hn, if_pos]
  cases h <;> simp

/-- What is accepted as valid: a name of an operating system occurs behind the first occurrence of `x86`, or of `c99` if there is no `x86`. -/
theorem validate_iff (s : List Char) : validate s = true ↔
    ∃ p, (First Arch.x86.name s p ∨ ((∀ q, ¬ OccursAt Arch.x86.name s q) ∧ First Arch.c99.name s p)) ∧ ∃ (o : OS) (q : Nat), p < q ∧ OccursAt o.name s q := by
  have hos : ∀ p, (locate s (p + 1) [OS.linux.name, OS.macos.name, OS.unknown.name, OS.windows.name] none).isSome = true ↔ ∃ (o : OS) (q : Nat), p < q ∧ OccursAt o.name s q := by
    intro p
    rw [locate_some]
    constructor
    · rintro (h | ⟨w, hw, hf⟩)
      · cases h
      · obtain ⟨q, hq, ho⟩ := find_ne_none.mp hf
        simp only [List.mem_cons, List.not_mem_nil, or_false] at hw
        rcases hw with rfl | rfl | rfl | rfl
        · exact ⟨.linux, q, hq, ho⟩
        · exact ⟨.macos, q, hq, ho⟩
        · exact ⟨.unknown, q, hq, ho⟩
        · exact ⟨.windows, q, hq, ho⟩
    · rintro ⟨o, q, hq, ho⟩
      exact .inr ⟨o.name, by cases o <;> simp, find_ne_none.mpr ⟨q, hq, ho⟩⟩
  have harch : ∀ p, locate s 0 [Arch.c99.name, Arch.x86.name] none = some p ↔ First Arch.x86.name s p ∨ ((∀ q, ¬ OccursAt Arch.x86.name s q) ∧ First Arch.c99.name s p) := by
    intro p
    have e : locate s 0 [Arch.c99.name, Arch.x86.name] none = (find Arch.x86.name s 0).or (find Arch.c99.name s 0) := by
      unfold locate
      cases find Arch.c99.name s 0 <;> (simp only [locate]; cases find Arch.x86.name s 0 <;> rfl)
    rw [e]
    cases hx : find Arch.x86.name s 0 with
    | some q =>
      rw [Option.some_or]
      have hq := find_zero.mp hx
      constructor
      · intro h; cases h; exact .inl hq
      · rintro (h | ⟨h, _⟩)
        · rw [← find_zero.mpr h, hx]
        · exact absurd hq.1 (h q)
    | none =>
      rw [Option.none_or, find_zero]
      constructor
      · intro h
        refine .inr ⟨fun q hq => ?_, h⟩
        exact absurd hx (find_ne_none.mpr ⟨q, Nat.zero_le _, hq⟩)
      · rintro (h | ⟨_, h⟩)
        · rw [find_zero.mpr h] at hx; cases hx
        · exact h
  unfold validate
  simp only [Bool.and_eq_true]
  constructor
  · rintro ⟨h1, h2⟩
    obtain ⟨p, hp⟩ := Option.isSome_iff_exists.mp h1
    rw [hp] at h2
    exact ⟨p, (harch p).mp hp, (hos p).mp h2⟩
  · rintro ⟨p, h1, h2⟩
    rw [(harch p).mpr h1]
    exact ⟨rfl, (hos p).mpr h2⟩

/-- Every text that means a target is accepted, if it does not mention `x86` behind `c99`. -/
theorem means_accepted_partial (s : List Char) (a : Arch) (o : OS) (h : Means s a o) (hx : a = .c99 → ∀ q, ¬ OccursAt Arch.x86.name s q) : validate s = true := by
  rw [validate_iff]
  have h0 : OccursAt a.name s 0 := by
    cases h with
    | plain => exact ⟨[], _, rfl, rfl⟩
    | features => exact ⟨[], _, rfl, rfl⟩
  have ho : OccursAt o.name s (a.name.length + 1) := by
    cases h with
    | plain => exact ⟨a.name ++ ['-'], [], by simp, by simp⟩
    | features _ _ f => exact ⟨a.name ++ ['-'], '-' :: f, by simp, by simp⟩
  refine ⟨0, ?_, o, _, Nat.succ_pos _, ho⟩
  cases a with
  | x86 => exact .inl ⟨h0, fun _ _ => Nat.zero_le _⟩
  | c99 => exact .inr ⟨hx rfl, h0, fun _ _ => Nat.zero_le _⟩

/-- The hypotheses are met. -/
example : validate "c99-linux-openmp".toList = true :=
  means_accepted_partial _ .c99 .linux (by
    have : "c99-linux-openmp".toList = Arch.c99.name ++ '-' :: (OS.linux.name ++ '-' :: "openmp".toList) := by decide +kernel
    rw [this]; exact .features .c99 .linux _) (by
    intro _ q h
    have := find_ne_none.mpr ⟨q, Nat.zero_le _, h⟩
    exact this (by decide +kernel))
example : construct 20 "c99-linux".toList = .outOfRange :=
  construct_means_fails _ .c99 .linux (by
    have : "c99-linux".toList = Arch.c99.name ++ '-' :: OS.linux.name := by decide +kernel
    rw [this]; exact .plain .c99 .linux) 20 (by decide +kernel)

/-- Texts that mean targets and are not accepted, and texts that mean none and are. -/
theorem validate_fails : Means (Arch.c99.name ++ '-' :: (OS.linux.name ++ '-' :: "x86".toList)) .c99 .linux
    ∧ validate (Arch.c99.name ++ '-' :: (OS.linux.name ++ '-' :: "x86".toList)) = false
    ∧ validate "not c99 but windows".toList = true ∧ ∀ a o, ¬ Means "not c99 but windows".toList a o := by
  refine ⟨.features .c99 .linux _, by decide +kernel, by decide +kernel, fun a o h => ?_⟩
  have e : "not c99 but windows".toList.head? = some 'n' := by decide +kernel
  generalize "not c99 but windows".toList = s at h e
  cases h <;> cases a <;> simp [Arch.name] at e

/-- Targets made of an architecture and a system: C on Linux and macOS only; whatever the environment says, the target is C on macOS. -/
theorem made_target (a : Arch) (o : OS) : make a o = .ok a o ↔ a = .c99 ∧ (o = .linux ∨ o = .macos) := by
  cases a <;> cases o <;> decide
theorem environment_fails (env : List Char → Option (List Char)) : fromEnvironment env = .ok .c99 .macos := rfl

/-- What the words between hyphens mean, once they are found: exactly the names of an architecture and of a system in this order, whatever
follows. -/
theorem tokens_meaning (ts : List (List Char)) (a : Arch) (o : OS) : fromTokens ts = .ok a o ↔ ∃ rest, ts = a.name :: o.name :: rest := by
  have ha : ∀ t, archMap t = some a ↔ t = a.name := by
    intro t
    unfold archMap
    split
    · rename_i h; subst h; cases a <;> decide
    · rename_i h
      split
      · rename_i h; subst h; cases a <;> decide
      · rename_i h'; cases a <;> simp [h, h']
  have ho : ∀ t, osMap t = some o ↔ t = o.name := by
    intro t
    unfold osMap
    split
    · rename_i h; subst h; cases o <;> decide
    · rename_i h1
      split
      · rename_i h; subst h; cases o <;> decide
      · rename_i h2
        split
        · rename_i h; subst h; cases o <;> decide
        · rename_i h3
          split
          · rename_i h; subst h; cases o <;> decide
          · rename_i h4; cases o <;> simp [h1, h2, h3, h4]
  constructor
  · intro h
    match ts, h with
    | t :: u :: rest, h =>
      cases e1 : archMap t with
      | none => simp [fromTokens, e1] at h
      | some a' =>
        cases e2 : osMap u with
        | none => simp [fromTokens, e1, e2] at h
        | some o' =>
          simp [fromTokens, e1, e2] at h
          obtain ⟨rfl, rfl⟩ := h
          exact ⟨rest, by rw [(ha t).1 e1, (ho u).1 e2]⟩
  · rintro ⟨rest, rfl⟩
    simp [fromTokens, (ha _).2 rfl, (ho _).2 rfl]

/-- `string::find` gives the first hyphen. -/
theorem findChar_first {c : Char} : ∀ {s : List Char} {p : Nat}, findChar c s = some p ↔ ∃ u v, s = u ++ c :: v ∧ c ∉ u ∧ u.length = p
  | [], p => by simp [findChar]
  | d :: s, p => by
    unfold findChar
    by_cases h : d = c
    · rw [if_pos h]
      constructor
      · rintro e; cases e; exact ⟨[], s, by rw [h]; rfl, by simp, rfl⟩
      · rintro ⟨u, v, hs, hu, rfl⟩
        cases u with
        | nil => rfl
        | cons x u => exact absurd (by rw [← h, (List.cons.inj hs).1]; simp) hu
    · rw [if_neg h, Option.map_eq_some_iff]
      constructor
      · rintro ⟨q, hq, rfl⟩
        obtain ⟨u, v, hs, hu, rfl⟩ := findChar_first.1 hq
        exact ⟨d :: u, v, by rw [hs]; rfl, by simp [hu, Ne.symm h], rfl⟩
      · rintro ⟨u, v, hs, hu, rfl⟩
        cases u with
        | nil => exact absurd (List.cons.inj hs).1 h
        | cons x u => exact ⟨u.length, findChar_first.2 ⟨u, v, (List.cons.inj hs).2, fun hc => hu (by simp [hc]), rfl⟩, rfl⟩

example : fromTokens ["x86".toList, "macos".toList, "sse".toList] = .ok .x86 .macos ∧ fromTokens ["macos".toList, "x86".toList] = .unset
    ∧ findChar '-' "c99-linux-sse".toList = some 3 := by decide +kernel

end Verif.Target
