import Verif.Names.Model
/-! Property C33. -/
namespace Verif.Names

/-- The name does not end in a decimal digit. -/
def noDigitEnd (n : Name) : Prop := ∀ c, n.getLast? = some c → isDigit c = false

instance (n : Name) : Decidable (noDigitEnd n) :=
  match h : n.getLast? with
  | none => isTrue (fun c hc => by rw [h] at hc; exact absurd hc (by simp))
  | some d =>
    if hd : isDigit d = false then isTrue (fun c hc => by rw [h] at hc; rw [← Option.some.inj hc]; exact hd)
    else isFalse (fun hn => hd (hn d h))

/-- Names handed out so far are base names or base names followed by a number below the counter. -/
private def Issued (c : Counters) (m : Name) : Prop :=
  (∃ k, c m = some k) ∨ (∃ b k j, c b = some k ∧ j < k ∧ noDigitEnd b ∧ m = b ++ dec j)

theorem getLast?_append_ne {α : Type} (a b : List α) (h : b ≠ []) : (a ++ b).getLast? = b.getLast? := by
  rw [List.getLast?_append]
  cases hb : b.getLast? with
  | none => exact absurd (List.getLast?_eq_none_iff.1 hb) h
  | some x => rfl

theorem endsDigit_dec (b : Name) (k : Nat) : ∃ c, (b ++ dec k).getLast? = some c ∧ isDigit c = true := by
  rw [getLast?_append_ne _ _ (dec_ne_nil k)]
  cases h : (dec k).getLast? with
  | none => exact absurd (List.getLast?_eq_none_iff.1 h) (dec_ne_nil k)
  | some c => exact ⟨c, rfl, dec_digits k c (List.mem_of_getLast? h)⟩

/-- Splitting a name into a base without a trailing digit and a number is unique. -/
theorem base_unique : ∀ (b b' : Name) (ds ds' : List Char), noDigitEnd b → noDigitEnd b' →
    (∀ c ∈ ds, isDigit c = true) → (∀ c ∈ ds', isDigit c = true) → b ++ ds = b' ++ ds' →
    b = b' ∧ ds = ds' := by
  have key : ∀ (b b' : Name) (ds ds' : List Char), noDigitEnd b →
      (∀ c ∈ ds', isDigit c = true) → b ++ ds = b' ++ ds' → b.length ≤ b'.length := by
    intro b b' ds ds' hb hd' h
    rcases Nat.lt_or_ge b'.length b.length with hlt | hge
    · exfalso
      have hne : b ≠ [] := by intro h0; rw [h0] at hlt; simp at hlt
      have h1 : (b ++ ds)[b.length - 1]? = b.getLast? := by
        rw [List.getElem?_append_left (by omega), List.getLast?_eq_getElem?]
      rw [h, List.getElem?_append_right (by omega)] at h1
      cases hl : b.getLast? with
      | none => exact hne (List.getLast?_eq_none_iff.1 hl)
      | some c =>
        rw [hl] at h1
        have := hd' c (List.mem_of_getElem? h1)
        rw [hb c hl] at this
        exact absurd this (by decide)
    · exact hge
  intro b b' ds ds' hb hb' hd hd' h
  have e := Nat.le_antisymm (key b b' ds ds' hb hd' h) (key b' b ds' ds hb' hd h.symm)
  exact List.append_inj h e

/-- C33, when no requested or reserved name ends in a decimal digit: the names handed out are pairwise
distinct and none is reserved. (The full property drops the hypothesis on digits; it is false, see
`names_fails`.) -/
theorem names_distinct_partial (reserved reqs : List Name)
    (hq : ∀ n ∈ reqs, noDigitEnd n) (hr : ∀ n ∈ reserved, noDigitEnd n) :
    (generate (init reserved) reqs).Nodup ∧ ∀ n ∈ generate (init reserved) reqs, n ∉ reserved := by
  have main : ∀ (reqs : List Name) (c : Counters), (∀ n ∈ reqs, noDigitEnd n) →
      (∀ b k, c b = some k → noDigitEnd b) →
      (generate c reqs).Nodup ∧ ∀ m ∈ generate c reqs, ¬ Issued c m := by
    intro reqs
    induction reqs with
    | nil => intro c _ _; exact ⟨List.nodup_nil, fun m hm => absurd hm (List.not_mem_nil)⟩
    | cons n ns ih =>
      intro c hns hc
      have hn : noDigitEnd n := hns n List.mem_cons_self
      have hc' : ∀ b k, (getUniqueName c n).2 b = some k → noDigitEnd b := by
        intro b k hb
        by_cases hbn : b = n
        · rw [hbn]; exact hn
        · unfold getUniqueName at hb
          cases hcn : c n with
          | none => rw [hcn] at hb; simp only [setCounter, if_neg hbn] at hb; exact hc b k hb
          | some j => rw [hcn] at hb; simp only [setCounter, if_neg hbn] at hb; exact hc b k hb
      obtain ⟨ih1, ih2⟩ := ih (getUniqueName c n).2 (fun m hm => hns m (List.mem_cons_of_mem _ hm)) hc'
      -- the new name is issued afterwards, was not issued before, and what was issued stays issued
      have hnew : Issued (getUniqueName c n).2 (getUniqueName c n).1 := by
        unfold getUniqueName
        cases hcn : c n with
        | none => exact Or.inl ⟨0, by simp [setCounter]⟩
        | some k => exact Or.inr ⟨n, k + 1, k, by simp [setCounter], by omega, hn, rfl⟩
      have hold : ¬ Issued c (getUniqueName c n).1 := by
        unfold getUniqueName
        cases hcn : c n with
        | none =>
          simp only
          rintro (⟨k, hk⟩ | ⟨b, k, j, _, _, _, hm⟩)
          · rw [hcn] at hk; exact absurd hk (by simp)
          · obtain ⟨d, hd1, hd2⟩ := endsDigit_dec b j
            rw [← hm] at hd1
            rw [hn d hd1] at hd2
            exact absurd hd2 (by decide)
        | some k =>
          simp only
          rintro (⟨k', hk'⟩ | ⟨b, k', j, hb, hj, hbd, hm⟩)
          · have hnd := hc _ k' hk'
            obtain ⟨d, hd1, hd2⟩ := endsDigit_dec n k
            rw [hnd d hd1] at hd2
            exact absurd hd2 (by decide)
          · obtain ⟨e1, e2⟩ := base_unique n b (dec k) (dec j) hn hbd (dec_digits k) (dec_digits j) hm
            have := dec_injective e2
            rw [← e1, hcn] at hb
            have := Option.some.inj hb
            omega
      have hmono : ∀ m, Issued c m → Issued (getUniqueName c n).2 m := by
        intro m hm
        unfold getUniqueName
        cases hcn : c n with
        | none =>
          simp only
          rcases hm with ⟨k, hk⟩ | ⟨b, k, j, hb, hj, hbd, hm⟩
          · refine Or.inl ⟨k, ?_⟩
            have : m ≠ n := by intro h; rw [h, hcn] at hk; exact absurd hk (by simp)
            simp only [setCounter, if_neg this, hk]
          · refine Or.inr ⟨b, k, j, ?_, hj, hbd, hm⟩
            have : b ≠ n := by intro h; rw [h, hcn] at hb; exact absurd hb (by simp)
            simp only [setCounter, if_neg this, hb]
        | some i =>
          simp only
          rcases hm with ⟨k, hk⟩ | ⟨b, k, j, hb, hj, hbd, hm⟩
          · by_cases h : m = n
            · exact Or.inl ⟨i + 1, by simp [setCounter, h]⟩
            · exact Or.inl ⟨k, by simp only [setCounter, if_neg h, hk]⟩
          · by_cases h : b = n
            · rw [h, hcn] at hb
              have := Option.some.inj hb
              exact Or.inr ⟨b, i + 1, j, by simp [setCounter, h], by omega, hbd, hm⟩
            · exact Or.inr ⟨b, k, j, by simp only [setCounter, if_neg h, hb], hj, hbd, hm⟩
      constructor
      · show (_ :: _).Nodup
        rw [List.nodup_cons]
        exact ⟨fun hin => ih2 _ hin hnew, ih1⟩
      · intro m hm
        rcases List.mem_cons.1 hm with h | h
        · rw [h]; exact hold
        · exact fun hi => ih2 m h (hmono m hi)
  have hinit : ∀ b k, init reserved b = some k → noDigitEnd b := by
    intro b k hb
    unfold init at hb
    split at hb
    · rename_i h; exact hr b h
    · exact absurd hb (by simp)
  obtain ⟨h1, h2⟩ := main reqs (init reserved) hq hinit
  refine ⟨h1, ?_⟩
  intro n hn hres
  exact h2 n hn (Or.inl ⟨0, by simp [init, hres]⟩)

/-- Every name handed out extends the requested name, by nothing or by a number. -/
theorem names_extend_request (c : Counters) (reqs : List Name) : ∀ i (h : i < reqs.length),
    ∃ s, (∀ d ∈ s, isDigit d = true) ∧ (generate c reqs)[i]? = some (reqs[i] ++ s) := by
  induction reqs generalizing c with
  | nil => intro i h; exact absurd h (by simp)
  | cons n ns ih =>
    intro i h
    cases i with
    | zero =>
      cases hc : c n with
      | none => exact ⟨[], by simp, by simp [generate, getUniqueName, hc]⟩
      | some k => exact ⟨dec k, dec_digits k, by simp [generate, getUniqueName, hc]⟩
    | succ i =>
      obtain ⟨s, h1, h2⟩ := ih (getUniqueName c n).2 i (by simpa using h)
      exact ⟨s, h1, by simpa [generate] using h2⟩

example : (∀ n ∈ [['i'], ['j'], ['i'], ['i', 'n', 't']], noDigitEnd n) ∧
    (∀ n ∈ [['i', 'n', 't']], noDigitEnd n) := by
  decide

/-- C33 is false: requesting `a`, `a`, `a0` hands out `a0` twice. -/
theorem names_fails : ∃ reqs : List Name, ¬ (generate (init []) reqs).Nodup :=
  ⟨[['a'], ['a'], ['a', '0']], by
    have h : dec 0 = ['0'] := by rw [dec]; rfl
    simp [generate, getUniqueName, init, setCounter, h]⟩

/-- C33 is false for the names of a generated function: a variable named like a tensor keeps that
name although the parameter of the function has it. -/
theorem function_names_fails : ∃ (keywords params vars : List Name),
    params.Nodup ∧ vars.Nodup ∧ ¬ (functionNames keywords params vars).Nodup :=
  ⟨[], [['i']], [['i']], by decide, by decide, by decide⟩

/-- C33 for a generated function whose tensors are not named like a variable, optionally followed by
digits, and whose names do not end in digits. -/
theorem function_names_partial (keywords params vars : List Name) (hp : params.Nodup)
    (hq : ∀ n ∈ vars, noDigitEnd n) (hr : ∀ n ∈ keywords, noDigitEnd n)
    (hpv : ∀ p ∈ params, ∀ v ∈ vars, ∀ s : List Char, (∀ d ∈ s, isDigit d = true) → p ≠ v ++ s) :
    (functionNames keywords params vars).Nodup := by
  unfold functionNames
  rw [List.nodup_append]
  refine ⟨hp, (names_distinct_partial keywords vars hq hr).1, ?_⟩
  intro a ha b hb hab
  obtain ⟨i, hi⟩ := List.getElem?_of_mem hb
  have hlen : ∀ (c : Counters) (l : List Name), (generate c l).length = l.length := by
    intro c l
    induction l generalizing c with
    | nil => rfl
    | cons n ns ih => simp [generate, ih]
  have hil : i < vars.length := by
    have := (List.getElem?_eq_some_iff.1 hi).1
    rwa [hlen] at this
  obtain ⟨s, hs, he⟩ := names_extend_request (init keywords) vars i hil
  rw [hi] at he
  exact hpv a ha _ (List.getElem_mem hil) s hs (by rw [hab]; exact Option.some.inj he)

end Verif.Names
