import Verif.Einsum.Forward

/-! # Accepted strings are well formed -/

namespace Verif.Einsum

theorem break_of_some {s a b : List Char} (h : breakArrow s = some (a, b)) : s = a ++ '-' :: '>' :: b := by
  induction s generalizing a with
  | nil => simp [breakArrow] at h
  | cons c s ih =>
    rw [breakArrow] at h
    by_cases hc : c = '-' ∧ s.head? = some '>'
    · rw [if_pos hc] at h
      obtain ⟨h1, h2⟩ := hc
      cases s with
      | nil => simp at h2
      | cons d s =>
        simp only [List.head?_cons, Option.some.injEq] at h2
        simp only [List.tail_cons, Option.some.injEq, Prod.mk.injEq] at h
        obtain ⟨h3, h4⟩ := h
        subst h1 h2 h3 h4; rfl
    · rw [if_neg hc] at h
      cases hb : breakArrow s with
      | none => rw [hb] at h; simp at h
      | some p =>
        rw [hb] at h
        simp only [Option.map_some, Option.some.injEq, Prod.mk.injEq] at h
        obtain ⟨h3, h4⟩ := h
        have := ih (a := p.1) (by rw [hb, ← h4])
        rw [this, ← h3]; rfl

theorem ellipse_of_some {s a b : List Char} (h : breakEllipse s = some (a, b)) : s = a ++ '.' :: '.' :: '.' :: b := by
  induction s generalizing a with
  | nil => simp [breakEllipse] at h
  | cons c s ih =>
    rw [breakEllipse] at h
    by_cases hc : c = '.' ∧ s.head? = some '.' ∧ s.tail.head? = some '.'
    · rw [if_pos hc] at h
      obtain ⟨h1, h2, h3⟩ := hc
      match s, h2, h3, h with
      | d :: e :: s, h2, h3, h =>
        simp only [List.head?_cons, List.tail_cons, Option.some.injEq] at h2 h3
        simp only [List.tail_cons, Option.some.injEq, Prod.mk.injEq] at h
        obtain ⟨h4, h5⟩ := h
        subst h1 h2 h3 h4 h5; rfl
      | [_], _, h3, _ => simp at h3
      | [], h2, _, _ => simp at h2
    · rw [if_neg hc] at h
      cases hb : breakEllipse s with
      | none => rw [hb] at h; simp at h
      | some p =>
        rw [hb] at h
        simp only [Option.map_some, Option.some.injEq, Prod.mk.injEq] at h
        obtain ⟨h3, h4⟩ := h
        have := ih (a := p.1) (by rw [hb, ← h4])
        rw [this, ← h3]; rfl

/-- A dash that is not the last character and is never followed by anything but `>` begins an arrow. -/
theorem arrow_of_dash {s : List Char} (hb : badDash s = false) (hl : s.getLast? ≠ some '-') (hd : '-' ∈ s) :
    breakArrow s ≠ none := by
  induction s with
  | nil => simp at hd
  | cons c s ih =>
    cases s with
    | nil =>
      simp only [List.mem_singleton] at hd
      subst hd; simp at hl
    | cons d s =>
      rw [badDash] at hb
      simp only [Bool.or_eq_false_iff, Bool.and_eq_false_iff, beq_eq_false_iff_ne, bne_eq_false_iff_eq] at hb
      rw [breakArrow]
      by_cases hc : c = '-' ∧ (d :: s).head? = some '>'
      · rw [if_pos hc]; simp
      · rw [if_neg hc]
        have hcd : c ≠ '-' := by
          intro e
          apply hc
          refine ⟨e, ?_⟩
          rcases hb.1 with h | h
          · exact absurd e h
          · rw [h]; rfl
        have := ih hb.2 (by rw [List.getLast?_cons_cons] at hl; exact hl) (by
          rcases List.mem_cons.1 hd with h | h
          · exact absurd h.symm hcd
          · exact h)
        intro hn
        rw [Option.map_eq_none_iff] at hn
        exact this hn

theorem joinComma_cons (p : List Char) {ps : List (List Char)} (h : ps ≠ []) :
    joinComma (p :: ps) = p ++ ',' :: joinComma ps := by
  cases ps with
  | nil => exact absurd rfl h
  | cons q rest => rfl

theorem splitCommaFrom_ne (between s : List Char) : splitCommaFrom between s ≠ [] := by
  induction s generalizing between with
  | nil => simp [splitCommaFrom]
  | cons c s ih =>
    rw [splitCommaFrom]
    split
    · simp
    · exact ih _

theorem join_splitFrom (between s : List Char) : joinComma (splitCommaFrom between s) = between ++ s := by
  induction s generalizing between with
  | nil => simp [splitCommaFrom, joinComma]
  | cons c s ih =>
    rw [splitCommaFrom]
    split
    · rename_i h
      rw [joinComma_cons _ (splitCommaFrom_ne _ _), ih, h]; rfl
    · rw [ih]; simp

theorem join_splitComma (s : List Char) : joinComma (splitComma s) = s := join_splitFrom [] s

theorem splitFrom_no_comma (between s : List Char) (hb : ',' ∉ between) : ∀ p ∈ splitCommaFrom between s, ',' ∉ p := by
  induction s generalizing between with
  | nil => intro p hp; simp only [splitCommaFrom, List.mem_singleton] at hp; subst hp; exact hb
  | cons c s ih =>
    intro p hp
    rw [splitCommaFrom] at hp
    split at hp
    · rcases List.mem_cons.1 hp with h | h
      · subst h; exact hb
      · exact ih [] (by simp) p h
    · rename_i hc
      apply ih _ _ p hp
      simp only [List.mem_append, List.mem_singleton, not_or]
      exact ⟨hb, fun e => hc e.symm⟩

/-- What an input must look like to get through the loop over the inputs. -/
theorem expandOne_ok {u p q : List Char} {r : Nat} {w w' : Int}
    (hp : ∀ c ∈ p, c ∈ alphabet ∨ c = '.') (hu : ∀ c ∈ u, c ∈ alphabet)
    (h : expandOne u r w p = .ok (q, w')) :
    ∃ s : Sub, s.text = p ∧ (∀ c ∈ s.letters, c ∈ alphabet) ∧ (s.ell = false → q = s.letters) ∧
      (s.ell = true → 0 < r → s.letters.length ≤ r) ∧ (s.ell = true → r = 0 → q = s.letters) ∧
      (q.length = r → q = [] → s.ell = true → r = 0 ∧ s.letters = []) ∧
      (∀ c ∈ q, c ∈ s.letters ∨ c ∈ u) := by
  unfold expandOne at h
  by_cases hd : '.' ∈ p
  · rw [if_pos hd] at h
    by_cases hbad : p.count '.' ≠ 3 ∨ breakEllipse p = none
    · rw [if_pos hbad] at h; cases h
    · rw [if_neg hbad] at h
      simp only [not_or, Decidable.not_not] at hbad
      obtain ⟨hc3, hbe⟩ := hbad
      obtain ⟨⟨x, y⟩, hxy⟩ := Option.ne_none_iff_exists'.1 hbe
      have hpe := ellipse_of_some hxy
      have hcx : x.count '.' = 0 ∧ y.count '.' = 0 := by
        rw [hpe, List.count_append, List.count_cons_self, List.count_cons_self, List.count_cons_self] at hc3
        omega
      have hx : ∀ c ∈ x, c ∈ alphabet := by
        intro c hc
        rcases hp c (by rw [hpe]; exact List.mem_append_left _ hc) with h1 | h1
        · exact h1
        · subst h1; exact absurd hc (List.count_eq_zero.1 hcx.1)
      have hy : ∀ c ∈ y, c ∈ alphabet := by
        intro c hc
        rcases hp c (by rw [hpe]; simp [hc]) with h1 | h1
        · exact h1
        · subst h1; exact absurd hc (List.count_eq_zero.1 hcx.2)
      have hlen : p.length = x.length + y.length + 3 := by
        rw [hpe]; simp only [List.length_append, List.length_cons]; omega
      have hfil : p.filter (fun c => c != '.') = x ++ y := by
        rw [hpe, List.filter_append, filter_dot hx, List.filter_cons_of_neg (by decide),
          List.filter_cons_of_neg (by decide), List.filter_cons_of_neg (by decide), filter_dot hy]
      dsimp only at h
      refine ⟨⟨x, true, y⟩, ?_, ?_, ?_, ?_, ?_, ?_, ?_⟩
      · rw [text_ell rfl, hpe]
      · intro c hc
        unfold Sub.letters at hc
        rcases List.mem_append.1 hc with h1 | h1
        · exact hx c h1
        · exact hy c h1
      · intro hf; cases hf
      · intro _ hr
        show (x ++ y).length ≤ r
        by_cases hneg : ellipseCount r p < 0
        · rw [if_pos hneg] at h; cases h
        · unfold ellipseCount at hneg
          rw [if_pos hr, hlen] at hneg
          simp only [List.length_append]
          omega
      · intro _ hr
        have h0 : ellipseCount r p = 0 := by unfold ellipseCount; rw [if_neg (by omega)]
        rw [if_neg (by omega), if_pos h0, hfil] at h
        simp only [Out.ok.injEq, Prod.mk.injEq] at h
        exact h.1.symm
      · intro hql hq _
        refine ⟨by rw [← hql, hq]; rfl, ?_⟩
        show x ++ y = []
        by_cases hneg : ellipseCount r p < 0
        · rw [if_pos hneg] at h; cases h
        · rw [if_neg hneg] at h
          by_cases hz : ellipseCount r p = 0
          · rw [if_pos hz, hfil] at h
            simp only [Out.ok.injEq, Prod.mk.injEq] at h
            rw [h.1, hq]
          · rw [if_neg hz] at h
            obtain ⟨new, h1, h2⟩ := bind_eq_ok h
            simp only [Out.ok.injEq, Prod.mk.injEq] at h2
            have h3 := h2.1
            unfold replaceEllipse at h3
            rw [hxy, hq] at h3
            simp only [List.append_eq_nil_iff] at h3
            rw [h3.1.1, h3.2]; rfl
      · intro c hc
        by_cases hneg : ellipseCount r p < 0
        · rw [if_pos hneg] at h; cases h
        · rw [if_neg hneg] at h
          by_cases hz : ellipseCount r p = 0
          · rw [if_pos hz, hfil] at h
            simp only [Out.ok.injEq, Prod.mk.injEq] at h
            rw [← h.1] at hc
            exact .inl hc
          · rw [if_neg hz] at h
            obtain ⟨new, h1, h2⟩ := bind_eq_ok h
            simp only [Out.ok.injEq, Prod.mk.injEq] at h2
            rw [← h2.1] at hc
            unfold replaceEllipse at hc
            rw [hxy] at hc
            simp only [List.mem_append] at hc
            rcases hc with (hc | hc) | hc
            · exact .inl (List.mem_append_left _ hc)
            · right
              unfold lastChars at h1
              split at h1
              · simp only [Out.ok.injEq] at h1
                rw [← h1] at hc
                exact List.mem_of_mem_drop hc
              · cases h1
            · exact .inl (List.mem_append_right _ hc)
  · rw [if_neg hd] at h
    simp only [Out.ok.injEq, Prod.mk.injEq] at h
    have hpa : ∀ c ∈ p, c ∈ alphabet := by
      intro c hc
      rcases hp c hc with h1 | h1
      · exact h1
      · subst h1; exact absurd hc hd
    refine ⟨⟨p, false, []⟩, ?_, ?_, ?_, ?_, ?_, ?_, ?_⟩
    · rw [text_noell rfl]; simp [Sub.letters]
    · intro c hc; simp only [Sub.letters, List.append_nil] at hc; exact hpa c hc
    · intro _; simp only [Sub.letters, List.append_nil]; exact h.1.symm
    · intro hf; cases hf
    · intro hf; cases hf
    · intro _ _ hf; cases hf
    · intro c hc; rw [← h.1] at hc; simp only [Sub.letters, List.append_nil]; exact .inl hc

/-- The inputs that get through the loop are subscripts. -/
theorem expandAll_ok {u : List Char} (hu : ∀ c ∈ u, c ∈ alphabet) : ∀ {rs : List Nat} {w w' : Int}
    {ps qs : List (List Char)}, ps.length = rs.length → (∀ p ∈ ps, ∀ c ∈ p, c ∈ alphabet ∨ c = '.') →
    expandAll u rs w ps = .ok (qs, w') → qs.map List.length = rs →
    ∃ ss : List Sub, ss.map Sub.text = ps ∧ (∀ s ∈ ss, ∀ c ∈ s.letters, c ∈ alphabet) ∧ ss.length = rs.length ∧
      (∀ p ∈ ss.zip rs, p.1.Fits p.2) ∧
      (∀ q ∈ qs, ∀ c ∈ q, c ∈ (ss.map Sub.letters).flatten ∨ c ∈ u)
  | [], w, w', [], qs, _, _, h, _ => by
    simp only [expandAll, Out.ok.injEq, Prod.mk.injEq] at h
    exact ⟨[], rfl, by simp, rfl, by simp, by rw [← h.1]; simp⟩
  | [], _, _, _ :: _, _, h, _, _, _ => by simp at h
  | _ :: _, _, _, [], _, h, _, _, _ => by simp at h
  | r :: rs, w, w', p :: ps, qs, hlen, hp, h, hq => by
    rw [expandAll] at h
    obtain ⟨⟨q, w1⟩, h1, h2⟩ := bind_eq_ok h
    obtain ⟨⟨qs', w2⟩, h3, h4⟩ := bind_eq_ok h2
    simp only [Out.ok.injEq, Prod.mk.injEq] at h4
    obtain ⟨h4, _⟩ := h4
    subst h4
    simp only [List.map_cons, List.cons.injEq] at hq
    obtain ⟨s, t1, t2, t3, t4, t5, _, t7⟩ := expandOne_ok (hp p (List.mem_cons_self ..)) hu h1
    obtain ⟨ss, s1, s2, s3, s4, s5⟩ := expandAll_ok hu (by simpa using hlen)
      (fun x hx => hp x (List.mem_cons_of_mem _ hx)) h3 hq.2
    refine ⟨s :: ss, by rw [List.map_cons, t1, s1], ?_, by simp [s3], ?_, ?_⟩
    · intro x hx
      rcases List.mem_cons.1 hx with e | hx
      · subst e; exact t2
      · exact s2 x hx
    · intro x hx
      rw [List.zip_cons_cons] at hx
      rcases List.mem_cons.1 hx with e | hx
      · subst e
        unfold Sub.Fits
        cases he : s.ell with
        | true =>
          simp only [if_true]
          by_cases hr : r = 0
          · have := t5 he hr
            rw [← this]; exact Nat.le_of_eq hq.1
          · exact t4 he (by omega)
        | false =>
          simp only [Bool.false_eq_true, if_false]
          rw [← t3 he]; exact hq.1
      · exact s4 x hx
    · intro x hx c hc
      rw [List.map_cons, List.flatten_cons, List.mem_append]
      rcases List.mem_cons.1 hx with e | hx
      · subst e
        rcases t7 c hc with h5 | h5
        · exact .inl (.inl h5)
        · exact .inr h5
      · rcases s5 x hx c hc with h5 | h5
        · exact .inl (.inr h5)
        · exact .inr h5

/-! ## What `buildResult` accepts -/

theorem mapAll_lengths : ∀ {ss : List (List Char)} {ds : List (List Nat)} {m m' : Dims}, ss.length = ds.length →
    mapAll m ss ds = .ok m' → ss.map List.length = ds.map List.length
  | [], [], _, _, _, _ => rfl
  | [], _ :: _, _, _, h, _ => by simp at h
  | _ :: _, [], _, _, h, _ => by simp at h
  | s :: ss, d :: ds, m, m', hlen, h => by
    rw [mapAll] at h
    by_cases hl : s.length ≠ d.length
    · rw [if_pos hl] at h; cases h
    · rw [if_neg hl] at h
      obtain ⟨m1, _, h2⟩ := bind_eq_ok h
      simp only [List.map_cons, List.cons.injEq]
      exact ⟨by omega, mapAll_lengths (by simpa using hlen) h2⟩

theorem mapOne_keys : ∀ {cs : List Char} {ns : List Nat} {i : Nat} {m m' : Dims}, mapOne i m cs ns = .ok m' →
    ∀ c, (Dims.at? m' c).isSome → (Dims.at? m c).isSome ∨ c ∈ cs
  | [], [], _, m, m', h, c, hc => by simp only [mapOne, Out.ok.injEq] at h; subst h; exact .inl hc
  | [], _ :: _, _, m, m', h, c, hc => by simp only [mapOne, Out.ok.injEq] at h; subst h; exact .inl hc
  | _ :: _, [], _, m, m', h, c, hc => by simp only [mapOne, Out.ok.injEq] at h; subst h; exact .inl hc
  | d :: cs, n :: ns, i, m, m', h, c, hc => by
    rw [mapOne] at h
    by_cases hp : countPosition m i = true
    · rw [if_pos hp] at h
      cases ha : Dims.at? m d with
      | none => rw [ha] at h; cases h
      | some n' =>
        rw [ha] at h
        simp only at h
        by_cases hn : n' ≠ n
        · rw [if_pos hn] at h; cases h
        · rw [if_neg hn] at h
          rcases mapOne_keys h c hc with h1 | h1
          · exact .inl h1
          · exact .inr (List.mem_cons_of_mem _ h1)
    · rw [if_neg hp] at h
      rcases mapOne_keys h c hc with h1 | h1
      · rw [at?_insertDim] at h1
        by_cases hs : (Dims.at? m c).isSome = true
        · exact .inl hs
        · rw [if_neg hs] at h1
          by_cases he : d = c
          · subst he; exact .inr (List.mem_cons_self ..)
          · rw [if_neg he] at h1; cases h1
      · exact .inr (List.mem_cons_of_mem _ h1)

theorem mapAll_keys : ∀ {ss : List (List Char)} {ds : List (List Nat)} {m m' : Dims}, mapAll m ss ds = .ok m' →
    ∀ c, (Dims.at? m' c).isSome → (Dims.at? m c).isSome ∨ c ∈ ss.flatten
  | [], [], m, m', h, c, hc => by simp only [mapAll, Out.ok.injEq] at h; subst h; exact .inl hc
  | [], _ :: _, m, m', h, c, hc => by simp only [mapAll, Out.ok.injEq] at h; subst h; exact .inl hc
  | _ :: _, [], m, m', h, c, hc => by simp only [mapAll, Out.ok.injEq] at h; subst h; exact .inl hc
  | s :: ss, d :: ds, m, m', h, c, hc => by
    rw [mapAll] at h
    by_cases hl : s.length ≠ d.length
    · rw [if_pos hl] at h; cases h
    · rw [if_neg hl] at h
      obtain ⟨m1, h1, h2⟩ := bind_eq_ok h
      rw [List.flatten_cons, List.mem_append]
      rcases mapAll_keys h2 c hc with h3 | h3
      · rcases mapOne_keys h1 c h3 with h4 | h4
        · exact .inl h4
        · exact .inr (.inl h4)
      · exact .inr (.inr h3)

theorem lookupAll_ok {m : Dims} : ∀ {cs : List Char} {ns : List Nat}, lookupAll m cs = .ok ns →
    ∀ c ∈ cs, (Dims.at? m c).isSome
  | [], _, _, c, hc => by simp at hc
  | d :: cs, ns, h, c, hc => by
    rw [lookupAll] at h
    cases ha : Dims.at? m d with
    | none => rw [ha] at h; cases h
    | some n =>
      rw [ha] at h
      obtain ⟨ns', h1, _⟩ := bind_eq_ok h
      rcases List.mem_cons.1 hc with e | hc
      · subst e; rw [ha]; rfl
      · exact lookupAll_ok h1 c hc

theorem buildResult_ok {fo : Nat} {tensors : List (List Nat)} {input output : List Char} {r : Result}
    (hlen : (splitComma input).length = tensors.length) (h : buildResult fo tensors input output = .ok r) :
    (splitComma input).map List.length = tensors.map List.length ∧
    (∀ c ∈ output, c ∈ (splitComma input).flatten) := by
  unfold buildResult at h
  dsimp only at h
  obtain ⟨m, h1, h2⟩ := bind_eq_ok h
  obtain ⟨_, _, h3⟩ := bind_eq_ok h2
  obtain ⟨sh, h4, _⟩ := bind_eq_ok h3
  refine ⟨mapAll_lengths hlen h1, ?_⟩
  intro c hc
  rcases mapAll_keys h1 c (lookupAll_ok h4 c hc) with h5 | h5
  · simp [Dims.at?] at h5
  · exact h5

/-- The second half of the parser on a text with an arrow. -/
theorem finish_ok {fo : Nat} {tensors : List (List Nat)} {R : List (List Char)} {O old : List Char} {r : Result}
    (hne : R ≠ []) (hRlen : R.length = tensors.length) (hc : ∀ s ∈ R, ∀ c ∈ s, c ∈ alphabet) (hO : '-' ∉ O)
    (hsc : R = [[]] → tensors.map List.length = [0])
    (h : finish fo tensors (joinComma R ++ '-' :: '>' :: O) old = .ok r) :
    R.map List.length = tensors.map List.length ∧ ∀ c ∈ (if O = [] then old else O), c ∈ R.flatten := by
  have hd : '-' ∉ joinComma R := by
    intro h
    rcases mem_joinComma h with h | ⟨p, hp, h⟩
    · exact absurd h (by decide)
    · exact dash_na (hc p hp _ h)
  have hsplit : splitComma (joinComma R) = R := splitComma_join R hne (fun p hp h => comma_na (hc p hp _ h))
  unfold finish at h
  rw [breakArrow_some hd, if_pos (by simp)] at h
  obtain ⟨⟨p1, p2⟩, h1, h2⟩ := bind_eq_ok h
  dsimp only at h2
  split at h2
  · by_cases hn : (splitComma p1).length ≠ tensors.length
    · rw [if_pos hn] at h2; cases h2
    · rw [if_neg hn] at h2
      have hb := buildResult_ok (by omega) h2
      by_cases hj : joinComma R = []
      · -- nothing in front of the arrow
        exfalso
        have hR := join_nil hne hj
        have hT := hsc hR
        unfold takeArrow at h1
        rw [splitArrow_text hd hO, hj] at h1
        unfold pushPiece at h1
        rw [if_pos rfl, List.nil_append] at h1
        by_cases hOe : O = []
        · rw [if_pos hOe] at h1; cases h1
        · rw [if_neg hOe] at h1
          simp only [Out.ok.injEq, Prod.mk.injEq] at h1
          obtain ⟨h1, _⟩ := h1
          subst h1
          have hl := hb.1
          rw [hT] at hl
          have hj2 := join_splitComma O
          match hs : splitComma O, hl with
          | [q], hl =>
            rw [hs] at hj2
            simp only [List.map_cons, List.map_nil, List.cons.injEq, and_true, List.length_eq_zero_iff] at hl
            rw [hl, joinComma] at hj2
            exact hOe hj2.symm
          | [], hl => simp at hl
          | _ :: _ :: _, hl => simp at hl
      · rw [takeArrow_text hd hO hj] at h1
        simp only [Out.ok.injEq, Prod.mk.injEq] at h1
        obtain ⟨e1, e2⟩ := h1
        subst e1 e2
        rw [hsplit] at hb
        exact hb
  · cases h2

theorem construct_ok {s t : List Char} (h : construct s = .ok t) :
    t = s.filter (fun c => c != ' ') ∧ ∀ c ∈ t, c ∈ alphabet ∨ c = '.' ∨ c = ',' ∨ c = '-' ∨ c = '>' := by
  unfold construct at h
  by_cases hs : s = []
  · rw [if_pos hs] at h; cases h
  · rw [if_neg hs] at h
    dsimp only at h
    split at h
    · rename_i ha
      simp only [Out.ok.injEq] at h
      refine ⟨h.symm, ?_⟩
      intro c hc
      rw [← h] at hc
      have := List.all_eq_true.1 ha c hc
      simp only [Bool.or_eq_true, decide_eq_true_eq, mem_symbols, punct_iff] at this
      exact this
    · cases h

theorem hasOutput_ok {t : List Char} {b : Bool} (h : exprHasOutput t = .ok b) :
    badDash t = false ∧ t.count '-' = t.count '>' ∧ t.count '-' ≤ 1 ∧ b = (t.count '-' == 1) := by
  unfold exprHasOutput at h
  split at h
  · cases h
  · rename_i hb
    dsimp only at h
    split at h
    · cases h
    · rename_i hc
      simp only [Out.ok.injEq] at h
      refine ⟨by simpa using hb, ?_, ?_, h.symm⟩
      · omega
      · omega

theorem unused_alpha {t : List Char} {c : Char} (h : c ∈ unusedSymbols t) : c ∈ alphabet ∧ c ∉ t := by
  unfold unusedSymbols at h
  simp only [List.mem_filter, mem_symbols, Bool.not_eq_true', decide_eq_false_iff_not, not_and, Decidable.not_not] at h
  exact ⟨h.1, fun hc => alpha_not_punct h.1 (h.2 hc)⟩

/-- Subscripts without any dot. -/
theorem plain_subs : ∀ {ps : List (List Char)} {rs : List Nat}, ps.map List.length = rs →
    (∀ p ∈ ps, ∀ c ∈ p, c ∈ alphabet) →
    ∃ ss : List Sub, ss.map Sub.text = ps ∧ (∀ s ∈ ss, ∀ c ∈ s.letters, c ∈ alphabet) ∧ ss.length = rs.length ∧
      (∀ p ∈ ss.zip rs, p.1.Fits p.2) ∧ (ss.map Sub.letters).flatten = ps.flatten
  | [], [], _, _ => ⟨[], rfl, by simp, rfl, by simp, rfl⟩
  | [], _ :: _, h, _ => by simp at h
  | _ :: _, [], h, _ => by simp at h
  | p :: ps, r :: rs, h, hp => by
    simp only [List.map_cons, List.cons.injEq] at h
    obtain ⟨ss, s1, s2, s3, s4, s5⟩ := plain_subs h.2 (fun x hx => hp x (List.mem_cons_of_mem _ hx))
    have hl : (⟨p, false, []⟩ : Sub).letters = p := by simp [Sub.letters]
    refine ⟨⟨p, false, []⟩ :: ss, ?_, ?_, by simp [s3], ?_, ?_⟩
    · rw [List.map_cons, s1, text_noell rfl, hl]
    · intro x hx
      rcases List.mem_cons.1 hx with e | hx
      · subst e; rw [hl]; exact hp p (List.mem_cons_self ..)
      · exact s2 x hx
    · intro x hx
      rw [List.zip_cons_cons] at hx
      rcases List.mem_cons.1 hx with e | hx
      · subst e
        unfold Sub.Fits
        simp only [Bool.false_eq_true, if_false]
        rw [hl]; exact h.1
      · exact s4 x hx
    · rw [List.map_cons, List.flatten_cons, hl, s5, List.flatten_cons]

/-- The expansion keeps the number of inputs, and only a scalar's subscript becomes empty. -/
theorem expandAll_length {u : List Char} : ∀ {rs : List Nat} {w w' : Int} {ps qs : List (List Char)},
    ps.length = rs.length → expandAll u rs w ps = .ok (qs, w') → qs.length = rs.length
  | [], w, w', [], qs, _, h => by
    simp only [expandAll, Out.ok.injEq, Prod.mk.injEq] at h; rw [← h.1]; rfl
  | [], _, _, _ :: _, _, h, _ => by simp at h
  | _ :: _, _, _, [], _, h, _ => by simp at h
  | r :: rs, w, w', p :: ps, qs, hlen, h => by
    rw [expandAll] at h
    obtain ⟨⟨q, w1⟩, h1, h2⟩ := bind_eq_ok h
    obtain ⟨⟨qs', w2⟩, h3, h4⟩ := bind_eq_ok h2
    simp only [Out.ok.injEq, Prod.mk.injEq] at h4
    rw [← h4.1]
    simp [expandAll_length (by simpa using hlen) h3]

theorem expandOne_nil {u p : List Char} {r : Nat} {w w' : Int} (hp : p ≠ [])
    (h : expandOne u r w p = .ok ([], w')) : r = 0 := by
  unfold expandOne at h
  by_cases hd : '.' ∈ p
  · rw [if_pos hd] at h
    by_cases hbad : p.count '.' ≠ 3 ∨ breakEllipse p = none
    · rw [if_pos hbad] at h; cases h
    · rw [if_neg hbad] at h
      simp only [not_or, Decidable.not_not] at hbad
      obtain ⟨hc3, hbe⟩ := hbad
      obtain ⟨⟨x, y⟩, hxy⟩ := Option.ne_none_iff_exists'.1 hbe
      have hpe := ellipse_of_some hxy
      dsimp only at h
      by_cases hneg : ellipseCount r p < 0
      · rw [if_pos hneg] at h; cases h
      · rw [if_neg hneg] at h
        by_cases hz : ellipseCount r p = 0
        · rw [if_pos hz] at h
          simp only [Out.ok.injEq, Prod.mk.injEq] at h
          have h1 := h.1
          have hlen : p.length = 3 := by
            have hall : ∀ c ∈ p, c = '.' := by
              intro c hc
              by_cases e : c = '.'
              · exact e
              · have : c ∈ p.filter (fun c => c != '.') := List.mem_filter.2 ⟨hc, by simpa using e⟩
                rw [h1] at this; simp at this
            rw [← hc3]
            exact (List.count_eq_length.2 (fun c hc => (hall c hc).symm)).symm
          unfold ellipseCount at hz
          rw [hlen] at hz
          by_cases hr : r > 0
          · rw [if_pos hr] at hz; omega
          · omega
        · rw [if_neg hz] at h
          obtain ⟨new, h1, h2⟩ := bind_eq_ok h
          simp only [Out.ok.injEq, Prod.mk.injEq] at h2
          have h3 := h2.1
          unfold replaceEllipse at h3
          rw [hxy] at h3
          simp only [List.append_eq_nil_iff] at h3
          have hnew := h3.1.2
          unfold lastChars at h1
          split at h1
          · simp only [Out.ok.injEq] at h1
            have hl := congrArg List.length h1
            rw [hnew, List.length_drop] at hl
            simp only [List.length_nil] at hl
            omega
          · cases h1
  · rw [if_neg hd] at h
    simp only [Out.ok.injEq, Prod.mk.injEq] at h
    exact absurd h.1 hp

theorem expandAll_alpha {u : List Char} (hu : ∀ c ∈ u, c ∈ alphabet) : ∀ {rs : List Nat} {w w' : Int}
    {ps qs : List (List Char)}, ps.length = rs.length → (∀ p ∈ ps, ∀ c ∈ p, c ∈ alphabet ∨ c = '.') →
    expandAll u rs w ps = .ok (qs, w') → ∀ q ∈ qs, ∀ c ∈ q, c ∈ alphabet
  | [], w, w', [], qs, _, _, h => by
    simp only [expandAll, Out.ok.injEq, Prod.mk.injEq] at h; rw [← h.1]; simp
  | [], _, _, _ :: _, _, h, _, _ => by simp at h
  | _ :: _, _, _, [], _, h, _, _ => by simp at h
  | r :: rs, w, w', p :: ps, qs, hl, hp, h => by
    rw [expandAll] at h
    obtain ⟨⟨q, w1⟩, h1, h2⟩ := bind_eq_ok h
    obtain ⟨⟨qs', w2⟩, h3, h4⟩ := bind_eq_ok h2
    simp only [Out.ok.injEq, Prod.mk.injEq] at h4
    obtain ⟨h4, _⟩ := h4
    subst h4
    obtain ⟨s, _, t2, _, _, _, _, t7⟩ := expandOne_ok (hp p (List.mem_cons_self ..)) hu h1
    intro x hx c hc
    rcases List.mem_cons.1 hx with e | hx
    · subst e
      rcases t7 c hc with h5 | h5
      · exact t2 c h5
      · exact hu c h5
    · exact expandAll_alpha hu (by simpa using hl) (fun y hy => hp y (List.mem_cons_of_mem _ hy)) h3 x hx c hc

/-- A single subscript that is not empty only becomes empty for a scalar. -/
theorem expandAll_scalar {u a : List Char} {rs : List Nat} {w w' : Int} (ha : a ≠ [])
    (hl : (splitComma a).length = rs.length) (h : expandAll u rs w (splitComma a) = .ok ([[]], w')) : rs = [0] := by
  have hlen := expandAll_length hl h
  have hj := join_splitComma a
  match hs : splitComma a, hr : rs, hl, hlen, h with
  | [p], [r], _, _, h =>
    rw [hs, joinComma] at hj
    rw [expandAll] at h
    obtain ⟨⟨q, w1⟩, h1, h2⟩ := bind_eq_ok h
    obtain ⟨⟨qs', w2⟩, h3, h4⟩ := bind_eq_ok h2
    simp only [Out.ok.injEq, Prod.mk.injEq, List.cons.injEq] at h4
    rw [h4.1.1] at h1
    rw [expandOne_nil (by rw [hj]; exact ha) h1]
  | [], [r], hl, _, _ => simp [hs] at hl
  | _ :: _ :: _, [r], hl, _, _ => simp [hs] at hl
  | _, [], _, hlen, _ => simp at hlen
  | _, _ :: _ :: _, _, hlen, _ => simp at hlen

/-- The dotted case: the text that reaches the second half comes from subscripts. -/
theorem dotted {fo : Nat} {tensors : List (List Nat)} {t a O old : List Char} {R : List (List Char)} {w : Int}
    {r : Result} (ha : a ≠ []) (hp : ∀ p ∈ splitComma a, ∀ c ∈ p, c ∈ alphabet ∨ c = '.')
    (hlen : (splitComma a).length = tensors.length)
    (h7 : expandAll (unusedSymbols t) (tensors.map List.length) 0 (splitComma a) = .ok (R, w)) (hO : '-' ∉ O)
    (h : finish fo tensors (joinComma R ++ '-' :: '>' :: O) old = .ok r) :
    (∀ c ∈ (if O = [] then old else O), c ∈ R.flatten) ∧ (∀ q ∈ R, ∀ c ∈ q, c ∈ alphabet) ∧
    ∃ ss : List Sub, ss.map Sub.text = splitComma a ∧ (∀ s ∈ ss, ∀ c ∈ s.letters, c ∈ alphabet) ∧
      ss.length = (tensors.map List.length).length ∧ (∀ p ∈ ss.zip (tensors.map List.length), p.1.Fits p.2) ∧
      (∀ q ∈ R, ∀ c ∈ q, c ∈ (ss.map Sub.letters).flatten ∨ c ∈ unusedSymbols t) := by
  have hualpha : ∀ c ∈ unusedSymbols t, c ∈ alphabet := fun c hc => (unused_alpha hc).1
  have hlen' : (splitComma a).length = (tensors.map List.length).length := by simpa using hlen
  have hRlen := expandAll_length hlen' h7
  rw [List.length_map] at hRlen
  have hRa := expandAll_alpha hualpha hlen' hp h7
  have hRne : R ≠ [] := by
    intro e
    have h1 : (splitComma a).length = 0 := by rw [hlen, ← hRlen, e]; rfl
    exact splitCommaFrom_ne [] a (List.length_eq_zero_iff.1 h1)
  obtain ⟨hl, hout⟩ := finish_ok hRne hRlen hRa hO (by
    intro e
    rw [e] at h7
    exact expandAll_scalar ha hlen' h7) h
  exact ⟨hout, hRa, expandAll_ok hualpha hlen' hp h7 hl⟩

/-- A text the parser accepts is a well-formed expression, apart from two kinds of malformed text. -/
theorem parse_ok {fo : Nat} {tensors : List (List Nat)} {t : List Char} {r : Result}
    (hch : ∀ c ∈ t, c ∈ alphabet ∨ c = '.' ∨ c = ',' ∨ c = '-' ∨ c = '>')
    (hlast : t.getLast? ≠ some '-') (hfirst : t.head? ≠ some '-')
    (h : parseSubscripts fo tensors t = .ok r) :
    ∃ e : Ein, e.WF (tensors.map List.length) ∧ e.text = t := by
  unfold parseSubscripts at h
  obtain ⟨b, h1, h2⟩ := bind_eq_ok h
  obtain ⟨hbad, hcnt, hle, hb⟩ := hasOutput_ok h1
  obtain ⟨⟨a, old⟩, h3, h4⟩ := bind_eq_ok h2
  dsimp only at h4
  by_cases hn : (splitComma a).length ≠ tensors.length
  · rw [if_pos hn] at h4; cases h4
  rw [if_neg hn] at h4
  obtain ⟨t', h5, h6⟩ := bind_eq_ok h4
  have hlen : (splitComma a).length = tensors.length := by omega
  have hualpha : ∀ c ∈ unusedSymbols t, c ∈ alphabet := fun c hc => (unused_alpha hc).1
  have hpieces : ∀ (x : List Char), (∀ c ∈ x, c ∈ alphabet ∨ c = '.' ∨ c = ',') →
      ∀ p ∈ splitComma x, ∀ c ∈ p, c ∈ alphabet ∨ c = '.' := by
    intro x hx p hp c hc
    have h7 : c ∈ x := by rw [← join_splitComma x]; exact mem_join_of hp hc
    rcases hx c h7 with h8 | h8 | h8
    · exact .inl h8
    · exact .inr h8
    · subst h8; exact absurd hc (splitFrom_no_comma [] x (by simp) p hp)
  cases b with
  | false =>
    -- no arrow
    simp only [Bool.false_eq_true, if_false, Out.ok.injEq, Prod.mk.injEq] at h3
    obtain ⟨e1, e2⟩ := h3
    subst e1 e2
    have hz : t.count '-' = 0 := by
      have : (t.count '-' == 1) = false := hb.symm
      simp at this; omega
    have hnd : '-' ∉ t := List.count_eq_zero.1 hz
    have hng : '>' ∉ t := List.count_eq_zero.1 (by omega)
    have hch' : ∀ c ∈ t, c ∈ alphabet ∨ c = '.' ∨ c = ',' := by
      intro c hc
      rcases hch c hc with h | h | h | h | h
      · exact .inl h
      · exact .inr (.inl h)
      · exact .inr (.inr h)
      · subst h; exact absurd hc hnd
      · subst h; exact absurd hc hng
    have hp := hpieces t hch'
    have finishWF : ∀ ss : List Sub, ss.map Sub.text = splitComma t → (∀ s ∈ ss, ∀ c ∈ s.letters, c ∈ alphabet) →
        ss.length = (tensors.map List.length).length → (∀ p ∈ ss.zip (tensors.map List.length), p.1.Fits p.2) →
        ∃ e : Ein, e.WF (tensors.map List.length) ∧ e.text = t := by
      intro ss s1 s2 s3 s4
      refine ⟨⟨ss, none⟩, ⟨s2, by simp, ?_, s3, s4, by simp⟩, ?_⟩
      · intro hs
        have hs' : ss = [] := hs
        rw [hs'] at s1
        exact splitCommaFrom_ne [] t s1.symm
      · rw [text_none rfl]
        show joinComma (ss.map Sub.text) = t
        rw [s1, join_splitComma]
    unfold expandEllipses at h5
    by_cases hdot : '.' ∈ t
    · rw [if_pos hdot] at h5
      dsimp only at h5
      obtain ⟨⟨R, w⟩, h7, h8⟩ := bind_eq_ok h5
      obtain ⟨oe, h9, h10⟩ := bind_eq_ok h8
      simp only [Bool.false_eq_true, if_false, Out.ok.injEq] at h10
      rw [← h10] at h6
      have hoe : ∀ c ∈ oe, c ∈ alphabet := by
        intro c hc
        split at h9
        · unfold lastChars at h9
          split at h9
          · simp only [Out.ok.injEq] at h9
            rw [← h9] at hc
            exact hualpha c (List.mem_of_mem_drop hc)
          · cases h9
        · simp only [Out.ok.injEq] at h9
          rw [← h9] at hc; simp at hc
      have hRa := expandAll_alpha hualpha (by simpa using hlen) hp h7
      have hO : '-' ∉ oe ++ sortChars ((findUniqueIndices (joinComma R)).filter (fun c => !decide (c ∈ oe))) := by
        intro hm
        rcases List.mem_append.1 hm with hm | hm
        · exact dash_na (hoe _ hm)
        · have h11 : '-' ∈ (findUniqueIndices (joinComma R)).filter (fun c => !decide (c ∈ oe)) := by
            apply List.count_pos_iff.1
            rw [← count_sortChars]
            exact List.count_pos_iff.2 hm
          have h12 := mem_unique.1 (List.mem_filter.1 h11).1
          have h13 : '-' ∈ plain (joinComma R) := List.count_pos_iff.1 (by omega)
          rcases mem_joinComma (List.mem_filter.1 h13).1 with h14 | ⟨q, hq, h14⟩
          · exact absurd h14 (by decide)
          · exact dash_na (hRa q hq _ h14)
      obtain ⟨_, _, ss, s1, s2, s3, s4, _⟩ := dotted (by intro e; subst e; simp at hdot) hp hlen h7 hO h6
      exact finishWF ss s1 s2 s3 s4
    · rw [if_neg hdot] at h5
      simp only [Out.ok.injEq] at h5
      subst h5
      unfold finish at h6
      rw [breakArrow_none hnd, if_neg (by simp), bind_ok] at h6
      dsimp only at h6
      split at h6
      · obtain ⟨hl, _⟩ := buildResult_ok hlen h6
        obtain ⟨ss, s1, s2, s3, s4, _⟩ := plain_subs hl (by
          intro p hpm c hc
          rcases hp p hpm c hc with h | h
          · exact h
          · subst h
            exact absurd (by rw [← join_splitComma t]; exact mem_join_of hpm hc) hdot)
        exact finishWF ss s1 s2 s3 s4
      · cases h6
  | true =>
    simp only [if_true] at h3
    have h1' : t.count '-' = 1 := by
      have : (t.count '-' == 1) = true := hb.symm
      simpa using this
    have hd : '-' ∈ t := List.count_pos_iff.1 (by omega)
    obtain ⟨⟨x, y⟩, hxy⟩ := Option.ne_none_iff_exists'.1 (arrow_of_dash hbad hlast hd)
    have ht := break_of_some hxy
    have hcd : x.count '-' = 0 ∧ y.count '-' = 0 := by
      rw [ht, List.count_append, List.count_cons_self, List.count_cons_of_ne (by decide)] at h1'
      omega
    have hcg : x.count '>' = 0 ∧ y.count '>' = 0 := by
      rw [hcnt, ht, List.count_append, List.count_cons_of_ne (by decide), List.count_cons_self] at h1'
      omega
    have hxd := List.count_eq_zero.1 hcd.1
    have hyd := List.count_eq_zero.1 hcd.2
    have hxg := List.count_eq_zero.1 hcg.1
    have hyg := List.count_eq_zero.1 hcg.2
    have hxne : x ≠ [] := by
      intro e
      subst e
      rw [ht] at hfirst
      simp at hfirst
    have hxy' : ∀ z : List Char, (∀ c ∈ z, c ∈ t) → '-' ∉ z → '>' ∉ z → ∀ c ∈ z, c ∈ alphabet ∨ c = '.' ∨ c = ',' := by
      intro z hz hzd hzg c hc
      rcases hch c (hz c hc) with h | h | h | h | h
      · exact .inl h
      · exact .inr (.inl h)
      · exact .inr (.inr h)
      · subst h; exact absurd hc hzd
      · subst h; exact absurd hc hzg
    have hxt : ∀ c ∈ x, c ∈ t := by intro c hc; rw [ht]; exact List.mem_append_left _ hc
    have hyt : ∀ c ∈ y, c ∈ t := by intro c hc; rw [ht]; simp [hc]
    have hp := hpieces x (hxy' x hxt hxd hxg)
    rw [ht, takeArrow_text hxd hyd hxne] at h3
    have e1 : (if y = [] then [] else y) = y := by
      by_cases hh : y = []
      · rw [if_pos hh, hh]
      · rw [if_neg hh]
    rw [e1] at h3
    simp only [Out.ok.injEq, Prod.mk.injEq] at h3
    obtain ⟨e2, e3⟩ := h3
    subst e2 e3
    have finishWF : ∀ (ss : List Sub) (o : Sub), ss.map Sub.text = splitComma x →
        (∀ s ∈ ss, ∀ c ∈ s.letters, c ∈ alphabet) →
        ss.length = (tensors.map List.length).length → (∀ p ∈ ss.zip (tensors.map List.length), p.1.Fits p.2) →
        o.text = y → (∀ c ∈ o.letters, c ∈ (ss.map Sub.letters).flatten) →
        ∃ e : Ein, e.WF (tensors.map List.length) ∧ e.text = t := by
      intro ss o s1 s2 s3 s4 o1 o2
      refine ⟨⟨ss, some o⟩, ⟨s2, ?_, ?_, s3, s4, ?_⟩, ?_⟩
      · intro o' ho c hc
        simp only [Option.some.injEq] at ho
        subst ho
        obtain ⟨l, hl, hcl⟩ := List.mem_flatten.1 (o2 c hc)
        obtain ⟨s, hs, rfl⟩ := List.mem_map.1 hl
        exact s2 s hs c hcl
      · intro hs
        have hs' : ss = [] := hs
        rw [hs'] at s1
        exact splitCommaFrom_ne [] x s1.symm
      · intro o' ho c hc
        simp only [Option.some.injEq] at ho
        subst ho
        exact o2 c hc
      · rw [text_some rfl]
        show joinComma (ss.map Sub.text) ++ '-' :: '>' :: o.text = t
        rw [s1, join_splitComma, o1, ht]
    unfold expandEllipses at h5
    by_cases hdot : '.' ∈ t
    · rw [if_pos hdot] at h5
      dsimp only at h5
      obtain ⟨⟨R, w⟩, h7, h8⟩ := bind_eq_ok h5
      obtain ⟨oe, h9, h10⟩ := bind_eq_ok h8
      simp only [if_true, Out.ok.injEq] at h10
      rw [← h10] at h6
      have hoe : ∀ c ∈ oe, c ∈ alphabet := by
        intro c hc
        split at h9
        · unfold lastChars at h9
          split at h9
          · simp only [Out.ok.injEq] at h9
            rw [← h9] at hc
            exact hualpha c (List.mem_of_mem_drop hc)
          · cases h9
        · simp only [Out.ok.injEq] at h9
          rw [← h9] at hc; simp at hc
      have hsub : ∀ c ∈ replaceEllipse y oe, c ∈ y ∨ c ∈ oe := by
        intro c hc
        unfold replaceEllipse at hc
        cases hbe : breakEllipse y with
        | none => rw [hbe] at hc; exact .inl hc
        | some ab =>
          obtain ⟨p, q⟩ := ab
          have hye := ellipse_of_some hbe
          rw [hbe] at hc
          simp only [List.mem_append] at hc
          rcases hc with (hc | hc) | hc
          · left; rw [hye]; exact List.mem_append_left _ hc
          · exact .inr hc
          · left; rw [hye]; simp [hc]
      have hO : '-' ∉ replaceEllipse y oe := by
        intro hm
        rcases hsub _ hm with hm | hm
        · exact hyd hm
        · exact dash_na (hoe _ hm)
      obtain ⟨hout, hRa, ss, s1, s2, s3, s4, s5⟩ := dotted hxne hp hlen h7 hO h6
      -- letters of the text that are indices of the operands are letters of the operands
      have hknown : ∀ c ∈ y, c ∈ R.flatten → c ∈ (ss.map Sub.letters).flatten := by
        intro c hcy hc
        obtain ⟨q, hq, hcq⟩ := List.mem_flatten.1 hc
        rcases s5 q hq c hcq with h11 | h11
        · exact h11
        · exact absurd (hyt c hcy) (unused_alpha h11).2
      have hRal : ∀ c ∈ R.flatten, c ∈ alphabet := by
        intro c hc
        obtain ⟨q, hq, hcq⟩ := List.mem_flatten.1 hc
        exact hRa q hq c hcq
      cases hbe : breakEllipse y with
      | none =>
        have hre : replaceEllipse y oe = y := by unfold replaceEllipse; rw [hbe]
        rw [hre] at hout
        have hout' : ∀ c ∈ y, c ∈ R.flatten := by
          intro c hc
          apply hout
          split
          · exact hc
          · exact hc
        refine finishWF ss ⟨y, false, []⟩ s1 s2 s3 s4 ?_ ?_
        · rw [text_noell rfl]; simp [Sub.letters]
        · intro c hc
          simp only [Sub.letters, List.append_nil] at hc
          exact hknown c hc (hout' c hc)
      | some ab =>
        obtain ⟨p, q⟩ := ab
        have hye := ellipse_of_some hbe
        have hre : replaceEllipse y oe = p ++ oe ++ q := by unfold replaceEllipse; rw [hbe]
        rw [hre] at hout
        by_cases hemp : p ++ oe ++ q = []
        · rw [if_pos hemp] at hout
          have : '.' ∈ y := by rw [hye]; simp
          exact absurd (hRal _ (hout _ this)) dot_na
        · rw [if_neg hemp] at hout
          refine finishWF ss ⟨p, true, q⟩ s1 s2 s3 s4 ?_ ?_
          · rw [text_ell rfl, hye]
          · intro c hc
            unfold Sub.letters at hc
            rcases List.mem_append.1 hc with hc | hc
            · exact hknown c (by rw [hye]; exact List.mem_append_left _ hc) (hout c (by simp [hc]))
            · exact hknown c (by rw [hye]; simp [hc]) (hout c (by simp [hc]))
    · rw [if_neg hdot] at h5
      simp only [Out.ok.injEq] at h5
      subst h5
      have hpa : ∀ p ∈ splitComma x, ∀ c ∈ p, c ∈ alphabet := by
        intro p hpm c hc
        rcases hp p hpm c hc with h | h
        · exact h
        · subst h
          exact absurd (hxt _ (by rw [← join_splitComma x]; exact mem_join_of hpm hc)) hdot
      rw [ht] at h6
      have hjx : joinComma (splitComma x) = x := join_splitComma x
      rw [← hjx] at h6
      obtain ⟨hl, hout⟩ := finish_ok (splitCommaFrom_ne [] x) hlen hpa hyd (by
        intro e
        have e' : splitComma x = [[]] := e
        rw [e', joinComma] at hjx
        exact absurd hjx.symm hxne) h6
      have hout' : ∀ c ∈ y, c ∈ (splitComma x).flatten := by
        intro c hc
        apply hout
        split
        · exact hc
        · exact hc
      obtain ⟨ss, s1, s2, s3, s4, s5⟩ := plain_subs hl hpa
      refine finishWF ss ⟨y, false, []⟩ s1 s2 s3 s4 ?_ ?_
      · rw [text_noell rfl]; simp [Sub.letters]
      · intro c hc
        simp only [Sub.letters, List.append_nil] at hc
        rw [s5]
        exact hout' c hc

end Verif.Einsum
