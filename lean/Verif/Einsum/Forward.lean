import Verif.Einsum.Lemmas

/-! # Well-formed einsum strings are read as they are meant -/

namespace Verif.Einsum

/-! ## The characters of the text -/

theorem letters_of_input {e : Ein} {s : Sub} {c : Char} (hs : s ∈ e.inputs) (hc : c ∈ s.letters) : c ∈ e.letters :=
  List.mem_flatten.2 ⟨s.letters, List.mem_map_of_mem hs, hc⟩

theorem letters_alpha {e : Ein} {orders : List Nat} (h : e.WF orders) {c : Char} (hc : c ∈ e.letters) :
    c ∈ alphabet := by
  obtain ⟨l, hl, hc⟩ := List.mem_flatten.1 hc
  obtain ⟨s, hs, rfl⟩ := List.mem_map.1 hl
  exact h.lettersIn s hs c hc

theorem join_chars {ss : List Sub} (hl : ∀ s ∈ ss, ∀ c ∈ s.letters, c ∈ alphabet) {c : Char}
    (hc : c ∈ joinComma (ss.map Sub.text)) : c ∈ alphabet ∨ c = '.' ∨ c = ',' := by
  rcases mem_joinComma hc with h | ⟨p, hp, h⟩
  · exact .inr (.inr h)
  · obtain ⟨s, hs, rfl⟩ := List.mem_map.1 hp
    rcases mem_text h with h | h
    · exact .inl (hl s hs c h)
    · exact .inr (.inl h)

theorem join_no {ss : List Sub} (hl : ∀ s ∈ ss, ∀ c ∈ s.letters, c ∈ alphabet) {d : Char}
    (hd : d ∉ alphabet) (h1 : d ≠ '.') (h2 : d ≠ ',') : d ∉ joinComma (ss.map Sub.text) := by
  intro h
  rcases join_chars hl h with h | h | h
  · exact hd h
  · exact h1 h
  · exact h2 h

theorem text_no {s : Sub} (hl : ∀ c ∈ s.letters, c ∈ alphabet) {d : Char}
    (hd : d ∉ alphabet) (h1 : d ≠ '.') : d ∉ s.text := by
  intro h
  rcases mem_text h with h | h
  · exact hd (hl _ h)
  · exact h1 h

theorem text_none {e : Ein} (h : e.output = none) : e.text = joinComma (e.inputs.map Sub.text) := by
  unfold Ein.text; rw [h, join_eq_intercalate]; simp

theorem text_some {e : Ein} {o : Sub} (h : e.output = some o) :
    e.text = joinComma (e.inputs.map Sub.text) ++ '-' :: '>' :: o.text := by
  unfold Ein.text; rw [h, join_eq_intercalate]

theorem badDash_none {s : List Char} (h : '-' ∉ s) : badDash s = false := by
  induction s with
  | nil => rfl
  | cons c s ih =>
    simp only [List.mem_cons, not_or] at h
    cases s with
    | nil => rfl
    | cons d s =>
      rw [badDash, ih h.2]
      have : c ≠ '-' := Ne.symm h.1
      simp [this]

theorem badDash_arrow {a b : List Char} (ha : '-' ∉ a) (hb : '-' ∉ b) :
    badDash (a ++ '-' :: '>' :: b) = false := by
  induction a with
  | nil =>
    rw [List.nil_append, badDash]
    have : badDash ('>' :: b) = false := badDash_none (by simp [hb])
    simp [this]
  | cons c a ih =>
    simp only [List.mem_cons, not_or] at ha
    have hc : c ≠ '-' := Ne.symm ha.1
    have ih := ih ha.2
    cases a with
    | nil => simp only [List.nil_append, List.cons_append] at ih ⊢; rw [badDash, ih]; simp [hc]
    | cons d a => simp only [List.cons_append] at ih ⊢; rw [badDash, ih]; simp [hc]

theorem hasOutput_text {e : Ein} {orders : List Nat} (h : e.WF orders) :
    exprHasOutput e.text = .ok e.output.isSome := by
  have hd := join_no (ss := e.inputs) h.lettersIn dash_na (by decide) (by decide)
  have hg := join_no (ss := e.inputs) h.lettersIn gt_na (by decide) (by decide)
  unfold exprHasOutput
  cases ho : e.output with
  | none =>
    rw [text_none ho, badDash_none hd]
    simp [List.count_eq_zero.2 hd, List.count_eq_zero.2 hg]
  | some o =>
    have hd' := text_no (s := o) (h.lettersOut o ho) dash_na (by decide)
    have hg' := text_no (s := o) (h.lettersOut o ho) gt_na (by decide)
    rw [text_some ho, badDash_arrow hd hd']
    have e1 : (joinComma (e.inputs.map Sub.text) ++ '-' :: '>' :: o.text).count '-' = 1 := by
      rw [List.count_append, List.count_cons_self, List.count_cons_of_ne (by decide),
        List.count_eq_zero.2 hd, List.count_eq_zero.2 hd']
    have e2 : (joinComma (e.inputs.map Sub.text) ++ '-' :: '>' :: o.text).count '>' = 1 := by
      rw [List.count_append, List.count_cons_of_ne (by decide), List.count_cons_self,
        List.count_eq_zero.2 hg, List.count_eq_zero.2 hg']
    simp [e1, e2]

theorem text_chars {e : Ein} {orders : List Nat} (h : e.WF orders) {c : Char} (hc : c ∈ e.text) :
    c ∈ e.letters ∨ c ∈ punctuation := by
  rw [punct_iff]
  have key : c ∈ joinComma (e.inputs.map Sub.text) → c ∈ e.letters ∨ c = '.' ∨ c = ',' ∨ c = '-' ∨ c = '>' := by
    intro hc
    rcases mem_joinComma hc with h1 | ⟨p, hp, h1⟩
    · exact .inr (.inr (.inl h1))
    · obtain ⟨s, hs, rfl⟩ := List.mem_map.1 hp
      rcases mem_text h1 with h2 | h2
      · exact .inl (letters_of_input hs h2)
      · exact .inr (.inl h2)
  cases ho : e.output with
  | none => rw [text_none ho] at hc; exact key hc
  | some o =>
    rw [text_some ho] at hc
    simp only [List.mem_append, List.mem_cons] at hc
    rcases hc with hc | hc | hc | hc
    · exact key hc
    · exact .inr (.inr (.inr (.inl hc)))
    · exact .inr (.inr (.inr (.inr hc)))
    · rcases mem_text hc with h2 | h2
      · exact .inl (h.known o ho c h2)
      · exact .inr (.inl h2)

theorem letters_in_text {e : Ein} {c : Char} (hc : c ∈ e.letters) : c ∈ e.text := by
  obtain ⟨l, hl, hc⟩ := List.mem_flatten.1 hc
  obtain ⟨s, hs, rfl⟩ := List.mem_map.1 hl
  have : c ∈ joinComma (e.inputs.map Sub.text) := mem_join_of (List.mem_map_of_mem hs) (letters_mem_text hc)
  cases ho : e.output with
  | none => rw [text_none ho]; exact this
  | some o => rw [text_some ho]; exact List.mem_append_left _ this

theorem construct_text {e : Ein} {orders : List Nat} (h : e.WF orders) {s : List Char} (hs : s ≠ [])
    (ht : s.filter (fun c => c != ' ') = e.text) : construct s = .ok e.text := by
  unfold construct
  rw [if_neg hs, ht]
  dsimp only
  rw [if_pos]
  rw [List.all_eq_true]
  intro c hc
  rcases text_chars h hc with h1 | h1
  · simp [mem_symbols.2 (letters_alpha h h1)]
  · simp [h1]

/-! ## The unused letters -/

theorem mem_unused {e : Ein} {orders : List Nat} (h : e.WF orders) {c : Char} :
    c ∈ unusedSymbols e.text ↔ c ∈ alphabet ∧ c ∉ e.letters := by
  unfold unusedSymbols
  simp only [List.mem_filter, mem_symbols, Bool.not_eq_true', decide_eq_false_iff_not, not_and, Decidable.not_not]
  constructor
  · rintro ⟨h1, h2⟩
    refine ⟨h1, fun h3 => ?_⟩
    exact alpha_not_punct h1 (h2 (letters_in_text h3))
  · rintro ⟨h1, h2⟩
    refine ⟨h1, fun h3 => ?_⟩
    rcases text_chars h h3 with h4 | h4
    · exact absurd h4 h2
    · exact h4

theorem unused_nodup (s : List Char) : (unusedSymbols s).Nodup :=
  List.Pairwise.sublist List.filter_sublist symbols_nodup

theorem unused_length {e : Ein} {orders : List Nat} (h : e.WF orders) :
    (unusedSymbols e.text).length = (alphabet.filter (fun c => !decide (c ∈ e.letters))).length := by
  rw [← filter_symbols_length]
  congr 1
  unfold unusedSymbols
  apply List.filter_congr
  intro c hc
  have ha := mem_symbols.1 hc
  congr 1
  rw [decide_eq_decide]
  simp only [List.mem_filter, Bool.not_eq_true', decide_eq_false_iff_not]
  constructor
  · rintro ⟨h1, h2⟩
    rcases text_chars h h1 with h3 | h3
    · exact h3
    · exact absurd h3 h2
  · intro h1
    exact ⟨letters_in_text h1, alpha_not_punct ha⟩

/-! ## Labels -/

theorem labels_mem {s : Sub} {n : Nat} {l : Label} (h : l ∈ s.labels n) :
    (∃ c ∈ s.letters, l = .letter c) ∨ (s.ell = true ∧ ∃ k, k < n ∧ l = .bcast k) := by
  unfold Sub.labels at h
  unfold Sub.letters
  simp only [List.mem_append, List.mem_map] at h
  rcases h with ⟨c, hc, rfl⟩ | h | ⟨c, hc, rfl⟩
  · exact .inl ⟨c, List.mem_append_left _ hc, rfl⟩
  · cases he : s.ell with
    | true => simp only [he, if_true] at h; exact .inr ⟨rfl, mem_bcasts.1 h⟩
    | false => simp [he] at h
  · exact .inl ⟨c, List.mem_append_right _ hc, rfl⟩

theorem letter_mem_labels {s : Sub} {n : Nat} {c : Char} (h : c ∈ s.letters) : .letter c ∈ s.labels n := by
  unfold Sub.labels
  unfold Sub.letters at h
  simp only [List.mem_append, List.mem_map]
  rcases List.mem_append.1 h with h | h
  · exact .inl ⟨c, h, rfl⟩
  · exact .inr (.inr ⟨c, h, rfl⟩)

theorem width_pos_ell {s : Sub} {r : Nat} (h : 0 < s.width r) : s.ell = true := by
  unfold Sub.width at h
  cases he : s.ell with
  | true => rfl
  | false => simp [he] at h

theorem inputLabels_mem : ∀ {ss : List Sub} {rs : List Nat} {ls : List Label}, ls ∈ inputLabels ss rs →
    ∃ s ∈ ss, ∃ r ∈ rs, ls = s.labels (s.width r) ∧ s.width r ≤ width ss rs
  | [], _, _, h => by simp [inputLabels] at h
  | _ :: _, [], _, h => by simp [inputLabels] at h
  | s :: ss, r :: rs, ls, h => by
    rw [inputLabels, List.mem_cons] at h
    rw [width_cons]
    rcases h with h | h
    · exact ⟨s, List.mem_cons_self .., r, List.mem_cons_self .., h, by omega⟩
    · obtain ⟨s', h1, r', h2, h3, h4⟩ := inputLabels_mem h
      exact ⟨s', List.mem_cons_of_mem _ h1, r', List.mem_cons_of_mem _ h2, h3, by omega⟩

/-- The labels that occur in the operands: letters, and broadcast dimensions below the width. -/
theorem flat_mem {e : Ein} {orders : List Nat} {l : Label} (h : l ∈ (inputLabels e.inputs orders).flatten) :
    (∃ c ∈ e.letters, l = .letter c) ∨ ∃ k, k < width e.inputs orders ∧ l = .bcast k := by
  obtain ⟨ls, h1, h2⟩ := List.mem_flatten.1 h
  obtain ⟨s, hs, r, _, rfl, hw⟩ := inputLabels_mem h1
  rcases labels_mem h2 with ⟨c, hc, e⟩ | ⟨_, k, hk, e⟩
  · exact .inl ⟨c, letters_of_input hs hc, e⟩
  · exact .inr ⟨k, by omega, e⟩

theorem letter_mem_flat : ∀ {ss : List Sub} {rs : List Nat}, ss.length = rs.length → ∀ {s : Sub}, s ∈ ss →
    ∀ {c : Char}, c ∈ s.letters → .letter c ∈ (inputLabels ss rs).flatten
  | [], _, _, _, h, _, _ => by simp at h
  | _ :: _, [], h, _, _, _, _ => by simp at h
  | t :: ss, r :: rs, hlen, s, hs, c, hc => by
    rw [inputLabels, List.flatten_cons, List.mem_append]
    rcases List.mem_cons.1 hs with h | h
    · subst h; exact .inl (letter_mem_labels hc)
    · exact .inr (letter_mem_flat (by simpa using hlen) h hc)

theorem bcast_mem_flat : ∀ {ss : List Sub} {rs : List Nat} {k : Nat}, k < width ss rs →
    .bcast k ∈ (inputLabels ss rs).flatten
  | [], _, _, h => by simp [width] at h
  | _ :: _, [], _, h => by simp [width] at h
  | s :: ss, r :: rs, k, h => by
    rw [width_cons] at h
    rw [inputLabels, List.flatten_cons, List.mem_append]
    by_cases hk : k < s.width r
    · left
      have he := width_pos_ell (Nat.lt_of_le_of_lt (Nat.zero_le _) hk)
      unfold Sub.labels
      simp only [he, if_true, List.mem_append]
      exact .inr (.inl (mem_bcasts.2 ⟨k, hk, rfl⟩))
    · exact .inr (bcast_mem_flat (by omega))

theorem out_mem_flat {e : Ein} {orders : List Nat} (h : e.WF orders) {l : Label}
    (hl : l ∈ e.outputLabels orders) : l ∈ (inputLabels e.inputs orders).flatten := by
  have hlet : ∀ c ∈ e.letters, Label.letter c ∈ (inputLabels e.inputs orders).flatten := by
    intro c hc
    obtain ⟨l, hl, hc⟩ := List.mem_flatten.1 hc
    obtain ⟨s, hs, rfl⟩ := List.mem_map.1 hl
    exact letter_mem_flat h.count hs hc
  unfold Ein.outputLabels at hl
  cases ho : e.output with
  | some o =>
    rw [ho] at hl
    rcases labels_mem hl with ⟨c, hc, rfl⟩ | ⟨_, k, hk, rfl⟩
    · exact hlet c (h.known o ho c hc)
    · exact bcast_mem_flat hk
  | none =>
    rw [ho] at hl
    simp only [List.mem_append, List.mem_map, List.mem_filter, beq_iff_eq] at hl
    rcases hl with hl | ⟨c, ⟨_, hc⟩, rfl⟩
    · obtain ⟨k, hk, rfl⟩ := mem_bcasts.1 hl
      exact bcast_mem_flat hk
    · exact hlet c (List.count_pos_iff.1 (by omega))

theorem labels_length {s : Sub} {r : Nat} (h : s.Fits r) : (s.labels (s.width r)).length = r := by
  unfold Sub.Fits at h
  unfold Sub.labels Sub.width
  unfold Sub.letters at h ⊢
  simp only [List.length_append, List.length_map] at h ⊢
  cases he : s.ell with
  | true =>
    simp only [he, if_true, length_bcasts] at h ⊢; omega
  | false =>
    simp only [he, Bool.false_eq_true, if_false, List.length_nil] at h ⊢; omega

theorem inputLabels_lengths : ∀ {ss : List Sub} {rs : List Nat}, ss.length = rs.length →
    (∀ p ∈ ss.zip rs, p.1.Fits p.2) → (inputLabels ss rs).map List.length = rs
  | [], [], _, _ => rfl
  | [], _ :: _, h, _ => by simp at h
  | _ :: _, [], h, _ => by simp at h
  | s :: ss, r :: rs, hlen, hf => by
    have hfs : s.Fits r := hf (s, r) (by simp [List.zip_cons_cons])
    rw [inputLabels, List.map_cons, labels_length hfs, inputLabels_lengths (by simpa using hlen)
      (fun p hp => hf p (by rw [List.zip_cons_cons]; exact List.mem_cons_of_mem _ hp))]

/-! ## The output without an arrow -/

theorem count_labels {u : List Char} {s : Sub} {n : Nat} {c : Char} (hc : c ∉ (bcasts n).map (rename u)) :
    ((s.labels n).map (rename u)).count c = s.letters.count c := by
  rw [labels_rename, List.count_append, List.count_append]
  unfold Sub.letters
  rw [List.count_append]
  have : (if s.ell = true then (bcasts n).map (rename u) else []).count c = 0 := by
    split
    · exact List.count_eq_zero.2 hc
    · rfl
  omega

theorem bcasts_mono {u : List Char} {n w : Nat} (h : n ≤ w) {c : Char} (hc : c ∉ (bcasts w).map (rename u)) :
    c ∉ (bcasts n).map (rename u) := by
  intro hm
  obtain ⟨l, hl, e⟩ := List.mem_map.1 hm
  obtain ⟨k, hk, rfl⟩ := mem_bcasts.1 hl
  exact hc (List.mem_map.2 ⟨_, mem_bcasts.2 ⟨k, by omega, rfl⟩, e⟩)

theorem count_flat {u : List Char} {c : Char} : ∀ {ss : List Sub} {rs : List Nat} {w : Nat}, ss.length = rs.length →
    width ss rs ≤ w → c ∉ (bcasts w).map (rename u) →
    (((inputLabels ss rs).map (List.map (rename u))).flatten).count c = ((ss.map Sub.letters).flatten).count c
  | [], [], _, _, _, _ => rfl
  | [], _ :: _, _, h, _, _ => by simp at h
  | _ :: _, [], _, h, _, _ => by simp at h
  | s :: ss, r :: rs, w, hlen, hw, hc => by
    rw [width_cons] at hw
    rw [inputLabels, List.map_cons, List.flatten_cons, List.count_append, List.map_cons, List.flatten_cons,
      List.count_append, count_labels (bcasts_mono (by omega) hc), count_flat (by simpa using hlen) (by omega) hc]

/-- The letters of the operands and of the broadcast dimensions are letters. -/
theorem rename_alpha {e : Ein} {orders : List Nat} (h : e.WF orders)
    (hu : width e.inputs orders ≤ (unusedSymbols e.text).length) :
    ∀ s ∈ (inputLabels e.inputs orders).map (List.map (rename (unusedSymbols e.text))), ∀ c ∈ s, c ∈ alphabet := by
  intro s hs c hc
  obtain ⟨ls, h1, rfl⟩ := List.mem_map.1 hs
  obtain ⟨l, h2, rfl⟩ := List.mem_map.1 hc
  rcases flat_mem (List.mem_flatten.2 ⟨ls, h1, h2⟩) with ⟨d, hd, rfl⟩ | ⟨k, hk, rfl⟩
  · exact letters_alpha h hd
  · exact ((mem_unused h).1 (rename_bcast_mem (by omega))).1

theorem unique_eq {e : Ein} {orders : List Nat} (h : e.WF orders)
    (hu : width e.inputs orders ≤ (unusedSymbols e.text).length) :
    (findUniqueIndices (joinComma ((inputLabels e.inputs orders).map (List.map (rename (unusedSymbols e.text)))))).filter
        (fun c => !decide (c ∈ (bcasts (width e.inputs orders)).map (rename (unusedSymbols e.text)))) =
      alphabet.filter (fun c => e.letters.count c == 1) := by
  apply strict_ext
  · exact strict_filter _ (strict_unique _)
  · exact strict_filter _ alphabet_strict
  · intro c
    have hra := rename_alpha h hu
    simp only [List.mem_filter, mem_unique, Bool.not_eq_true', decide_eq_false_iff_not, beq_iff_eq]
    rw [plain_join _ (fun p hp c hc =>
      ⟨not_alpha dot_na (hra p hp c hc), not_alpha comma_na (hra p hp c hc)⟩)]
    constructor
    · rintro ⟨h1, h2⟩
      rw [count_flat h.count (Nat.le_refl _) h2] at h1
      refine ⟨letters_alpha h (e := e) ?_, h1⟩
      exact List.count_pos_iff.1 (show 0 < e.letters.count c by unfold Ein.letters; omega)
    · rintro ⟨h1, h2⟩
      have hcl : c ∈ e.letters := List.count_pos_iff.1 (by omega)
      have hno : c ∉ (bcasts (width e.inputs orders)).map (rename (unusedSymbols e.text)) := by
        intro hm
        obtain ⟨l, hl, e1⟩ := List.mem_map.1 hm
        obtain ⟨k, hk, rfl⟩ := mem_bcasts.1 hl
        have := rename_bcast_mem (u := unusedSymbols e.text) (k := k) (by omega)
        rw [e1] at this
        exact ((mem_unused h).1 this).2 hcl
      refine ⟨?_, hno⟩
      rw [count_flat h.count (Nat.le_refl _) hno]
      exact h2

/-! ## Putting it together -/

theorem join_nil {R : List (List Char)} (hne : R ≠ []) (h : joinComma R = []) : R = [[]] := by
  match R, hne, h with
  | [p], _, h => rw [joinComma] at h; rw [h]
  | p :: q :: rest, _, h => rw [joinComma] at h; simp at h

theorem finish_arrow {fo : Nat} {tensors : List (List Nat)} {R : List (List Char)} {O old : List Char}
    (hne : R ≠ []) (hne' : R ≠ [[]]) (hc : ∀ s ∈ R, ∀ c ∈ s, c ∈ alphabet)
    (hlen : R.map List.length = tensors.map List.length) (hr : ∀ t ∈ tensors, t.length ≤ 65)
    (hout : ∀ c ∈ O, c ∈ R.flatten) (hfo : fo = 0 ∨ fo = O.length) (hold : O = [] → old = []) :
    finish fo tensors (joinComma R ++ '-' :: '>' :: O) old =
      .ok ⟨R, O, O.map (extent (labelled R tensors))⟩ := by
  have hRa : ∀ c ∈ joinComma R, c ∈ alphabet ∨ c = ',' := by
    intro c hcm
    rcases mem_joinComma hcm with h | ⟨p, hp, h⟩
    · exact .inr h
    · exact .inl (hc p hp c h)
  have hd : '-' ∉ joinComma R := by
    intro h
    rcases hRa _ h with h | h
    · exact dash_na h
    · exact absurd h (by decide)
  have hOa : ∀ c ∈ O, c ∈ alphabet := by
    intro c hcm
    obtain ⟨s, hs, hcs⟩ := List.mem_flatten.1 (hout c hcm)
    exact hc s hs c hcs
  have hdo : '-' ∉ O := fun h => dash_na (hOa _ h)
  have hO : (if O = [] then old else O) = O := by
    by_cases h : O = []
    · rw [if_pos h, hold h, h]
    · rw [if_neg h]
  unfold finish
  rw [breakArrow_some hd, if_pos (by simp), takeArrow_text hd hdo (fun h => hne' (join_nil hne h)), hO, bind_ok]
  dsimp only
  rw [if_pos, splitComma_join R hne (fun p hp h => comma_na (hc p hp _ h)), if_neg,
    buildResult_spec hne hc hlen hr hout hfo]
  · have := congrArg List.length hlen
    simpa using this
  · rw [List.all_eq_true]
    intro c hcm
    obtain ⟨s, hs, hcs⟩ := List.mem_flatten.1 (hout c hcm)
    simp [mem_join_of hs hcs]

theorem finish_plain {fo : Nat} {tensors : List (List Nat)} {R : List (List Char)} {O old : List Char}
    (hne : R ≠ []) (hc : ∀ s ∈ R, ∀ c ∈ s, c ∈ alphabet)
    (hlen : R.map List.length = tensors.map List.length) (hr : ∀ t ∈ tensors, t.length ≤ 65)
    (hout : ∀ c ∈ O, c ∈ R.flatten) (hfo : fo = 0 ∨ fo = O.length) (hO : findUniqueIndices (joinComma R) = O) :
    finish fo tensors (joinComma R) old = .ok ⟨R, O, O.map (extent (labelled R tensors))⟩ := by
  have hd : '-' ∉ joinComma R := by
    intro h
    rcases mem_joinComma h with h | ⟨p, hp, h⟩
    · exact absurd h (by decide)
    · exact dash_na (hc p hp _ h)
  unfold finish
  rw [breakArrow_none hd, if_neg (by simp), hO, bind_ok]
  dsimp only
  rw [if_pos, splitComma_join R hne (fun p hp h => comma_na (hc p hp _ h)), if_neg,
    buildResult_spec hne hc hlen hr hout hfo]
  · have := congrArg List.length hlen
    simpa using this
  · rw [List.all_eq_true]
    intro c hcm
    obtain ⟨s, hs, hcs⟩ := List.mem_flatten.1 (hout c hcm)
    simp [mem_join_of hs hcs]

/-- Without dots nothing is replaced. -/
theorem inputLabels_noell {u : List Char} : ∀ {ss : List Sub} {rs : List Nat}, ss.length = rs.length →
    (∀ s ∈ ss, s.ell = false) →
    (inputLabels ss rs).map (List.map (rename u)) = ss.map Sub.text ∧ width ss rs = 0
  | [], [], _, _ => ⟨rfl, rfl⟩
  | [], _ :: _, h, _ => by simp at h
  | _ :: _, [], h, _ => by simp at h
  | s :: ss, r :: rs, hlen, he => by
    have hs := he s (List.mem_cons_self ..)
    obtain ⟨h1, h2⟩ := inputLabels_noell (u := u) (ss := ss) (rs := rs) (by simpa using hlen)
      (fun x hx => he x (List.mem_cons_of_mem _ hx))
    constructor
    · rw [inputLabels, List.map_cons, h1, labels_rename, List.map_cons, text_noell hs]
      simp [hs, Sub.letters]
    · rw [width_cons, h2]; simp [Sub.width, hs]

theorem dot_text {e : Ein} {orders : List Nat} (h : e.WF orders) (hd : '.' ∉ e.text) :
    (∀ s ∈ e.inputs, s.ell = false) ∧ ∀ o, e.output = some o → o.ell = false := by
  constructor
  · intro s hs
    cases he : s.ell with
    | false => rfl
    | true =>
      exfalso; apply hd
      have h1 : '.' ∈ joinComma (e.inputs.map Sub.text) :=
        mem_join_of (List.mem_map_of_mem hs) ((dot_mem_text (h.lettersIn s hs)).2 he)
      cases ho : e.output with
      | none => rw [text_none ho]; exact h1
      | some o => rw [text_some ho]; exact List.mem_append_left _ h1
  · intro o ho
    cases he : o.ell with
    | false => rfl
    | true =>
      exfalso; apply hd
      rw [text_some ho]
      have := (dot_mem_text (h.lettersOut o ho)).2 he
      simp [this]

theorem inputLabels_ne {ss : List Sub} {rs : List Nat} (h : ss ≠ []) (hlen : ss.length = rs.length) :
    inputLabels ss rs ≠ [] := by
  match ss, rs, h, hlen with
  | s :: ss, r :: rs, _, _ => simp [inputLabels]

/-- A subscript without text has no labels. -/
theorem text_nil {s : Sub} (h : s.text = []) : s.ell = false ∧ s.before = [] ∧ s.after = [] := by
  unfold Sub.text at h
  simp only [List.append_eq_nil_iff] at h
  refine ⟨?_, h.1, h.2.2⟩
  cases he : s.ell with
  | false => rfl
  | true => simp [he] at h

theorem parse_text {fo : Nat} {tensors : List (List Nat)} {e : Ein} (h : e.WF (tensors.map List.length))
    (hu : width e.inputs (tensors.map List.length) ≤ (unusedSymbols e.text).length)
    (hr : ∀ t ∈ tensors, t.length ≤ 65)
    (hscalar : inputLabels e.inputs (tensors.map List.length) ≠ [[]])
    (hempty : ∀ o, e.output = some o → o.ell = true → e.outputLabels (tensors.map List.length) ≠ [])
    (hfo : fo = 0 ∨ fo = (e.outputLabels (tensors.map List.length)).length) :
    parseSubscripts fo tensors e.text =
      .ok ⟨(inputLabels e.inputs (tensors.map List.length)).map (List.map (rename (unusedSymbols e.text))),
        (e.outputLabels (tensors.map List.length)).map (rename (unusedSymbols e.text)),
        ((e.outputLabels (tensors.map List.length)).map (rename (unusedSymbols e.text))).map
          (extent (labelled ((inputLabels e.inputs (tensors.map List.length)).map
            (List.map (rename (unusedSymbols e.text)))) tensors))⟩ := by
  have hj := join_no (ss := e.inputs) h.lettersIn dash_na (by decide) (by decide)
  have hpieces : splitComma (joinComma (e.inputs.map Sub.text)) = e.inputs.map Sub.text := by
    apply splitComma_join
    · simpa using h.nonempty
    · intro p hp
      obtain ⟨s, hs, rfl⟩ := List.mem_map.1 hp
      exact text_no (h.lettersIn s hs) comma_na (by decide)
  have hcnt := h.count
  simp only [List.length_map] at hcnt
  have hRne : (inputLabels e.inputs (tensors.map List.length)).map (List.map (rename (unusedSymbols e.text))) ≠ [] := by
    simpa using inputLabels_ne h.nonempty h.count
  have hRne' : (inputLabels e.inputs (tensors.map List.length)).map (List.map (rename (unusedSymbols e.text))) ≠ [[]] := by
    intro hh
    apply hscalar
    have hl := congrArg List.length hh
    match hI : inputLabels e.inputs (tensors.map List.length), hl with
    | [l], _ =>
      rw [hI] at hh
      simp only [List.map_cons, List.map_nil, List.cons.injEq, List.map_eq_nil_iff, and_true] at hh
      rw [hh]
    | [], hl => simp at hl
    | _ :: _ :: _, hl => simp at hl
  have hRc := rename_alpha h hu
  have hRl : ((inputLabels e.inputs (tensors.map List.length)).map (List.map (rename (unusedSymbols e.text)))).map List.length =
      tensors.map List.length := by
    have := inputLabels_lengths h.count h.fits
    rw [List.map_map]
    have e1 : (List.length ∘ List.map (rename (unusedSymbols e.text))) = List.length := by
      funext l; simp
    rw [e1]; exact this
  have hOin : ∀ c ∈ (e.outputLabels (tensors.map List.length)).map (rename (unusedSymbols e.text)),
      c ∈ ((inputLabels e.inputs (tensors.map List.length)).map (List.map (rename (unusedSymbols e.text)))).flatten := by
    intro c hc
    obtain ⟨l, hl, rfl⟩ := List.mem_map.1 hc
    have := out_mem_flat h hl
    rw [← List.map_flatten]
    exact List.mem_map_of_mem this
  have hfo' : fo = 0 ∨ fo = ((e.outputLabels (tensors.map List.length)).map (rename (unusedSymbols e.text))).length := by
    rw [List.length_map]; exact hfo
  unfold parseSubscripts
  rw [hasOutput_text h, bind_ok]
  cases ho : e.output with
  | some o =>
    have hod := text_no (s := o) (h.lettersOut o ho) dash_na (by decide)
    have hin : joinComma (e.inputs.map Sub.text) ≠ [] := by
      intro hh
      have h1 := join_nil (by simpa using h.nonempty) hh
      apply hscalar
      have h2 := congrArg List.length h1
      match hI : e.inputs, hT : tensors.map List.length, h2, h.count with
      | [s], [r], _, _ =>
        rw [hI] at h1
        simp only [List.map_cons, List.map_nil, List.cons.injEq, and_true] at h1
        obtain ⟨a, b, c⟩ := text_nil h1
        simp [inputLabels, Sub.labels, a, b, c]
      | [], _, h2, _ => simp at h2
      | _ :: _ :: _, _, h2, _ => simp at h2
      | [s], [], _, h3 => simp at h3
      | [s], _ :: _ :: _, _, h3 => simp at h3
    have e1 : (if o.text = [] then [] else o.text) = o.text := by
      by_cases hh : o.text = []
      · rw [if_pos hh, hh]
      · rw [if_neg hh]
    simp only [Option.isSome_some, if_true]
    rw [text_some ho, takeArrow_text hj hod hin, e1, bind_ok]
    dsimp only
    rw [hpieces, if_neg (by simp [hcnt]), ← text_some ho]
    have hO : (e.outputLabels (tensors.map List.length)).map (rename (unusedSymbols e.text)) =
        replaceEllipse o.text ((bcasts (width e.inputs (tensors.map List.length))).map (rename (unusedSymbols e.text))) := by
      have : e.outputLabels (tensors.map List.length) = o.labels (width e.inputs (tensors.map List.length)) := by
        unfold Ein.outputLabels; rw [ho]
      rw [this, labels_rename]
      cases he : o.ell with
      | true => rw [replace_text_ell he (h.lettersOut o ho)]; simp
      | false => rw [replace_text_noell he (h.lettersOut o ho)]; simp [Sub.letters]
    have hold : (e.outputLabels (tensors.map List.length)).map (rename (unusedSymbols e.text)) = [] → o.text = [] := by
      intro hh
      rw [List.map_eq_nil_iff] at hh
      cases he : o.ell with
      | true => exact absurd hh (hempty o ho he)
      | false =>
        have : e.outputLabels (tensors.map List.length) = o.labels (width e.inputs (tensors.map List.length)) := by
          unfold Ein.outputLabels; rw [ho]
        rw [this] at hh
        unfold Sub.labels at hh
        simp only [List.append_eq_nil_iff, List.map_eq_nil_iff] at hh
        rw [text_noell he]; unfold Sub.letters; rw [hh.1, hh.2.2]; rfl
    have hexp : expandEllipses (tensors.map List.length) e.text true (e.inputs.map Sub.text) o.text =
        .ok (joinComma ((inputLabels e.inputs (tensors.map List.length)).map (List.map (rename (unusedSymbols e.text)))) ++
          '-' :: '>' :: (e.outputLabels (tensors.map List.length)).map (rename (unusedSymbols e.text))) := by
      unfold expandEllipses
      by_cases hdot : '.' ∈ e.text
      · rw [if_pos hdot]
        dsimp only
        have hEA := expandAll_text (u := unusedSymbols e.text) (w := 0) h.lettersIn h.count h.fits hu
        rw [show ((0 : Nat) : Int) = 0 from rfl] at hEA
        rw [hEA, bind_ok]
        simp only [Nat.zero_max]
        by_cases hw : width e.inputs (tensors.map List.length) = 0
        · rw [if_neg (by omega), bind_ok, hO, hw]
          simp [bcasts]
        · rw [if_pos (by omega), Int.toNat_natCast]
          unfold lastChars
          rw [if_pos hu, bind_ok, drop_last _ _ hu, hO]
          simp
      · rw [if_neg hdot]
        obtain ⟨h1, h2⟩ := dot_text h hdot
        obtain ⟨h3, h4⟩ := inputLabels_noell (u := unusedSymbols e.text) h.count h1
        rw [h3, hO, replace_text_noell (h2 o ho) (h.lettersOut o ho), text_some ho, text_noell (h2 o ho)]
    rw [hexp, bind_ok]
    exact finish_arrow hRne hRne' hRc hRl hr hOin hfo' hold
  | none =>
    simp only [Option.isSome_none, Bool.false_eq_true, if_false]
    rw [bind_ok]
    dsimp only
    have hsp : splitComma e.text = e.inputs.map Sub.text := by rw [text_none ho, hpieces]
    rw [hsp, if_neg (by simp [hcnt])]
    have hU := unique_eq h hu
    have hO : (e.outputLabels (tensors.map List.length)).map (rename (unusedSymbols e.text)) =
        (bcasts (width e.inputs (tensors.map List.length))).map (rename (unusedSymbols e.text)) ++
          alphabet.filter (fun c => e.letters.count c == 1) := by
      unfold Ein.outputLabels
      rw [ho]
      simp only [List.map_append, List.map_map]
      congr 1
      exact List.map_id' _
    by_cases hdot : '.' ∈ e.text
    · have hexp : expandEllipses (tensors.map List.length) e.text false (e.inputs.map Sub.text) [] =
          .ok (joinComma ((inputLabels e.inputs (tensors.map List.length)).map (List.map (rename (unusedSymbols e.text)))) ++
            '-' :: '>' :: (e.outputLabels (tensors.map List.length)).map (rename (unusedSymbols e.text))) := by
        unfold expandEllipses
        rw [if_pos hdot]
        dsimp only
        have hEA := expandAll_text (u := unusedSymbols e.text) (w := 0) h.lettersIn h.count h.fits hu
        rw [show ((0 : Nat) : Int) = 0 from rfl] at hEA
        rw [hEA, bind_ok]
        simp only [Nat.zero_max]
        have hs : sortChars (alphabet.filter (fun c => e.letters.count c == 1)) =
            alphabet.filter (fun c => e.letters.count c == 1) := sortChars_strict (strict_filter _ alphabet_strict)
        by_cases hw : width e.inputs (tensors.map List.length) = 0
        · rw [if_neg (by omega), bind_ok, hO]
          rw [hw] at hU ⊢
          simp only [bcasts, List.map_nil, List.nil_append] at hU ⊢
          rw [hU, hs]
          simp
        · rw [if_pos (by omega), Int.toNat_natCast]
          unfold lastChars
          rw [if_pos hu, bind_ok, drop_last _ _ hu, hU, hs, hO]
          simp
      rw [hexp, bind_ok]
      exact finish_arrow hRne hRne' hRc hRl hr hOin hfo' (fun _ => rfl)
    · have hexp : expandEllipses (tensors.map List.length) e.text false (e.inputs.map Sub.text) [] = .ok e.text := by
        unfold expandEllipses
        rw [if_neg hdot]
      rw [hexp, bind_ok]
      obtain ⟨h1, h2⟩ := dot_text h hdot
      obtain ⟨h3, h4⟩ := inputLabels_noell (u := unusedSymbols e.text) h.count h1
      have ht : e.text = joinComma ((inputLabels e.inputs (tensors.map List.length)).map (List.map (rename (unusedSymbols e.text)))) := by
        rw [h3, text_none ho]
      have key := finish_plain (fo := fo) (old := []) hRne hRc hRl hr hOin hfo' (by
        rw [hO]
        rw [h4] at hU ⊢
        simp only [bcasts, List.map_nil, List.nil_append] at hU ⊢
        rw [← hU, List.filter_eq_self.2]
        intro c _
        simp)
      rw [← ht] at key
      exact key

end Verif.Einsum
