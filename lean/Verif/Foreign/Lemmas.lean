import Verif.Foreign.Spec
import Verif.FileIO.Lemmas
namespace Verif.Foreign
open Verif.FileIO
variable {V : Type}

/-! ### Characters -/

theorem digit_of_ends {t : List Char} (h : Ends t) : ∀ c ∈ t.head?, isDigit c = false := by
  intro c hc
  have := h c hc
  cases hd : isDigit c with
  | false => rfl
  | true => rw [(digit_not_space hd).1] at this; cases this

theorem ends_of_blank {b : List Char} (h : Blank b) : Ends b := by
  intro c hc
  cases b with
  | nil => cases hc
  | cons d ds => simp at hc; subst hc; exact h _ (by simp)

theorem numeral_word {w : List Char} {n : Nat} (h : Numeral w n) : w ≠ [] ∧ (∀ c ∈ w, isSpace c = false) ∧ w.head? ≠ some '%' := by
  obtain ⟨sign, ds, rfl, hs, hne, hd, _⟩ := h
  rcases hs with rfl | rfl
  · refine ⟨by simpa using hne, fun c hc => (digit_not_space (hd c (by simpa using hc))).1, ?_⟩
    cases ds with
    | nil => exact absurd rfl hne
    | cons d ds =>
      intro e
      simp at e
      exact (digit_not_space (hd d (by simp))).2.2.2.2.1 e
  · refine ⟨by simp, fun c hc => ?_, by simp⟩
    simp only [List.cons_append, List.nil_append, List.mem_cons] at hc
    rcases hc with rfl | hc
    · decide
    · exact (digit_not_space (hd c hc)).1

theorem strtol_numeral {b w rest : List Char} {n : Nat} (hb : Blank b) (hw : Numeral w n) (hr : ∀ c ∈ rest.head?, isDigit c = false) :
    strtol (b ++ (w ++ rest)) = ((n : Int), rest) := by
  obtain ⟨hne, hsp, _⟩ := numeral_word hw
  obtain ⟨sign, ds, rfl, hs, hdne, hd, hv⟩ := hw
  unfold strtol
  rw [dropWhile_space hb hne hsp]
  obtain ⟨t1, t2⟩ := takeWhile_stop (p := isDigit) (w := ds) (rest := rest) hd hr
  have e : isMinus (sign ++ ds ++ rest) = false ∧ afterSign (sign ++ ds ++ rest) = ds ++ rest := by
    rcases hs with rfl | rfl
    · cases ds with
      | nil => exact absurd rfl hdne
      | cons d ds =>
        obtain ⟨_, h1, h2, _⟩ := digit_not_space (hd d (by simp))
        constructor
        · unfold isMinus
          split
          · rename_i e; simp at e; exact absurd e.1 h1
          · rfl
        · unfold afterSign
          split
          · rename_i e; simp at e; exact absurd e.1 h1
          · rename_i e; simp at e; exact absurd e.1 h2
          · rfl
    · exact ⟨rfl, rfl⟩
  simp only [e.1, e.2, t1, t2, Bool.false_eq_true, if_false, if_neg hdne, hv]

theorem strtolC_numeral {b w rest : List Char} {n : Nat} (hb : Blank b) (hw : Numeral w n) (hr : ∀ c ∈ rest.head?, isDigit c = false) :
    ((n : Int) ≤ intMax → strtolC (b ++ (w ++ rest)) = ((n : Int), rest)) ∧
    (intMax < (n : Int) → intMax < (strtolC (b ++ (w ++ rest))).1) := by
  unfold strtolC
  rw [strtol_numeral hb hw hr]
  unfold intMax
  constructor
  · intro h
    refine Prod.ext ?_ rfl
    show max _ (min _ _) = _
    omega
  · intro h
    show _ < max _ (min _ _)
    omega

theorem strtoulC_numeral {b w rest : List Char} {n : Nat} (hb : Blank b) (hw : Numeral w n) (hr : ∀ c ∈ rest.head?, isDigit c = false)
    (hn : (n : Int) ≤ intMax) : strtoulC (b ++ (w ++ rest)) = ((n : Int), rest) := by
  unfold strtoulC
  rw [strtol_numeral hb hw hr]
  unfold intMax at hn
  simp only
  rw [if_neg (by omega), if_neg (by omega)]

theorem strtoulC_blank {b : List Char} (hb : Blank b) : (strtoulC b).1 = 0 := by
  have hd : b.dropWhile isSpace = [] := by
    have := (takeWhile_stop (rest := []) hb (by simp)).2
    rwa [List.append_nil] at this
  simp [strtoulC, strtol, hd, afterSign]

theorem int32_id {x : Int} (h1 : 0 ≤ x) (h2 : x ≤ intMax) : int32 x = x := by
  unfold int32; unfold intMax at h2; omega

theorem int32_min {x : Int} (h1 : 0 ≤ x) (h2 : x ≤ intMax) : int32 x ≠ intMin := by
  rw [int32_id h1 h2]; unfold intMin; omega

/-! ### Lines -/

theorem lines_text {ls : List (List Char)} {s : List Char} (h : Text ls s) : lines s = ls := by
  induction h with
  | nil => rfl
  | last hn hne =>
    rename_i l
    have : ∀ (l cur : List Char), '\n' ∉ l → cur ++ l ≠ [] → linesAux cur l = [cur ++ l] := by
      intro l
      induction l with
      | nil => intro cur _ h; simp [linesAux]; intro e; subst e; exact absurd rfl h
      | cons c cs ih =>
        intro cur hn hx
        clear hx
        simp only [List.mem_cons, not_or] at hn
        have : linesAux cur (c :: cs) = linesAux (cur ++ [c]) cs := by
          have hc : c ≠ '\n' := fun e => hn.1 e.symm
          conv => lhs; unfold linesAux
          split
          · rename_i e; cases e
          · rename_i e; injection e with e; exact absurd e hc
          · rename_i e; injection e with e1 e2; subst e1; subst e2; rfl
        rw [this, ih _ hn.2 (by simp)]
        simp
    exact this l [] hn (by simpa using hne)
  | line hn _ ih =>
    rw [lines_line _ _ hn, ih]

/-! ### Entries -/

theorem entry_mono {N : Num V} {sp sp' : Char → Prop} {tl tl' : List Char → Prop} (h1 : ∀ c, sp c → sp' c) (h2 : ∀ t, tl t → tl' t)
    {ks : List Nat} {v : V} {l : List Char} (h : Entry N sp tl ks v l) : Entry N sp' tl' ks v l := by
  induction h with
  | value hb hv ht => exact .value (fun c hc => h1 c (hb c hc)) hv (h2 _ ht)
  | coord hb hw he hne _ ih => exact .coord (fun c hc => h1 c (hb c hc)) hw he hne ih

theorem line_of_first {N : Num V} {c : List Nat × V} {l : List Char} (h : FirstLine N c l) : Line N c l := by
  refine entry_mono (fun c hc => ?_) (fun t ht => ?_) h
  · have : c = ' ' := hc
    subst this; decide
  · rcases ht with h | rfl
    · exact ends_of_blank fun c hc => by rw [h c hc]; decide
    · intro c hc; simp at hc; subst hc; decide

theorem strtod_value {N : Num V} {b w t : List Char} {v : V} (hb : Blank b) (hw : Value N w v) (ht : Ends t) : strtod N (b ++ (w ++ t)) = v := by
  unfold strtod
  rw [dropWhile_space hb hw.1 hw.2.1, hw.2.2 t ht]

theorem coordsTns_entry {N : Num V} {ks : List Nat} {v : V} {l : List Char} (h : Entry N (fun c => isSpace c = true) Ends ks v l)
    (hk : ∀ k ∈ ks, (k : Int) + 1 ≤ intMax) :
    ∃ rest, coordsTns ks.length l = .ok (ks.map (fun (k : Nat) => (k : Int) + 1), rest) ∧ strtod N rest = v := by
  induction h with
  | value hb hv ht => exact ⟨_, rfl, strtod_value hb hv ht⟩
  | coord hb hw he hne _ ih =>
    rename_i b w l k ks v h
    obtain ⟨rest, h1, h2⟩ := ih fun k' hk' => hk k' (by simp [hk'])
    refine ⟨rest, ?_, h2⟩
    have hkk := hk k (by simp)
    have e := (strtolC_numeral hb hw (digit_of_ends he)).1 (by omega)
    have hp : (0 : Int) ≤ ((k + 1 : Nat) : Int) := by omega
    have hq : ((k + 1 : Nat) : Int) ≤ intMax := by omega
    show coordsTns (ks.length + 1) _ = _
    unfold coordsTns
    rw [e]
    simp only
    rw [if_neg (by omega), if_neg (int32_min hp hq), h1, int32_id hp hq]
    simp [Outcome.bind]

theorem coordsTns_large {N : Num V} {ks : List Nat} {v : V} {l : List Char} (h : Entry N (fun c => isSpace c = true) Ends ks v l)
    (hk : ∃ k ∈ ks, intMax < (k : Int) + 1) : coordsTns ks.length l = .rejected := by
  induction h with
  | value hb hv ht => obtain ⟨k, hk, _⟩ := hk; cases hk
  | coord hb hw he hne _ ih =>
    rename_i b w l k ks v h
    show coordsTns (ks.length + 1) _ = _
    unfold coordsTns
    by_cases hlt : intMax < ((k + 1 : Nat) : Int)
    · rw [if_pos ((strtolC_numeral hb hw (digit_of_ends he)).2 hlt)]
    · have hq : ((k + 1 : Nat) : Int) ≤ intMax := by omega
      have e := (strtolC_numeral hb hw (digit_of_ends he)).1 hq
      have hp : (0 : Int) ≤ ((k + 1 : Nat) : Int) := by omega
      rw [e]
      simp only
      rw [if_neg (by omega), if_neg (int32_min hp hq), ih]
      · rfl
      · obtain ⟨k', hk', hl⟩ := hk
        simp only [List.mem_cons] at hk'
        rcases hk' with rfl | hk'
        · exact absurd hl (by omega)
        · exact ⟨k', hk', hl⟩

theorem coordsMtx_entry {N : Num V} {ks : List Nat} {v : V} {l : List Char} (h : Entry N (fun c => isSpace c = true) Ends ks v l)
    (hk : ∀ k ∈ ks, (k : Int) + 1 ≤ intMax) :
    ∃ rest, coordsMtx ks.length l = .ok (ks.map (fun (k : Nat) => (k : Int) + 1), rest) ∧ strtod N rest = v := by
  induction h with
  | value hb hv ht => exact ⟨_, rfl, strtod_value hb hv ht⟩
  | coord hb hw he hne _ ih =>
    rename_i b w l k ks v h
    obtain ⟨rest, h1, h2⟩ := ih fun k' hk' => hk k' (by simp [hk'])
    refine ⟨rest, ?_, h2⟩
    have hkk := hk k (by simp)
    have e := (strtolC_numeral hb hw (digit_of_ends he)).1 (by omega)
    have hp : (0 : Int) ≤ ((k + 1 : Nat) : Int) := by omega
    have hq : ((k + 1 : Nat) : Int) ≤ intMax := by omega
    show coordsMtx (ks.length + 1) _ = _
    unfold coordsMtx
    rw [e]
    simp only
    rw [if_neg (by omega), h1, int32_id hp hq]
    simp [Outcome.bind]

theorem coordsMtx_large {N : Num V} {ks : List Nat} {v : V} {l : List Char} (h : Entry N (fun c => isSpace c = true) Ends ks v l)
    (hk : ∃ k ∈ ks, intMax < (k : Int) + 1) : coordsMtx ks.length l = .rejected := by
  induction h with
  | value hb hv ht => obtain ⟨k, hk, _⟩ := hk; cases hk
  | coord hb hw he hne _ ih =>
    rename_i b w l k ks v h
    show coordsMtx (ks.length + 1) _ = _
    unfold coordsMtx
    by_cases hlt : intMax < ((k + 1 : Nat) : Int)
    · rw [if_pos ((strtolC_numeral hb hw (digit_of_ends he)).2 hlt)]
    · have hq : ((k + 1 : Nat) : Int) ≤ intMax := by omega
      have e := (strtolC_numeral hb hw (digit_of_ends he)).1 hq
      rw [e]
      simp only
      rw [if_neg (by omega), ih]
      · rfl
      · obtain ⟨k', hk', hl⟩ := hk
        simp only [List.mem_cons] at hk'
        rcases hk' with rfl | hk'
        · exact absurd hl (by omega)
        · exact ⟨k', hk', hl⟩

/-- The words of the first line. -/
theorem fields_skip {sep : Char → Bool} {b rest : List Char} (hb : ∀ c ∈ b, sep c = true) : fields sep (b ++ rest) = fields sep rest := by
  induction b with
  | nil => rfl
  | cons c cs ih =>
    have hc := hb c (by simp)
    have := ih fun x hx => hb x (by simp [hx])
    show fieldsAux sep [] (c :: (cs ++ rest)) = _
    unfold fieldsAux
    rw [if_pos hc, if_pos rfl]
    exact this

theorem fields_blank {sep : Char → Bool} {b : List Char} (hb : ∀ c ∈ b, sep c = true) : fields sep b = [] := by
  have := fields_skip (rest := []) hb
  rw [List.append_nil] at this
  rw [this]; rfl

theorem fields_next {sep : Char → Bool} {w l : List Char} (hw : ∀ c ∈ w, sep c = false) (hne : w ≠ []) (hl : ∀ c ∈ l.head?, sep c = true) :
    fields sep (w ++ l) = w :: fields sep l := by
  cases l with
  | nil => rw [List.append_nil, fields_last hw hne]; rfl
  | cons c cs =>
    have hc := hl c (by simp)
    rw [fields_word hc hw hne]
    congr 1
    have := fields_skip (sep := sep) (b := [c]) (rest := cs) (by simpa using hc)
    exact this.symm

theorem space_of_not {c : Char} (h : isSpace c = false) : (c == ' ') = false := by
  unfold isSpace at h
  simp only [Bool.or_eq_false_iff] at h
  exact h.1

theorem first_fields {N : Num V} {ks : List Nat} {v : V} {l : List Char}
    (h : Entry N (· = ' ') (fun t => (∀ c ∈ t, c = ' ') ∨ t = ['\r']) ks v l) :
    (fields (· == ' ') l).length = ks.length + 1 ∧ ∀ c ∈ l.head?, isSpace c = true → c = ' ' := by
  induction h with
  | value hb hv ht =>
    rename_i b w t v
    have hhead : ∀ c ∈ (b ++ (w ++ t)).head?, isSpace c = true → c = ' ' := by
      intro c hc hs
      cases b with
      | nil =>
        cases w with
        | nil => exact absurd rfl hv.1
        | cons d ds =>
          simp at hc; subst hc
          rw [hv.2.1 _ (by simp)] at hs; cases hs
      | cons d ds => simp at hc; subst hc; exact hb _ (by simp)
    refine ⟨?_, hhead⟩
    rw [fields_skip (fun c hc => by rw [hb c hc]; rfl)]
    rcases ht with ht | rfl
    · rw [fields_next (fun c hc => space_of_not (hv.2.1 c hc)) hv.1, fields_blank (fun c hc => by rw [ht c hc]; rfl)]
      · rfl
      · intro c hc
        cases t with
        | nil => cases hc
        | cons d ds => simp at hc; subst hc; rw [ht d (by simp)]; rfl
    · rw [fields_last]
      · rfl
      · intro c hc
        rcases List.mem_append.mp hc with hc | hc
        · exact space_of_not (hv.2.1 c hc)
        · simp at hc; subst hc; decide
      · simp
  | coord hb hw he hne _ ih =>
    rename_i b w l k ks v h
    obtain ⟨hwne, hwsp, _⟩ := numeral_word hw
    refine ⟨?_, ?_⟩
    · rw [fields_skip (fun c hc => by rw [hb c hc]; rfl), fields_next (fun c hc => space_of_not (hwsp c hc)) hwne]
      · simp [ih.1]
      · intro c hc
        rw [ih.2 c hc (he c hc)]; rfl
    · intro c hc hs
      cases b with
      | nil =>
        cases w with
        | nil => exact absurd rfl hwne
        | cons d ds =>
          simp at hc; subst hc
          rw [hwsp _ (by simp)] at hs; cases hs
      | cons d ds => simp at hc; subst hc; exact hb _ (by simp)

/-! ### TNS -/

theorem maxDims_range {order : Nat} {dims : List Nat} (hd : dims.length = order) {c : List Nat} (hl : c.length = order) :
    maxDims (dims.map (fun (d : Nat) => (d : Int))) (c.map fun (k : Nat) => (k : Int) + 1) =
      ((List.range order).map fun i => max (dims.getD i 0) (c.getD i 0 + 1)).map (fun (d : Nat) => (d : Int)) := by
  apply List.ext_getElem?
  intro i
  rw [maxDims_getElem? _ _ (by simp [hd, hl])]
  by_cases hi : i < order
  · have h1 : i < dims.length := by omega
    have h2 : i < c.length := by omega
    simp [hi, h1, h2]
    omega
  · have h1 : ¬ i < dims.length := by omega
    simp [hi, h1]

theorem linesTns_spec {N : Num V} {order : Nat} : ∀ (comps : List (List Nat × V)) (ls : List (List Char)), Each (Line N) comps ls →
    (∀ c ∈ comps, c.1.length = order ∧ ∀ k ∈ c.1, (k : Int) + 1 ≤ intMax) → ∀ (dims : List Nat), dims.length = order →
    linesTns N order ls (dims.map (fun (d : Nat) => (d : Int))) =
      .ok ((List.range order).map (fun i => ((comps.foldl (fun m c => max m (c.1.getD i 0 + 1)) (dims.getD i 0) : Nat) : Int)), toInt comps)
  | [], [], _, _, dims, hd => by
    simp only [linesTns, toInt, List.foldl_nil, List.map_nil, Outcome.ok.injEq, Prod.mk.injEq, and_true]
    apply List.ext_getElem?
    intro i
    by_cases hi : i < order
    · simp [hd, hi, List.getD]
    · simp [hd, hi]
  | [], _ :: _, h, _, _, _ => h.elim
  | _ :: _, [], h, _, _, _ => h.elim
  | c :: cs, l :: ls, h, hc, dims, hd => by
    obtain ⟨hl, hk⟩ := hc c (by simp)
    obtain ⟨rest, r1, r2⟩ := coordsTns_entry h.1 hk
    rw [hl] at r1
    have ih := linesTns_spec cs ls h.2 (fun x hx => hc x (by simp [hx]))
      ((List.range order).map fun i => max (dims.getD i 0) (c.1.getD i 0 + 1)) (by simp)
    simp only [linesTns, r1, Outcome.bind, maxDims_range hd hl, ih, r2, Outcome.ok.injEq]
    refine Prod.ext ?_ ?_
    · simp only
      apply List.map_congr_left
      intro i hi
      have hi : i < order := List.mem_range.mp hi
      simp [List.getD, hi]
    · simp only [toInt, List.map_cons, List.cons.injEq, and_true, Prod.mk.injEq, List.map_map]
      apply List.map_congr_left
      intro k _
      simp

theorem linesTns_large {N : Num V} {order : Nat} : ∀ (comps : List (List Nat × V)) (ls : List (List Char)), Each (Line N) comps ls →
    (∀ c ∈ comps, c.1.length = order) → (∃ c ∈ comps, ∃ k ∈ c.1, intMax < (k : Int) + 1) → ∀ (dims : List Int),
    linesTns N order ls dims = .rejected
  | [], _, _, _, he, _ => by obtain ⟨_, h, _⟩ := he; cases h
  | _ :: _, [], h, _, _, _ => h.elim
  | c :: cs, l :: ls, h, hc, he, dims => by
    have hl := hc c (by simp)
    by_cases hk : ∃ k ∈ c.1, intMax < (k : Int) + 1
    · have := coordsTns_large h.1 hk
      rw [hl] at this
      simp only [linesTns, this, Outcome.bind]
    · obtain ⟨rest, r1, _⟩ := coordsTns_entry h.1 (fun k hm => by
        by_cases hlt : intMax < (k : Int) + 1
        · exact absurd ⟨k, hm, hlt⟩ hk
        · omega)
      rw [hl] at r1
      have he' : ∃ c ∈ cs, ∃ k ∈ c.1, intMax < (k : Int) + 1 := by
        obtain ⟨x, hx, hk'⟩ := he
        simp only [List.mem_cons] at hx
        rcases hx with rfl | hx
        · exact absurd hk' hk
        · exact ⟨x, hx, hk'⟩
      have ih := linesTns_large cs ls h.2 (fun x hx => hc x (by simp [hx])) he'
      simp only [linesTns, r1, Outcome.bind, ih]

/-! ### MTX -/

theorem fields_wordsList {ws : List (List Char)} {l : List Char} (h : Words ws l) : fields isSpace l = ws := by
  induction h with
  | nil hb => exact fields_blank hb
  | cons hb hne hw he _ ih => rw [fields_skip hb, fields_next hw hne he, ih]

theorem dimsMtx_words : ∀ (ns : List Nat) (ws : List (List Char)) {l : List Char}, Words ws l → Each (fun n w => Numeral w n) ns ws →
    (∀ n ∈ ns, 0 < n ∧ (n : Int) ≤ intMax) → ∀ (f : Nat), ns.length < f → dimsMtx f l = .ok (ns.map fun (n : Nat) => (n : Int))
  | [], _ :: _, _, _, h, _, _, _ => h.elim
  | _ :: _, [], _, _, h, _, _, _ => h.elim
  | [], [], l, hw, _, _, f, hf => by
    obtain ⟨g, rfl⟩ : ∃ g, f = g + 1 := ⟨f - 1, by simp at hf; omega⟩
    cases hw with
    | nil hb => simp [dimsMtx, strtoulC_blank hb]
  | n :: ns, w :: ws, l, hw, h, hp, f, hf => by
    obtain ⟨g, rfl⟩ : ∃ g, f = g + 1 := ⟨f - 1, by simp at hf; omega⟩
    cases hw with
    | cons hb hne hsp he hr =>
      obtain ⟨h0, h1⟩ := hp n (by simp)
      have ih := dimsMtx_words ns ws hr h.2 (fun m hm => hp m (by simp [hm])) g (by simp at hf; omega)
      unfold dimsMtx
      rw [strtoulC_numeral hb h.1 (digit_of_ends he) h1]
      simp only
      rw [if_neg (by omega), if_neg (by omega), ih]
      rfl

theorem words_length {ws : List (List Char)} {l : List Char} (h : Words ws l) : ws.length ≤ l.length := by
  induction h with
  | nil => simp
  | cons hb hne hw he _ ih =>
    have : 0 < List.length _ := List.length_pos_iff.mpr hne
    simp
    omega

/-- Comments are skipped. -/
theorem skip_comments {dl : List Char} (hd : (fields isSpace dl).head? ≠ none) (hd' : ∀ w, (fields isSpace dl).head? = some w → w.head? ≠ some '%')
    (rest : List (List Char)) : ∀ (cs : List (List Char)), (∀ l ∈ cs, Comment l) → ∀ (tok : List Char),
    skipComments tok ((cs ++ dl :: rest).headD []) (cs ++ dl :: rest).tail = (dl, rest)
  | [], _, tok => by
    show skipComments tok dl rest = _
    cases rest with
    | nil => rfl
    | cons r rs =>
      unfold skipComments
      rw [if_pos]
      unfold firstToken
      cases hf : fields isSpace dl with
      | nil => rw [hf] at hd; exact absurd rfl hd
      | cons w ws => exact hd' w (by rw [hf]; rfl)
  | c :: cs, h, tok => by
    obtain ⟨b, t, hb, rfl⟩ := h c (by simp)
    have ih := skip_comments hd hd' rest cs (fun l hl => h l (by simp [hl]))
    have ht : ∃ u, (fields isSpace (b ++ '%' :: t)).headD tok = '%' :: u := by
      rw [fields_skip hb]
      have hsp : isSpace '%' = false := by decide
      have : ∃ u, (fields isSpace ('%' :: t)).head? = some ('%' :: u) := by
        have : ∀ (t cur : List Char), ∃ u, (fieldsAux isSpace ('%' :: cur) t).head? = some ('%' :: u) := by
          intro t
          induction t with
          | nil => intro cur; exact ⟨cur, by simp [fieldsAux]⟩
          | cons x xs ih =>
            intro cur
            unfold fieldsAux
            by_cases hx : isSpace x = true
            · rw [if_pos hx]; exact ⟨cur, by simp⟩
            · rw [if_neg hx]; exact ih (cur ++ [x])
        obtain ⟨u, hu⟩ := this t []
        refine ⟨u, ?_⟩
        show (fieldsAux isSpace [] ('%' :: t)).head? = _
        unfold fieldsAux
        rw [if_neg (by simp [hsp])]
        exact hu
      obtain ⟨u, hu⟩ := this
      refine ⟨u, ?_⟩
      cases hf : fields isSpace ('%' :: t) with
      | nil => rw [hf] at hu; cases hu
      | cons a as => rw [hf] at hu; simpa using hu
    obtain ⟨u, hu⟩ := ht
    show skipComments tok (b ++ '%' :: t) (cs ++ dl :: rest) = _
    have hcons : cs ++ dl :: rest = (cs ++ dl :: rest).headD [] :: (cs ++ dl :: rest).tail := by
      cases cs <;> rfl
    rw [hcons]
    unfold skipComments
    have hft : firstToken tok (b ++ '%' :: t) = '%' :: u := hu
    rw [hft, if_neg (by simp)]
    exact ih _

theorem coordsMtx_blank {b : List Char} (hb : Blank b) : ∀ (n : Nat), ∃ cs, coordsMtx n b = .ok (cs, b) ∧ cs.length = n
  | 0 => ⟨[], rfl, rfl⟩
  | n + 1 => by
    obtain ⟨cs, h1, h2⟩ := coordsMtx_blank hb n
    have hd : b.dropWhile isSpace = [] := by
      have := (takeWhile_stop (rest := []) hb (by simp)).2
      rwa [List.append_nil] at this
    have hs : strtolC b = (0, b) := by
      simp [strtolC, strtol, hd, afterSign]
      decide
    refine ⟨0 :: cs, ?_, by simp [h2]⟩
    unfold coordsMtx
    rw [hs]
    simp only
    rw [if_neg (by decide), h1]
    rfl

theorem linesMtx_blank {N : Num V} {order : Nat} : ∀ (ls : List (List Char)), (∀ l ∈ ls, Blank l) →
    ∃ cs vs, linesMtx N order ls = .ok (cs, vs)
  | [], _ => ⟨[], [], rfl⟩
  | l :: ls, h => by
    obtain ⟨cs, vs, ih⟩ := linesMtx_blank (N := N) (order := order) ls fun x hx => h x (by simp [hx])
    obtain ⟨c, hc, _⟩ := coordsMtx_blank (h l (by simp)) order
    exact ⟨c ++ cs, strtod N l :: vs, by simp [linesMtx, hc, ih, Outcome.bind]⟩

theorem linesMtx_spec {N : Num V} {order : Nat} (extra : List (List Char)) (hx : ∀ l ∈ extra, Blank l) : ∀ (comps : List (List Nat × V)) (ls : List (List Char)),
    Each (Line N) comps ls → (∀ c ∈ comps, c.1.length = order ∧ ∀ k ∈ c.1, (k : Int) + 1 ≤ intMax) →
    ∃ cs vs, linesMtx N order (ls ++ extra) = .ok ((comps.flatMap fun c => c.1.map fun (k : Nat) => (k : Int) + 1) ++ cs, comps.map (·.2) ++ vs)
  | [], [], _, _ => by
    obtain ⟨cs, vs, h⟩ := linesMtx_blank (N := N) (order := order) extra hx
    exact ⟨cs, vs, by simpa using h⟩
  | [], _ :: _, h, _ => h.elim
  | _ :: _, [], h, _ => h.elim
  | c :: cs, l :: ls, h, hc => by
    obtain ⟨hl, hk⟩ := hc c (by simp)
    obtain ⟨rest, r1, r2⟩ := coordsMtx_entry h.1 hk
    rw [hl] at r1
    obtain ⟨xs, vs, ih⟩ := linesMtx_spec extra hx cs ls h.2 fun x hx => hc x (by simp [hx])
    exact ⟨xs, vs, by simp [linesMtx, r1, ih, Outcome.bind, r2]⟩

theorem linesMtx_large {N : Num V} {order : Nat} (extra : List (List Char)) : ∀ (comps : List (List Nat × V)) (ls : List (List Char)),
    Each (Line N) comps ls → (∀ c ∈ comps, c.1.length = order) → (∃ c ∈ comps, ∃ k ∈ c.1, intMax < (k : Int) + 1) →
    linesMtx N order (ls ++ extra) = .rejected
  | [], _, _, _, he => by obtain ⟨_, h, _⟩ := he; cases h
  | _ :: _, [], h, _, _ => h.elim
  | c :: cs, l :: ls, h, hc, he => by
    have hl := hc c (by simp)
    by_cases hk : ∃ k ∈ c.1, intMax < (k : Int) + 1
    · have := coordsMtx_large h.1 hk
      rw [hl] at this
      simp only [List.cons_append, linesMtx, this, Outcome.bind]
    · obtain ⟨rest, r1, _⟩ := coordsMtx_entry h.1 (fun k hm => by
        by_cases hlt : intMax < (k : Int) + 1
        · exact absurd ⟨k, hm, hlt⟩ hk
        · omega)
      rw [hl] at r1
      have he' : ∃ c ∈ cs, ∃ k ∈ c.1, intMax < (k : Int) + 1 := by
        obtain ⟨x, hx, hk'⟩ := he
        simp only [List.mem_cons] at hx
        rcases hx with rfl | hx
        · exact absurd hk' hk
        · exact ⟨x, hx, hk'⟩
      have ih := linesMtx_large extra cs ls h.2 (fun x hx => hc x (by simp [hx])) he'
      simp only [List.cons_append, linesMtx, r1, Outcome.bind, ih]

/-- What one entry adds. -/
def mirrorInt (symm : Bool) (c : List Int × V) : List (List Int × V) :=
  if symm = true ∧ c.1.head? ≠ c.1.getLast? then [c, (c.1.reverse, c.2)] else [c]

theorem insertMtx_spec {order : Nat} {symm : Bool} {comps : List (List Nat × V)} (hl : ∀ c ∈ comps, c.1.length = order) {xs : List Int} {vs : List V}
    {i : Nat} (hi : i < comps.length) :
    insertMtx order symm ((comps.flatMap fun c => c.1.map fun (k : Nat) => (k : Int) + 1) ++ xs) (comps.map (·.2) ++ vs) i =
      .ok (mirrorInt symm (comps[i].1.map (fun (k : Nat) => (k : Int)), comps[i].2)) := by
  obtain ⟨hb1, hb2⟩ := flatMap_block (f := fun c : List Nat × V => c.1.map (fun (k : Nat) => (k : Int) + 1)) (k := order) comps
    (fun c hc => by simp [hl c hc]) i hi
  generalize hco : (comps.flatMap fun c => c.1.map fun (k : Nat) => (k : Int) + 1) = co at hb1 hb2
  have hlen : i * order ≤ co.length := by
    by_cases h0 : order = 0
    · simp [h0]
    · simp at hb2; omega
  have htake : ((co ++ xs).drop (i * order)).take order = comps[i].1.map (fun (k : Nat) => (k : Int) + 1) := by
    rw [List.drop_append_of_le_length hlen, List.take_append_of_le_length hb2, hb1]
  have hge : ¬ ((co ++ xs).drop (i * order)).length < order := by
    rw [List.drop_append_of_le_length hlen]
    simp at hb2 ⊢; omega
  have hmin : intMin ∉ comps[i].1.map (fun (k : Nat) => (k : Int) + 1) := by
    intro h
    obtain ⟨k, _, hk⟩ := List.mem_map.mp h
    unfold intMin at hk; omega
  have hv : (comps.map (·.2) ++ vs)[i]? = some comps[i].2 := by
    rw [List.getElem?_append_left (by simpa using hi)]; simp [hi]
  have hm : (comps[i].1.map (fun (k : Nat) => (k : Int) + 1)).map (· - 1) = comps[i].1.map (fun (k : Nat) => (k : Int)) := by
    rw [List.map_map]
    apply List.map_congr_left
    intro k _
    simp
  unfold insertMtx
  rw [if_neg hge, htake, if_neg hmin, hv]
  simp only [hm, mirrorInt]

theorem insertsMtx_spec {order : Nat} {symm : Bool} {comps : List (List Nat × V)} (hl : ∀ c ∈ comps, c.1.length = order) {xs : List Int} {vs : List V} :
    ∀ (n i : Nat), i + n = comps.length →
    insertsMtx order symm ((comps.flatMap fun c => c.1.map fun (k : Nat) => (k : Int) + 1) ++ xs) (comps.map (·.2) ++ vs) n i =
      .ok ((toInt (comps.drop i)).flatMap (mirrorInt symm))
  | 0, i, h => by
    have : comps.drop i = [] := by apply List.drop_eq_nil_of_le; omega
    rw [this]; rfl
  | n + 1, i, h => by
    have hi : i < comps.length := by omega
    have ih := insertsMtx_spec (symm := symm) hl (xs := xs) (vs := vs) n (i + 1) (by omega)
    rw [insertsMtx, insertMtx_spec hl hi, ih, List.drop_eq_getElem_cons hi]
    rfl

theorem mirror_toInt {symm : Bool} : ∀ (comps : List (List Nat × V)), (symm = true → ∀ c ∈ comps, c.1.length = 2) →
    (toInt comps).flatMap (mirrorInt symm) = toInt (mirrored symm comps)
  | [], _ => rfl
  | c :: cs, h => by
    have ih := mirror_toInt cs fun hs x hx => h hs x (by simp [hx])
    have e1 : toInt (c :: cs) = (c.1.map (fun (k : Nat) => (k : Int)), c.2) :: toInt cs := rfl
    have e2 : mirrored symm (c :: cs) = mirrored symm [c] ++ mirrored symm cs := by simp [mirrored]
    have e3 : ∀ a b : List (List Nat × V), toInt (a ++ b) = toInt a ++ toInt b := by intro a b; simp [toInt]
    rw [e1, e2, e3, List.flatMap_cons, ih]
    congr 1
    obtain ⟨k, v⟩ := c
    cases symm with
    | false => simp [mirrorInt, mirrored, toInt]
    | true =>
      have h2 : k.length = 2 := h rfl (k, v) (by simp)
      match k, h2 with
      | [i, j], _ =>
        by_cases hij : i = j
        · subst hij; simp [mirrorInt, mirrored, toInt]
        · have : ¬ (i : Int) = (j : Int) := by omega
          simp [mirrorInt, mirrored, toInt, hij, this]

theorem each_length {α β : Type} {R : α → β → Prop} : ∀ {as : List α} {bs : List β}, Each R as bs → as.length = bs.length
  | [], [], _ => rfl
  | [], _ :: _, h => h.elim
  | _ :: _, [], h => h.elim
  | _ :: _, _ :: _, h => by simp [each_length h.2]

/-- The line of the dimensions. -/
theorem dims_line {dl : List Char} {dims : List Nat} {n : Nat} {dws comments rest : List (List Char)} (hcm : ∀ l ∈ comments, Comment l)
    (hdl : Words dws dl) (hdw : Each (fun n w => Numeral w n) (dims ++ [n]) dws) (hd : ∀ d ∈ dims, 0 < d ∧ d ≤ 2147483647) (hn : 0 < n ∧ n ≤ 2147483647) :
    skipComments [] ((comments ++ dl :: rest).headD []) (comments ++ dl :: rest).tail = (dl, rest) ∧
    dimsMtx (dl.length + 1) dl = .ok ((dims ++ [n]).map fun (n : Nat) => (n : Int)) := by
  have hfw := fields_wordsList hdl
  obtain ⟨w0, ws, hdws⟩ : ∃ w0 ws, dws = w0 :: ws := by
    cases dws with
    | nil => cases dims <;> exact hdw.elim
    | cons w ws => exact ⟨w, ws, rfl⟩
  refine ⟨skip_comments (dl := dl) (by rw [hfw, hdws]; simp) (by
    intro w hw
    rw [hfw, hdws] at hw
    simp at hw
    subst hw
    rw [hdws] at hdw
    cases dims with
    | nil => exact (numeral_word hdw.1).2.2
    | cons d ds => exact (numeral_word hdw.1).2.2) rest comments hcm [], dimsMtx_words _ dws hdl hdw (by
    intro m hm
    rcases List.mem_append.mp hm with hm | hm
    · have := hd m hm; unfold intMax; omega
    · simp at hm; subst hm; unfold intMax; omega) (dl.length + 1) ?_⟩
  rw [each_length hdw]
  have := words_length hdl
  omega

theorem kind_words {l : List Char} {type sym : List Char} (hw : Words ["%%MatrixMarket".toList, type, "coordinate".toList, "real".toList, sym] l)
    (ht : type = "matrix".toList ∨ type = "tensor".toList) (hs : sym = "general".toList ∨ sym = "symmetric".toList) :
    mtxKind l = some (true, decide (sym = "symmetric".toList)) := by
  unfold mtxKind
  rw [fields_wordsList hw]
  have hc : "%%MatrixMarket".toList = "%%MatrixMarket".toList ∧ (type = "matrix".toList ∨ type = "tensor".toList) ∧
      "real".toList = "real".toList ∧ (sym = "general".toList ∨ sym = "symmetric".toList) := ⟨rfl, ht, rfl, hs⟩
  exact (if_pos hc).trans (if_pos rfl)

/-! ### Harwell-Boeing -/

theorem starts_length {α : Type} : ∀ (a : Nat) (cs : List (List α)), (starts a cs).length = cs.length + 1
  | _, [] => rfl
  | a, c :: cs => by simp [starts, starts_length (a + c.length) cs]

theorem starts_head {α : Type} (a : Nat) (cs : List (List α)) : ∃ ps, starts a cs = a :: ps := by
  cases cs with
  | nil => exact ⟨_, rfl⟩
  | cons c cs => exact ⟨_, rfl⟩

theorem mapM_range {α : Type} {f : Nat → Option α} : ∀ {xs : List α} {off : Nat}, (∀ (k : Nat) (h : k < xs.length), f (off + k) = some xs[k]) →
    (List.range' off xs.length).mapM f = some xs
  | [], _, _ => rfl
  | x :: xs, off, h => by
    have h0 := h 0 (by simp)
    have ih := mapM_range (f := f) (xs := xs) (off := off + 1) fun k hk => by
      have := h (k + 1) (by simpa using hk)
      rw [show off + 1 + k = off + (k + 1) by omega]
      simpa using this
    rw [List.length_cons, List.range'_succ, List.mapM_cons, show f off = some x by simpa using h0, ih]
    rfl

theorem cscColumns_spec : ∀ (cols : List (List (Nat × V))) (j : Nat) (pre : List (Nat × V)),
    cscColumns ((pre ++ cols.flatten).map fun x => (x.1 : Int)) ((pre ++ cols.flatten).map (·.2)) j ((starts pre.length cols).map fun (n : Nat) => (n : Int)) =
      some (toInt (columns j cols))
  | [], j, pre => by simp [starts, cscColumns, columns, toInt]
  | c :: cs, j, pre => by
    have ih := cscColumns_spec cs (j + 1) (pre ++ c)
    obtain ⟨ps, hps⟩ := starts_head (pre.length + c.length) cs
    have hl : (pre ++ c).length = pre.length + c.length := by simp
    rw [hl, hps] at ih
    have ef : (c :: cs).flatten = c ++ cs.flatten := rfl
    rw [List.append_assoc, ← ef] at ih
    have es : starts pre.length (c :: cs) = pre.length :: (pre.length + c.length) :: ps := by simp only [starts, hps]
    rw [es]
    simp only [List.map_cons] at ih ⊢
    rw [cscColumns, ih]
    have hn : ((((pre.length + c.length : Nat) : Int)) - (pre.length : Int)).toNat = c.length := by omega
    rw [hn]
    have hm := mapM_range (xs := c.map fun x => ([(x.1 : Int), (j : Int)], x.2)) (off := 0)
      (f := fun (k : Nat) => (List.map (fun x : Nat × V => (x.1 : Int)) (pre ++ (c :: cs).flatten))[(pre.length : Int).toNat + k]?.bind fun i =>
        (List.map (fun x : Nat × V => x.2) (pre ++ (c :: cs).flatten))[(pre.length : Int).toNat + k]?.map fun v => ([i, (j : Int)], v)) (by
      intro k hk
      have hk : k < c.length := by simpa using hk
      have hg : (pre ++ (c :: cs).flatten)[pre.length + k]? = some c[k] := by
        rw [List.getElem?_append_right (by omega), ef, List.getElem?_append_left (by omega)]
        simp [hk]
      rw [Int.toNat_natCast, Nat.zero_add, List.getElem?_map, List.getElem?_map, hg]
      simp)
    rw [List.length_map, ← List.range_eq_range'] at hm
    rw [hm]
    simp [toInt, columns]

end Verif.Foreign
