import Verif.Einsum.Model
import Verif.Einsum.Spec

/-! # Lemmas about the einsum string parser -/

namespace Verif.Einsum

@[simp] theorem bind_ok {α β : Type} (a : α) (f : α → Out β) : (Out.ok a).bind f = f a := rfl
@[simp] theorem bind_pe {α β : Type} (f : α → Out β) : (Out.parseError : Out α).bind f = .parseError := rfl
@[simp] theorem bind_un {α β : Type} (f : α → Out β) : (Out.uncaught : Out α).bind f = .uncaught := rfl
@[simp] theorem bind_ub {α β : Type} (f : α → Out β) : (Out.ub : Out α).bind f = .ub := rfl

theorem bind_eq_ok {α β : Type} {x : Out α} {f : α → Out β} {b : β} (h : x.bind f = .ok b) :
    ∃ a, x = .ok a ∧ f a = .ok b := by
  cases x <;> simp at h
  exact ⟨_, rfl, h⟩

/-! ## Characters -/

theorem symbols_eq : symbols = "abcdefghijklmnopqrstuvwxyz".toList ++ "ABCDEFGHIJKLMNOPQRSTUVWXYZ".toList := by
  decide +kernel

theorem alphabet_eq : alphabet = "ABCDEFGHIJKLMNOPQRSTUVWXYZ".toList ++ "abcdefghijklmnopqrstuvwxyz".toList := by
  decide +kernel

theorem mem_symbols {c : Char} : c ∈ symbols ↔ c ∈ alphabet := by
  rw [symbols_eq, alphabet_eq]; simp only [List.mem_append]; exact Or.comm

theorem symbols_nodup : symbols.Nodup := by decide +kernel

theorem filter_symbols_length (p : Char → Bool) :
    (symbols.filter p).length = (alphabet.filter p).length := by
  rw [symbols_eq, alphabet_eq, List.filter_append, List.filter_append, List.length_append,
    List.length_append, Nat.add_comm]

theorem not_alpha {d : Char} (hd : d ∉ alphabet) {c : Char} (h : c ∈ alphabet) : c ≠ d := by
  intro e; subst e; exact hd h

theorem dot_na : '.' ∉ alphabet := by decide +kernel
theorem comma_na : ',' ∉ alphabet := by decide +kernel
theorem dash_na : '-' ∉ alphabet := by decide +kernel
theorem gt_na : '>' ∉ alphabet := by decide +kernel

theorem punct_iff {c : Char} : c ∈ punctuation ↔ c = '.' ∨ c = ',' ∨ c = '-' ∨ c = '>' := by
  have : punctuation = ['.', ',', '-', '>'] := by decide +kernel
  rw [this]; simp

theorem alpha_not_punct {c : Char} (h : c ∈ alphabet) : c ∉ punctuation := by
  rw [punct_iff]
  rintro (e | e | e | e) <;> subst e
  · exact dot_na h
  · exact comma_na h
  · exact dash_na h
  · exact gt_na h

theorem alpha_toNat {c : Char} (h : c ∈ alphabet) : 65 ≤ c.toNat ∧ c.toNat < 128 := by
  have : ∀ c ∈ alphabet, 65 ≤ c.toNat ∧ c.toNat < 128 := by decide +kernel
  exact this c h

/-! ## Sorting -/

theorem mem_insertChar {c d : Char} {l : List Char} : c ∈ insertChar d l ↔ c = d ∨ c ∈ l := by
  induction l with
  | nil => simp [insertChar]
  | cons a l ih =>
    unfold insertChar
    split
    · simp
    · simp only [List.mem_cons, ih]
      constructor
      · rintro (h | h | h)
        · exact .inr (.inl h)
        · exact .inl h
        · exact .inr (.inr h)
      · rintro (h | h | h)
        · exact .inr (.inl h)
        · exact .inl h
        · exact .inr (.inr h)

theorem count_insertChar (c d : Char) (l : List Char) : (insertChar d l).count c = (d :: l).count c := by
  induction l with
  | nil => rfl
  | cons a l ih =>
    unfold insertChar
    split
    · rfl
    · rw [List.count_cons, ih, List.count_cons, List.count_cons, List.count_cons]; omega

theorem count_sortChars (c : Char) (l : List Char) : (sortChars l).count c = l.count c := by
  induction l with
  | nil => rfl
  | cons a l ih => rw [sortChars, count_insertChar, List.count_cons, List.count_cons, ih]

theorem sorted_insertChar (c : Char) (l : List Char) (h : l.Pairwise (fun a b => a.toNat ≤ b.toNat)) :
    (insertChar c l).Pairwise (fun a b => a.toNat ≤ b.toNat) := by
  induction l with
  | nil => simp [insertChar]
  | cons a l ih =>
    unfold insertChar
    rw [List.pairwise_cons] at h
    split
    · rename_i hle
      rw [List.pairwise_cons]
      refine ⟨?_, List.pairwise_cons.2 h⟩
      intro b hb
      rcases List.mem_cons.1 hb with e | hb
      · subst e; exact hle
      · exact Nat.le_trans hle (h.1 b hb)
    · rename_i hle
      rw [List.pairwise_cons]
      refine ⟨?_, ih h.2⟩
      intro b hb
      rcases mem_insertChar.1 hb with e | hb
      · subst e; omega
      · exact h.1 b hb

theorem sorted_sortChars (l : List Char) : (sortChars l).Pairwise (fun a b => a.toNat ≤ b.toNat) := by
  induction l with
  | nil => simp [sortChars]
  | cons a l ih => exact sorted_insertChar _ _ ih

theorem char_toNat_inj {a b : Char} (h : a.toNat = b.toNat) : a = b := by
  apply Char.ext
  apply UInt32.toNat_inj.1
  exact h

theorem strict_of_sorted {l : List Char} (h : l.Pairwise (fun a b => a.toNat ≤ b.toNat))
    (hc : ∀ c ∈ l, l.count c = 1) : l.Pairwise (fun a b => a.toNat < b.toNat) := by
  induction l with
  | nil => simp
  | cons a l ih =>
    rw [List.pairwise_cons] at h ⊢
    have ha : a ∉ l := by
      intro hm
      have := hc a (List.mem_cons_self ..)
      rw [List.count_cons_self] at this
      have h2 := List.count_pos_iff.2 hm
      omega
    refine ⟨?_, ih h.2 ?_⟩
    · intro b hb
      have := h.1 b hb
      rcases Nat.lt_or_eq_of_le this with h1 | h1
      · exact h1
      · exact absurd (char_toNat_inj h1 ▸ hb) ha
    · intro c hcm
      have := hc c (List.mem_cons_of_mem _ hcm)
      have hne : a ≠ c := fun e => ha (e ▸ hcm)
      rw [List.count_cons_of_ne hne] at this
      exact this

/-- Strictly increasing lists with the same elements are equal. -/
theorem strict_ext : ∀ {l m : List Char}, l.Pairwise (fun a b => a.toNat < b.toNat) →
    m.Pairwise (fun a b => a.toNat < b.toNat) → (∀ c, c ∈ l ↔ c ∈ m) → l = m
  | [], [], _, _, _ => rfl
  | [], b :: m, _, _, h => absurd ((h b).2 (List.mem_cons_self ..)) (by simp)
  | a :: l, [], _, _, h => absurd ((h a).1 (List.mem_cons_self ..)) (by simp)
  | a :: l, b :: m, hl, hm, h => by
    rw [List.pairwise_cons] at hl hm
    have hab : a = b := by
      have h1 := (h a).1 (List.mem_cons_self ..)
      have h2 := (h b).2 (List.mem_cons_self ..)
      rcases List.mem_cons.1 h1 with e | h1
      · exact e
      · rcases List.mem_cons.1 h2 with e | h2
        · exact e.symm
        · have := hm.1 a h1; have := hl.1 b h2; omega
    subst hab
    congr 1
    apply strict_ext hl.2 hm.2
    intro c
    have hc := h c
    simp only [List.mem_cons] at hc
    constructor
    · intro hcl
      rcases hc.1 (.inr hcl) with e | h1
      · subst e; exact absurd (hl.1 c hcl) (Nat.lt_irrefl _)
      · exact h1
    · intro hcm
      rcases hc.2 (.inr hcm) with e | h1
      · subst e; exact absurd (hm.1 c hcm) (Nat.lt_irrefl _)
      · exact h1

theorem strict_filter {l : List Char} (p : Char → Bool) (h : l.Pairwise (fun a b => a.toNat < b.toNat)) :
    (l.filter p).Pairwise (fun a b => a.toNat < b.toNat) := h.sublist List.filter_sublist

theorem sortChars_strict : ∀ {l : List Char}, l.Pairwise (fun a b => a.toNat < b.toNat) → sortChars l = l
  | [], _ => rfl
  | [a], _ => rfl
  | a :: b :: l, h => by
    rw [List.pairwise_cons] at h
    rw [sortChars, sortChars_strict h.2, insertChar, if_pos (Nat.le_of_lt (h.1 b (List.mem_cons_self ..)))]

theorem alphabet_strict : alphabet.Pairwise (fun a b => a.toNat < b.toNat) := by decide +kernel

/-- The text without punctuation, as `findUniqueIndices` sees it. -/
def plain (s : List Char) : List Char := s.filter (fun c => !(c == '.' || c == ','))

theorem mem_unique {s : List Char} {c : Char} : c ∈ findUniqueIndices s ↔ (plain s).count c = 1 := by
  unfold findUniqueIndices
  simp only [List.mem_filter, count_sortChars, beq_iff_eq]
  constructor
  · exact fun h => h.2
  · intro h
    refine ⟨?_, h⟩
    apply List.count_pos_iff.1
    rw [count_sortChars]
    unfold plain at h
    omega

theorem strict_unique (s : List Char) : (findUniqueIndices s).Pairwise (fun a b => a.toNat < b.toNat) := by
  apply strict_of_sorted
  · exact (sorted_sortChars _).sublist List.filter_sublist
  · intro c hc
    have h1 := mem_unique.1 hc
    have hle : (findUniqueIndices s).count c ≤ (plain s).count c := by
      rw [← count_sortChars c (plain s)]
      exact List.Sublist.count_le c List.filter_sublist
    have := List.count_pos_iff.2 hc
    omega

/-! ## Splitting -/

theorem breakArrow_none {s : List Char} (h : '-' ∉ s) : breakArrow s = none := by
  induction s with
  | nil => rfl
  | cons c s ih =>
    simp only [List.mem_cons, not_or] at h
    rw [breakArrow, if_neg (fun hh => h.1 hh.1.symm), ih h.2]; rfl

theorem breakArrow_some {a b : List Char} (h : '-' ∉ a) : breakArrow (a ++ '-' :: '>' :: b) = some (a, b) := by
  induction a with
  | nil => simp [breakArrow]
  | cons c a ih =>
    simp only [List.mem_cons, not_or] at h
    rw [List.cons_append, breakArrow, if_neg (fun hh => h.1 hh.1.symm), ih h.2]; rfl

theorem splitArrow_text {a b : List Char} (ha : '-' ∉ a) (hb : '-' ∉ b) :
    splitArrow (a ++ '-' :: '>' :: b) = pushPiece a ++ pushPiece b := by
  unfold splitArrow
  have : (a ++ '-' :: '>' :: b).length = (a.length + b.length + 1) + 1 := by
    simp only [List.length_append, List.length_cons]; omega
  rw [this, splitArrowFuel, breakArrow_some ha]
  simp only
  congr 1
  rw [splitArrowFuel, breakArrow_none hb]

theorem takeArrow_text {a b old : List Char} (ha : '-' ∉ a) (hb : '-' ∉ b) (hne : a ≠ []) :
    takeArrow (a ++ '-' :: '>' :: b) old = .ok (a, if b = [] then old else b) := by
  unfold takeArrow
  rw [splitArrow_text ha hb]
  unfold pushPiece
  rw [if_neg hne]
  by_cases h : b = []
  · simp [h]
  · simp [h]

theorem splitCommaFrom_piece (between p rest : List Char) (hp : ',' ∉ p) :
    splitCommaFrom between (p ++ rest) = splitCommaFrom (between ++ p) rest := by
  induction p generalizing between with
  | nil => simp
  | cons c p ih =>
    simp only [List.mem_cons, not_or] at hp
    rw [List.cons_append, splitCommaFrom, if_neg (Ne.symm hp.1), ih _ hp.2]
    simp

theorem splitComma_join : ∀ (ps : List (List Char)), ps ≠ [] → (∀ p ∈ ps, ',' ∉ p) →
    splitComma (joinComma ps) = ps
  | [], h, _ => absurd rfl h
  | [p], _, h => by
    have := splitCommaFrom_piece [] p [] (h p (List.mem_cons_self ..))
    simp only [List.append_nil, List.nil_append] at this
    unfold splitComma joinComma
    rw [this]; rfl
  | p :: q :: rest, _, h => by
    unfold splitComma
    rw [joinComma, splitCommaFrom_piece _ _ _ (h p (List.mem_cons_self ..)), List.nil_append,
      splitCommaFrom, if_pos rfl]
    congr 1
    exact splitComma_join (q :: rest) (by simp) (fun x hx => h x (List.mem_cons_of_mem _ hx))

theorem join_eq_intercalate : ∀ (ps : List (List Char)), joinComma ps = List.intercalate [','] ps
  | [] => rfl
  | [p] => by simp [joinComma, List.intercalate]
  | p :: q :: rest => by
    rw [joinComma, join_eq_intercalate (q :: rest)]
    simp [List.intercalate]

theorem mem_joinComma {c : Char} : ∀ {ps : List (List Char)}, c ∈ joinComma ps →
    c = ',' ∨ ∃ p ∈ ps, c ∈ p
  | [], h => by simp [joinComma] at h
  | [p], h => .inr ⟨p, List.mem_cons_self .., h⟩
  | p :: q :: rest, h => by
    rw [joinComma] at h
    simp only [List.mem_append, List.mem_cons] at h
    rcases h with h | h | h
    · exact .inr ⟨p, List.mem_cons_self .., h⟩
    · exact .inl h
    · rcases mem_joinComma h with h | ⟨x, hx, hc⟩
      · exact .inl h
      · exact .inr ⟨x, List.mem_cons_of_mem _ hx, hc⟩

theorem mem_join_of {c : Char} {p : List Char} : ∀ {ps : List (List Char)}, p ∈ ps → c ∈ p → c ∈ joinComma ps
  | [q], h, hc => by
    rw [List.mem_singleton] at h; subst h; exact hc
  | q :: r :: rest, h, hc => by
    rw [joinComma]
    simp only [List.mem_append, List.mem_cons]
    rcases List.mem_cons.1 h with h | h
    · subst h; exact .inl hc
    · exact .inr (.inr (mem_join_of h hc))

/-- Without punctuation the joined text is the concatenation. -/
theorem plain_join : ∀ (ps : List (List Char)), (∀ p ∈ ps, ∀ c ∈ p, c ≠ '.' ∧ c ≠ ',') →
    plain (joinComma ps) = ps.flatten
  | [], _ => rfl
  | [p], h => by
    simp only [joinComma, List.flatten_cons, List.flatten_nil, List.append_nil]
    unfold plain
    rw [List.filter_eq_self]
    intro c hc
    have := h p (List.mem_cons_self ..) c hc
    simp [this.1, this.2]
  | p :: q :: rest, h => by
    have ih := plain_join (q :: rest) (fun x hx => h x (List.mem_cons_of_mem _ hx))
    have hp : p.filter (fun c => !(c == '.' || c == ',')) = p := by
      rw [List.filter_eq_self]
      intro c hc
      have := h p (List.mem_cons_self ..) c hc
      simp [this.1, this.2]
    rw [joinComma]
    unfold plain at ih ⊢
    rw [List.filter_append, hp, List.filter_cons_of_neg (by decide), ih]
    rfl

/-! ## Ellipses -/

theorem breakEllipse_none {s : List Char} (h : '.' ∉ s) : breakEllipse s = none := by
  induction s with
  | nil => rfl
  | cons c s ih =>
    simp only [List.mem_cons, not_or] at h
    rw [breakEllipse, if_neg (fun hh => h.1 hh.1.symm), ih h.2]; rfl

theorem breakEllipse_some {a b : List Char} (h : '.' ∉ a) :
    breakEllipse (a ++ '.' :: '.' :: '.' :: b) = some (a, b) := by
  induction a with
  | nil => simp [breakEllipse]
  | cons c a ih =>
    simp only [List.mem_cons, not_or] at h
    rw [List.cons_append, breakEllipse, if_neg (fun hh => h.1 hh.1.symm), ih h.2]; rfl

theorem text_ell {s : Sub} (h : s.ell = true) : s.text = s.before ++ '.' :: '.' :: '.' :: s.after := by
  unfold Sub.text; simp [h]

theorem text_noell {s : Sub} (h : s.ell = false) : s.text = s.letters := by
  unfold Sub.text Sub.letters; simp [h]

theorem replace_text_ell {s : Sub} (h : s.ell = true) (hl : ∀ c ∈ s.letters, c ∈ alphabet) (new : List Char) :
    replaceEllipse s.text new = s.before ++ new ++ s.after := by
  unfold replaceEllipse
  rw [text_ell h, breakEllipse_some]
  intro hd
  exact dot_na (hl _ (List.mem_append_left _ hd))

theorem replace_text_noell {s : Sub} (h : s.ell = false) (hl : ∀ c ∈ s.letters, c ∈ alphabet) (new : List Char) :
    replaceEllipse s.text new = s.letters := by
  unfold replaceEllipse
  rw [text_noell h, breakEllipse_none]
  intro hd
  exact dot_na (hl _ hd)

theorem count_zero_of_alpha {l : List Char} {d : Char} (hd : d ∉ alphabet) (hl : ∀ c ∈ l, c ∈ alphabet) :
    l.count d = 0 := by
  rw [List.count_eq_zero]
  exact fun h => hd (hl d h)

theorem filter_dot {l : List Char} (hl : ∀ c ∈ l, c ∈ alphabet) : l.filter (fun c => c != '.') = l := by
  rw [List.filter_eq_self]
  intro c hc
  have : c ≠ '.' := not_alpha dot_na (hl c hc)
  simp [this]

theorem mem_text {s : Sub} {c : Char} (h : c ∈ s.text) : c ∈ s.letters ∨ c = '.' := by
  unfold Sub.text at h
  unfold Sub.letters
  simp only [List.mem_append] at h ⊢
  rcases h with h | h | h
  · exact .inl (.inl h)
  · right
    split at h <;> simp at h
    exact h
  · exact .inl (.inr h)

theorem letters_mem_text {s : Sub} {c : Char} (h : c ∈ s.letters) : c ∈ s.text := by
  unfold Sub.text
  unfold Sub.letters at h
  simp only [List.mem_append] at h ⊢
  rcases h with h | h
  · exact .inl h
  · exact .inr (.inr h)

theorem dot_mem_text {s : Sub} (hl : ∀ c ∈ s.letters, c ∈ alphabet) : '.' ∈ s.text ↔ s.ell = true := by
  constructor
  · intro h
    cases he : s.ell with
    | true => rfl
    | false =>
      rw [text_noell he] at h
      exact absurd (hl _ h) dot_na
  · intro h
    rw [text_ell h]; simp

/-! ## The letters that stand for labels -/

/-- The letter a label becomes: the broadcast dimensions are numbered from the end of the unused letters. -/
def rename (unused : List Char) : Label → Char
  | .letter c => c
  | .bcast k => unused.getD (unused.length - 1 - k) 'A'

theorem drop_last (u : List Char) (n : Nat) (h : n ≤ u.length) :
    u.drop (u.length - n) = (bcasts n).map (rename u) := by
  induction n with
  | zero => simp [bcasts]
  | succ n ih =>
    have ih := ih (by omega)
    have hlt : u.length - (n + 1) < u.length := by omega
    rw [List.drop_eq_getElem_cons hlt]
    have e : u.length - (n + 1) + 1 = u.length - n := by omega
    rw [e, ih, bcasts, List.map_cons]
    congr 1
    unfold rename
    have e2 : u.length - 1 - n = u.length - (n + 1) := by omega
    simp only [e2]
    rw [List.getD_eq_getElem?_getD, List.getElem?_eq_getElem hlt]; rfl

theorem mem_bcasts {n : Nat} {l : Label} : l ∈ bcasts n ↔ ∃ k, k < n ∧ l = .bcast k := by
  induction n with
  | zero => simp [bcasts]
  | succ n ih =>
    rw [bcasts, List.mem_cons, ih]
    constructor
    · rintro (h | ⟨k, hk, h⟩)
      · exact ⟨n, by omega, h⟩
      · exact ⟨k, by omega, h⟩
    · rintro ⟨k, hk, h⟩
      by_cases e : k = n
      · subst e; exact .inl h
      · exact .inr ⟨k, by omega, h⟩

theorem length_bcasts (n : Nat) : (bcasts n).length = n := by
  induction n with
  | zero => rfl
  | succ n ih => simp [bcasts, ih]

theorem rename_bcast_mem {u : List Char} {k : Nat} (h : k < u.length) : rename u (.bcast k) ∈ u := by
  have hlt : u.length - 1 - k < u.length := by omega
  have e : rename u (.bcast k) = u[u.length - 1 - k] := by
    show u.getD (u.length - 1 - k) 'A' = _
    rw [List.getD_eq_getElem?_getD, List.getElem?_eq_getElem hlt]; rfl
  rw [e]
  exact List.getElem_mem hlt

/-- Distinct labels become distinct letters. -/
theorem rename_inj {u : List Char} (hu : u.Nodup) {l m : Label}
    (hl : ∀ k, l = .bcast k → k < u.length) (hm : ∀ k, m = .bcast k → k < u.length)
    (hl' : ∀ c, l = .letter c → c ∉ u) (hm' : ∀ c, m = .letter c → c ∉ u)
    (h : rename u l = rename u m) : l = m := by
  cases l with
  | letter c =>
    cases m with
    | letter d => exact congrArg Label.letter h
    | bcast k =>
      have h1 := rename_bcast_mem (hm k rfl)
      rw [← h] at h1
      exact absurd h1 (hl' c rfl)
  | bcast j =>
    cases m with
    | letter d =>
      have h1 := rename_bcast_mem (hl j rfl)
      rw [h] at h1
      exact absurd h1 (hm' d rfl)
    | bcast k =>
      have hj := hl j rfl
      have hk := hm k rfl
      have a : u.length - 1 - j < u.length := by omega
      have b : u.length - 1 - k < u.length := by omega
      unfold rename at h
      simp only [List.getD_eq_getElem?_getD, List.getElem?_eq_getElem a, List.getElem?_eq_getElem b,
        Option.getD_some] at h
      have hp := List.pairwise_iff_getElem.1 hu
      congr 1
      rcases Nat.lt_trichotomy (u.length - 1 - j) (u.length - 1 - k) with h1 | h1 | h1
      · exact absurd h (hp _ _ a b h1)
      · omega
      · exact absurd h.symm (hp _ _ b a h1)

/-- The text of a subscript whose ellipsis is replaced by letters. -/
theorem labels_rename (u : List Char) (s : Sub) (n : Nat) :
    (s.labels n).map (rename u) =
      s.before ++ ((if s.ell then (bcasts n).map (rename u) else []) ++ s.after) := by
  unfold Sub.labels
  have hm : ∀ l : List Char, (l.map Label.letter).map (rename u) = l := by
    intro l; rw [List.map_map]; exact List.map_id' l
  rw [List.map_append, List.map_append, hm, hm]
  congr 2
  split <;> rfl

theorem expandOne_text {u : List Char} {s : Sub} {r : Nat} {w : Nat}
    (hl : ∀ c ∈ s.letters, c ∈ alphabet) (hf : s.Fits r) (hu : s.width r ≤ u.length) :
    expandOne u r w s.text = .ok ((s.labels (s.width r)).map (rename u), ((max w (s.width r) : Nat) : Int)) := by
  rw [labels_rename]
  unfold expandOne
  by_cases he : s.ell = true
  · rw [if_pos ((dot_mem_text hl).2 he)]
    unfold Sub.Fits at hf
    rw [if_pos he] at hf
    have hcount : s.text.count '.' = 3 := by
      rw [text_ell he]
      rw [List.count_append, List.count_cons_self, List.count_cons_self, List.count_cons_self,
        count_zero_of_alpha dot_na (fun c hc => hl c (List.mem_append_left _ hc)),
        count_zero_of_alpha dot_na (fun c hc => hl c (List.mem_append_right _ hc))]
    have hbe : breakEllipse s.text = some (s.before, s.after) := by
      rw [text_ell he, breakEllipse_some]
      exact fun hd => dot_na (hl _ (List.mem_append_left _ hd))
    rw [if_neg (by rw [hcount, hbe]; simp)]
    have hlen : s.text.length = s.letters.length + 3 := by
      rw [text_ell he]; unfold Sub.letters; simp only [List.length_append, List.length_cons]; omega
    have hw : s.width r = r - s.letters.length := by unfold Sub.width; rw [if_pos he]
    have hec : ellipseCount r s.text = (s.width r : Nat) := by
      unfold ellipseCount
      rw [hlen, hw]
      split <;> omega
    simp only [hec, if_pos he]
    rw [if_neg (by omega)]
    have hmax : max (w : Int) ((s.width r : Nat) : Int) = ((max w (s.width r) : Nat) : Int) := by omega
    rw [hmax]
    by_cases hz : s.width r = 0
    · rw [if_pos (by omega), hz, text_ell he]
      congr 1
      rw [List.filter_append, filter_dot (fun c hc => hl c (List.mem_append_left _ hc)),
        List.filter_cons_of_neg (by decide), List.filter_cons_of_neg (by decide),
        List.filter_cons_of_neg (by decide), filter_dot (fun c hc => hl c (List.mem_append_right _ hc))]
      simp [bcasts]
    · rw [if_neg (by omega), Int.toNat_natCast]
      unfold lastChars
      rw [if_pos hu, bind_ok, replace_text_ell he hl, drop_last _ _ hu]
      simp
  · have he' : s.ell = false := by simpa using he
    rw [if_neg (fun hd => he ((dot_mem_text hl).1 hd)), if_neg he, text_noell he']
    have hw : s.width r = 0 := by unfold Sub.width; rw [if_neg he]
    rw [hw]
    simp [Sub.letters]

theorem width_cons (s : Sub) (ss : List Sub) (r : Nat) (rs : List Nat) :
    width (s :: ss) (r :: rs) = max (s.width r) (width ss rs) := rfl

theorem expandAll_text {u : List Char} : ∀ {ss : List Sub} {rs : List Nat} {w : Nat},
    (∀ s ∈ ss, ∀ c ∈ s.letters, c ∈ alphabet) → ss.length = rs.length →
    (∀ p ∈ ss.zip rs, p.1.Fits p.2) → width ss rs ≤ u.length →
    expandAll u rs w (ss.map Sub.text) =
      .ok ((inputLabels ss rs).map (List.map (rename u)), ((max w (width ss rs) : Nat) : Int))
  | [], [], w, _, _, _, _ => by simp [expandAll, inputLabels, width]
  | [], _ :: _, _, _, h, _, _ => by simp at h
  | _ :: _, [], _, _, h, _, _ => by simp at h
  | s :: ss, r :: rs, w, hl, hlen, hf, hu => by
    rw [width_cons] at hu
    have hfs : s.Fits r := hf (s, r) (by simp [List.zip_cons_cons])
    rw [List.map_cons, expandAll, expandOne_text (hl s (List.mem_cons_self ..)) hfs (by omega), bind_ok]
    simp only
    rw [expandAll_text (fun x hx => hl x (List.mem_cons_of_mem _ hx)) (by simpa using hlen)
      (fun p hp => hf p (by rw [List.zip_cons_cons]; exact List.mem_cons_of_mem _ hp)) (by omega), bind_ok]
    simp only [inputLabels, List.map_cons, width_cons, Nat.max_assoc]

/-! ## The maps of `buildResult` -/

theorem at?_insertDim (m : Dims) (c : Char) (n : Nat) (d : Char) :
    Dims.at? (insertDim m c n) d = if (Dims.at? m d).isSome then Dims.at? m d else if c = d then some n else none := by
  have happ : ∀ (m : Dims), Dims.at? (m ++ [(c, n)]) d =
      if (Dims.at? m d).isSome then Dims.at? m d else if c = d then some n else none := by
    intro m
    induction m with
    | nil => simp [Dims.at?]
    | cons p m ih =>
      obtain ⟨e, k⟩ := p
      rw [List.cons_append, Dims.at?, Dims.at?]
      by_cases h : e = d
      · simp [h]
      · rw [if_neg h, if_neg h, ih]
  unfold insertDim
  by_cases h : (Dims.at? m c).isSome = true
  · rw [if_pos h]
    by_cases hd : (Dims.at? m d).isSome = true
    · rw [if_pos hd]
    · rw [if_neg hd]
      have : c ≠ d := fun e => hd (e ▸ h)
      rw [if_neg this]
      simpa using hd
  · rw [if_neg h, happ]

/-- The keys of the map are letters (never a small code). -/
def LettersOnly (m : Dims) : Prop := ∀ c, (Dims.at? m c).isSome → 65 ≤ c.toNat

theorem countPosition_small {m : Dims} (h : LettersOnly m) {i : Nat} (hi : i < 65) : countPosition m i = false := by
  unfold countPosition
  cases hh : (Dims.at? m (Char.ofNat (i % 256))).isSome with
  | false => rfl
  | true =>
    have := h _ hh
    have e : i % 256 = i := by omega
    rw [e] at this
    have : ∀ i, i < 65 → (Char.ofNat i).toNat < 65 := by decide +kernel
    have := this i hi
    omega

theorem lettersOnly_insert {m : Dims} (h : LettersOnly m) {c : Char} (hc : 65 ≤ c.toNat) (n : Nat) :
    LettersOnly (insertDim m c n) := by
  intro d hd
  rw [at?_insertDim] at hd
  by_cases h1 : (Dims.at? m d).isSome = true
  · exact h d h1
  · rw [if_neg h1] at hd
    by_cases h2 : c = d
    · exact h2 ▸ hc
    · rw [if_neg h2] at hd; cases hd

/-- The first dimension a letter is given. -/
def firstDim (ps : List (Char × Nat)) (c : Char) : Option Nat := Dims.at? ps c

theorem at?_append (m k : Dims) (c : Char) :
    Dims.at? (m ++ k) c = if (Dims.at? m c).isSome then Dims.at? m c else Dims.at? k c := by
  induction m with
  | nil => simp [Dims.at?]
  | cons p m ih =>
    obtain ⟨e, n⟩ := p
    rw [List.cons_append, Dims.at?, Dims.at?]
    by_cases h : e = c
    · simp [h]
    · rw [if_neg h, if_neg h, ih]

theorem mapOne_spec : ∀ (cs : List Char) (ns : List Nat) (i : Nat) (m : Dims), LettersOnly m →
    (∀ c ∈ cs, 65 ≤ c.toNat) → cs.length = ns.length → i + cs.length ≤ 65 →
    ∃ m', mapOne i m cs ns = .ok m' ∧ LettersOnly m' ∧ ∀ c, Dims.at? m' c = Dims.at? (m ++ cs.zip ns) c
  | [], [], i, m, hm, _, _, _ => ⟨m, by simp [mapOne], hm, by simp⟩
  | [], _ :: _, _, _, _, _, h, _ => by simp at h
  | _ :: _, [], _, _, _, _, h, _ => by simp at h
  | c :: cs, n :: ns, i, m, hm, hc, hlen, hi => by
    simp only [List.length_cons] at hi hlen
    obtain ⟨m', h1, h2, h3⟩ := mapOne_spec cs ns (i + 1) (insertDim m c n)
      (lettersOnly_insert hm (hc c (List.mem_cons_self ..)) n)
      (fun d hd => hc d (List.mem_cons_of_mem _ hd)) (by omega) (by omega)
    refine ⟨m', ?_, h2, ?_⟩
    · rw [mapOne, countPosition_small hm (by omega)]
      simpa using h1
    · intro d
      rw [h3, at?_append, at?_append, at?_insertDim, List.zip_cons_cons, Dims.at?]
      by_cases hs : (Dims.at? m d).isSome = true
      · simp [hs]
      · by_cases he : c = d
        · simp [hs, he]
        · simp [hs, he]

theorem mapAll_spec : ∀ (ss : List (List Char)) (ds : List (List Nat)) (m : Dims), LettersOnly m →
    (∀ s ∈ ss, ∀ c ∈ s, 65 ≤ c.toNat) → ss.map List.length = ds.map List.length →
    (∀ s ∈ ss, s.length ≤ 65) →
    ∃ m', mapAll m ss ds = .ok m' ∧ ∀ c, Dims.at? m' c = Dims.at? (m ++ labelled ss ds) c
  | [], [], m, _, _, _, _ => ⟨m, by simp [mapAll], by simp [labelled]⟩
  | [], _ :: _, _, _, _, h, _ => by simp at h
  | _ :: _, [], _, _, _, h, _ => by simp at h
  | s :: ss, d :: ds, m, hm, hc, hlen, hi => by
    simp only [List.map_cons, List.cons.injEq] at hlen
    obtain ⟨m1, h1, h2, h3⟩ := mapOne_spec s d 0 m hm (hc s (List.mem_cons_self ..)) hlen.1
      (by have := hi s (List.mem_cons_self ..); omega)
    obtain ⟨m', h4, h5⟩ := mapAll_spec ss ds m1 h2 (fun x hx => hc x (List.mem_cons_of_mem _ hx)) hlen.2
      (fun x hx => hi x (List.mem_cons_of_mem _ hx))
    refine ⟨m', ?_, ?_⟩
    · rw [mapAll, if_neg (by simp [hlen.1]), h1, bind_ok, h4]
    · intro c
      rw [h5, at?_append, h3, at?_append]
      simp only [labelled, List.zipWith_cons_cons, List.flatten_cons]
      rw [at?_append, at?_append]
      by_cases hs : (Dims.at? m c).isSome = true
      · simp [hs]
      · simp [hs]

theorem at?_extent {m : List (Char × Nat)} {c : Char} (h : (Dims.at? m c).isSome) :
    Dims.at? m c = some (extent m c) := by
  induction m with
  | nil => simp [Dims.at?] at h
  | cons p m ih =>
    obtain ⟨e, n⟩ := p
    rw [Dims.at?] at h ⊢
    rw [extent]
    by_cases he : e = c
    · simp [he]
    · rw [if_neg he] at h ⊢
      rw [if_neg he]
      exact ih h

theorem at?_isSome {m : List (Char × Nat)} {c : Char} : (Dims.at? m c).isSome ↔ c ∈ m.map Prod.fst := by
  induction m with
  | nil => simp [Dims.at?]
  | cons p m ih =>
    obtain ⟨e, n⟩ := p
    rw [Dims.at?, List.map_cons, List.mem_cons]
    by_cases he : e = c
    · simp [he]
    · rw [if_neg he, ih]
      constructor
      · exact .inr
      · rintro (h | h)
        · exact absurd h.symm he
        · exact h

theorem labelled_fst {α : Type} : ∀ (ss : List (List α)) (ds : List (List Nat)), ss.map List.length = ds.map List.length →
    (labelled ss ds).map Prod.fst = ss.flatten
  | [], [], _ => rfl
  | [], _ :: _, h => by simp at h
  | _ :: _, [], h => by simp at h
  | s :: ss, d :: ds, h => by
    simp only [List.map_cons, List.cons.injEq] at h
    have ih := labelled_fst ss ds h.2
    unfold labelled at ih ⊢
    rw [List.zipWith_cons_cons, List.flatten_cons, List.map_append, ih, List.flatten_cons]
    congr 1
    rw [List.map_fst_zip]
    omega

theorem lookupAll_spec {m : Dims} {f : Char → Nat} : ∀ (cs : List Char), (∀ c ∈ cs, Dims.at? m c = some (f c)) →
    lookupAll m cs = .ok (cs.map f)
  | [], _ => rfl
  | c :: cs, h => by
    rw [lookupAll, h c (List.mem_cons_self ..), lookupAll_spec cs (fun d hd => h d (List.mem_cons_of_mem _ hd))]
    rfl

theorem lookupInputs_spec {m : Dims} {f : Char → Nat} : ∀ (ss : List (List Char)),
    (∀ s ∈ ss, ∀ c ∈ s, Dims.at? m c = some (f c)) → lookupInputs m ss = .ok ()
  | [], _ => rfl
  | s :: ss, h => by
    rw [lookupInputs, lookupAll_spec s (h s (List.mem_cons_self ..)), bind_ok,
      lookupInputs_spec ss (fun x hx => h x (List.mem_cons_of_mem _ hx))]

theorem buildResult_spec {fo : Nat} {tensors : List (List Nat)} {ins : List (List Char)} {out : List Char}
    (hne : ins ≠ []) (hc : ∀ s ∈ ins, ∀ c ∈ s, c ∈ alphabet)
    (hlen : ins.map List.length = tensors.map List.length) (hr : ∀ t ∈ tensors, t.length ≤ 65)
    (hout : ∀ c ∈ out, c ∈ ins.flatten) (hfo : fo = 0 ∨ fo = out.length) :
    buildResult fo tensors (joinComma ins) out = .ok ⟨ins, out, out.map (extent (labelled ins tensors))⟩ := by
  unfold buildResult
  rw [splitComma_join ins hne (fun p hp hcm => comma_na (hc p hp _ hcm))]
  have hle : ∀ s ∈ ins, s.length ≤ 65 := by
    intro s hs
    have : s.length ∈ tensors.map List.length := by rw [← hlen]; exact List.mem_map_of_mem hs
    obtain ⟨t, ht, e⟩ := List.mem_map.1 this
    rw [← e]; exact hr t ht
  obtain ⟨m, h1, h2⟩ := mapAll_spec ins tensors [] (by intro c h; simp [Dims.at?] at h)
    (fun s hs c hcs => (alpha_toNat (hc s hs c hcs)).1) hlen hle
  simp only [List.nil_append] at h2
  have hat : ∀ c ∈ ins.flatten, Dims.at? m c = some (extent (labelled ins tensors) c) := by
    intro c hcm
    rw [h2]
    apply at?_extent
    rw [at?_isSome, labelled_fst ins tensors hlen]
    exact hcm
  have hl1 := lookupInputs_spec (m := m) (f := extent (labelled ins tensors)) ins
    (fun s hs c hcs => hat c (List.mem_flatten.2 ⟨s, hs, hcs⟩))
  have hl2 := lookupAll_spec (m := m) (f := extent (labelled ins tensors)) out (fun c hcs => hat c (hout c hcs))
  dsimp only
  rw [h1, bind_ok, hl1, bind_ok, hl2, bind_ok, if_neg]
  rw [List.length_map]
  omega

end Verif.Einsum
