import Verif.FileIO.Spec
namespace Verif.FileIO
variable {V : Type}

/-! ### Lines and fields -/

theorem linesAux_line : ∀ (l cur rest : List Char), '\n' ∉ l → linesAux cur (l ++ '\n' :: rest) = (cur ++ l) :: lines rest
  | [], cur, rest, _ => by simp [linesAux, lines]
  | c :: cs, cur, rest, h => by
    simp only [List.mem_cons, not_or] at h
    rw [List.cons_append]
    have : linesAux cur (c :: (cs ++ '\n' :: rest)) = linesAux (cur ++ [c]) (cs ++ '\n' :: rest) := by
      have hc : c ≠ '\n' := fun e => h.1 e.symm
      conv => lhs; unfold linesAux
      split
      · rename_i e; cases e
      · rename_i e; injection e with e; exact absurd e hc
      · rename_i e; injection e with e1 e2; subst e1; subst e2; rfl
    rw [this, linesAux_line cs _ rest h.2]
    simp

theorem lines_line (l rest : List Char) (h : '\n' ∉ l) : lines (l ++ '\n' :: rest) = l :: lines rest := by
  unfold lines
  rw [linesAux_line l [] rest h]
  simp [lines]

theorem lines_nil : lines [] = [] := rfl

theorem lines_flatMap {α : Type} (f : α → List Char) : ∀ (xs : List α), (∀ x ∈ xs, '\n' ∉ f x) → ∀ (rest : List Char),
    lines ((xs.flatMap fun x => f x ++ ['\n']) ++ rest) = xs.map f ++ lines rest
  | [], _, rest => by simp
  | x :: xs, h, rest => by
    have : ((x :: xs).flatMap fun x => f x ++ ['\n']) ++ rest = f x ++ '\n' :: ((xs.flatMap fun x => f x ++ ['\n']) ++ rest) := by simp
    rw [this, lines_line _ _ (h x (by simp)), lines_flatMap f xs (fun y hy => h y (by simp [hy]))]
    rfl

theorem fieldsAux_word {sep : Char → Bool} : ∀ (w cur : List Char) {s : Char} {rest : List Char}, sep s = true → (∀ c ∈ w, sep c = false) →
    cur ++ w ≠ [] → fieldsAux sep cur (w ++ s :: rest) = (cur ++ w) :: fields sep rest
  | [], cur, s, rest, hs, _, hne => by
    have : cur ≠ [] := by simpa using hne
    simp [fieldsAux, hs, this, fields]
  | c :: cs, cur, s, rest, hs, hw, hne => by
    have hc := hw c (by simp)
    rw [List.cons_append]
    unfold fieldsAux
    rw [if_neg (by simp [hc]), fieldsAux_word cs (cur ++ [c]) hs (fun d hd => hw d (by simp [hd])) (by simp)]
    simp

theorem fields_word {sep : Char → Bool} {w : List Char} {s : Char} {rest : List Char} (hs : sep s = true) (hw : ∀ c ∈ w, sep c = false)
    (hne : w ≠ []) : fields sep (w ++ s :: rest) = w :: fields sep rest := by
  unfold fields
  rw [fieldsAux_word w [] hs hw (by simpa using hne)]
  rfl

theorem fields_last {sep : Char → Bool} {w : List Char} (hw : ∀ c ∈ w, sep c = false) (hne : w ≠ []) : fields sep w = [w] := by
  have : ∀ (w cur : List Char), (∀ c ∈ w, sep c = false) → cur ++ w ≠ [] → fieldsAux sep cur w = [cur ++ w] := by
    intro w
    induction w with
    | nil =>
      intro cur _ hne
      have : cur ≠ [] := by simpa using hne
      simp [fieldsAux, this]
    | cons c cs ih =>
      intro cur hw _
      have hc := hw c (by simp)
      unfold fieldsAux
      rw [if_neg (by simp [hc]), ih (cur ++ [c]) (fun d hd => hw d (by simp [hd])) (by simp)]
      simp
  exact this w [] hw (by simpa using hne)

theorem fields_nil {sep : Char → Bool} : fields sep [] = [] := rfl

theorem fields_words {sep : Char → Bool} (hs : sep ' ' = true) : ∀ (ws : List (List Char)), (∀ w ∈ ws, w ≠ [] ∧ ∀ c ∈ w, sep c = false) →
    ∀ (rest : List Char), fields sep ((ws.flatMap fun w => w ++ [' ']) ++ rest) = ws ++ fields sep rest
  | [], _, rest => by simp
  | w :: ws, h, rest => by
    have : ((w :: ws).flatMap fun w => w ++ [' ']) ++ rest = w ++ ' ' :: ((ws.flatMap fun w => w ++ [' ']) ++ rest) := by simp
    rw [this, fields_word hs (h w (by simp)).2 (h w (by simp)).1, fields_words hs ws (fun x hx => h x (by simp [hx]))]
    rfl

/-! ### Numbers -/

theorem digit_not_space {c : Char} (h : isDigit c = true) : isSpace c = false ∧ c ≠ '-' ∧ c ≠ '+' ∧ c ≠ ' ' ∧ c ≠ '%' ∧ c ≠ '\n' := by
  unfold isDigit at h
  unfold isSpace
  simp only [Bool.and_eq_true, decide_eq_true_eq] at h
  refine ⟨?_, ?_, ?_, ?_, ?_, ?_⟩
  · simp only [Bool.or_eq_false_iff, Bool.and_eq_false_iff, decide_eq_false_iff_not, beq_eq_false_iff_ne, ne_eq]
    constructor
    · rintro rfl
      revert h; decide
    · omega
  all_goals (rintro rfl; revert h; decide)

theorem dec_word (n : Nat) : dec n ≠ [] ∧ (∀ c ∈ dec n, isSpace c = false) ∧ (∀ c ∈ dec n, (c == ' ') = false) ∧ '\n' ∉ dec n := by
  refine ⟨dec_ne_nil n, fun c hc => (digit_not_space (dec_digits n c hc)).1, fun c hc => ?_, fun h => ?_⟩
  · simpa using (digit_not_space (dec_digits n c hc)).2.2.2.1
  · exact (digit_not_space (dec_digits n _ h)).2.2.2.2.2 rfl

theorem takeWhile_stop {p : Char → Bool} {w rest : List Char} (hw : ∀ d ∈ w, p d = true) (hr : ∀ c ∈ rest.head?, p c = false) :
    (w ++ rest).takeWhile p = w ∧ (w ++ rest).dropWhile p = rest := by
  induction w with
  | nil =>
    cases rest with
    | nil => exact ⟨rfl, rfl⟩
    | cons c cs =>
      have := hr c (by simp)
      simp [List.takeWhile_cons, List.dropWhile_cons, this]
  | cons d ds ih =>
    have hd := hw d (by simp)
    obtain ⟨h1, h2⟩ := ih fun x hx => hw x (by simp [hx])
    simp [List.takeWhile_cons, List.dropWhile_cons, hd, h1, h2]

theorem dropWhile_space {sp w : List Char} (hsp : ∀ c ∈ sp, isSpace c = true) (hne : w ≠ []) (hw : ∀ c ∈ w, isSpace c = false) (rest : List Char) :
    (sp ++ (w ++ rest)).dropWhile isSpace = w ++ rest := by
  refine (takeWhile_stop hsp fun c hc => ?_).2
  cases w with
  | nil => exact absurd rfl hne
  | cons d ds => simp at hc; subst hc; exact hw _ (by simp)

theorem strtol_dec {sp : List Char} (hsp : ∀ c ∈ sp, isSpace c = true) (n : Nat) {rest : List Char} (hr : ∀ c ∈ rest.head?, isDigit c = false) :
    strtol (sp ++ (dec n ++ rest)) = ((n : Int), rest) := by
  obtain ⟨hne, hs, _, _⟩ := dec_word n
  unfold strtol
  rw [dropWhile_space hsp hne hs]
  cases hd : dec n with
  | nil => exact absurd hd hne
  | cons d ds =>
    have hdd : isDigit d = true := dec_digits n d (by rw [hd]; simp)
    obtain ⟨_, h1, h2, _⟩ := digit_not_space hdd
    have hall : ∀ x ∈ d :: ds, isDigit x = true := fun x hx => dec_digits n x (by rw [hd]; exact hx)
    have e1 : isMinus (d :: ds ++ rest) = false := by
      unfold isMinus
      split
      · rename_i e; rw [List.cons_append] at e; injection e with e; exact absurd e h1
      · rfl
    have e2 : afterSign (d :: ds ++ rest) = d :: ds ++ rest := by
      unfold afterSign
      split
      · rename_i e; rw [List.cons_append] at e; injection e with e; exact absurd e h1
      · rename_i e; rw [List.cons_append] at e; injection e with e; exact absurd e h2
      · rfl
    obtain ⟨t1, t2⟩ := takeWhile_stop (p := isDigit) (w := d :: ds) (rest := rest) hall hr
    simp only [e1, e2, t1, t2, Bool.false_eq_true, if_false]
    rw [← hd, decVal_dec]
    simp [hne]

theorem space_head (rest : List Char) : ∀ c ∈ (' ' :: rest).head?, isDigit c = false := by
  intro c hc; simp at hc; subst hc; decide

/-- The coordinates of a line. -/
theorem strtols_coords : ∀ (cs : List Nat) {sp : List Char}, (∀ c ∈ sp, isSpace c = true) → ∀ (rest : List Char), ∃ sp', (∀ c ∈ sp', isSpace c = true) ∧
    strtols cs.length (sp ++ ((cs.flatMap fun k => dec (k + 1) ++ [' ']) ++ rest)) = (cs.map (fun (k : Nat) => (k : Int) + 1), sp' ++ rest)
  | [], sp, hsp, rest => ⟨sp, hsp, by simp [strtols]⟩
  | k :: ks, sp, hsp, rest => by
    obtain ⟨sp', h1, h2⟩ := strtols_coords ks (sp := [' ']) (by intro c hc; simp at hc; subst hc; decide) rest
    refine ⟨sp', h1, ?_⟩
    have e : sp ++ (((k :: ks).flatMap fun k => dec (k + 1) ++ [' ']) ++ rest) =
        sp ++ (dec (k + 1) ++ ' ' :: ((ks.flatMap fun k => dec (k + 1) ++ [' ']) ++ rest)) := by simp
    rw [e]
    show ((strtol _).1 :: (strtols ks.length (strtol _).2).1, (strtols ks.length (strtol _).2).2) = _
    rw [strtol_dec hsp (k + 1) (space_head _)]
    have h2' : strtols ks.length (' ' :: ((ks.flatMap fun k => dec (k + 1) ++ [' ']) ++ rest)) = (ks.map (fun (k : Nat) => (k : Int) + 1), sp' ++ rest) := h2
    simp only [h2', List.map_cons]
    congr 2

theorem strtod_exact {N : Num V} {v : V} (h : Exact N v) {sp : List Char} (hsp : ∀ c ∈ sp, isSpace c = true) : strtod N (sp ++ N.print v) = v := by
  unfold strtod
  have := dropWhile_space hsp h.1 h.2.1 []
  rw [List.append_nil] at this
  rw [this, h.2.2]

/-- One line of components. -/
theorem read_compLine {N : Num V} {c : List Nat × V} (h : Exact N c.2) :
    (strtols c.1.length (compLine N c)).1 = c.1.map (fun (k : Nat) => (k : Int) + 1) ∧ strtod N (strtols c.1.length (compLine N c)).2 = c.2 := by
  obtain ⟨sp', h1, h2⟩ := strtols_coords c.1 (sp := []) (by simp) (N.print c.2)
  have e : compLine N c = [] ++ ((c.1.flatMap fun k => dec (k + 1) ++ [' ']) ++ N.print c.2) := rfl
  rw [e, h2]
  exact ⟨rfl, strtod_exact h h1⟩

theorem compLine_newline {N : Num V} {c : List Nat × V} (h : Exact N c.2) : '\n' ∉ compLine N c := by
  unfold compLine
  intro hm
  rcases List.mem_append.mp hm with hm | hm
  · obtain ⟨k, _, hk⟩ := List.mem_flatMap.mp hm
    rcases List.mem_append.mp hk with hk | hk
    · exact (dec_word _).2.2.2 hk
    · simp at hk
  · have := h.2.1 _ hm
    revert this; decide

theorem compLine_fields {N : Num V} {c : List Nat × V} (h : Exact N c.2) : (fields (· == ' ') (compLine N c)).length = c.1.length + 1 := by
  have hw := fields_words (sep := (· == ' ')) (by decide) (c.1.map fun k => dec (k + 1)) (by
    intro w hw
    obtain ⟨k, _, rfl⟩ := List.mem_map.mp hw
    exact ⟨(dec_word _).1, (dec_word _).2.2.1⟩) (N.print c.2)
  have e : compLine N c = ((c.1.map fun k => dec (k + 1)).flatMap fun w => w ++ [' ']) ++ N.print c.2 := by
    unfold compLine; rw [List.flatMap_map]
  have hv : fields (· == ' ') (N.print c.2) = [N.print c.2] := by
    refine fields_last (fun d hd => ?_) h.1
    have := h.2.1 d hd
    unfold isSpace at this
    simp only [Bool.or_eq_false_iff] at this
    exact this.1
  rw [e, hw, hv]
  simp

/-! ### TNS -/

theorem maxDims_getElem? : ∀ (a b : List Int), a.length = b.length → ∀ i : Nat, (maxDims a b)[i]? = (a[i]?.bind fun x => b[i]?.map fun y => max x y)
  | [], [], _, i => by simp [maxDims]
  | a :: as, b :: bs, h, i => by
    cases i with
    | zero => simp [maxDims]
    | succ i => simpa [maxDims] using maxDims_getElem? as bs (by simpa using h) i

theorem maxDims_length : ∀ (a b : List Int), a.length = b.length → (maxDims a b).length = a.length
  | [], [], _ => rfl
  | a :: as, b :: bs, h => by simp [maxDims, maxDims_length as bs (by simpa using h)]

theorem tnsLines_spec {N : Num V} {order : Nat} : ∀ (comps : List (List Nat × V)), (∀ c ∈ comps, c.1.length = order ∧ Exact N c.2) →
    ∀ (dims : List Nat), dims.length = order →
    tnsLines N order (comps.map (compLine N)) (dims.map (fun (d : Nat) => (d : Int))) =
      ((List.range order).map (fun i => ((comps.foldl (fun m c => max m (c.1.getD i 0 + 1)) (dims.getD i 0) : Nat) : Int)), toInt comps)
  | [], _, dims, hd => by
    simp only [List.map_nil, tnsLines, toInt, List.foldl_nil, Prod.mk.injEq, and_true]
    apply List.ext_getElem?
    intro i
    by_cases hi : i < order
    · simp [hd, hi, List.getD]
    · simp [hd, hi]
  | c :: cs, h, dims, hd => by
    obtain ⟨hl, hv⟩ := h c (by simp)
    obtain ⟨r1, r2⟩ := read_compLine hv
    rw [hl] at r1 r2
    have ih := tnsLines_spec cs (fun x hx => h x (by simp [hx])) ((List.range order).map fun i => max (dims.getD i 0) (c.1.getD i 0 + 1)) (by simp)
    have e : maxDims (dims.map (fun (d : Nat) => (d : Int))) (c.1.map fun (k : Nat) => (k : Int) + 1) =
        ((List.range order).map fun i => max (dims.getD i 0) (c.1.getD i 0 + 1)).map (fun (d : Nat) => (d : Int)) := by
      apply List.ext_getElem?
      intro i
      rw [maxDims_getElem? _ _ (by simp [hd, hl])]
      by_cases hi : i < order
      · have h1 : i < dims.length := by omega
        have h2 : i < c.1.length := by omega
        simp [hi, h1, h2]
        omega
      · have h1 : ¬ i < dims.length := by omega
        simp [hi, h1]
    simp only [List.map_cons, tnsLines, r1, r2, e, ih]
    refine Prod.ext ?_ ?_
    · simp only
      apply List.map_congr_left
      intro i hi
      have hi : i < order := List.mem_range.mp hi
      simp [List.getD, hi]
    · simp only [toInt, List.map_cons, List.cons.injEq, and_true, Prod.mk.injEq, List.map_map]
      apply List.map_congr_left
      intro k _
      simp

/-! ### MTX -/

theorem header_spec {order : Nat} {fmt sym : List Char} (hf : fmt = "coordinate".toList ∨ fmt = "array".toList) (hs : sym = "general".toList ∨ sym = "symmetric".toList) :
    '\n' ∉ header order fmt sym ∧ mtxKind (header order fmt sym) = some (decide (fmt = "coordinate".toList), decide (sym = "symmetric".toList)) := by
  unfold header
  by_cases ho : order = 2
  · rw [if_pos ho]
    rcases hf with rfl | rfl <;> rcases hs with rfl | rfl <;> decide +kernel
  · rw [if_neg ho]
    rcases hf with rfl | rfl <;> rcases hs with rfl | rfl <;> decide +kernel

theorem readDims_spec : ∀ (ns : List Nat) {sp : List Char}, (∀ c ∈ sp, isSpace c = true) → (∀ n ∈ ns, 0 < n) → ∀ (f : Nat), ns.length < f → ∀ (last : Bool),
    readDims f (sp ++ (ns.flatMap fun n => ' ' :: dec n) ++ (if last then [' '] else [])) = ns.map (fun (n : Nat) => (n : Int))
  | [], sp, hsp, _, f, hf, last => by
    obtain ⟨g, rfl⟩ : ∃ g, f = g + 1 := ⟨f - 1, by simp at hf; omega⟩
    have hall : ∀ c ∈ sp ++ (if last then [' '] else []), isSpace c = true := by
      intro c hc
      rcases List.mem_append.mp hc with h | h
      · exact hsp c h
      · cases last <;> simp at h
        subst h; decide
    have hd : (sp ++ (if last then [' '] else [])).dropWhile isSpace = [] := by
      have := (takeWhile_stop (rest := []) hall (by simp)).2
      rwa [List.append_nil] at this
    simp [readDims, strtol, hd, afterSign]
  | n :: ns, sp, hsp, hp, f, hf, last => by
    obtain ⟨g, rfl⟩ : ∃ g, f = g + 1 := ⟨f - 1, by simp at hf; omega⟩
    have e : sp ++ ((n :: ns).flatMap fun n => ' ' :: dec n) ++ (if last then [' '] else []) =
        (sp ++ [' ']) ++ (dec n ++ ((ns.flatMap fun n => ' ' :: dec n) ++ (if last then [' '] else []))) := by simp
    have hr : ∀ c ∈ ((ns.flatMap fun n => ' ' :: dec n) ++ (if last then [' '] else [])).head?, isDigit c = false := by
      cases ns with
      | nil => cases last <;> intro c hc <;> simp at hc; subst hc; decide
      | cons m ms => intro c hc; simp at hc; subst hc; decide
    have hsp' : ∀ c ∈ sp ++ [' '], isSpace c = true := by
      intro c hc
      rcases List.mem_append.mp hc with h | h
      · exact hsp c h
      · simp at h; subst h; decide
    have ih := readDims_spec ns (sp := []) (by simp) (fun m hm => hp m (by simp [hm])) g (by simp at hf; omega) last
    rw [e]
    unfold readDims
    rw [strtol_dec hsp' n hr]
    have hn : (n : Int) ≠ 0 := by have := hp n (by simp); omega
    simp only [if_neg hn, List.map_cons]
    rw [List.nil_append] at ih
    rw [ih]

theorem joinDims_eq : ∀ (dims : List Nat), ' ' :: joinDims dims = if dims = [] then [' '] else dims.flatMap fun n => ' ' :: dec n
  | [] => rfl
  | [d] => by simp [joinDims]
  | d :: d' :: ds => by
    have := joinDims_eq (d' :: ds)
    simp only [List.cons_ne_nil, if_false] at this ⊢
    simp only [joinDims, List.flatMap_cons] at this ⊢
    simp only [List.cons_append, this]

theorem strtol_space (s : List Char) : (strtol (' ' :: s)).1 = (strtol s).1 ∧ ((strtol s).1 ≠ 0 → (strtol (' ' :: s)).2 = (strtol s).2) := by
  have : (' ' :: s).dropWhile isSpace = s.dropWhile isSpace := by
    rw [List.dropWhile_cons]; simp [isSpace]
  unfold strtol
  rw [this]
  simp only
  generalize (List.takeWhile isDigit _) = d
  by_cases hd : d = []
  · simp [hd]
  · simp [hd]

theorem readDims_space (f : Nat) (s : List Char) : readDims f (' ' :: s) = readDims f s := by
  cases f with
  | zero => rfl
  | succ f =>
    obtain ⟨h1, h2⟩ := strtol_space s
    simp only [readDims, h1]
    by_cases h : (strtol s).1 = 0
    · simp [h]
    · simp [h, h2 h]

theorem joinDims_newline : ∀ (dims : List Nat), '\n' ∉ joinDims dims
  | [] => by simp [joinDims]
  | [d] => (dec_word d).2.2.2
  | d :: d' :: ds => by
    have := joinDims_newline (d' :: ds)
    simp only [joinDims, List.mem_append, List.mem_cons, not_or]
    exact ⟨(dec_word d).2.2.2, by decide, this⟩

/-- The dimensions line starts with a number. -/
theorem fields_dims (dims : List Nat) (tail : List Char) (h : dims = [] → ∃ n, tail = dec n) :
    ∃ d ws, fields isSpace (joinDims dims ++ ' ' :: tail) = dec d :: ws := by
  have hsp : isSpace ' ' = true := by decide
  cases dims with
  | nil =>
    obtain ⟨n, rfl⟩ := h rfl
    refine ⟨n, [], ?_⟩
    show fieldsAux isSpace [] (' ' :: dec n) = _
    unfold fieldsAux
    simp only [hsp, if_true]
    exact fields_last (dec_word n).2.1 (dec_word n).1
  | cons d ds =>
    cases ds with
    | nil => exact ⟨d, _, fields_word hsp (dec_word d).2.1 (dec_word d).1⟩
    | cons d' ds =>
      refine ⟨d, fields isSpace (joinDims (d' :: ds) ++ ' ' :: tail), ?_⟩
      have : joinDims (d :: d' :: ds) ++ ' ' :: tail = dec d ++ ' ' :: (joinDims (d' :: ds) ++ ' ' :: tail) := by simp [joinDims]
      rw [this, fields_word hsp (dec_word d).2.1 (dec_word d).1]

/-- The comment line and the dimensions line. -/
theorem skip_spec {line : List Char} {d : Nat} {ws : List (List Char)} (h : fields isSpace line = dec d :: ws) (rest : List (List Char)) :
    skipComments [] ['%'] (line :: rest) = (line, rest) := by
  have hh : (dec d).head? ≠ some '%' := by
    intro e
    cases hd : dec d with
    | nil => exact (dec_word d).1 hd
    | cons c cs =>
      rw [hd] at e
      simp at e
      subst e
      exact (digit_not_space (dec_digits d '%' (by rw [hd]; simp))).2.2.2.2.1 rfl
  have h1 : fields isSpace ['%'] = [['%']] := by decide
  have t1 : firstToken [] ['%'] = ['%'] := by unfold firstToken; rw [h1]; rfl
  have t2 : firstToken ['%'] line = dec d := by unfold firstToken; rw [h]; rfl
  have e1 : skipComments [] ['%'] (line :: rest) = skipComments ['%'] line rest := by
    rw [skipComments, t1, if_neg (by simp)]
  rw [e1]
  cases rest with
  | nil => rfl
  | cons l ls => rw [skipComments, t2, if_pos hh]

theorem mapM_some {α β : Type} {f : α → Option β} {g : α → β} : ∀ (l : List α), (∀ x ∈ l, f x = some (g x)) → l.mapM f = some (l.map g)
  | [], _ => by simp
  | x :: xs, h => by
    have ih := mapM_some xs fun y hy => h y (by simp [hy])
    simp [List.mapM_cons, h x (by simp), ih]

theorem flatMap_block {α β : Type} {f : α → List β} {k : Nat} : ∀ (xs : List α), (∀ x ∈ xs, (f x).length = k) → ∀ (i : Nat) (h : i < xs.length),
    ((xs.flatMap f).drop (i * k)).take k = f xs[i] ∧ k ≤ ((xs.flatMap f).drop (i * k)).length
  | [], _, i, h => by simp at h
  | x :: xs, hk, 0, h => by
    have := hk x (by simp)
    simp [← this]
  | x :: xs, hk, i + 1, h => by
    have hx := hk x (by simp)
    have ih := flatMap_block xs (fun y hy => hk y (by simp [hy])) i (by simpa using h)
    have e : ((x :: xs).flatMap f).drop ((i + 1) * k) = (xs.flatMap f).drop (i * k) := by
      rw [List.flatMap_cons]
      have : (i + 1) * k = (f x).length + i * k := by rw [hx, Nat.add_mul]; omega
      rw [this, List.drop_append]
      simp
    rw [e]
    exact ih

end Verif.FileIO
