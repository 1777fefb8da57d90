import Verif.Options.Model
import Verif.FileIO.Lemmas
/-! Lemmas for `Verif.Options.Theorems`. -/
namespace Verif.Options
open Verif.FileIO (fields strtol fields_word fields_last strtol_dec)

/-! ### Parts -/

theorem sep_false {c : Char} {w : Text} (h : c ∉ w) : ∀ x ∈ w, (x == c) = false := by
  intro x hx
  rw [beq_eq_false_iff_ne]
  rintro rfl
  exact h hx

theorem split_cons {c : Char} {w rest : Text} (hw : w ≠ []) (h : c ∉ w) : split c (w ++ c :: rest) = w :: split c rest :=
  fields_word (sep := fun x => x == c) (by simp) (sep_false h) hw

theorem split_last {c : Char} {w : Text} (hw : w ≠ []) (h : c ∉ w) : split c w = [w] := fields_last (sep_false h) hw

theorem split_nil (c : Char) : split c [] = [] := rfl

theorem split_commas : ∀ {ws : List Text}, (∀ w ∈ ws, w ≠ [] ∧ ',' ∉ w) → split ',' (commas ws) = ws
  | [], _ => rfl
  | [w], h => split_last (h w (by simp)).1 (h w (by simp)).2
  | w :: v :: ws, h => by
    show split ',' (w ++ ',' :: commas (v :: ws)) = _
    rw [split_cons (h w (by simp)).1 (h w (by simp)).2, split_commas (fun x hx => h x (List.mem_cons_of_mem _ hx))]

theorem mem_commas : ∀ {ws : List Text} {c : Char}, c ∈ commas ws → c = ',' ∨ ∃ w ∈ ws, c ∈ w
  | [], _, h => nomatch h
  | [w], _, h => .inr ⟨w, by simp, h⟩
  | w :: v :: ws, c, h => by
    replace h : c ∈ w ++ ',' :: commas (v :: ws) := h
    rcases List.mem_append.mp h with h | h
    · exact .inr ⟨w, by simp, h⟩
    · rcases List.mem_cons.mp h with h | h
      · exact .inl h
      · rcases mem_commas h with h | ⟨x, hx, h⟩
        · exact .inl h
        · exact .inr ⟨x, List.mem_cons_of_mem _ hx, h⟩

theorem commas_ne {w : Text} {ws : List Text} (h : w ≠ []) : commas (w :: ws) ≠ [] := by
  cases ws with
  | nil => exact h
  | cons v ws => simp [commas]

/-! ### Numbers -/

theorem digit_ne {c d : Char} (h : isDigit c = true) (hd : isDigit d = false) : c ≠ d := by
  rintro rfl
  rw [h] at hd; cases hd

theorem dec_without {d : Char} (hd : isDigit d = false) (n : Nat) : d ∉ dec n := fun h => digit_ne (dec_digits n d h) hd rfl

theorem stoi_dec {n : Nat} (h : n < 2 ^ 31) : stoi (dec n) = .ok n := by
  have e := strtol_dec (sp := []) (by simp) n (rest := []) (by simp)
  rw [List.nil_append, List.append_nil] at e
  unfold stoi
  rw [e]
  rw [if_neg (fun h => dec_ne_nil n h.symm), if_pos]
  refine ⟨?_, ?_⟩
  · show -(2 ^ 31 : Int) ≤ (n : Int); omega
  · show (n : Int) < 2 ^ 31; omega

theorem stois_dec : ∀ {ds : List Nat}, (∀ d ∈ ds, d < 2 ^ 31) → stois (ds.map dec) = .ok (ds.map Int.ofNat)
  | [], _ => rfl
  | d :: ds, h => by
    show (stoi (dec d)).bind _ = _
    rw [stoi_dec (h d (by simp))]
    show (stois (ds.map dec)).bind _ = _
    rw [stois_dec (fun x hx => h x (by simp [hx]))]
    rfl

theorem split_dec (ds : List Nat) : split ',' (commas (ds.map dec)) = ds.map dec := by
  apply split_commas
  intro w hw
  obtain ⟨n, _, rfl⟩ := List.mem_map.mp hw
  exact ⟨dec_ne_nil n, dec_without (by decide) n⟩

theorem commas_dec {ds : List Nat} {c : Char} (hc : isDigit c = false) (hne : c ≠ ',') : c ∉ commas (ds.map dec) := by
  intro h
  rcases mem_commas h with h | ⟨w, hw, h⟩
  · exact hne h
  · obtain ⟨n, _, rfl⟩ := List.mem_map.mp hw
    exact dec_without hc n h

theorem commas_dec_ne {ds : List Nat} (h : ds ≠ []) : commas (ds.map dec) ≠ [] := by
  cases ds with
  | nil => exact absurd rfl h
  | cons d ds => exact commas_ne (dec_ne_nil d)

/-! ### Values of options -/

theorem letter_ok {c : Char} {l : Level} (h : Letter c l) : levelOf c = .ok l ∧ c ≠ ':' ∧ c ≠ '=' := by
  cases h <;> exact ⟨rfl, by decide, by decide⟩

theorem letters_ok {cs : Text} {ls : List Level} (h : Letters cs ls) : levelsOf cs = .ok ls ∧ ':' ∉ cs ∧ '=' ∉ cs ∧ cs.length = ls.length := by
  induction h with
  | nil => exact ⟨rfl, by simp, by simp, rfl⟩
  | @cons c l cs ls h _ ih =>
    obtain ⟨h1, h2, h3⟩ := letter_ok h
    obtain ⟨i1, i2, i3, i4⟩ := ih
    refine ⟨?_, ?_, ?_, by simp [i4]⟩
    · show (levelOf c).bind _ = _
      rw [h1]
      show (levelsOf cs).bind _ = _
      rw [i1]; rfl
    · simp only [List.mem_cons, not_or]; exact ⟨h2.symm, i2⟩
    · simp only [List.mem_cons, not_or]; exact ⟨h3.symm, i3⟩

/-- The format for levels and an ordering. -/
def fmt (ls : List Level) (ord : List Nat) : Fmt := ⟨ls.map fun l => [l], ord.map Int.ofNat⟩

theorem flatten_single (ls : List Level) : (ls.map fun l => [l]).flatten.length = ls.length := by
  induction ls with
  | nil => rfl
  | cons l ls ih =>
    rw [List.map_cons, List.flatten_cons, List.length_append, ih]; exact Nat.add_comm _ _

theorem makeFormat_ok {ls : List Level} {ord : List Nat} (h : ord.length = ls.length) :
    makeFormat (ls.map fun l => [l]) (ord.map Int.ofNat) = .ok (fmt ls ord) := by
  unfold makeFormat
  rw [if_pos (by rw [flatten_single, List.length_map, h])]
  rfl

theorem letters_ne {cs : Text} {ls : List Level} (h : Letters cs ls) (hne : ls ≠ []) : cs ≠ [] := by
  cases h with
  | nil => exact absurd rfl hne
  | cons _ _ => simp

theorem readFormat_plain {t cs : Text} {ls : List Level} (ht : Plain t) (hne : ls ≠ []) (h : Letters cs ls) :
    readFormat (t ++ ':' :: cs) = .ok (t, fmt ls (List.range ls.length)) := by
  obtain ⟨h1, h2, _, _⟩ := letters_ok h
  have e : split ':' (t ++ ':' :: cs) = [t, cs] := by
    rw [split_cons ht.1 ht.2.1, split_last (letters_ne h hne) h2]
  unfold readFormat
  simp only [e]
  rw [if_neg (by simp), h1]
  show (makeFormat _ _).bind _ = _
  rw [makeFormat_ok (List.length_range)]
  rfl

theorem readFormat_ordered {t cs : Text} {ls : List Level} {ord : List Nat} (ht : Plain t) (hne : ls ≠ []) (h : Letters cs ls)
    (hp : ord.Perm (List.range ls.length)) (hlt : ls.length < 2 ^ 31) :
    readFormat (t ++ ':' :: cs ++ ':' :: commas (ord.map dec)) = .ok (t, fmt ls ord) := by
  obtain ⟨h1, h2, _, _⟩ := letters_ok h
  have hlen : ord.length = ls.length := by rw [hp.length_eq, List.length_range]
  have hone : ord ≠ [] := by
    rintro rfl
    exact hne (List.eq_nil_of_length_eq_zero hlen.symm)
  have e : split ':' (t ++ ':' :: cs ++ ':' :: commas (ord.map dec)) = [t, cs, commas (ord.map dec)] := by
    rw [List.append_assoc, List.cons_append, split_cons ht.1 ht.2.1, split_cons (letters_ne h hne) h2,
      split_last (commas_dec_ne hone) (commas_dec (by decide) (by decide))]
  have hord : ∀ d ∈ ord, d < 2 ^ 31 := by
    intro d hd
    have := List.mem_range.mp (hp.mem_iff.mp hd)
    omega
  unfold readFormat
  simp only [e]
  rw [if_neg (by simp), h1]
  show (stois (split ',' (commas (ord.map dec)))).bind _ = _
  rw [split_dec, stois_dec hord]
  show (makeFormat _ _).bind _ = _
  rw [makeFormat_ok hlen]
  rfl

theorem typeName_ok {n : String} {ty : DType} (h : TypeName n ty) : lookup typeTable n.toList = .ok ty ∧ n.toList ≠ [] ∧ ':' ∉ n.toList ∧ '=' ∉ n.toList := by
  cases h <;> exact ⟨by decide +kernel, by decide +kernel, by decide +kernel, by decide +kernel⟩

theorem readType_ok {t : Text} {n : String} {ty : DType} (ht : Plain t) (h : TypeName n ty) : readType (t ++ ':' :: n.toList) = .ok (t, ty) := by
  obtain ⟨h1, h2, h3, _⟩ := typeName_ok h
  unfold readType
  rw [split_cons ht.1 ht.2.1, split_last h2 h3]
  show (lookup typeTable n.toList).bind _ = _
  rw [h1]; rfl

theorem readDims_ok {t : Text} {ds : List Nat} (ht : Plain t) (hne : ds ≠ []) (h : ∀ d ∈ ds, d < 2 ^ 31) :
    readDims (t ++ ':' :: commas (ds.map dec)) = .ok (t, ds.map Int.ofNat) := by
  unfold readDims
  rw [split_cons ht.1 ht.2.1, split_last (commas_dec_ne hne) (commas_dec (by decide) (by decide))]
  show (stois (split ',' (commas (ds.map dec)))).bind _ = _
  rw [split_dec, stois_dec h]; rfl

theorem fillLetter_ok {c : Char} {f : Fill} (h : FillLetter c f) : fillOf c = .ok f ∧ c ≠ ':' ∧ c ≠ '=' := by
  cases h <;> exact ⟨rfl, by decide, by decide⟩

theorem readFill_ok {t : Text} {c : Char} {f : Fill} (ht : Plain t) (h : FillLetter c f) : readFill (t ++ [':', c]) = .ok (t, f) := by
  obtain ⟨h1, h2, _⟩ := fillLetter_ok h
  have e : split ':' (t ++ [':', c]) = [t, [c]] := by
    rw [split_cons ht.1 ht.2.1, split_last (by simp) (by simpa using h2.symm)]
  unfold readFill
  simp only [e]
  rw [if_neg (by simp), h1]
  rfl

theorem readFile_ok {t f : Text} (ht : Plain t) (hf : Plain f) : readFile (t ++ ':' :: f) = .ok (t, f) := by
  unfold readFile
  rw [split_cons ht.1 ht.2.1, split_last hf.1 hf.2.1]

/-! ### Arguments -/

theorem step_named {s : Settings} {arg name value : Text} (h : strip arg = name ++ '=' :: value) (h1 : name ≠ []) (h2 : '=' ∉ name) (h3 : value ≠ []) (h4 : '=' ∉ value) :
    step s arg = stepNamed s arg name value := by
  unfold step
  rw [h, split_cons h1 h2, split_last h3 h4]

theorem step_alone {s : Settings} {arg name : Text} (h : strip arg = name) (h1 : name ≠ []) (h2 : '=' ∉ name) : step s arg = stepNamed s arg name [] := by
  unfold step
  rw [h, split_last h1 h2]

theorem stepNamed_f (s : Settings) (raw v : Text) :
    stepNamed s raw ['-', 'f'] v = (readFormat v).bind fun p => .ok { s with formats := insert s.formats p.1 p.2 } := rfl
theorem stepNamed_t (s : Settings) (raw v : Text) :
    stepNamed s raw ['-', 't'] v = (readType v).bind fun p => .ok { s with types := insert s.types p.1 p.2 } := rfl
theorem stepNamed_d (s : Settings) (raw v : Text) :
    stepNamed s raw ['-', 'd'] v = (readDims v).bind fun p => .ok { s with dims := insert s.dims p.1 p.2 } := rfl
theorem stepNamed_g (s : Settings) (raw v : Text) :
    stepNamed s raw ['-', 'g'] v = (readFill v).bind fun p => .ok { s with fills := insert s.fills p.1 p.2 } := rfl
theorem stepNamed_i (s : Settings) (raw v : Text) :
    stepNamed s raw ['-', 'i'] v = (readFile v).bind fun p => .ok { s with inputs := insert s.inputs p.1 p.2 } := rfl
theorem stepNamed_o (s : Settings) (raw v : Text) :
    stepNamed s raw ['-', 'o'] v = (readFile v).bind fun p => .ok { s with outputs := insert s.outputs p.1 p.2 } := rfl

/-- What an option does. -/
def apply (s : Settings) : Opt → Settings
  | .format t ls ord => { s with formats := insert s.formats t (fmt ls ord) }
  | .type t ty => { s with types := insert s.types t ty }
  | .dims t ds => { s with dims := insert s.dims t (ds.map Int.ofNat) }
  | .fill t f => { s with fills := insert s.fills t f }
  | .input t f => { s with inputs := insert s.inputs t f }
  | .output t f => { s with outputs := insert s.outputs t f }
  | .flag n => { s with flags := s.flags ++ [n] }
  | .expr e => { s with expr := e }

theorem step_spells {s : Settings} {o : Opt} {t arg : Text} (h : Spells o t) (ha : strip arg = '-' :: t) : step s arg = .ok (apply s o) := by
  cases h with
  | @format t cs ls ht hne h =>
    obtain ⟨_, h2, h3, _⟩ := letters_ok h
    rw [step_named (name := ['-', 'f']) (value := t ++ ':' :: cs) (by rw [ha]; simp) (by simp) (by decide) (by simp)
      (by simp only [List.mem_append, List.mem_cons, not_or]; exact ⟨ht.2.2, by decide, h3⟩), stepNamed_f, readFormat_plain ht hne h]
    rfl
  | @ordered t cs ls ord ht hne h hp hlt =>
    obtain ⟨_, h2, h3, _⟩ := letters_ok h
    rw [step_named (name := ['-', 'f']) (value := t ++ ':' :: cs ++ ':' :: commas (ord.map dec)) (by rw [ha]; simp) (by simp) (by decide) (by simp)
      (by simp only [List.mem_append, List.mem_cons, not_or]; exact ⟨⟨ht.2.2, by decide, h3⟩, by decide, commas_dec (by decide) (by decide)⟩),
      stepNamed_f, readFormat_ordered ht hne h hp hlt]
    rfl
  | @type t n ty ht h =>
    obtain ⟨_, h2, h3, h4⟩ := typeName_ok h
    rw [step_named (name := ['-', 't']) (value := t ++ ':' :: n.toList) (by rw [ha]; simp) (by simp) (by decide) (by simp)
      (by simp only [List.mem_append, List.mem_cons, not_or]; exact ⟨ht.2.2, by decide, h4⟩), stepNamed_t, readType_ok ht h]
    rfl
  | @dims t ds ht hne h =>
    rw [step_named (name := ['-', 'd']) (value := t ++ ':' :: commas (ds.map dec)) (by rw [ha]; simp) (by simp) (by decide) (by simp)
      (by simp only [List.mem_append, List.mem_cons, not_or]; exact ⟨ht.2.2, by decide, commas_dec (by decide) (by decide)⟩), stepNamed_d, readDims_ok ht hne h]
    rfl
  | @fill t c f ht h =>
    rw [step_named (name := ['-', 'g']) (value := t ++ [':', c]) (by rw [ha]; simp) (by simp) (by decide) (by simp)
      (by simp only [List.mem_append, List.mem_cons, not_or]; exact ⟨ht.2.2, by decide, (fillLetter_ok h).2.2.symm, by simp⟩), stepNamed_g, readFill_ok ht h]
    rfl
  | @input t f ht hf =>
    rw [step_named (name := ['-', 'i']) (value := t ++ ':' :: f) (by rw [ha]; simp) (by simp) (by decide) (by simp)
      (by simp only [List.mem_append, List.mem_cons, not_or]; exact ⟨ht.2.2, by decide, hf.2.2⟩), stepNamed_i, readFile_ok ht hf]
    rfl
  | @output t f ht hf =>
    rw [step_named (name := ['-', 'o']) (value := t ++ ':' :: f) (by rw [ha]; simp) (by simp) (by decide) (by simp)
      (by simp only [List.mem_append, List.mem_cons, not_or]; exact ⟨ht.2.2, by decide, hf.2.2⟩), stepNamed_o, readFile_ok ht hf]
    rfl
  | @flag n h =>
    have hall : ∀ n ∈ flagNames, '=' ∉ '-' :: n.toList := by decide +kernel
    rw [step_alone ha (by simp) (hall n h)]
    have : ∀ raw, stepNamed s raw ('-' :: n.toList) [] = .ok { s with flags := s.flags ++ [n] } := by
      intro raw
      simp only [flagNames, List.mem_cons, List.not_mem_nil, or_false] at h
      rcases h with rfl | rfl | rfl | rfl | rfl | rfl | rfl | rfl | rfl | rfl <;> rfl
    exact this arg

theorem spells_head {o : Opt} {t : Text} (h : Spells o t) : ∃ c r, t = c :: r ∧ c ≠ '-' := by
  cases h with
  | @flag n h =>
    have hall : ∀ n ∈ flagNames, n.toList.head? ≠ none ∧ n.toList.head? ≠ some '-' := by decide +kernel
    obtain ⟨h1, h2⟩ := hall n h
    cases hn : n.toList with
    | nil => rw [hn] at h1; exact absurd rfl h1
    | cons c r =>
      rw [hn] at h2
      exact ⟨c, r, rfl, fun e => h2 (by rw [e]; rfl)⟩
  | _ => exact ⟨_, _, rfl, by decide⟩

theorem strip_one {c : Char} {r : Text} (h : c ≠ '-') : strip ('-' :: c :: r) = '-' :: c :: r := by
  unfold strip
  split
  · rename_i e; injection e with _ e; injection e with e _; exact absurd e h
  · rfl

theorem strip_other {c : Char} {r : Text} (h : c ≠ '-') : strip (c :: r) = c :: r := by
  unfold strip
  split
  · rename_i e; injection e with e _; exact absurd e h
  · rfl

theorem lookup_other {α : Type} {c : Char} {l : Text} (hc : c ≠ '-') : ∀ {table : List (String × α)}, (∀ p ∈ table, p.1.toList.head? = some '-') → lookup table (c :: l) = .error
  | [], _ => rfl
  | (n, a) :: table, h => by
    unfold lookup
    rw [if_neg, lookup_other hc (fun p hp => h p (by simp [hp]))]
    intro e
    have := h (n, a) (by simp)
    simp only at this
    rw [← e] at this
    exact hc (Option.some.inj this)

theorem stepNamed_expr {s : Settings} {raw value : Text} {c : Char} {l : Text} (hc : c ≠ '-') (hs : s.expr = []) :
    stepNamed s raw (c :: l) value = .ok { s with expr := raw } := by
  have hne : ∀ (x : String), x.toList.head? = some '-' → ¬ (c :: l = x.toList) := by
    intro x hx e
    rw [← e] at hx
    exact hc (Option.some.inj hx)
  unfold stepNamed
  rw [if_neg (hne _ rfl), if_neg (hne _ rfl), if_neg (hne _ rfl), if_neg (hne _ rfl), if_neg (hne _ rfl), if_neg (hne _ rfl), if_neg (hne _ rfl),
    if_neg (hne _ rfl), if_neg (hne _ rfl), if_neg (hne _ rfl), if_neg (hne _ rfl), if_neg (hne _ rfl)]
  unfold stepOther
  rw [lookup_other hc (by decide +kernel), lookup_other hc (by decide +kernel)]
  show (if s.expr ≠ [] then _ else _) = _
  rw [if_neg (by simp [hs])]

theorem step_written {s : Settings} {o : Opt} {t : Text} (h : Written o t) (he : pickExpr o = none ∨ s.expr = []) : step s t = .ok (apply s o) := by
  cases h with
  | @one o t h =>
    obtain ⟨c, r, rfl, hc⟩ := spells_head h
    exact step_spells h (strip_one hc)
  | two h => exact step_spells h rfl
  | @expr c l r hc hl hr =>
    have hs : s.expr = [] := he.resolve_left (by simp [pickExpr])
    have e : strip (c :: l ++ '=' :: r) = c :: l ++ '=' :: r := strip_other hc
    by_cases hrr : r = []
    · unfold step
      rw [e, split_cons (by simp) hl, hrr, split_nil]
      exact stepNamed_expr hc hs
    · rw [step_named e (by simp) hl hrr hr]
      exact stepNamed_expr hc hs

/-! ### Command lines -/

theorem lookup_append {α : Type} : ∀ (m : List (Text × α)) (k : Text) (a : α) (t : Text),
    (m ++ [(k, a)]).lookup t = (m.lookup t).or (if k = t then some a else none)
  | [], k, a, t => by
    by_cases h : k = t
    · subst h; simp [List.lookup]
    · have : (t == k) = false := by rw [beq_eq_false_iff_ne]; exact fun e => h e.symm
      simp [List.lookup, this, h]
  | (x, b) :: m, k, a, t => by
    rw [List.cons_append, List.lookup_cons, List.lookup_cons]
    cases h : t == x with
    | true => simp
    | false => exact lookup_append m k a t

theorem lookup_insert {α : Type} (m : List (Text × α)) (k : Text) (a : α) (t : Text) :
    (insert m k a).lookup t = (m.lookup t).or (if k = t then some a else none) := by
  unfold insert
  cases h : m.lookup k with
  | none => exact lookup_append m k a t
  | some b =>
    by_cases e : k = t
    · subst e; show m.lookup k = _; rw [h]; rfl
    · simp [e]

/-- `m'` is `m` with the first options of a kind. -/
def Extends {α β : Type} (m m' : List (Text × β)) (pick : Opt → Option (Text × α)) (f : α → β) (os : List Opt) : Prop :=
  ∀ t, m'.lookup t = (m.lookup t).or ((first pick os t).map f)

theorem extends_nil {α β : Type} (m : List (Text × β)) (pick : Opt → Option (Text × α)) (f : α → β) : Extends m m pick f [] := by
  intro t; simp [first]

theorem extends_skip {α β : Type} {m m' : List (Text × β)} {pick : Opt → Option (Text × α)} {f : α → β} {o : Opt} {os : List Opt} (h : pick o = none)
    (hx : Extends m m' pick f os) : Extends m m' pick f (o :: os) := by
  intro t
  rw [hx t]
  unfold first
  rw [h]
  cases os <;> rfl

theorem extends_take {α β : Type} {m m' : List (Text × β)} {pick : Opt → Option (Text × α)} {f : α → β} {o : Opt} {os : List Opt} {n : Text} {a : α}
    (h : pick o = some (n, a)) (hx : Extends (insert m n (f a)) m' pick f os) : Extends m m' pick f (o :: os) := by
  intro t
  rw [hx t, lookup_insert]
  have e : first pick (o :: os) t = if n = t then some a else first pick os t := by
    show (match pick o with | some (n, a) => if n = t then some a else first pick os t | none => first pick os t) = _
    rw [h]
  rw [e]
  by_cases hn : n = t
  · simp only [hn, if_true]
    cases m.lookup t <;> simp
  · simp [hn]

end Verif.Options
