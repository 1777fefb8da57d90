import Verif.Schedule.Spec
import Verif.IndexText.Theorems
namespace Verif.Schedule
open Verif.IndexText

/-! ### Tokens of a text -/

/-- Which characters a token has. -/
def Kind : Token → Prop
  | .ident w => ∀ c ∈ w, isAlnum c = true
  | .int w => ∀ c ∈ w, isDigit c = true
  | .float w => ∀ c ∈ w, isDigit c = true ∨ c = '.'
  | .uint w => ∃ d v, w = v ++ [d] ∧ isDigit d = true
  | .sym c => c ∈ symbols
  | .error c => isSpace c = false ∧ isAlnum c = false ∧ c ∉ symbols
  | .complex _ => True
  | .eot => True

theorem numToken_kind (w : List Char) (hne : w ≠ []) (hw : ∀ c ∈ w, isDigit c = true) (cs : List Char) : Kind (numToken w cs).1 := by
  unfold numToken
  split
  · intro c hc
    rcases List.mem_append.mp hc with h | h
    · exact .inl (hw c h)
    · rcases List.mem_cons.mp h with rfl | h
      · exact .inr rfl
      · exact .inl (takeWhile_all _ c h)
  · exact ⟨w.getLast hne, w.dropLast, (List.dropLast_concat_getLast hne).symm, hw _ (List.getLast_mem hne)⟩
  · exact hw

theorem getToken_kind {s : List Char} {t : Token} {rest : List Char} (h : getToken s = some (t, rest)) : Kind t := by
  unfold getToken at h
  cases hd : s.dropWhile isSpace with
  | nil => rw [hd] at h; simp at h; rw [← h.1]; trivial
  | cons c cs =>
    rw [hd] at h
    have hc : isSpace c = false := by
      have := List.head?_dropWhile_not isSpace s
      rw [hd] at this
      simpa using this
    simp only at h
    split at h
    · rename_i ha
      split at h
      · split at h
        · cases h
        · split at h
          · cases h
          · simp only [Option.some.injEq, Prod.mk.injEq] at h; rw [← h.1]; trivial
      · simp only [Option.some.injEq, Prod.mk.injEq] at h
        rw [← h.1]
        intro d hdd
        rcases List.mem_cons.mp hdd with rfl | hdd
        · unfold isAlnum; rw [ha]; rfl
        · exact takeWhile_all _ d hdd
    · rename_i ha
      split at h
      · rename_i hdig
        have hw : ∀ d ∈ c :: cs.takeWhile isDigit, isDigit d = true := by
          intro d hdd
          rcases List.mem_cons.mp hdd with rfl | hdd
          · exact hdig
          · exact takeWhile_all _ d hdd
        have hk := numToken_kind _ (by simp) hw (cs.dropWhile isDigit)
        have ht : t = (numToken (c :: cs.takeWhile isDigit) (cs.dropWhile isDigit)).1 := by
          have := congrArg Prod.fst (Option.some.inj h); exact this.symm
        rw [ht]; exact hk
      · rename_i hdig
        split at h
        · rename_i hs
          simp only [Option.some.injEq, Prod.mk.injEq] at h; rw [← h.1]; exact hs
        · rename_i hs
          simp only [Option.some.injEq, Prod.mk.injEq] at h; rw [← h.1]
          refine ⟨hc, ?_, hs⟩
          unfold isAlnum
          simp only [Bool.not_eq_true] at ha hdig
          rw [ha, hdig]; rfl

theorem lexAll_mem : ∀ {f : Nat} {s : List Char} {ts : List Token}, lexAll f s = some ts → ∀ t ∈ ts, Kind t
  | 0, _, _, h => by simp [lexAll] at h
  | f + 1, s, ts, h => by
    unfold lexAll at h
    split at h
    · cases h
    · simp only [Option.some.injEq] at h; subst h
      intro t ht; simp at ht; subst ht; trivial
    · rename_i t rest _ hg
      obtain ⟨ts', h', rfl⟩ := Option.map_eq_some_iff.mp h
      intro t' ht'
      rcases List.mem_cons.mp ht' with rfl | ht'
      · exact getToken_kind hg
      · exact lexAll_mem h' t' ht'

/-- A token that adds its text to the element. -/
def Faithful (t : Token) : Prop := (∃ c, t = .sym c) ∨ (Plain t.text ∧ tokenString t = t.text ∧ ∀ c, t ≠ .sym c)

theorem plain_of {w : List Char} {P : Char → Prop} (h : ∀ c ∈ w, P c) (hP : ∀ c ∈ ['(', ')', '{', '}', ','], ¬ P c) : Plain w :=
  fun c hc hd => hP c hd (h c hc)

/-- The tokens of a text that is read without loss, and their texts. -/
theorem lex_ok {s : List Char} (h : TextOK s) : ∃ ts, (∀ f, s.length < f → lexAll f s = some (ts ++ [.eot])) ∧
    ts.flatMap Token.text = s.filter (fun c => !isSpace c) ∧ ∀ t ∈ ts, Faithful t := by
  obtain ⟨hch, hu, h1, h2⟩ := h
  obtain ⟨ts, hl, hne, htx⟩ := lexer_consumes_partial s h1 h2
  refine ⟨ts, hl, htx, ?_⟩
  have hsub : ∀ t ∈ ts, ∀ c ∈ t.text, c ∈ s := by
    intro t ht c hc
    have : c ∈ ts.flatMap Token.text := List.mem_flatMap.mpr ⟨t, ht, hc⟩
    rw [htx] at this
    exact (List.mem_filter.mp this).1
  have hinf : ∀ (f : Nat) (s : List Char) (ts : List Token), ¬ "complex".toList <:+: s → ¬ "Complex".toList <:+: s →
      lexAll f s = some ts → ∀ t ∈ ts, t.text <:+: s ∧ (∀ w, t ≠ .complex w) := by
    intro f
    induction f with
    | zero => intro s ts _ _ h; simp [lexAll] at h
    | succ f ih =>
      intro s ts h1 h2 h
      obtain ⟨t0, rest, sp, hg, hs, _, _, _, _⟩ := getToken_spec s h1 h2
      have hc0 : ∀ w, t0 ≠ .complex w := by
        intro w e
        subst e
        unfold getToken at hg
        cases hd : s.dropWhile isSpace with
        | nil => rw [hd] at hg; simp at hg
        | cons c cs =>
          rw [hd] at hg
          simp only at hg
          split at hg
          · split at hg
            · rename_i hw
              have hcs := takeWhile_text (p := isAlnum) cs
              have hss := takeWhile_text (p := isSpace) s
              rw [hd] at hss
              have hin : (c :: cs.takeWhile isAlnum) <:+: s :=
                ⟨s.takeWhile isSpace, cs.dropWhile isAlnum, by rw [List.append_assoc, List.cons_append, hcs, hss]⟩
              rcases hw with hw | hw
              · rw [hw] at hin; exact h1 hin
              · rw [hw] at hin; exact h2 hin
            · simp at hg
          · split at hg
            · have := congrArg Prod.fst (Option.some.inj hg)
              unfold numToken at this
              split at this <;> simp at this
            · split at hg <;> simp at hg
      have hin0 : t0.text <:+: s := ⟨sp, rest, hs.symm⟩
      unfold lexAll at h
      rw [hg] at h
      by_cases he : t0 = .eot
      · subst he
        simp only [Option.some.injEq] at h; subst h
        intro t ht; simp at ht; subst ht
        exact ⟨⟨[], s, by simp [Token.text]⟩, by simp⟩
      · have h' : (lexAll f rest).map (t0 :: ·) = some ts := by
          cases t0 <;> first | exact absurd rfl he | exact h
        obtain ⟨ts', h'', rfl⟩ := Option.map_eq_some_iff.mp h'
        have hsuf : rest <:+ s := ⟨sp ++ t0.text, hs.symm⟩
        intro t ht
        rcases List.mem_cons.mp ht with rfl | ht
        · exact ⟨hin0, hc0⟩
        · have := ih rest ts' (fun h => h1 (h.trans hsuf.isInfix)) (fun h => h2 (h.trans hsuf.isInfix)) h'' t ht
          exact ⟨this.1.trans hsuf.isInfix, this.2⟩
  intro t ht
  have hl' := hl (s.length + 1) (by omega)
  have hk := lexAll_mem hl' t (by simp [ht])
  obtain ⟨hti, htc⟩ := hinf _ _ _ h1 h2 hl' t (by simp [ht])
  cases t with
  | ident w => exact .inr ⟨plain_of (P := fun c => isAlnum c = true) hk (by decide), rfl, by simp⟩
  | int w => exact .inr ⟨plain_of (P := fun c => isDigit c = true) hk (by decide), rfl, by simp⟩
  | float w => exact .inr ⟨plain_of (P := fun c => isDigit c = true ∨ c = '.') hk (by decide), rfl, by simp⟩
  | sym c => exact .inl ⟨c, rfl⟩
  | complex w => exact absurd rfl (htc w)
  | eot => exact absurd ht hne
  | error c =>
    exfalso
    obtain ⟨k1, k2, k3⟩ := hk
    have hcs : c ∈ s := hsub _ ht c (by simp [Token.text])
    rcases hch c hcs with h | h | h
    · rw [k1] at h; exact Bool.noConfusion h
    · rw [k2] at h; exact Bool.noConfusion h
    · exact k3 h
  | uint w =>
    exfalso
    obtain ⟨d, v, rfl, hd⟩ := hk
    refine hu d hd (List.IsInfix.trans ⟨v, [], ?_⟩ hti)
    simp [Token.text]

/-! ### The parser reads characters -/

theorem stepTok_plain {s : St} {c : Char} (h : c ∉ ['(', ')', '{', '}', ',']) : stepTok s (.sym c) = some { s with elem := s.elem ++ [c] } := by
  simp only [List.mem_cons, List.not_mem_nil, or_false, not_or] at h
  obtain ⟨h1, h2, h3, h4, h5⟩ := h
  unfold stepTok
  split
  · rename_i e; injection e with e; exact absurd e h1
  · rename_i e; injection e with e; exact absurd e h2
  · rename_i e; injection e with e; exact absurd e h5
  · rename_i e; injection e with e; exact absurd e h3
  · rename_i e; injection e with e; exact absurd e h4
  · rfl

/-- Reading one character. -/
def stepCh (s : St) (c : Char) : Option St := stepTok s (.sym c)

theorem stepCh_plain : ∀ {w : List Char}, Plain w → ∀ (s : St), w.foldlM stepCh s = some { s with elem := s.elem ++ w }
  | [], _, s => by simp
  | c :: cs, h, s => by
    have hc := h c (by simp)
    rw [List.foldlM_cons]
    show (stepTok s (.sym c)).bind _ = _
    rw [stepTok_plain hc, Option.bind_some, stepCh_plain (fun d hd => h d (by simp [hd]))]
    simp

theorem stepTok_text {t : Token} (h : Faithful t) (s : St) : stepTok s t = t.text.foldlM stepCh s := by
  rcases h with ⟨c, rfl⟩ | ⟨hp, ht, hs⟩
  · simp only [Token.text, List.foldlM_cons, List.foldlM_nil]
    show _ = (stepTok s (.sym c)).bind _
    cases stepTok s (.sym c) <;> rfl
  · rw [stepCh_plain hp]
    unfold stepTok
    split
    · exact absurd rfl (hs _)
    · exact absurd rfl (hs _)
    · exact absurd rfl (hs _)
    · exact absurd rfl (hs _)
    · exact absurd rfl (hs _)
    · rw [ht]

theorem steps_text : ∀ {ts : List Token}, (∀ t ∈ ts, Faithful t) → ∀ (s : St), ts.foldlM stepTok s = (ts.flatMap Token.text).foldlM stepCh s
  | [], _, s => rfl
  | t :: ts, h, s => by
    rw [List.foldlM_cons, List.flatMap_cons, List.foldlM_append, stepTok_text (h t (by simp))]
    congr 1
    funext s'
    exact steps_text (fun t ht => h t (by simp [ht])) s'

theorem run_balanced : ∀ {w : List Char} {p c : Nat}, Balanced p c w → ∀ (e : List Char) (sch : List (List Char)) (par : List (List (List Char))),
    w.foldlM stepCh ⟨p + 1, c, e, sch, par⟩ = some ⟨1, 0, e ++ w, sch, par⟩
  | [], p, c, h, e, sch, par => by
    obtain ⟨rfl, rfl⟩ := h
    simp
  | d :: ds, p, c, h, e, sch, par => by
    rw [List.foldlM_cons]
    show (stepTok _ (.sym d)).bind _ = _
    by_cases h1 : d = '('
    · subst h1
      have h : Balanced (p + 1) c ds := h
      have : stepTok ⟨p + 1, c, e, sch, par⟩ (.sym '(') = some ⟨p + 1 + 1, c, e ++ ['('], sch, par⟩ := by
        simp [stepTok, tokenString]
      rw [this, Option.bind_some, run_balanced h]; simp
    by_cases h2 : d = ')'
    · subst h2
      obtain ⟨hp, h⟩ : 0 < p ∧ Balanced (p - 1) c ds := h
      obtain ⟨q, rfl⟩ : ∃ q, p = q + 1 := ⟨p - 1, by omega⟩
      have : stepTok ⟨q + 1 + 1, c, e, sch, par⟩ (.sym ')') = some ⟨q + 1, c, e ++ [')'], sch, par⟩ := by
        simp [stepTok, tokenString]
      rw [this, Option.bind_some, run_balanced (p := q) h]; simp
    by_cases h3 : d = '{'
    · subst h3
      have h : Balanced p (c + 1) ds := h
      have : stepTok ⟨p + 1, c, e, sch, par⟩ (.sym '{') = some ⟨p + 1, c + 1, e ++ ['{'], sch, par⟩ := by
        simp [stepTok, tokenString]
      rw [this, Option.bind_some, run_balanced h]; simp
    by_cases h4 : d = '}'
    · subst h4
      obtain ⟨hp, h⟩ : 0 < c ∧ Balanced p (c - 1) ds := h
      have : stepTok ⟨p + 1, c, e, sch, par⟩ (.sym '}') = some ⟨p + 1, c - 1, e ++ ['}'], sch, par⟩ := by
        have : c ≠ 0 := by omega
        simp [stepTok, tokenString, this]
      rw [this, Option.bind_some, run_balanced h]; simp
    by_cases h5 : d = ','
    · subst h5
      obtain ⟨hp, h⟩ : (0 < p ∨ 0 < c) ∧ Balanced p c ds := h
      have : stepTok ⟨p + 1, c, e, sch, par⟩ (.sym ',') = some ⟨p + 1, c, e ++ [','], sch, par⟩ := by
        by_cases hc : 0 < c
        · simp [stepTok, tokenString, hc]
        · have hp0 : p ≠ 0 := by omega
          have hc0 : c = 0 := by omega
          simp [stepTok, tokenString, hc0, hp0]
      rw [this, Option.bind_some, run_balanced h]; simp
    · have h : Balanced p c ds := by
        unfold Balanced at h
        split at h <;> first | exact h | simp_all
      rw [stepTok_plain (by simp [h1, h2, h3, h4, h5]), Option.bind_some]
      show List.foldlM stepCh ⟨p + 1, c, e ++ [d], sch, par⟩ ds = _
      rw [run_balanced h]; simp

theorem run_args : ∀ {args : List (List Char)}, args ≠ [] → (∀ a ∈ args, a ≠ [] ∧ Balanced 0 0 a) → ∀ (sch : List (List Char)) (par : List (List (List Char))),
    ∃ sch' e, e ≠ [] ∧ sch' ++ [e] = sch ++ args ∧ (commas args ++ [')']).foldlM stepCh ⟨1, 0, [], sch, par⟩ = some ⟨0, 0, e, sch', par⟩
  | [], h, _, _, _ => absurd rfl h
  | [a], _, h, sch, par => by
    obtain ⟨ha, hb⟩ := h a (by simp)
    refine ⟨sch, a, ha, rfl, ?_⟩
    simp only [commas, List.foldlM_append]
    rw [run_balanced hb]
    simp [stepCh, stepTok]
  | a :: a' :: as, _, h, sch, par => by
    obtain ⟨ha, hb⟩ := h a (by simp)
    obtain ⟨sch', e, he, heq, hrun⟩ := run_args (args := a' :: as) (by simp) (fun x hx => h x (by simp [hx])) (sch ++ [a]) par
    refine ⟨sch', e, he, by rw [heq]; simp, ?_⟩
    have e1 : commas (a :: a' :: as) ++ [')'] = a ++ ',' :: (commas (a' :: as) ++ [')']) := by simp [commas]
    rw [e1, List.foldlM_append, run_balanced hb]
    have e2 : stepCh ⟨1, 0, [] ++ a, sch, par⟩ ',' = some ⟨1, 0, [], sch ++ [a], par⟩ := by simp [stepCh, stepTok]
    show ((',' :: (commas (a' :: as) ++ [')'])).foldlM stepCh ⟨1, 0, [] ++ a, sch, par⟩) = _
    rw [List.foldlM_cons, e2]
    exact hrun

theorem run_item {item : List (List Char)} (h : ItemOK item) (par : List (List (List Char))) :
    ∃ sch e, e ≠ [] ∧ sch ++ [e] = item ∧ (itemText item).foldlM stepCh ⟨0, 0, [], [], par⟩ = some ⟨0, 0, e, sch, par⟩ := by
  cases item with
  | nil => exact h.elim
  | cons name args =>
    obtain ⟨hn, hp, ha⟩ := h
    cases args with
    | nil => exact ⟨[], name, hn, rfl, by simp only [itemText]; rw [stepCh_plain hp]; simp⟩
    | cons a as =>
      obtain ⟨sch, e, he, heq, hrun⟩ := run_args (args := a :: as) (by simp) ha [name] par
      refine ⟨sch, e, he, by rw [heq]; rfl, ?_⟩
      have e1 : itemText (name :: a :: as) = name ++ '(' :: (commas (a :: as) ++ [')']) := by simp [itemText]
      rw [e1, List.foldlM_append, stepCh_plain hp]
      have e2 : stepCh ⟨0, 0, [] ++ name, [], par⟩ '(' = some ⟨1, 0, [], [name], par⟩ := by simp [stepCh, stepTok]
      show (('(' :: (commas (a :: as) ++ [')'])).foldlM stepCh ⟨0, 0, [] ++ name, [], par⟩) = _
      rw [List.foldlM_cons, e2]
      exact hrun

theorem run_schedule : ∀ {items : List (List (List Char))}, (∀ i ∈ items, ItemOK i) → ∀ (par : List (List (List Char))),
    ((scheduleText items).foldlM stepCh ⟨0, 0, [], [], par⟩).bind finish = some (par ++ items)
  | [], _, par => by simp [scheduleText, commas, finish]
  | [i], h, par => by
    obtain ⟨sch, e, he, heq, hrun⟩ := run_item (h i (by simp)) par
    simp only [scheduleText, List.map_cons, List.map_nil, commas]
    rw [hrun]
    have : 0 < e.length := List.length_pos_iff.mpr he
    have hi : i ≠ [] := by rw [← heq]; simp
    simp [finish, this, heq, List.length_pos_iff, hi]
  | i :: i' :: is, h, par => by
    obtain ⟨sch, e, he, heq, hrun⟩ := run_item (h i (by simp)) par
    have ih := run_schedule (items := i' :: is) (fun x hx => h x (by simp [hx])) (par ++ [i])
    have e1 : scheduleText (i :: i' :: is) = itemText i ++ ',' :: scheduleText (i' :: is) := by simp [scheduleText, commas]
    rw [e1, List.foldlM_append, hrun]
    have e2 : stepCh ⟨0, 0, e, sch, par⟩ ',' = some ⟨0, 0, [], [], par ++ [i]⟩ := by simp [stepCh, stepTok, heq]
    show ((',' :: scheduleText (i' :: is)).foldlM stepCh ⟨0, 0, e, sch, par⟩).bind finish = _
    rw [List.foldlM_cons, e2]
    show ((scheduleText (i' :: is)).foldlM stepCh ⟨0, 0, [], [], par ++ [i]⟩).bind finish = _
    rw [ih]; simp

/-! ### Variable lists -/

def stepVC (s : VSt) (c : Char) : Option VSt := stepVar s (.sym c)

theorem stepVar_plain {s : VSt} {c : Char} (h : c ∉ ['(', ')', '{', '}', ',']) : stepVar s (.sym c) = some { s with elem := s.elem ++ [c] } := by
  simp only [List.mem_cons, List.not_mem_nil, or_false, not_or] at h
  obtain ⟨h1, h2, h3, h4, h5⟩ := h
  unfold stepVar
  split
  · rename_i e; injection e with e; exact absurd e h5
  · rename_i e; injection e with e; exact absurd e h3
  · rename_i e; injection e with e; exact absurd e h4
  · rename_i e; injection e with e; exact absurd e h1
  · rename_i e; injection e with e; exact absurd e h2
  · rfl

theorem stepVC_plain : ∀ {w : List Char}, Plain w → ∀ (s : VSt), w.foldlM stepVC s = some { s with elem := s.elem ++ w }
  | [], _, s => by simp
  | c :: cs, h, s => by
    have hc := h c (by simp)
    rw [List.foldlM_cons]
    show (stepVar s (.sym c)).bind _ = _
    rw [stepVar_plain hc, Option.bind_some, stepVC_plain (fun d hd => h d (by simp [hd]))]
    simp

theorem stepVar_text {t : Token} (h : Faithful t) (s : VSt) : stepVar s t = t.text.foldlM stepVC s := by
  rcases h with ⟨c, rfl⟩ | ⟨hp, ht, hs⟩
  · simp only [Token.text, List.foldlM_cons, List.foldlM_nil]
    show _ = (stepVar s (.sym c)).bind _
    cases stepVar s (.sym c) <;> rfl
  · rw [stepVC_plain hp]
    unfold stepVar
    split
    · exact absurd rfl (hs _)
    · exact absurd rfl (hs _)
    · exact absurd rfl (hs _)
    · exact absurd rfl (hs _)
    · exact absurd rfl (hs _)
    · rw [ht]

theorem stepsVar_text : ∀ {ts : List Token}, (∀ t ∈ ts, Faithful t) → ∀ (s : VSt), ts.foldlM stepVar s = (ts.flatMap Token.text).foldlM stepVC s
  | [], _, s => rfl
  | t :: ts, h, s => by
    rw [List.foldlM_cons, List.flatMap_cons, List.foldlM_append, stepVar_text (h t (by simp))]
    congr 1
    funext s'
    exact stepsVar_text (fun t ht => h t (by simp [ht])) s'

theorem run_vars : ∀ {vars : List (List Char)}, vars ≠ [] → (∀ v ∈ vars, Plain v) → ∀ (par : List (List Char)),
    (commas vars ++ ['}']).foldlM stepVC ⟨1, [], par⟩ = some ⟨0, [], par ++ vars⟩
  | [], h, _, _ => absurd rfl h
  | [v], _, h, par => by
    simp only [commas, List.foldlM_append]
    rw [stepVC_plain (h v (by simp))]
    simp [stepVC, stepVar]
  | v :: v' :: vs, _, h, par => by
    have ih := run_vars (vars := v' :: vs) (by simp) (fun x hx => h x (by simp [hx])) (par ++ [v])
    have e1 : commas (v :: v' :: vs) ++ ['}'] = v ++ ',' :: (commas (v' :: vs) ++ ['}']) := by simp [commas]
    rw [e1, List.foldlM_append, stepVC_plain (h v (by simp))]
    have e2 : stepVC ⟨1, [] ++ v, par⟩ ',' = some ⟨1, [], par ++ [v]⟩ := by simp [stepVC, stepVar]
    show ((',' :: (commas (v' :: vs) ++ ['}'])).foldlM stepVC ⟨1, [] ++ v, par⟩) = _
    rw [List.foldlM_cons, e2]
    show ((commas (v' :: vs) ++ ['}']).foldlM stepVC ⟨1, [], par ++ [v]⟩) = _
    rw [ih]; simp

/-! ### Serialisation -/

theorem append_quote_inj : ∀ {a b x y : List Char}, '\'' ∉ a → '\'' ∉ b → a ++ '\'' :: x = b ++ '\'' :: y → a = b ∧ x = y
  | [], [], _, _, _, _, h => by simpa using h
  | [], d :: ds, _, _, _, hb, h => by
    simp only [List.nil_append, List.cons_append, List.cons.injEq] at h
    exact absurd (by rw [← h.1]; simp) hb
  | c :: cs, [], _, _, ha, _, h => by
    simp only [List.nil_append, List.cons_append, List.cons.injEq] at h
    exact absurd (by simp [h.1]) ha
  | c :: cs, d :: ds, x, y, ha, hb, h => by
    simp only [List.cons_append, List.cons.injEq] at h
    obtain ⟨rfl, h⟩ := h
    simp only [List.mem_cons, not_or] at ha hb
    obtain ⟨rfl, rfl⟩ := append_quote_inj ha.2 hb.2 h
    exact ⟨rfl, rfl⟩

theorem serElems_inj : ∀ {a b : List (List Char)} {x y : List Char}, (∀ e ∈ a, '\'' ∉ e) → (∀ e ∈ b, '\'' ∉ e) →
    a.flatMap serElem ++ ']' :: x = b.flatMap serElem ++ ']' :: y → a = b ∧ x = y
  | [], [], _, _, _, _, h => by simpa using h
  | [], d :: ds, _, _, _, hb, h => by simp [serElem] at h
  | c :: cs, [], _, _, ha, _, h => by simp [serElem] at h
  | c :: cs, d :: ds, x, y, ha, hb, h => by
    simp only [List.flatMap_cons, serElem, List.cons_append, List.append_assoc, List.nil_append, List.cons.injEq, true_and] at h
    obtain ⟨rfl, h2⟩ := append_quote_inj (ha c (by simp)) (hb d (by simp)) h
    injection h2 with _ h
    injection h with _ h
    obtain ⟨rfl, rfl⟩ := serElems_inj (fun e he => ha e (by simp [he])) (fun e he => hb e (by simp [he])) h
    exact ⟨rfl, rfl⟩

theorem serItems_inj : ∀ {a b : List (List (List Char))}, (∀ i ∈ a, ∀ e ∈ i, '\'' ∉ e) → (∀ i ∈ b, ∀ e ∈ i, '\'' ∉ e) →
    a.flatMap serItem ++ [']'] = b.flatMap serItem ++ [']'] → a = b
  | [], [], _, _, _ => rfl
  | [], d :: ds, _, hb, h => by simp [serItem] at h
  | c :: cs, [], ha, _, h => by simp [serItem] at h
  | c :: cs, d :: ds, ha, hb, h => by
    simp only [List.flatMap_cons, serItem, List.cons_append, List.append_assoc, List.nil_append, List.cons.injEq, true_and] at h
    obtain ⟨rfl, h2⟩ := serElems_inj (ha c (by simp)) (hb d (by simp)) h
    injection h2 with _ h
    injection h with _ h
    rw [serItems_inj (fun e he => ha e (by simp [he])) (fun e he => hb e (by simp [he])) h]

end Verif.Schedule
