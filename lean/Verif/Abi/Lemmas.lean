import Verif.Abi.Spec
import Verif.Names.Theorems
/-! Lemmas for C79. -/
namespace Verif.Abi

open Names (Name noDigitEnd)

/-! ### Names -/

theorem noDigitEnd_append {a b : Name} (hb : b ≠ []) (h : noDigitEnd b) : noDigitEnd (a ++ b) := by
  intro c hc
  rw [Names.getLast?_append_ne _ _ hb] at hc
  exact h c hc

theorem propName_noDigit (tn : Nat → Name) (k : PropKey) : noDigitEnd (propName tn k) := by
  rw [propName]
  cases k.field with
  | dimension => exact noDigitEnd_append (by decide) (by decide)
  | indices =>
    dsimp only
    split
    · exact noDigitEnd_append (by decide) (by decide)
    · exact noDigitEnd_append (by decide) (by decide)
  | values => exact noDigitEnd_append (by decide) (by decide)
  | fillValue => exact noDigitEnd_append (by decide) (by decide)

/-- Variables that are no pointers and whose names do not end in a digit. -/
def PlainVars (uses : List Use) : Prop := ∀ id n isPtr, Use.var id n isPtr ∈ uses → isPtr = false ∧ noDigitEnd n

theorem name_none {f : Found} {k : Key} (h : ¬ (f.name k).isSome = true) : k ∉ f.map.map (·.1) := by
  intro hk
  obtain ⟨e, he, rfl⟩ := List.mem_map.1 hk
  apply h
  rw [Found.name, Option.isSome_map, List.find?_isSome]
  exact ⟨e, he, by simp⟩

theorem fresh_step (f : Found) (k : Key) (n : Name) :
    (f.fresh k n).map.map (·.2) = f.map.map (·.2) ++ [(Names.getUniqueName f.counters n).1] ∧
      (f.fresh k n).counters = (Names.getUniqueName f.counters n).2 ∧ (f.fresh k n).map.map (·.1) = f.map.map (·.1) ++ [k] := by
  simp [Found.fresh]

/-- The names are generated by one sequence of requests, and no key is entered twice. -/
theorem visits (tn : Nat → Name) (params : List Nat) : ∀ (uses : List Use) (f : Found), PlainVars uses →
    (f.map.map (·.1)).Nodup → ∃ reqs, (∀ n ∈ reqs, noDigitEnd n) ∧
      (uses.foldl (visit tn params) f).map.map (·.2) = f.map.map (·.2) ++ Names.generate f.counters reqs ∧
      ((uses.foldl (visit tn params) f).map.map (·.1)).Nodup
  | [], f, _, hn => ⟨[], (fun _ h => nomatch h), by simp [Names.generate], hn⟩
  | u :: us, f, hp, hn => by
    have hp' : PlainVars us := fun id n b h => hp id n b (List.mem_cons_of_mem _ h)
    rw [List.foldl_cons]
    have hfresh : ∀ k n, noDigitEnd n → ¬ (f.name k).isSome = true → ∃ reqs, (∀ n ∈ reqs, noDigitEnd n) ∧
        (us.foldl (visit tn params) (f.fresh k n)).map.map (·.2) = f.map.map (·.2) ++ Names.generate f.counters reqs ∧
        ((us.foldl (visit tn params) (f.fresh k n)).map.map (·.1)).Nodup := by
      intro k n hd hk
      obtain ⟨h1, h2, h3⟩ := fresh_step f k n
      have hn' : ((f.fresh k n).map.map (·.1)).Nodup := by
        rw [h3, List.nodup_append]
        exact ⟨hn, by simp, fun a ha b hb => by
          rw [List.mem_singleton.1 hb]; rintro rfl; exact name_none hk ha⟩
      obtain ⟨reqs, hr, he, hk'⟩ := visits tn params us (f.fresh k n) hp' hn'
      refine ⟨n :: reqs, ?_, ?_, hk'⟩
      · intro m hm
        rcases List.mem_cons.1 hm with rfl | hm
        · exact hd
        · exact hr m hm
      · rw [he, h1, h2, Names.generate, List.append_assoc]; rfl
    cases u with
    | prop k =>
      rw [visit]
      by_cases hc : k.tensor ∉ params
      · rw [if_pos hc]; exact visits tn params us f hp' hn
      · rw [if_neg hc]
        by_cases hs : (f.name (.prop k)).isSome = true
        · rw [if_pos hs]; exact visits tn params us f hp' hn
        · rw [if_neg hs]; exact hfresh _ _ (propName_noDigit tn k) hs
    | var id n isPtr =>
      obtain ⟨rfl, hd⟩ := hp id n isPtr List.mem_cons_self
      rw [visit]
      by_cases hs : (f.name (.var id)).isSome = true
      · rw [if_pos hs]; exact visits tn params us f hp' hn
      · rw [if_neg hs, if_neg (by decide)]; exact hfresh _ _ hd hs

theorem found_distinct (keywords : List Name) (tn : Nat → Name) (params : List Nat) (uses : List Use)
    (hk : ∀ n ∈ keywords, noDigitEnd n) (hp : PlainVars uses) :
    ((findVars keywords tn params uses).map.map (·.1)).Nodup ∧ ((findVars keywords tn params uses).map.map (·.2)).Nodup ∧
      ∀ e ∈ (findVars keywords tn params uses).map, e.2 ∉ keywords := by
  obtain ⟨reqs, hr, he, hn⟩ := visits tn params uses ⟨Names.init keywords, []⟩ hp (by simp)
  have hd := Names.names_distinct_partial keywords reqs hr hk
  simp only [List.map_nil, List.nil_append] at he
  refine ⟨hn, ?_, ?_⟩
  · rw [findVars, he]; exact hd.1
  · intro e hm
    apply hd.2
    rw [← he]
    exact List.mem_map.2 ⟨e, hm, rfl⟩

theorem visit_keeps (tn : Nat → Name) (params : List Nat) (f : Found) (u : Use) {e : Key × Name} (h : e ∈ f.map) :
    e ∈ (visit tn params f u).map := by
  cases u with
  | prop k =>
    rw [visit]
    by_cases hc : k.tensor ∉ params
    · rw [if_pos hc]; exact h
    · rw [if_neg hc]
      split
      · exact h
      · exact List.mem_append_left _ h
  | var id n b =>
    rw [visit]
    split
    · exact h
    · split
      · exact List.mem_append_left _ h
      · exact List.mem_append_left _ h

theorem visits_keep (tn : Nat → Name) (params : List Nat) : ∀ (uses : List Use) (f : Found) {e : Key × Name},
    e ∈ f.map → e ∈ (uses.foldl (visit tn params) f).map
  | [], _, _, h => h
  | u :: us, f, _, h => visits_keep tn params us _ (visit_keeps tn params f u h)

theorem visit_prop (tn : Nat → Name) (params : List Nat) (f : Found) (k : PropKey) (hk : k.tensor ∈ params) :
    ∃ n, (Key.prop k, n) ∈ (visit tn params f (.prop k)).map := by
  rw [visit, if_neg (by simpa using hk)]
  by_cases hs : (f.name (.prop k)).isSome = true
  · rw [if_pos hs]
    rw [Found.name, Option.isSome_map, List.find?_isSome] at hs
    obtain ⟨e, he, h⟩ := hs
    refine ⟨e.2, ?_⟩
    have : e.1 = .prop k := by simpa using h
    rw [← this]; exact he
  · rw [if_neg hs]
    exact ⟨_, by rw [Found.fresh]; exact List.mem_append_right _ (List.mem_singleton.2 rfl)⟩

theorem visits_prop (tn : Nat → Name) (params : List Nat) : ∀ (uses : List Use) (f : Found) (k : PropKey),
    Use.prop k ∈ uses → k.tensor ∈ params → ∃ n, (Key.prop k, n) ∈ (uses.foldl (visit tn params) f).map
  | [], _, _, h, _ => nomatch h
  | u :: us, f, k, h, hk => by
    rw [List.foldl_cons]
    rcases List.mem_cons.1 h with rfl | h
    · obtain ⟨n, hn⟩ := visit_prop tn params f k hk
      exact ⟨n, visits_keep tn params us _ hn⟩
    · exact visits_prop tn params us _ k h hk

/-- Only fields of parameters that are mentioned are entered. -/
theorem visits_only (tn : Nat → Name) (params : List Nat) : ∀ (uses : List Use) (f : Found) (k : PropKey) (n : Name),
    (Key.prop k, n) ∈ (uses.foldl (visit tn params) f).map →
      (Key.prop k, n) ∈ f.map ∨ (Use.prop k ∈ uses ∧ k.tensor ∈ params)
  | [], _, _, _, h => Or.inl h
  | u :: us, f, k, n, h => by
    rw [List.foldl_cons] at h
    rcases visits_only tn params us _ k n h with h | ⟨h, hk⟩
    · cases u with
      | prop k' =>
        rw [visit] at h
        by_cases hc : k'.tensor ∉ params
        · rw [if_pos hc] at h; exact Or.inl h
        · rw [if_neg hc] at h
          by_cases hs : (f.name (.prop k')).isSome = true
          · rw [if_pos hs] at h; exact Or.inl h
          · rw [if_neg hs, Found.fresh] at h
            rcases List.mem_append.1 h with h | h
            · exact Or.inl h
            · have h := congrArg Prod.fst (List.mem_singleton.1 h)
              simp only [Key.prop.injEq] at h
              subst h
              exact Or.inr ⟨List.mem_cons_self, Classical.not_not.1 hc⟩
      | var id m b =>
        rw [visit] at h
        by_cases hs : (f.name (.var id)).isSome = true
        · rw [if_pos hs] at h; exact Or.inl h
        · rw [if_neg hs] at h
          cases b with
          | true =>
            rw [if_pos rfl] at h
            rcases List.mem_append.1 h with h | h
            · exact Or.inl h
            · exact nomatch congrArg Prod.fst (List.mem_singleton.1 h)
          | false =>
            rw [if_neg (by decide), Found.fresh] at h
            rcases List.mem_append.1 h with h | h
            · exact Or.inl h
            · exact nomatch congrArg Prod.fst (List.mem_singleton.1 h)
    · exact Or.inr ⟨List.mem_cons_of_mem _ h, hk⟩

/-- Lookup by key, when keys are distinct. -/
theorem find_of_mem {α β : Type} [DecidableEq α] : ∀ (l : List (α × β)) (e : α × β), (l.map (·.1)).Nodup → e ∈ l →
    (l.find? fun x => x.1 = e.1) = some e
  | [], _, _, h => nomatch h
  | x :: xs, e, hn, h => by
    rw [List.map_cons, List.nodup_cons] at hn
    rcases List.mem_cons.1 h with rfl | h
    · simp
    · have : x.1 ≠ e.1 := by
        intro hx; apply hn.1; rw [hx]; exact List.mem_map.2 ⟨e, h, rfl⟩
      rw [List.find?_cons_of_neg (by simpa using this)]
      exact find_of_mem xs e hn.2 h

theorem name_of_mem {f : Found} (hn : (f.map.map (·.1)).Nodup) {k : Key} {n : Name} (h : (k, n) ∈ f.map) :
    f.name k = some n := by
  rw [Found.name, find_of_mem f.map (k, n) hn h]; rfl

theorem mem_of_name {f : Found} {k : Key} {n : Name} (h : f.name k = some n) : (k, n) ∈ f.map := by
  rw [Found.name] at h
  obtain ⟨e, he, rfl⟩ := Option.map_eq_some_iff.1 h
  have h1 := List.mem_of_find?_eq_some he
  have h2 := List.find?_some he
  have h2 : e.1 = k := by simpa using h2
  rw [← h2]; exact h1

/-! ### Sorting -/

theorem insertProp_perm (lt : PropKey → PropKey → Bool) (x : PropKey × Name) : ∀ ys,
    (insertProp lt x ys).Perm (x :: ys)
  | [] => List.Perm.refl _
  | y :: ys => by
    rw [insertProp]
    split
    · exact List.Perm.refl _
    · exact ((insertProp_perm lt x ys).cons y).trans (List.Perm.swap x y ys)

theorem sortProps_perm (lt : PropKey → PropKey → Bool) : ∀ xs, (sortProps lt xs).Perm xs
  | [] => List.Perm.refl _
  | x :: xs => (insertProp_perm lt x _).trans ((sortProps_perm lt xs).cons x)

theorem mem_varDecls {f : Found} {e : PropKey × Name} : e ∈ varDecls f ↔ (Key.prop e.1, e.2) ∈ f.map := by
  rw [varDecls, List.mem_filterMap]
  constructor
  · rintro ⟨⟨k, n⟩, hm, h⟩
    cases k with
    | var id => simp at h
    | prop k => simp only [Option.some.injEq] at h; subst h; exact hm
  · intro h; exact ⟨_, h, by simp⟩

theorem varDecls_nodup (l : List (Key × Name)) (hk : (l.map (·.1)).Nodup) (hn : (l.map (·.2)).Nodup) (c) :
    ((varDecls ⟨c, l⟩).map (·.1)).Nodup ∧ ((varDecls ⟨c, l⟩).map (·.2)).Nodup := by
  induction l with
  | nil => exact ⟨List.nodup_nil, List.nodup_nil⟩
  | cons x xs ih =>
    rw [List.map_cons, List.nodup_cons] at hk hn
    obtain ⟨i1, i2⟩ := ih hk.2 hn.2
    obtain ⟨k, n⟩ := x
    cases k with
    | var id => exact ⟨i1, i2⟩
    | prop k =>
      have he : varDecls ⟨c, (Key.prop k, n) :: xs⟩ = (k, n) :: varDecls ⟨c, xs⟩ := by simp [varDecls]
      rw [he, List.map_cons, List.map_cons, List.nodup_cons, List.nodup_cons]
      refine ⟨⟨?_, i1⟩, ⟨?_, i2⟩⟩
      · intro h
        obtain ⟨e, he, hke⟩ := List.mem_map.1 h
        apply hk.1
        have := mem_varDecls.1 he
        exact List.mem_map.2 ⟨_, this, by simp at hke; simp [hke]⟩
      · intro h
        obtain ⟨e, he, hke⟩ := List.mem_map.1 h
        apply hn.1
        have := mem_varDecls.1 he
        exact List.mem_map.2 ⟨_, this, hke⟩

/-! ### Entering -/

theorem declareParams_spec (tn : Nat → Name) : ∀ (ts : List Nat) (e : Env), (ts.map tn).Nodup → (∀ t ∈ ts, e (tn t) = none) →
    ∃ e', declareParams tn ts e = some e' ∧ (∀ t ∈ ts, e' (tn t) = some (.struct t)) ∧ ∀ n, (∀ t ∈ ts, tn t ≠ n) → e' n = e n
  | [], e, _, _ => ⟨e, rfl, (fun _ h => nomatch h), fun _ _ => rfl⟩
  | t :: ts, e, hn, he => by
    rw [List.map_cons, List.nodup_cons] at hn
    have h1 := he t List.mem_cons_self
    have hne : ∀ u ∈ ts, tn u ≠ tn t := fun u hu hc => hn.1 (hc ▸ List.mem_map.2 ⟨u, hu, rfl⟩)
    obtain ⟨e', h2, h3, h4⟩ := declareParams_spec tn ts (bindVar e (tn t) (.struct t)) hn.2 (by
      intro u hu
      rw [bindVar, if_neg (hne u hu)]
      exact he u (List.mem_cons_of_mem _ hu))
    refine ⟨e', ?_, ?_, ?_⟩
    · rw [declareParams, declare, h1]; exact h2
    · intro u hu
      rcases List.mem_cons.1 hu with rfl | hu
      · rw [h4 _ hne, bindVar, if_pos rfl]
      · exact h3 u hu
    · intro n hn'
      rw [h4 n (fun u hu => hn' u (List.mem_cons_of_mem _ hu)), bindVar, if_neg]
      exact fun hc => hn' t List.mem_cons_self hc.symm

theorem runDecls_spec (tn : Nat → Name) (structs : Nat → Struct) : ∀ (ds : List (PropKey × Name)) (e : Env),
    (ds.map (·.2)).Nodup → (∀ d ∈ ds, e d.2 = none) → (∀ d ∈ ds, e (tn d.1.tensor) = some (.struct d.1.tensor)) →
    (∀ d ∈ ds, (readField (structs d.1.tensor) d.1.field d.1.mode d.1.index).isSome = true) →
    ∃ e', runDecls structs (ds.map (declOf tn)) e = some e' ∧
      (∀ d ∈ ds, e' d.2 = readField (structs d.1.tensor) d.1.field d.1.mode d.1.index) ∧
      ∀ n, (∀ d ∈ ds, d.2 ≠ n) → e' n = e n
  | [], e, _, _, _, _ => ⟨e, rfl, (fun _ h => nomatch h), fun _ _ => rfl⟩
  | d :: ds, e, hn, h0, hs, hr => by
    rw [List.map_cons, List.nodup_cons] at hn
    obtain ⟨v, hv⟩ := Option.isSome_iff_exists.1 (hr d List.mem_cons_self)
    have hd0 := h0 d List.mem_cons_self
    have hds := hs d List.mem_cons_self
    have hne : ∀ x ∈ ds, x.2 ≠ d.2 := fun x hx hc => hn.1 (hc ▸ List.mem_map.2 ⟨x, hx, rfl⟩)
    have hst : ∀ x ∈ d :: ds, tn x.1.tensor ≠ d.2 := by
      intro x hx hc
      have := hs x hx
      rw [hc, hd0] at this
      cases this
    obtain ⟨e', h1, h2, h3⟩ := runDecls_spec tn structs ds (bindVar e d.2 v) hn.2
      (fun x hx => by rw [bindVar, if_neg (hne x hx)]; exact h0 x (List.mem_cons_of_mem _ hx))
      (fun x hx => by
        rw [bindVar, if_neg (hst x (List.mem_cons_of_mem _ hx))]; exact hs x (List.mem_cons_of_mem _ hx))
      (fun x hx => hr x (List.mem_cons_of_mem _ hx))
    refine ⟨e', ?_, ?_, ?_⟩
    · have : runDecl structs e (declOf tn d) = some (bindVar e d.2 v) := by
        simp [runDecl, declOf, structAt, hds, hv, declare, hd0]
      rw [List.map_cons, runDecls, this]; exact h1
    · intro x hx
      rcases List.mem_cons.1 hx with rfl | hx
      · rw [h3 _ hne, bindVar, if_pos rfl, hv]
      · exact h2 x hx
    · intro n hn'
      rw [h3 n (fun x hx => hn' x (List.mem_cons_of_mem _ hx)), bindVar, if_neg]
      exact fun hc => hn' d List.mem_cons_self hc.symm

/-! ### Leaving -/

/-- A struct with one field written. -/
theorem writeField_read {s s' : Struct} {f : Field} {m i : Nat} {v : Val} (h : writeField s f m i v = some s') :
    readField s' f m i = some v ∧ s'.dims = s.dims ∧ s'.indices.map List.length = s.indices.map List.length ∧
      ∀ (f' : Field) (m' i' : Nat), (f' ≠ f ∨ (f = .indices ∧ (m' ≠ m ∨ i' ≠ i))) → readField s' f' m' i' = readField s f' m' i' := by
  cases f with
  | dimension => simp [writeField] at h
  | fillValue => simp [writeField] at h
  | values =>
    cases v with
    | struct t => simp [writeField] at h
    | int n => simp [writeField] at h
    | ptr p =>
      simp only [writeField, Option.some.injEq] at h
      subst h
      refine ⟨rfl, rfl, rfl, ?_⟩
      intro f' m' i' hf
      rcases hf with hf | ⟨hf, _⟩
      · cases f' with
        | values => exact absurd rfl hf
        | _ => rfl
      · cases hf
  | indices =>
    cases v with
    | struct t => simp [writeField] at h
    | int n => simp [writeField] at h
    | ptr p =>
      rw [writeField] at h
      obtain ⟨sl, hsl, h⟩ := Option.bind_eq_some_iff.1 h
      by_cases hi : i < sl.length
      · rw [if_pos hi] at h
        simp only [Option.some.injEq] at h
        subst h
        have hm : m < s.indices.length := (List.getElem?_eq_some_iff.1 hsl).1
        refine ⟨?_, rfl, ?_, ?_⟩
        · simp [readField, List.getElem?_set, hm, hi]
        · apply List.ext_getElem?
          intro j
          rw [List.getElem?_map, List.getElem?_map, List.getElem?_set]
          by_cases hj : m = j
          · subst hj; rw [if_pos rfl, if_pos hm, hsl]; simp
          · rw [if_neg hj]
        · intro f' m' i' hf
          cases f' with
          | dimension => rfl
          | values => rfl
          | fillValue => rfl
          | indices =>
            have hf : m' ≠ m ∨ i' ≠ i := by
              rcases hf with hf | ⟨_, hf⟩
              · exact absurd rfl hf
              · exact hf
            simp only [readField, List.getElem?_set]
            by_cases hmm : m = m'
            · subst hmm
              have hii : i ≠ i' := by
                rcases hf with hf | hf
                · exact absurd rfl hf
                · exact fun hc => hf hc.symm
              rw [if_pos rfl, if_pos hm, hsl]
              simp [List.getElem?_set, hii]
            · simp [hmm]
      · rw [if_neg hi] at h; cases h

theorem writeField_some {s : Struct} {f : Field} {m i : Nat} {p : Option Ptr} (hf : f = .indices ∨ f = .values)
    (hr : (readField s f m i).isSome = true) : ∃ s', writeField s f m i (.ptr p) = some s' := by
  rcases hf with rfl | rfl
  · rw [readField, Option.isSome_map] at hr
    obtain ⟨x, hx⟩ := Option.isSome_iff_exists.1 hr
    obtain ⟨sl, hsl, hx⟩ := Option.bind_eq_some_iff.1 hx
    exact ⟨_, by rw [writeField, hsl, Option.bind_some, if_pos (List.getElem?_eq_some_iff.1 hx).1]⟩
  · exact ⟨_, rfl⟩

/-- The form in which fields are mentioned: only index arrays have an index, values have no mode. -/
def Canon (k : PropKey) : Prop := (k.field ≠ .indices → k.index = 0) ∧ (k.field = .values ∨ k.field = .fillValue → k.mode = 0)

def readKey (structs : Nat → Struct) (k : PropKey) : Option Val := readField (structs k.tensor) k.field k.mode k.index

theorem runWrites_spec (tn : Nat → Name) (e : Env) : ∀ (ds : List (PropKey × Name)) (structs : Nat → Struct),
    (ds.map (·.1)).Nodup → (∀ d ∈ ds, Canon d.1) → (∀ d ∈ ds, e (tn d.1.tensor) = some (.struct d.1.tensor)) →
    (∀ d ∈ ds, (readKey structs d.1).isSome = true) →
    (∀ d ∈ ds, (d.1.field = .indices ∨ d.1.field = .values) → ∃ p, e d.2 = some (.ptr p)) →
    ∃ structs', runWrites e (ds.filterMap (writeOf tn)) structs = some structs' ∧
      (∀ d ∈ ds, (d.1.field = .indices ∨ d.1.field = .values) → readKey structs' d.1 = e d.2) ∧
      (∀ k, Canon k → ((k.field = .indices ∨ k.field = .values) → ∀ d ∈ ds, d.1 ≠ k) → readKey structs' k = readKey structs k) ∧
      (∀ t, (∀ d ∈ ds, d.1.tensor ≠ t) → structs' t = structs t) ∧
      ∀ t, (structs' t).dims = (structs t).dims ∧ (structs' t).indices.map List.length = (structs t).indices.map List.length
  | [], structs, _, _, _, _, _ => ⟨structs, rfl, (fun _ h => nomatch h), fun _ _ _ => rfl, fun _ _ => rfl, fun _ => ⟨rfl, rfl⟩⟩
  | d :: ds, structs, hn, hc, hs, hr, hv => by
    rw [List.map_cons, List.nodup_cons] at hn
    have hne : ∀ x ∈ ds, x.1 ≠ d.1 := fun x hx h => hn.1 (h ▸ List.mem_map.2 ⟨x, hx, rfl⟩)
    have hc' := fun x hx => hc x (List.mem_cons_of_mem _ hx)
    have hs' := fun x hx => hs x (List.mem_cons_of_mem _ hx)
    have hv' := fun x hx => hv x (List.mem_cons_of_mem _ hx)
    by_cases hf : d.1.field = .indices ∨ d.1.field = .values
    · obtain ⟨p, hp⟩ := hv d List.mem_cons_self hf
      obtain ⟨s', hw⟩ := writeField_some (p := p) hf (hr d List.mem_cons_self)
      obtain ⟨hr1, hr2, hr3, hr4⟩ := writeField_read hw
      have hkeep : ∀ k, Canon k → k ≠ d.1 → readKey (setStruct structs d.1.tensor s') k = readKey structs k := by
        intro k hk hkd
        rw [readKey, readKey, setStruct]
        by_cases ht : k.tensor = d.1.tensor
        · rw [if_pos ht, ht]
          apply hr4
          by_cases hff : k.field = d.1.field
          · right
            have hci := hc d List.mem_cons_self
            rcases hf with hf | hf
            · refine ⟨hf, ?_⟩
              by_cases hm : k.mode = d.1.mode
              · right
                intro hi
                apply hkd
                cases k; cases hd : d.1; rw [hd] at ht hff hm hi; simp_all
              · exact Or.inl hm
            · exfalso
              apply hkd
              have h1 := hk.2 (Or.inl (hff.trans hf))
              have h2 := hci.2 (Or.inl hf)
              have h3 := hk.1 (by rw [hff, hf]; decide)
              have h4 := hci.1 (by rw [hf]; decide)
              cases k; cases hd : d.1; rw [hd] at ht hff h2 h4; simp_all
          · exact Or.inl hff
        · rw [if_neg ht]
      obtain ⟨ss, h1, h2, h3, h4, h5⟩ := runWrites_spec tn e ds (setStruct structs d.1.tensor s') hn.2 hc' hs'
        (fun x hx => by rw [hkeep x.1 (hc' x hx) (hne x hx)]; exact hr x (List.mem_cons_of_mem _ hx)) hv'
      refine ⟨ss, ?_, ?_, ?_, ?_, ?_⟩
      · have hwo : writeOf tn d = some (⟨tn d.1.tensor, d.1.field, d.1.mode, d.1.index⟩, d.2) := by
          rw [writeOf]
          rcases hf with hf | hf <;> rw [hf]
        rw [List.filterMap_cons_some hwo, runWrites]
        have : runWrite e structs (⟨tn d.1.tensor, d.1.field, d.1.mode, d.1.index⟩, d.2) =
            some (setStruct structs d.1.tensor s') := by
          simp [runWrite, structAt, hs d List.mem_cons_self, hp, hw]
        rw [this]; exact h1
      · intro x hx hfx
        rcases List.mem_cons.1 hx with rfl | hx
        · rw [h3 _ (hc _ List.mem_cons_self) (fun _ => hne), readKey, setStruct, if_pos rfl, hr1, hp]
        · exact h2 x hx hfx
      · intro k hk hd
        rw [h3 k hk (fun hkf x hx => hd hkf x (List.mem_cons_of_mem _ hx))]
        by_cases hkd : k = d.1
        · subst hkd; exact absurd rfl (hd hf d List.mem_cons_self)
        · exact hkeep k hk hkd
      · intro t ht
        rw [h4 t (fun x hx => ht x (List.mem_cons_of_mem _ hx)), setStruct, if_neg]
        exact fun h => ht d List.mem_cons_self h.symm
      · intro t
        rw [(h5 t).1, (h5 t).2, setStruct]
        by_cases ht : t = d.1.tensor
        · rw [if_pos ht, ht]; exact ⟨hr2, hr3⟩
        · rw [if_neg ht]; exact ⟨rfl, rfl⟩
    · obtain ⟨ss, h1, h2, h3, h4, h5⟩ := runWrites_spec tn e ds structs hn.2 hc' hs'
        (fun x hx => hr x (List.mem_cons_of_mem _ hx)) hv'
      refine ⟨ss, ?_, ?_, ?_, ?_, ?_⟩
      · have hwo : writeOf tn d = none := by
          rw [writeOf]
          cases hd : d.1.field with
          | dimension => rfl
          | fillValue => rfl
          | indices => exact absurd (Or.inl hd) hf
          | values => exact absurd (Or.inr hd) hf
        rw [List.filterMap_cons_none hwo]; exact h1
      · intro x hx hfx
        rcases List.mem_cons.1 hx with rfl | hx
        · exact absurd hfx hf
        · exact h2 x hx hfx
      · intro k hk hd
        exact h3 k hk (fun hkf x hx => hd hkf x (List.mem_cons_of_mem _ hx))
      · intro t ht
        exact h4 t (fun x hx => ht x (List.mem_cons_of_mem _ hx))
      · exact h5

/-! ### Packing -/

theorem packLevels_get : ∀ (ks : List Kind) (as : List (List HArr)) (ss xs : List (List (Option Ptr))),
    packLevels ks as ss = some xs → xs.length = ks.length ∧ ∀ (i : Nat) k, ks[i]? = some k →
      ∃ a s x, as[i]? = some a ∧ ss[i]? = some s ∧ xs[i]? = some x ∧ packLevel k a s = some x
  | [], as, ss, xs, h => by
    cases as <;> cases ss <;> (simp only [packLevels, Option.some.injEq] at h; subst h; exact ⟨rfl, fun i k hk => by simp at hk⟩)
  | k :: ks, [], ss, xs, h => by simp [packLevels] at h
  | k :: ks, a :: as, [], xs, h => by simp [packLevels] at h
  | k :: ks, a :: as, s :: ss, xs, h => by
    rw [packLevels] at h
    obtain ⟨x, hx, h⟩ := Option.bind_eq_some_iff.1 h
    obtain ⟨ys, hy, rfl⟩ := Option.map_eq_some_iff.1 h
    obtain ⟨hl, ih⟩ := packLevels_get ks as ss ys hy
    refine ⟨by simp [hl], ?_⟩
    intro i k' hk
    cases i with
    | zero => simp at hk; subst hk; exact ⟨a, s, x, by simp, by simp, by simp, hx⟩
    | succ i => simpa using ih i k' (by simpa using hk)

theorem packLevels_some : ∀ (ks : List Kind) (as : List (List HArr)) (ss : List (List (Option Ptr))),
    as.length = ks.length → ss.length = ks.length →
    (∀ (i : Nat) k a s, ks[i]? = some k → as[i]? = some a → ss[i]? = some s → (packLevel k a s).isSome = true) →
    ∃ xs, packLevels ks as ss = some xs
  | [], as, ss, _, _, _ => ⟨[], by cases as <;> cases ss <;> rfl⟩
  | k :: ks, [], ss, h, _, _ => by simp at h
  | k :: ks, a :: as, [], _, h, _ => by simp at h
  | k :: ks, a :: as, s :: ss, h1, h2, h => by
    obtain ⟨x, hx⟩ := Option.isSome_iff_exists.1 (h 0 k a s rfl rfl rfl)
    obtain ⟨xs, hxs⟩ := packLevels_some ks as ss (by simpa using h1) (by simpa using h2)
      (fun i k' a' s' hk ha hs => h (i + 1) k' a' s' (by simpa using hk) (by simpa using ha) (by simpa using hs))
    exact ⟨x :: xs, by rw [packLevels, hx, Option.bind_some, hxs]; rfl⟩

theorem unpackLevels_spec (h : Heap) : ∀ (ks : List Kind) (ss : List (List (Option Ptr))) (ls : List LevelData) (n : Nat),
    ls.length = ks.length → ss.length = ks.length → Fits n ls →
    (∀ (i : Nat) k s l, ks[i]? = some k → ss[i]? = some s → ls[i]? = some l →
      match k, l with
      | .dense, .dense d => ∃ p, s[0]? = some (some p) ∧ readInt h p 0 = some d
      | .sparse, .compressed pos crd => ∃ p q, s[0]? = some (some p) ∧ s[1]? = some (some q) ∧ Holds 4 h p pos ∧ Holds 4 h q crd
      | .singleton, .singleton crd => ∃ q, s[1]? = some (some q) ∧ Holds 4 h q crd
      | _, _ => False) →
    ∃ as, unpackLevels h ks ss n = some (as, positions n ls) ∧ as.length = ks.length ∧
      (∀ x ∈ as, ∀ a ∈ x, a.bytes = 4) ∧
      ∀ (i : Nat) k a l, ks[i]? = some k → as[i]? = some a → ls[i]? = some l → HostLevel h k a l
  | [], _, [], n, _, _, _, _ => ⟨[], by simp [unpackLevels, positions], rfl, (fun _ h => nomatch h), fun i k a l hk => by simp at hk⟩
  | [], _, _ :: _, _, h, _, _, _ => by simp at h
  | _ :: _, _, [], _, h, _, _, _ => by simp at h
  | _ :: _, [], _ :: _, _, _, h, _, _ => by simp at h
  | k :: ks, s :: ss, l :: ls, n, hl, hs, hf, hh => by
    have h0 := hh 0 k s l rfl rfl rfl
    have hrest := fun (i : Nat) k' s' l' hk ha hs => hh (i + 1) k' s' l' (by simpa using hk) (by simpa using ha) (by simpa using hs)
    have hl' : ls.length = ks.length := by simpa using hl
    have hs' : ss.length = ks.length := by simpa using hs
    have build : ∀ (a : List HArr) (m : Nat), unpackLevel h k s n = some (a, m) → positions n (l :: ls) = positions m ls →
        Fits m ls → HostLevel h k a l → (∀ x ∈ a, x.bytes = 4) →
        ∃ as, unpackLevels h (k :: ks) (s :: ss) n = some (as, positions n (l :: ls)) ∧ as.length = (k :: ks).length ∧
          (∀ x ∈ as, ∀ a ∈ x, a.bytes = 4) ∧ ∀ (i : Nat) k' a' l', (k :: ks)[i]? = some k' → as[i]? = some a' →
            (l :: ls)[i]? = some l' → HostLevel h k' a' l' := by
      intro a m hu hp hfm hhl hb
      obtain ⟨as, h1, h2, h3, h4⟩ := unpackLevels_spec h ks ss ls m hl' hs' hfm hrest
      refine ⟨a :: as, ?_, by simp [h2], ?_, ?_⟩
      · rw [unpackLevels, hu, Option.bind_some, h1, hp]; rfl
      · intro x hx
        rcases List.mem_cons.1 hx with rfl | hx
        · exact hb
        · exact h3 x hx
      · intro i k' a' l' hk ha hl
        cases i with
        | zero => simp at hk ha hl; subst hk; subst ha; subst hl; exact hhl
        | succ i => exact h4 i k' a' l' (by simpa using hk) (by simpa using ha) (by simpa using hl)
    cases k with
    | dense =>
      cases l with
      | dense d =>
        obtain ⟨p, hp, hd⟩ := h0
        refine build [⟨p, 1, 4⟩] (n * d) ?_ rfl hf ⟨rfl, ?_⟩ (by simp)
        · simp [unpackLevel, hp, hd]
        · intro i x hx
          cases i with
          | zero => simp at hx; subst hx; exact hd
          | succ i => simp at hx
      | _ => exact h0.elim
    | sparse =>
      cases l with
      | compressed pos crd =>
        obtain ⟨p, q, hp, hq, h1, h2⟩ := h0
        obtain ⟨f1, f2, f3⟩ := hf
        refine build [⟨p, n + 1, 4⟩, ⟨q, crd.length, 4⟩] crd.length ?_ rfl f3 ⟨f1.symm, rfl, h1, h2⟩ (by simp)
        have := h1 n _ f2
        simp [unpackLevel, hp, hq, readInt, this]
      | _ => exact h0.elim
    | singleton =>
      cases l with
      | singleton crd =>
        obtain ⟨q, hq, h2⟩ := h0
        obtain ⟨f1, f3⟩ := hf
        refine build [⟨q, 0, 4⟩, ⟨q, n, 4⟩] n ?_ rfl f3 ⟨f1.symm, h2⟩ (by simp)
        simp [unpackLevel, hq]
      | _ => exact h0.elim

end Verif.Abi
