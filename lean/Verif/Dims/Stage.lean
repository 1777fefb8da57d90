import Verif.Dims.Tree
/-! Lemmas: what looking up tensors keeps, for all options. -/
namespace Verif.Dims
open Verif.IndexText (X Op Assign)

theorem mem_defaultModes {id j i : Nat} : ∀ {ds : List (Nat × Bool)} {k : Nat},
    (j, i) ∈ defaultModes id k ds ↔ j = id ∧ k ≤ i ∧ ∃ d, ds[i - k]? = some (d, true) := by
  intro ds
  induction ds with
  | nil => intro k; simp [defaultModes]
  | cons p ds ih =>
    intro k
    obtain ⟨d, b⟩ := p
    simp only [defaultModes, List.mem_append, ih]
    constructor
    · rintro (h | ⟨rfl, hk, e, he⟩)
      · cases b
        · simp at h
        · simp only [if_true, List.mem_singleton, Prod.mk.injEq] at h
          obtain ⟨rfl, rfl⟩ := h
          exact ⟨rfl, Nat.le_refl _, d, by simp⟩
      · refine ⟨rfl, by omega, e, ?_⟩
        have : i - k = (i - (k + 1)) + 1 := by omega
        rw [this]; simpa using he
    · rintro ⟨rfl, hk, e, he⟩
      by_cases hki : k = i
      · subst hki
        simp only [Nat.sub_self, List.getElem?_cons_zero, Option.some.injEq, Prod.mk.injEq] at he
        left; simp [he.2]
      · right
        refine ⟨rfl, by omega, e, ?_⟩
        have : i - k = (i - (k + 1)) + 1 := by omega
        rw [this] at he; simpa using he

theorem modeDims_get {o : Options} {s : St} {name : Name} : ∀ {vs : List Name} {k : Nat} {ds : List (Nat × Bool)},
    modeDims o s name k vs = .ok ds →
    ds.length = vs.length ∧ ∀ i v, vs[i]? = some v → ∃ d, ds[i]? = some d ∧ modeDim o s name v (k + i) = .ok d := by
  intro vs
  induction vs with
  | nil => intro k ds h; simp only [modeDims, Except.ok.injEq] at h; subst h; simp
  | cons v vs ih =>
    intro k ds h
    simp only [modeDims] at h
    split at h
    · cases h
    · next d hd =>
      split at h
      · cases h
      · next es hes =>
        simp only [Except.ok.injEq] at h; subst h
        obtain ⟨h1, h2⟩ := ih hes
        refine ⟨by simp [h1], ?_⟩
        intro i w hw
        cases i with
        | zero => simp only [List.getElem?_cons_zero, Option.some.injEq] at hw; subst hw; exact ⟨d, by simp, hd⟩
        | succ i =>
          simp only [List.getElem?_cons_succ] at hw ⊢
          obtain ⟨e, he, hm⟩ := h2 i w hw
          exact ⟨e, he, by rw [← hm]; congr 1; omega⟩

theorem modeDims_ok {o : Options} {s : St} {name : Name} : ∀ {vs : List Name} {k : Nat},
    (∀ i v, vs[i]? = some v → ∃ d, modeDim o s name v (k + i) = .ok d) → ∃ ds, modeDims o s name k vs = .ok ds := by
  intro vs
  induction vs with
  | nil => intro k _; exact ⟨[], rfl⟩
  | cons v vs ih =>
    intro k h
    obtain ⟨d, hd⟩ := h 0 v (by simp)
    obtain ⟨ds, hds⟩ := ih (k := k + 1) (fun i w hw => by
      obtain ⟨e, he⟩ := h (i + 1) w (by simpa using hw)
      exact ⟨e, by rw [← he]; congr 1; omega⟩)
    exact ⟨d :: ds, by simp only [Nat.add_zero] at hd; simp [modeDims, hd, hds]⟩

/-- Looking up variables changes only `known` and `varDims`. -/
theorem getIndexVars_frame {o : Options} : ∀ {vs : List Name} {s s' : St}, getIndexVars o s vs = .ok s' →
    s'.tensors = s.tensors ∧ s'.defaults = s.defaults ∧ s'.next = s.next := by
  intro vs
  induction vs with
  | nil => intro s s' h; simp only [getIndexVars, Except.ok.injEq] at h; subst h; simp
  | cons v vs ih =>
    intro s s' h
    simp only [getIndexVars] at h
    split at h
    · cases h
    · next s1 h1 =>
      obtain ⟨a, b, c⟩ := ih h
      unfold getIndexVar at h1
      split at h1
      · simp only [Except.ok.injEq] at h1; subst h1; exact ⟨a, b, c⟩
      · split at h1 <;> simp only [Except.ok.injEq, reduceCtorEq] at h1 <;> subst h1 <;> exact ⟨a, b, c⟩

/-- What holds while tensors are looked up. -/
structure Inv (o : Options) (s : St) : Prop where
  names : ∀ n t, s.tensors.lookup n = some t → t.name = n
  ids : ∀ n t, s.tensors.lookup n = some t → t.id < s.next
  next : fresh o.loaded ≤ s.next
  defaults : ∀ p ∈ s.defaults, fresh o.loaded ≤ p.1 ∧ p.1 < s.next
  loaded : ∀ n t, o.loaded.lookup n = some t → s.tensors.lookup n = some t
  given : ∀ n t, s.tensors.lookup n = some t → o.loaded.lookup n = none → ∀ ds, o.dims n = some ds →
    t.dims = ds.take t.dims.length ∧ ∀ i, (t.id, i) ∉ s.defaults
  labels : ∀ n t, s.tensors.lookup n = some t → o.loaded.lookup n = none →
    t.fmt = (o.formats n).getD (List.replicate t.dims.length 0) ∧ t.dtype = (o.types n).getD 0

/-- Tensors that were found stay. -/
def Le (s s' : St) : Prop := (∀ n t, s.tensors.lookup n = some t → s'.tensors.lookup n = some t) ∧ s.next ≤ s'.next ∧
  ∀ id i, id < s.next → ((id, i) ∈ s'.defaults ↔ (id, i) ∈ s.defaults)

/-- What is known of an access that was parsed. -/
def Found (s : St) (a : Name × List Name) (b : Access) : Prop :=
  s.tensors.lookup a.1 = some b.tensor ∧ b.tensor.name = a.1 ∧ b.vars = a.2 ∧ b.vars.length = b.tensor.dims.length

theorem Le.refl (s : St) : Le s s := ⟨fun _ _ h => h, Nat.le_refl _, fun _ _ _ => Iff.rfl⟩

theorem Le.trans (s t u : St) (h : Le s t) (k : Le t u) : Le s u :=
  ⟨fun n x hx => k.1 n x (h.1 n x hx), Nat.le_trans h.2.1 k.2.1,
    fun id i hi => (k.2.2 id i (Nat.lt_of_lt_of_le hi h.2.1)).trans (h.2.2 id i hi)⟩

theorem Found.mono (s t : St) (a : Name × List Name) (b : Access) (h : Le s t) (hf : Found s a b) : Found t a b :=
  ⟨h.1 _ _ hf.1, hf.2⟩

theorem inv_start (o : Options) (ho : LoadedOK o) : Inv o ⟨[], [], [], o.loaded, fresh o.loaded⟩ where
  names := ho
  ids := fun n t h => lookup_fresh h
  next := Nat.le_refl _
  defaults := by simp
  loaded := fun n t h => h
  given := fun n t h hn => by simp only at h; rw [hn] at h; cases h
  labels := fun n t h hn => by simp only at h; rw [hn] at h; cases h

/-- The invariant depends on the tensors, the defaults and the next number only. -/
theorem inv_frame {o : Options} {s s' : St} (hi : Inv o s) (h : s'.tensors = s.tensors ∧ s'.defaults = s.defaults ∧ s'.next = s.next) : Inv o s' := by
  obtain ⟨h1, h2, h3⟩ := h
  constructor
  · rw [h1]; exact hi.names
  · rw [h1, h3]; exact hi.ids
  · rw [h3]; exact hi.next
  · rw [h2, h3]; exact hi.defaults
  · rw [h1]; exact hi.loaded
  · rw [h1, h2]; exact hi.given
  · rw [h1]; exact hi.labels

/-- The new tensor of `findTensor`. -/
theorem findTensor_new {o : Options} {s s' : St} {n : Name} {vs : List Name} {t : Tensor} (hn : s.tensors.lookup n = none)
    (h : findTensor o s n vs = .ok (t, s')) :
    ∃ ds, modeDims o s n 0 vs = .ok ds ∧ (formatOf o n vs.length).length = ds.length ∧
      t = ⟨s.next, n, typeOf o n, formatOf o n vs.length, ds.map (·.1)⟩ ∧
      s' = { s with defaults := s.defaults ++ defaultModes s.next 0 ds, tensors := s.tensors ++ [(n, t)], next := s.next + 1 } := by
  unfold findTensor at h
  rw [hn] at h
  simp only at h
  split at h
  · cases h
  · next ds hds =>
    split at h
    · next hl =>
      simp only [Except.ok.injEq, Prod.mk.injEq] at h
      obtain ⟨rfl, rfl⟩ := h
      exact ⟨ds, hds, hl, rfl, rfl⟩
    · cases h

theorem findTensor_inv {o : Options} {s s' : St} {n : Name} {vs : List Name} {t : Tensor} (hi : Inv o s)
    (h : findTensor o s n vs = .ok (t, s')) : Inv o s' ∧ Le s s' ∧ s'.tensors.lookup n = some t := by
  cases hn : s.tensors.lookup n with
  | some u =>
    unfold findTensor at h
    rw [hn] at h
    simp only [Except.ok.injEq, Prod.mk.injEq] at h
    obtain ⟨rfl, rfl⟩ := h
    exact ⟨hi, Le.refl _, hn⟩
  | none =>
    obtain ⟨ds, hds, hl, rfl, rfl⟩ := findTensor_new hn h
    obtain ⟨hlen, hget⟩ := modeDims_get hds
    have hln : o.loaded.lookup n = none := by
      cases hx : o.loaded.lookup n with
      | none => rfl
      | some u => rw [hi.loaded n u hx] at hn; cases hn
    have hdef : ∀ id i, id < s.next → ((id, i) ∈ s.defaults ++ defaultModes s.next 0 ds ↔ (id, i) ∈ s.defaults) := by
      intro id i hid
      rw [List.mem_append, mem_defaultModes]
      constructor
      · rintro (hx | hx)
        · exact hx
        · exact absurd hx.1 (by omega)
      · exact Or.inl
    refine ⟨?_, ⟨fun m u hu => lookup_append_some hu, Nat.le_succ _, hdef⟩, lookup_append_none hn⟩
    constructor
    · intro m u hu
      rcases lookup_append_cases hu with hu | ⟨_, rfl, rfl⟩
      · exact hi.names m u hu
      · rfl
    · intro m u hu
      rcases lookup_append_cases hu with hu | ⟨_, rfl, rfl⟩
      · exact Nat.lt_succ_of_lt (hi.ids m u hu)
      · exact Nat.lt_succ_self _
    · exact Nat.le_succ_of_le hi.next
    · intro p hp
      rw [List.mem_append] at hp
      rcases hp with hp | hp
      · exact ⟨(hi.defaults p hp).1, Nat.lt_succ_of_lt (hi.defaults p hp).2⟩
      · obtain ⟨j, i⟩ := p
        rw [mem_defaultModes] at hp
        have := hi.next
        simp only; omega
    · exact fun m u hu => lookup_append_some (hi.loaded m u hu)
    · intro m u hu hm es hes
      rcases lookup_append_cases hu with hu | ⟨_, rfl, rfl⟩
      · obtain ⟨h1, h2⟩ := hi.given m u hu hm es hes
        exact ⟨h1, fun i hx => h2 i ((hdef _ _ (hi.ids m u hu)).mp hx)⟩
      · have hmode : ∀ (i : Nat) (v : Name), vs[i]? = some v → ∃ d, ds[i]? = some (d, false) ∧ es[i]? = some d := by
          intro i v hv
          obtain ⟨d, hd, hm⟩ := hget i v hv
          unfold modeDim at hm
          rw [hes] at hm
          simp only [Nat.zero_add] at hm
          split at hm
          · next e he => simp only [Except.ok.injEq] at hm; exact ⟨e, by rw [hd, hm], he⟩
          · cases hm
        constructor
        · apply List.ext_getElem?
          intro i
          by_cases hiv : i < vs.length
          · obtain ⟨d, h1, h2⟩ := hmode i vs[i] (List.getElem?_eq_getElem hiv)
            rw [List.getElem?_map, h1, List.getElem?_take_of_lt (by simpa [hlen] using hiv), h2]
            rfl
          · rw [List.getElem?_eq_none (by simp [hlen]; omega), List.getElem?_eq_none (by simp [hlen]; omega)]
        · intro i hx
          rw [List.mem_append, mem_defaultModes] at hx
          rcases hx with hx | ⟨_, _, d, hx⟩
          · exact absurd (hi.defaults _ hx).2 (by simp)
          · have hiv : i < vs.length := by
              have := (List.getElem?_eq_some_iff.mp hx).1
              omega
            obtain ⟨d', h1, _⟩ := hmode i vs[i] (List.getElem?_eq_getElem hiv)
            simp only [Nat.sub_zero] at hx
            rw [hx] at h1; cases h1
    · intro m u hu hm
      rcases lookup_append_cases hu with hu | ⟨_, rfl, rfl⟩
      · exact hi.labels m u hu hm
      · simp [formatOf, typeOf, hlen]

theorem parseAccess_inv {o : Options} {s s' : St} {a : Name × List Name} {b : Access} (hi : Inv o s)
    (h : parseAccess o a s = .ok (b, s')) : Inv o s' ∧ Le s s' ∧ Found s' a b := by
  unfold parseAccess at h
  split at h
  · cases h
  · next s1 h1 =>
    have hf := getIndexVars_frame h1
    have hi1 := inv_frame hi hf
    split at h
    · cases h
    · next t s2 h2 =>
      obtain ⟨hi2, hle, hl⟩ := findTensor_inv hi1 h2
      split at h
      · cases h
      · next c hc =>
        simp only [Except.ok.injEq, Prod.mk.injEq] at h
        obtain ⟨rfl, rfl⟩ := h
        unfold access at hc
        split at hc
        · next hlen =>
          simp only [Except.ok.injEq] at hc; subst hc
          refine ⟨hi2, ⟨?_, ?_, ?_⟩, hl, hi2.names _ _ hl, rfl, hlen⟩
          · intro n u hu; exact hle.1 n u (by rw [hf.1]; exact hu)
          · rw [← hf.2.2]; exact hle.2.1
          · intro id i hid
            have := hle.2.2 id i (by rw [hf.2.2]; exact hid)
            rw [hf.2.1] at this; exact this
        · cases hc

/-! ### Collecting the sizes -/

theorem visitModes_le {defaults : List (Nat × Nat)} {id : Nat} : ∀ {vs : List Name} {ds : List Nat} {k : Nat} {m m' : List (Name × Nat)},
    visitModes defaults id k vs ds m = .ok m' → (∀ v d, m.lookup v = some d → m'.lookup v = some d) ∧
      (∀ i v d, vs[i]? = some v → ds[i]? = some d → (id, k + i) ∉ defaults → m'.lookup v = some d) ∧
      (∀ v d, m'.lookup v = some d → m.lookup v = some d ∨ ∃ i, vs[i]? = some v ∧ ds[i]? = some d ∧ (id, k + i) ∉ defaults) := by
  intro vs
  induction vs with
  | nil =>
    intro ds k m m' h
    simp only [visitModes, Except.ok.injEq] at h; subst h
    exact ⟨fun _ _ h => h, by simp, fun _ _ h => Or.inl h⟩
  | cons v vs ih =>
    intro ds k m m' h
    cases ds with
    | nil =>
      simp only [visitModes, Except.ok.injEq] at h; subst h
      exact ⟨fun _ _ h => h, by simp, fun _ _ h => Or.inl h⟩
    | cons d ds =>
      simp only [visitModes] at h
      have shift : ∀ i, k + 1 + i = k + (i + 1) := fun i => by omega
      split at h
      · next hdef =>
        obtain ⟨h1, h2, h3⟩ := ih h
        refine ⟨h1, ?_, ?_⟩
        · intro i w e hw he hx
          cases i with
          | zero => exact absurd hdef hx
          | succ i => exact h2 i w e (by simpa using hw) (by simpa using he) (by rw [shift]; exact hx)
        · intro w e hw
          rcases h3 w e hw with h | ⟨i, a, b, c⟩
          · exact Or.inl h
          · exact Or.inr ⟨i + 1, by simpa using a, by simpa using b, by rw [← shift]; exact c⟩
      · next hdef =>
        split at h
        · next e0 he0 =>
          split at h
          · next hed =>
            subst hed
            obtain ⟨h1, h2, h3⟩ := ih h
            refine ⟨h1, ?_, ?_⟩
            · intro i w e hw he hx
              cases i with
              | zero =>
                simp only [List.getElem?_cons_zero, Option.some.injEq] at hw he
                subst hw; subst he; exact h1 _ _ he0
              | succ i => exact h2 i w e (by simpa using hw) (by simpa using he) (by rw [shift]; exact hx)
            · intro w e hw
              rcases h3 w e hw with h | ⟨i, a, b, c⟩
              · exact Or.inl h
              · exact Or.inr ⟨i + 1, by simpa using a, by simpa using b, by rw [← shift]; exact c⟩
          · cases h
        · next hnone =>
          obtain ⟨h1, h2, h3⟩ := ih h
          refine ⟨fun w e hw => h1 w e (lookup_append_some hw), ?_, ?_⟩
          · intro i w e hw he hx
            cases i with
            | zero =>
              simp only [List.getElem?_cons_zero, Option.some.injEq] at hw he
              subst hw; subst he; exact h1 _ _ (lookup_append_none hnone)
            | succ i => exact h2 i w e (by simpa using hw) (by simpa using he) (by rw [shift]; exact hx)
          · intro w e hw
            rcases h3 w e hw with h | ⟨i, a, b, c⟩
            · rcases lookup_append_cases h with h | ⟨_, rfl, rfl⟩
              · exact Or.inl h
              · exact Or.inr ⟨0, by simp, by simp, hdef⟩
            · exact Or.inr ⟨i + 1, by simpa using a, by simpa using b, by rw [← shift]; exact c⟩

theorem collect_le {defaults : List (Nat × Nat)} : ∀ {as : List Access} {m m' : List (Name × Nat)}, collect defaults as m = .ok m' →
    (∀ v d, m.lookup v = some d → m'.lookup v = some d) ∧
      (∀ a ∈ as, ∀ i v d, a.vars[i]? = some v → a.tensor.dims[i]? = some d → (a.tensor.id, i) ∉ defaults → m'.lookup v = some d) ∧
      (∀ v d, m'.lookup v = some d → m.lookup v = some d ∨
        ∃ a ∈ as, ∃ i, a.vars[i]? = some v ∧ a.tensor.dims[i]? = some d ∧ (a.tensor.id, i) ∉ defaults) := by
  intro as
  induction as with
  | nil =>
    intro m m' h
    simp only [collect, Except.ok.injEq] at h; subst h
    exact ⟨fun _ _ h => h, by simp, fun _ _ h => Or.inl h⟩
  | cons a as ih =>
    intro m m' h
    simp only [collect] at h
    split at h
    · cases h
    · next m1 h1 =>
      obtain ⟨a1, a2, a3⟩ := visitModes_le h1
      obtain ⟨b1, b2, b3⟩ := ih h
      refine ⟨fun v d hv => b1 v d (a1 v d hv), ?_, ?_⟩
      · intro c hc i v d hv hd hx
        rcases List.mem_cons.mp hc with rfl | hc
        · exact b1 v d (a2 i v d hv hd (by simpa using hx))
        · exact b2 c hc i v d hv hd hx
      · intro v d hv
        rcases b3 v d hv with hv | ⟨c, hc, i, x, y, z⟩
        · rcases a3 v d hv with hv | ⟨i, x, y, z⟩
          · exact Or.inl hv
          · exact Or.inr ⟨a, by simp, i, x, y, by simpa using z⟩
        · exact Or.inr ⟨c, by simp [hc], i, x, y, z⟩

theorem visitModes_ok {defaults : List (Nat × Nat)} {id : Nat} {size : Name → Nat} : ∀ {vs : List Name} {ds : List Nat} {k : Nat} {m : List (Name × Nat)},
    (∀ v d, m.lookup v = some d → d = size v) → (∀ i v d, vs[i]? = some v → ds[i]? = some d → (id, k + i) ∉ defaults → d = size v) →
    ∃ m', visitModes defaults id k vs ds m = .ok m' ∧ ∀ v d, m'.lookup v = some d → d = size v := by
  intro vs
  induction vs with
  | nil => intro ds k m h _; exact ⟨m, by simp [visitModes], h⟩
  | cons v vs ih =>
    intro ds k m h hd
    cases ds with
    | nil => exact ⟨m, by simp [visitModes], h⟩
    | cons d ds =>
      have hd' : ∀ i w e, vs[i]? = some w → ds[i]? = some e → (id, k + 1 + i) ∉ defaults → e = size w := by
        intro i w e hw he hx
        exact hd (i + 1) w e (by simpa using hw) (by simpa using he) (by rw [show k + (i + 1) = k + 1 + i by omega]; exact hx)
      simp only [visitModes]
      split
      · exact ih h hd'
      · next hx =>
        have h0 := hd 0 v d (by simp) (by simp) hx
        split
        · next e he =>
          have := h v e he
          rw [if_pos (by rw [this, h0])]
          exact ih h hd'
        · next hn =>
          refine ih ?_ hd'
          intro w e hw
          rcases lookup_append_cases hw with hw | ⟨_, rfl, rfl⟩
          · exact h w e hw
          · exact h0

theorem collect_ok {defaults : List (Nat × Nat)} {size : Name → Nat} : ∀ {as : List Access} {m : List (Name × Nat)},
    (∀ v d, m.lookup v = some d → d = size v) →
    (∀ a ∈ as, ∀ i v d, a.vars[i]? = some v → a.tensor.dims[i]? = some d → (a.tensor.id, i) ∉ defaults → d = size v) →
    ∃ m', collect defaults as m = .ok m' ∧ ∀ v d, m'.lookup v = some d → d = size v := by
  intro as
  induction as with
  | nil => intro m h _; exact ⟨m, rfl, h⟩
  | cons a as ih =>
    intro m h hd
    obtain ⟨m1, h1, hs⟩ := visitModes_ok (defaults := defaults) (id := a.tensor.id) (k := 0) h
      (fun i v d hv he hx => hd a (by simp) i v d hv he (by simpa using hx))
    obtain ⟨m2, h2, hs2⟩ := ih hs (fun c hc => hd c (by simp [hc]))
    exact ⟨m2, by simp [collect, h1, h2], hs2⟩

end Verif.Dims
