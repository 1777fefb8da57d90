import Verif.Dims.Stage
/-! Lemmas: rewriting, and the sizes when the options agree. -/
namespace Verif.Dims
open Verif.IndexText (X Op Assign)

/-! ### Rewriting, for all options -/

/-- Rewritten tensors keep their names. -/
def RNames (s : RSt) : Prop := ∀ n t, s.tensors.lookup n = some t → t.name = n

theorem rewriteAccess_keeps {m : List (Name × Nat)} {a b : Access} {s s' : RSt} (hs : RNames s)
    (h : rewriteAccess m a s = .ok (b, s')) :
    RNames s' ∧ b.vars = a.vars ∧ b.tensor.name = a.tensor.name ∧ (newDims m a.vars a.tensor.dims = a.tensor.dims → b = a) := by
  unfold rewriteAccess at h
  split at h
  · cases h
  · split at h
    · simp only [Except.ok.injEq, Prod.mk.injEq] at h
      obtain ⟨rfl, rfl⟩ := h
      exact ⟨hs, rfl, rfl, fun _ => rfl⟩
    · next hch =>
      split at h
      · next t ht =>
        split at h
        · cases h
        · next c hc =>
          simp only [Except.ok.injEq, Prod.mk.injEq] at h
          obtain ⟨rfl, rfl⟩ := h
          unfold access at hc
          split at hc
          · simp only [Except.ok.injEq] at hc; subst hc
            exact ⟨hs, rfl, hs _ _ ht, fun h => absurd h hch⟩
          · cases hc
      · simp only [Except.ok.injEq, Prod.mk.injEq] at h
        obtain ⟨rfl, rfl⟩ := h
        refine ⟨?_, rfl, rfl, fun h => absurd h hch⟩
        intro n t ht
        rcases lookup_append_cases ht with ht | ⟨_, rfl, rfl⟩
        · exact hs n t ht
        · rfl

theorem zipWith_self {vs : List Name} {ds : List Nat} {m : List (Name × Nat)} (hl : vs.length = ds.length)
    (h : ∀ (i : Nat) v d, vs[i]? = some v → ds[i]? = some d → m.lookup v = none ∨ m.lookup v = some d) : newDims m vs ds = ds := by
  unfold newDims
  apply List.ext_getElem?
  intro i
  rw [List.getElem?_zipWith]
  cases hv : vs[i]? with
  | none =>
    have hx : vs.length ≤ i := List.getElem?_eq_none_iff.mp hv
    rw [List.getElem?_eq_none (by omega : ds.length ≤ i)]
  | some v =>
    have hx := (List.getElem?_eq_some_iff.mp hv).1
    obtain ⟨d, hd⟩ : ∃ d, ds[i]? = some d := ⟨ds[i]'(by omega), List.getElem?_eq_getElem (by omega)⟩
    rw [hd]
    rcases h i v d hv hd with h | h <;> simp [h]

theorem newDims_size {vs : List Name} {ds : List Nat} {m : List (Name × Nat)} {size : Name → Nat} (hl : vs.length = ds.length)
    (hm : ∀ v d, m.lookup v = some d → d = size v)
    (h : ∀ (i : Nat) v d, vs[i]? = some v → ds[i]? = some d → m.lookup v = none → d = size v) : newDims m vs ds = vs.map size := by
  unfold newDims
  apply List.ext_getElem?
  intro i
  rw [List.getElem?_zipWith, List.getElem?_map]
  cases hv : vs[i]? with
  | none => rfl
  | some v =>
    have hx := (List.getElem?_eq_some_iff.mp hv).1
    obtain ⟨d, hd⟩ : ∃ d, ds[i]? = some d := ⟨ds[i]'(by omega), List.getElem?_eq_getElem (by omega)⟩
    rw [hd]
    cases hmv : m.lookup v with
    | none => simp only [Option.map_some]; rw [hmv, Option.getD_none, h i v d hv hd hmv]
    | some e => simp only [Option.map_some]; rw [hmv, Option.getD_some, hm v e hmv]

/-! ### The parts of a parse that succeeds -/

theorem parseAssign_parts {o : Options} {s : Assign} {r : Parsed} (h : parseAssign o s = .ok r) :
    ∃ l st rhs st' m, parseAccess o (s.name, s.vars) ⟨[], [], [], o.loaded, fresh o.loaded⟩ = .ok (l, st) ∧
      (T.ofX s.rhs).traverse (parseAccess o) st = .ok (rhs, st') ∧ collect st'.defaults rhs.leaves st'.varDims = .ok m ∧
      finish s st' l rhs m = .ok r := by
  unfold parseAssign at h
  split at h
  · cases h
  · next l st h1 =>
    split at h
    · cases h
    · next rhs st' h2 =>
      split at h
      · cases h
      · next m h3 => exact ⟨l, st, rhs, st', m, h1, h2, h3, h⟩

theorem finish_parts {s : Assign} {st : St} {l : Access} {rhs : T Access} {m : List (Name × Nat)} {r : Parsed}
    (h : finish s st l rhs m = .ok r) :
    ∃ rhs' q l' q' t, rhs.traverse (rewriteAccess m) ⟨[], st.next⟩ = .ok (rhs', q) ∧ rewriteAccess m l q = .ok (l', q') ∧
      (replaceTensors st.tensors q'.tensors).lookup s.name = some t ∧
      assign s.acc t s.vars rhs' (replaceTensors st.tensors q'.tensors) = .ok r := by
  unfold finish at h
  split at h
  · cases h
  · next rhs' q h1 =>
    split at h
    · cases h
    · next l' q' h2 =>
      split at h
      · cases h
      · next t h3 => exact ⟨rhs', q, l', q', t, h1, h2, h3, h⟩

theorem assign_parts {acc : Bool} {t : Tensor} {vars : List Name} {rhs : T Access} {ts : List (Name × Tensor)} {r : Parsed}
    (h : assign acc t vars rhs ts = .ok r) :
    r = ⟨⟨t, vars⟩, acc, rhs, ts⟩ ∧ vars.length = t.dims.length ∧
      (acc = true ∨ checkModes [] (Access.modes ⟨t, vars⟩ ++ rhs.leaves.flatMap Access.modes) = true) := by
  unfold assign at h
  split at h
  · cases h
  · next l hl =>
    unfold access at hl
    split at hl
    · next hlen =>
      simp only [Except.ok.injEq] at hl; subst hl
      split at h
      · next hc => simp only [Except.ok.injEq] at h; exact ⟨h.symm, hlen, hc⟩
      · cases h
    · cases hl

/-- How the right-hand side was parsed and rewritten. -/
theorem parse_rhs {o : Options} {s : Assign} {r : Parsed} (ho : LoadedOK o) (h : parseAssign o s = .ok r) :
    ∃ st m, Inv o st ∧ (∃ l, Found st (s.name, s.vars) l) ∧ (∃ rhs, RelT (Found st) (T.ofX s.rhs) rhs ∧ collect st.defaults rhs.leaves st.varDims = .ok m) ∧
      RelT (fun (p : Name × List Name) (b : Access) => ∃ a : Access, Found st p a ∧ b.vars = a.vars ∧ b.tensor.name = a.tensor.name ∧
        (newDims m a.vars a.tensor.dims = a.tensor.dims → b = a) ∧
        (∀ (i : Nat) v d, a.vars[i]? = some v → a.tensor.dims[i]? = some d → (a.tensor.id, i) ∉ st.defaults → m.lookup v = some d))
        (T.ofX s.rhs) r.rhs := by
  obtain ⟨l, st0, rhs, st, m, h1, h2, h3, h4⟩ := parseAssign_parts h
  obtain ⟨rhs', q, l', q', t, h5, h6, h7, h8⟩ := finish_parts h4
  obtain ⟨rfl, _, _⟩ := assign_parts h8
  obtain ⟨i0, _, f0⟩ := parseAccess_inv (inv_start o ho) h1
  obtain ⟨i1, l1, rel1⟩ := traverse_rel Le.refl Le.trans Found.mono (T.ofX s.rhs) (fun a _ s b s' hi h => parseAccess_inv hi h) st0 rhs st i0 h2
  obtain ⟨_, c2, _⟩ := collect_le h3
  obtain ⟨_, _, rel2⟩ := traverse_rel (I := RNames) (Le := fun _ _ => True)
    (R := fun _ (a b : Access) => b.vars = a.vars ∧ b.tensor.name = a.tensor.name ∧
        (newDims m a.vars a.tensor.dims = a.tensor.dims → b = a) ∧
        (∀ (i : Nat) v d, a.vars[i]? = some v → a.tensor.dims[i]? = some d → (a.tensor.id, i) ∉ st.defaults → m.lookup v = some d))
    (fun _ => trivial) (fun _ _ _ _ _ => trivial) (fun _ _ _ _ _ h => h) rhs
    (fun a ha s b s' hi hr => by
      obtain ⟨x1, x2, x3, x4⟩ := rewriteAccess_keeps hi hr
      exact ⟨x1, trivial, x2, x3, x4, c2 a ha⟩) ⟨[], st.next⟩ rhs' q (by intro n t ht; simp at ht) h5
  refine ⟨st, m, i1, ⟨l, Found.mono _ _ _ _ l1 f0⟩, ⟨rhs, rel1, h3⟩, ?_⟩
  exact RelT.mono (fun p b ⟨a, x, y⟩ => ⟨a, x, y⟩) _ _ (RelT.comp _ _ _ rel1 rel2)

/-! ### Options that agree -/

structure SInv (o : Options) (s : Assign) (size : Name → Nat) (st : St) : Prop where
  varDims : ∀ v d, st.varDims.lookup v = some d → d = size v
  known : ∀ v ∈ st.known, o.dims v ≠ none → st.varDims.lookup v ≠ none
  tens : ∀ p ∈ allAccs s, ∀ t, st.tensors.lookup p.1 = some t → t.dims.length = p.2.length ∧
    ∀ (i : Nat) v, p.2[i]? = some v →
      ((t.id, i) ∈ st.defaults → t.dims[i]? = some o.default ∧ given o p.1 = none ∧ o.dims v = none) ∧
      ((t.id, i) ∉ st.defaults → t.dims[i]? = some (size v))

theorem sinv_start {o : Options} {s : Assign} {size : Name → Nat} (hs : Sizes o s size) :
    SInv o s size ⟨[], [], [], o.loaded, fresh o.loaded⟩ where
  varDims := by simp
  known := by simp
  tens := by
    intro p hp t ht
    have : t.dims = p.2.map size := hs.tensors p hp t.dims (by unfold given; simp only at ht; rw [ht])
    rw [this]
    refine ⟨by simp, fun i v hv => ⟨by simp, fun _ => by simp [hv]⟩⟩

theorem lookup_insertNew {m : List (Name × Nat)} {v w : Name} {d e : Nat} (h : (insertNew m v d).lookup w = some e) :
    m.lookup w = some e ∨ (w = v ∧ e = d) := by
  unfold insertNew at h
  split at h
  · exact Or.inl h
  · rcases lookup_append_cases h with h | ⟨_, h⟩
    · exact Or.inl h
    · exact Or.inr h

theorem getIndexVar_sized {o : Options} {s : Assign} {size : Name → Nat} {st : St} {v : Name} (hi : SInv o s size st)
    (hv : ∀ ds, o.dims v = some ds → ds.head? = some (size v)) :
    ∃ st', getIndexVar o st v = .ok st' ∧ SInv o s size st' ∧ v ∈ st'.known ∧ ∀ w ∈ st.known, w ∈ st'.known := by
  unfold getIndexVar
  split
  · next hk => exact ⟨st, rfl, hi, hk, fun _ h => h⟩
  · next hk =>
    split
    · next hd =>
      refine ⟨_, rfl, ⟨hi.varDims, ?_, hi.tens⟩, by simp, fun w hw => by simp [hw]⟩
      intro w hw hne
      simp only [List.mem_cons] at hw
      rcases hw with rfl | hw
      · exact absurd hd hne
      · exact hi.known w hw hne
    · next hd => exact absurd (hv _ hd) (by simp)
    · next d ds hd =>
      have hds := hv _ hd
      simp only [List.head?_cons, Option.some.injEq] at hds
      subst hds
      refine ⟨_, rfl, ⟨?_, ?_, hi.tens⟩, by simp, fun w hw => by simp [hw]⟩
      · intro w e he
        rcases lookup_insertNew he with he | ⟨rfl, rfl⟩
        · exact hi.varDims w e he
        · rfl
      · intro w hw hne
        simp only [List.mem_cons] at hw
        simp only [insertNew]
        rcases hw with rfl | hw
        · split
          · next x hx => rw [hx]; simp
          · next hx => rw [lookup_append_none hx]; simp
        · have := hi.known w hw hne
          split
          · exact this
          · obtain ⟨x, hx⟩ := Option.ne_none_iff_exists'.mp this
            rw [lookup_append_some hx]; simp

theorem getIndexVars_sized {o : Options} {s : Assign} {size : Name → Nat} : ∀ {vs : List Name} {st : St}, SInv o s size st →
    (∀ v ∈ vs, ∀ ds, o.dims v = some ds → ds.head? = some (size v)) →
    ∃ st', getIndexVars o st vs = .ok st' ∧ SInv o s size st' ∧ (∀ v ∈ vs, v ∈ st'.known) ∧ ∀ w ∈ st.known, w ∈ st'.known := by
  intro vs
  induction vs with
  | nil => intro st hi _; exact ⟨st, rfl, hi, by simp, fun _ h => h⟩
  | cons v vs ih =>
    intro st hi hv
    obtain ⟨s1, h1, i1, k1, m1⟩ := getIndexVar_sized hi (hv v (by simp))
    obtain ⟨s2, h2, i2, k2, m2⟩ := ih i1 (fun w hw => hv w (by simp [hw]))
    refine ⟨s2, by simp [getIndexVars, h1, h2], i2, ?_, fun w hw => m2 w (m1 w hw)⟩
    intro w hw
    rcases List.mem_cons.mp hw with rfl | hw
    · exact m2 _ k1
    · exact k2 w hw

theorem parseAccess_sized {o : Options} {s : Assign} {size : Name → Nat} (hs : Sizes o s size) (hu : Uniform o s)
    {p : Name × List Name} (hp : p ∈ allAccs s) {st : St} (hi : Inv o st) (hsi : SInv o s size st) :
    ∃ b st', parseAccess o p st = .ok (b, st') ∧ Inv o st' ∧ SInv o s size st' := by
  obtain ⟨n, vs⟩ := p
  obtain ⟨s1, h1, si1, k1, _⟩ := getIndexVars_sized hsi (vs := vs) (hs.vars _ hp)
  have i1 := inv_frame hi (getIndexVars_frame h1)
  have key : ∃ t s2, findTensor o s1 n vs = .ok (t, s2) ∧ SInv o s size s2 := by
    cases hn : s1.tensors.lookup n with
    | some t => exact ⟨t, s1, by simp [findTensor, hn], si1⟩
    | none =>
      have hln : o.loaded.lookup n = none := by
        cases hx : o.loaded.lookup n with
        | none => rfl
        | some u => rw [i1.loaded n u hx] at hn; cases hn
      have hgiven : given o n = o.dims n := by unfold given; rw [hln]
      -- the size of every mode
      have hmode : ∀ (i : Nat) v, vs[i]? = some v → modeDim o s1 n v i = .ok (size v, false) ∨
          (modeDim o s1 n v i = .ok (o.default, true) ∧ given o n = none ∧ o.dims v = none) := by
        intro i v hv
        unfold modeDim
        cases hd : o.dims n with
        | some ds =>
          have := hs.tensors _ hp ds (by rw [hgiven, hd])
          subst this
          left
          simp [hv]
        | none =>
          simp only
          cases hl : s1.varDims.lookup v with
          | some d => left; simp [si1.varDims v d hl]
          | none =>
            right
            refine ⟨rfl, by rw [hgiven, hd], ?_⟩
            cases hdv : o.dims v with
            | none => rfl
            | some ds => exact absurd hl (si1.known v (k1 v (List.mem_of_getElem? hv)) (by simp [hdv]))
      obtain ⟨ds, hds⟩ := modeDims_ok (o := o) (s := s1) (name := n) (vs := vs) (k := 0) (fun i v hv => by
        rw [Nat.zero_add]
        rcases hmode i v hv with h | ⟨h, _⟩ <;> exact ⟨_, h⟩)
      obtain ⟨hlen, hget⟩ := modeDims_get hds
      have hf : (formatOf o n vs.length).length = ds.length := by
        unfold formatOf
        cases hfo : o.formats n with
        | none => simp [hlen]
        | some f => simp [hs.formats _ hp f hfo, hlen]
      refine ⟨⟨s1.next, n, typeOf o n, formatOf o n vs.length, ds.map (·.1)⟩,
        { s1 with defaults := s1.defaults ++ defaultModes s1.next 0 ds, tensors := s1.tensors ++ [(n, ⟨s1.next, n, typeOf o n, formatOf o n vs.length, ds.map (·.1)⟩)], next := s1.next + 1 },
        by simp only [findTensor, hn, hds, if_pos hf], ⟨si1.varDims, si1.known, ?_⟩⟩
      intro p hpa t ht
      rcases lookup_append_cases ht with ht | ⟨_, hpn, rfl⟩
      · obtain ⟨a1, a2⟩ := si1.tens p hpa t ht
        refine ⟨a1, fun i v hv => ?_⟩
        obtain ⟨b1, b2⟩ := a2 i v hv
        have hiff : (t.id, i) ∈ s1.defaults ++ defaultModes s1.next 0 ds ↔ (t.id, i) ∈ s1.defaults := by
          rw [List.mem_append, mem_defaultModes]
          have := i1.ids _ t ht
          constructor
          · rintro (hx | hx)
            · exact hx
            · exact absurd hx.1 (by omega)
          · exact Or.inl
        exact ⟨fun hx => b1 (hiff.mp hx), fun hx => b2 (fun hy => hx (hiff.mpr hy))⟩
      · have hsame : p.2.length = vs.length ∧ ∀ (i : Nat) v, p.2[i]? = some v → ∃ w, vs[i]? = some w ∧ size w = size v ∧ (given o n = none → w = v) := by
          cases hg : given o n with
          | none =>
            have hpv : p.2 = vs := hu p hpa (n, vs) hp hpn (by rw [hpn]; exact hg)
            exact ⟨by rw [hpv], fun i v hv => ⟨v, by rw [← hpv]; exact hv, rfl, fun _ => rfl⟩⟩
          | some es =>
            have e1 := hs.tensors _ hp es hg
            have e2 := hs.tensors p hpa es (by rw [hpn]; exact hg)
            simp only at e1
            have e3 : vs.map size = p.2.map size := e1.symm.trans e2
            refine ⟨by have := congrArg List.length e3; simpa using this.symm, fun i v hv => ?_⟩
            have e4 := congrArg (fun l => l[i]?) e3
            simp only [List.getElem?_map, hv, Option.map_some] at e4
            cases hw : vs[i]? with
            | none => rw [hw] at e4; cases e4
            | some w =>
              rw [hw] at e4
              exact ⟨w, rfl, Option.some.inj e4, fun h => nomatch h⟩
        refine ⟨by simp [hlen, hsame.1], fun i v0 hv0 => ?_⟩
        obtain ⟨v, hv, hsz, hvv⟩ := hsame.2 i v0 hv0
        rw [← hsz]
        obtain ⟨d, hd, hmd⟩ := hget i v hv
        rw [Nat.zero_add] at hmd
        have hmem : (s1.next, i) ∈ s1.defaults ++ defaultModes s1.next 0 ds ↔ d.2 = true := by
          rw [List.mem_append, mem_defaultModes]
          constructor
          · rintro (hx | ⟨_, _, e, hx⟩)
            · exact absurd (i1.defaults _ hx).2 (by simp)
            · simp only [Nat.sub_zero] at hx
              rw [hd] at hx
              simp only [Option.some.injEq] at hx; rw [hx]
          · intro hx
            exact Or.inr ⟨rfl, Nat.zero_le _, d.1, by rw [Nat.sub_zero, hd]; congr 1; exact Prod.ext rfl hx⟩
        simp only at hmem ⊢
        rcases hmode i v hv with h | ⟨h, hg, hdv⟩
        · rw [hmd] at h
          simp only [Except.ok.injEq] at h; subst h
          refine ⟨fun hx => ?_, fun _ => by simp [hd]⟩
          have := hmem.mp hx; cases this
        · rw [hmd] at h
          simp only [Except.ok.injEq] at h; subst h
          exact ⟨fun _ => ⟨by simp [hd], by rw [hpn]; exact hg, by rw [← hvv hg]; exact hdv⟩, fun hx => absurd (hmem.mpr rfl) hx⟩
  obtain ⟨t, s2, h2, si2⟩ := key
  obtain ⟨i2, _, hl⟩ := findTensor_inv i1 h2
  have hlen := (si2.tens _ hp t hl).1
  exact ⟨⟨t, vs⟩, s2, by simp only [parseAccess, h1, h2, access, hlen]; simp, i2, si2⟩

end Verif.Dims
