import Verif.Dims.Sized
/-!
# C82 The command line tool gives tensors the sizes that the options ask for
-/
namespace Verif.Dims
open Verif.IndexText (X Op Assign)

/-- Whatever the options, the assignment that is parsed is the one that was written. -/
theorem expression_kept (o : Options) (s : Assign) (r : Parsed) (ho : LoadedOK o) (h : parseAssign o s = .ok r) :
    Same r.rhs s.rhs ∧ r.lhs.vars = s.vars ∧ r.acc = s.acc ∧ ∀ a ∈ r.accesses, a.vars.length = a.tensor.dims.length := by
  obtain ⟨st, m, _, _, _, hrel⟩ := parse_rhs ho h
  obtain ⟨l, st0, rhs, st1, m1, h1, h2, h3, h4⟩ := parseAssign_parts h
  obtain ⟨rhs', q, l', q', t, h5, h6, h7, h8⟩ := finish_parts h4
  have hlens : ∀ a ∈ rhs'.leaves, a.vars.length = a.tensor.dims.length := by
    obtain ⟨_, _, rel2⟩ := traverse_rel (I := fun _ => True) (Le := fun _ _ => True)
      (R := fun _ (_ b : Access) => b.vars.length = b.tensor.dims.length)
      (fun _ => trivial) (fun _ _ _ _ _ => trivial) (fun _ _ _ _ _ h => h) rhs
      (fun a ha s b s' hi hr => by
        refine ⟨trivial, trivial, ?_⟩
        unfold rewriteAccess at hr
        split at hr
        · cases hr
        · next hl =>
          simp only [ne_eq, Decidable.not_not] at hl
          split at hr
          · simp only [Except.ok.injEq, Prod.mk.injEq] at hr; obtain ⟨rfl, rfl⟩ := hr; exact hl
          · split at hr
            · split at hr
              · cases hr
              · next c hc =>
                simp only [Except.ok.injEq, Prod.mk.injEq] at hr; obtain ⟨rfl, rfl⟩ := hr
                unfold access at hc
                split at hc
                · next hx => simp only [Except.ok.injEq] at hc; subst hc; exact hx
                · cases hc
            · simp only [Except.ok.injEq, Prod.mk.injEq] at hr; obtain ⟨rfl, rfl⟩ := hr
              simp [newDims, hl]) ⟨[], st1.next⟩ rhs' q trivial h5
    intro b hb
    obtain ⟨a, _, hab⟩ := RelT.leaf _ _ rel2 b hb
    exact hab
  obtain ⟨rfl, hlen, _⟩ := assign_parts h8
  refine ⟨same_of_relT _ _ (RelT.mono ?_ _ _ hrel), rfl, rfl, ?_⟩
  · rintro p b ⟨a, hf, hv, hn, _⟩
    exact ⟨hn.trans hf.2.1, hv.trans hf.2.2.1⟩
  · intro a ha
    rcases List.mem_cons.mp ha with rfl | ha
    · exact hlen
    · exact hlens a ha

theorem checkModes_spec : ∀ (us m : List (Name × Nat)), checkModes m us = true ↔
    (∀ u ∈ us, ∀ d, m.lookup u.1 = some d → d = u.2) ∧ ∀ u ∈ us, ∀ w ∈ us, u.1 = w.1 → u.2 = w.2 := by
  intro us
  induction us with
  | nil => intro m; simp [checkModes]
  | cons u us ih =>
    intro m
    obtain ⟨v, d⟩ := u
    simp only [checkModes]
    split
    · next e he =>
      split
      · next hed =>
        subst hed
        rw [ih]
        constructor
        · rintro ⟨h1, h2⟩
          refine ⟨?_, ?_⟩
          · intro u hu d hd
            rcases List.mem_cons.mp hu with rfl | hu
            · rw [he] at hd; simpa using hd.symm
            · exact h1 u hu d hd
          · intro u hu w hw huw
            rcases List.mem_cons.mp hu with rfl | hu' <;> rcases List.mem_cons.mp hw with rfl | hw'
            · rfl
            · exact h1 w hw' e (by rw [← huw]; exact he)
            · exact (h1 u hu' e (by rw [huw]; exact he)).symm
            · exact h2 u hu' w hw' huw
        · rintro ⟨h1, h2⟩
          exact ⟨fun u hu => h1 u (by simp [hu]), fun u hu w hw => h2 u (by simp [hu]) w (by simp [hw])⟩
      · next hed =>
        simp only [Bool.false_eq_true, false_iff]
        rintro ⟨h1, _⟩
        exact hed (h1 (v, d) (by simp) e he)
    · next he =>
      rw [ih]
      constructor
      · rintro ⟨h1, h2⟩
        refine ⟨?_, ?_⟩
        · intro u hu e hd
          rcases List.mem_cons.mp hu with rfl | hu
          · rw [he] at hd; cases hd
          · exact h1 u hu e (lookup_append_some hd)
        · intro u hu w hw huw
          rcases List.mem_cons.mp hu with rfl | hu' <;> rcases List.mem_cons.mp hw with rfl | hw'
          · rfl
          · exact h1 w hw' d (by rw [← huw]; exact lookup_append_none he)
          · exact (h1 u hu' d (by rw [huw]; exact lookup_append_none he)).symm
          · exact h2 u hu' w hw' huw
      · rintro ⟨h1, h2⟩
        refine ⟨?_, fun u hu w hw => h2 u (by simp [hu]) w (by simp [hw])⟩
        intro u hu e hd
        rcases lookup_append_cases hd with hd | ⟨_, huv, rfl⟩
        · exact h1 u (by simp [hu]) e hd
        · exact h2 (v, e) (by simp) u (by simp [hu]) huv.symm

theorem mem_modes {a : Access} {i : Nat} {v : Name} {d : Nat} (hv : a.vars[i]? = some v) (hd : a.tensor.dims[i]? = some d) : (v, d) ∈ a.modes := by
  unfold Access.modes
  exact List.mem_of_getElem? (i := i) (by rw [List.getElem?_zip_eq_some]; exact ⟨hv, hd⟩)

/-- Whatever the options, an assignment with `=` is only accepted if every index variable has one size in all modes that
it indexes. -/
theorem one_size_partial (o : Options) (s : Assign) (r : Parsed) (h : parseAssign o s = .ok r) (hacc : s.acc = false)
    (a b : Access) (ha : a ∈ r.accesses) (hb : b ∈ r.accesses) (i j : Nat) (v : Name) (d e : Nat)
    (hi : a.vars[i]? = some v) (hj : b.vars[j]? = some v) (hd : a.tensor.dims[i]? = some d) (he : b.tensor.dims[j]? = some e) : d = e := by
  obtain ⟨l, st0, rhs, st1, m1, h1, h2, h3, h4⟩ := parseAssign_parts h
  obtain ⟨rhs', q, l', q', t, h5, h6, h7, h8⟩ := finish_parts h4
  obtain ⟨rfl, hlen, hc⟩ := assign_parts h8
  rw [hacc] at hc
  simp only [Bool.false_eq_true, false_or] at hc
  have := ((checkModes_spec _ _).mp hc).2
  have hmem : ∀ a ∈ (⟨⟨t, s.vars⟩, s.acc, rhs', replaceTensors st1.tensors q'.tensors⟩ : Parsed).accesses, ∀ u ∈ a.modes,
      u ∈ Access.modes ⟨t, s.vars⟩ ++ rhs'.leaves.flatMap Access.modes := by
    intro a ha u hu
    rw [List.mem_append]
    rcases List.mem_cons.mp ha with rfl | ha
    · exact Or.inl hu
    · exact Or.inr (List.mem_flatMap.mpr ⟨a, ha, hu⟩)
  exact this (v, d) (hmem a ha _ (mem_modes hi hd)) (v, e) (hmem b hb _ (mem_modes hj he)) rfl

/-- Whatever the options, operands that were read from files are used as they are, and operands whose size is given have
this size. -/
theorem operands_kept (o : Options) (s : Assign) (r : Parsed) (ho : LoadedOK o) (h : parseAssign o s = .ok r)
    (a : Access) (ha : a ∈ r.rhs.leaves) :
    (∀ t, o.loaded.lookup a.tensor.name = some t → a.tensor = t) ∧
    (∀ ds, o.loaded.lookup a.tensor.name = none → o.dims a.tensor.name = some ds → a.tensor.dims = ds.take a.vars.length) := by
  obtain ⟨st, m, hi, _, _, hrel⟩ := parse_rhs ho h
  obtain ⟨p, _, c, hf, hv, hn, hsame, hm⟩ := RelT.leaf _ _ hrel a ha
  have hkeep : (∀ i, (c.tensor.id, i) ∉ st.defaults) → a = c := by
    intro hx
    apply hsame
    exact zipWith_self hf.2.2.2 (fun i v d hv hd => Or.inr (hm i v d hv hd (hx i)))
  have hname : a.tensor.name = p.1 := hn.trans hf.2.1
  constructor
  · intro t ht
    rw [hname] at ht
    have h1 := hi.loaded _ _ ht
    rw [hf.1] at h1
    simp only [Option.some.injEq] at h1
    rw [hkeep (fun i hx => ?_), h1]
    have := (hi.defaults _ hx).1
    have hlt := lookup_fresh ht
    rw [← h1] at hlt
    simp only at this; omega
  · intro ds hl hd
    rw [hname] at hl hd
    obtain ⟨h1, h2⟩ := hi.given _ _ hf.1 hl ds hd
    rw [hkeep h2, hf.2.2.2, ← h1]

/-- Sizes of variables that options give are known once the variable was met. -/
structure VInv (o : Options) (st : St) : Prop where
  met : ∀ v ∈ st.known, ∀ d ds, o.dims v = some (d :: ds) → st.varDims.lookup v = some d
  unmet : ∀ v, v ∉ st.known → st.varDims.lookup v = none

theorem getIndexVar_vinv {o : Options} {st st' : St} {v : Name} (hi : VInv o st) (h : getIndexVar o st v = .ok st') :
    VInv o st' ∧ v ∈ st'.known ∧ ∀ w ∈ st.known, w ∈ st'.known := by
  unfold getIndexVar at h
  split at h
  · next hk => cases h; exact ⟨hi, hk, fun _ h => h⟩
  · next hk =>
    split at h
    · next hd =>
      cases h
      refine ⟨⟨?_, ?_⟩, by simp, fun w hw => by simp [hw]⟩
      · intro w hw d ds hds
        rcases List.mem_cons.mp hw with rfl | hw
        · rw [hd] at hds; cases hds
        · exact hi.met w hw d ds hds
      · intro w hw
        exact hi.unmet w (fun h => hw (by simp [h]))
    · cases h
    · next d ds hd =>
      cases h
      have hn := hi.unmet v hk
      have he : insertNew st.varDims v d = st.varDims ++ [(v, d)] := by unfold insertNew; rw [hn]
      refine ⟨⟨?_, ?_⟩, by simp, fun w hw => by simp [hw]⟩
      · intro w hw e es hes
        show (insertNew st.varDims v d).lookup w = _
        rw [he]
        rcases List.mem_cons.mp hw with rfl | hw
        · rw [hd] at hes; cases hes; exact lookup_append_none hn
        · exact lookup_append_some (hi.met w hw e es hes)
      · intro w hw
        show (insertNew st.varDims v d).lookup w = _
        rw [he]
        cases hx : (st.varDims ++ [(v, d)]).lookup w with
        | none => rfl
        | some e =>
          rcases lookup_append_cases hx with hx | ⟨_, rfl, _⟩
          · rw [hi.unmet w (fun h => hw (by simp [h]))] at hx; cases hx
          · exact absurd (by simp) hw

theorem getIndexVars_vinv {o : Options} : ∀ {vs : List Name} {st st' : St}, VInv o st → getIndexVars o st vs = .ok st' →
    VInv o st' ∧ (∀ v ∈ vs, v ∈ st'.known) ∧ ∀ w ∈ st.known, w ∈ st'.known
  | [], st, st', hi, h => by cases h; exact ⟨hi, by simp, fun _ h => h⟩
  | v :: vs, st, st', hi, h => by
    simp only [getIndexVars] at h
    split at h
    · cases h
    · next s1 h1 =>
      obtain ⟨i1, k1, m1⟩ := getIndexVar_vinv hi h1
      obtain ⟨i2, k2, m2⟩ := getIndexVars_vinv i1 h
      refine ⟨i2, ?_, fun w hw => m2 w (m1 w hw)⟩
      intro w hw
      rcases List.mem_cons.mp hw with rfl | hw
      · exact m2 _ k1
      · exact k2 w hw

theorem parseAccess_vinv {o : Options} {st st' : St} {a : Name × List Name} {b : Access} (hi : VInv o st) (h : parseAccess o a st = .ok (b, st')) :
    VInv o st' ∧ (∀ w ∈ st.known, w ∈ st'.known) ∧ ∀ v ∈ a.2, v ∈ st'.known := by
  unfold parseAccess at h
  split at h
  · cases h
  · next s1 h1 =>
    obtain ⟨i1, k1, m1⟩ := getIndexVars_vinv hi h1
    split at h
    · cases h
    · next t s2 h2 =>
      have hs : s2.known = s1.known ∧ s2.varDims = s1.varDims := by
        unfold findTensor at h2
        split at h2
        · cases h2; exact ⟨rfl, rfl⟩
        · split at h2
          · cases h2
          · split at h2
            · cases h2; exact ⟨rfl, rfl⟩
            · cases h2
      split at h
      · cases h
      · cases h
        rw [hs.1]
        exact ⟨⟨by rw [hs.1, hs.2]; exact i1.met, by rw [hs.1, hs.2]; exact i1.unmet⟩, m1, k1⟩

/-- Whatever the options, an assignment is not accepted if two different sizes are asked for a variable, by an option for the
variable or by operands of given sizes. -/
theorem conflict_rejected (o : Options) (s : Assign) (ho : LoadedOK o) (v : Name) (d e : Nat) (hd : Asked o s v d) (he : Asked o s v e) (hne : d ≠ e) :
    ∀ r, parseAssign o s ≠ .ok r := by
  intro r h
  obtain ⟨l, st0, rhs, st, m, h1, h2, h3, _⟩ := parseAssign_parts h
  obtain ⟨i0, _, f0⟩ := parseAccess_inv (inv_start o ho) h1
  obtain ⟨i1, l1, rel1⟩ := traverse_rel Le.refl Le.trans Found.mono (T.ofX s.rhs) (fun a _ s b s' hi h => parseAccess_inv hi h) st0 rhs st i0 h2
  obtain ⟨v0, _, k0⟩ := parseAccess_vinv (o := o) ⟨by simp, by simp⟩ h1
  obtain ⟨v1, mm, rel2⟩ := traverse_rel (f := parseAccess o) (I := VInv o) (Le := fun s t => ∀ w ∈ s.known, w ∈ t.known)
    (R := fun st (a : Name × List Name) (_ : Access) => ∀ v ∈ a.2, v ∈ st.known) (fun _ _ h => h) (fun _ _ _ h k w hw => k w (h w hw))
    (fun _ _ _ _ h k v hv => h v (k v hv)) (T.ofX s.rhs) (fun a _ s b s' hi h => parseAccess_vinv hi h) st0 rhs st v0 h2
  obtain ⟨c1, c2, _⟩ := collect_le h3
  have key : ∀ d, Asked o s v d → m.lookup v = some d := by
    rintro d (⟨⟨a, ha, hv⟩, ds, hds⟩ | ⟨a, ha, i, ds, hi, hg, hds⟩)
    · refine c1 v d (v1.met v ?_ d ds hds)
      rcases List.mem_cons.mp ha with rfl | ha
      · exact mm v (k0 v hv)
      · obtain ⟨b, _, hb⟩ := RelT.leaf' _ _ rel2 a (by rw [leaves_ofX]; exact ha)
        exact hb v hv
    · obtain ⟨b, hb, hf⟩ := RelT.leaf' _ _ rel1 a (by rw [leaves_ofX]; exact ha)
      have hbi : b.vars[i]? = some v := by rw [hf.2.2.1]; exact hi
      have hlen : i < b.tensor.dims.length := by rw [← hf.2.2.2]; exact (List.getElem?_eq_some_iff.mp hbi).1
      unfold given at hg
      cases hl : o.loaded.lookup a.1 with
      | some t =>
        rw [hl] at hg
        simp only [Option.some.injEq] at hg
        have ht := i1.loaded _ _ hl
        rw [hf.1] at ht
        simp only [Option.some.injEq] at ht
        refine c2 b hb i v d hbi (by rw [ht, hg]; exact hds) (fun hx => ?_)
        have := (i1.defaults _ hx).1
        have hlt := lookup_fresh hl
        rw [← ht] at hlt
        simp only at this; omega
      | none =>
        rw [hl] at hg
        obtain ⟨g1, g2⟩ := i1.given _ _ hf.1 hl ds hg
        refine c2 b hb i v d hbi ?_ (g2 i)
        rw [g1, List.getElem?_take, if_pos hlen]; exact hds
  have hx := key d hd
  rw [key e he] at hx
  exact hne (Option.some.inj hx).symm

/-- If the options ask for sizes that agree, and every tensor whose sizes are not given is indexed with the same variables wherever it occurs, then
the assignment is accepted and all tensors have these sizes. There is one tensor of each name, the one that the parser
hands out. It has the format and type of the options. Tensors that were read are used as they are.

Missing: tensors without given sizes that are indexed with different variables, see `two_tensors_fails` and `variable_size_fails`; results of
given size, when the operands do not have it, see `result_size_fails` and `result_ignored_fails`. -/
theorem sizes_partial (o : Options) (s : Assign) (size : Name → Nat) (ho : LoadedOK o) (hs : Sizes o s size) (hu : Uniform o s) :
    ∃ r, parseAssign o s = .ok r ∧ Same r.rhs s.rhs ∧ r.lhs.tensor.name = s.name ∧ r.lhs.vars = s.vars ∧ r.acc = s.acc ∧
      ∀ a ∈ r.accesses, a.tensor.dims = a.vars.map size ∧ r.tensors.lookup a.tensor.name = some a.tensor ∧
        (∀ t, o.loaded.lookup a.tensor.name = some t → a.tensor = t) ∧
        (o.loaded.lookup a.tensor.name = none → a.tensor.fmt = (o.formats a.tensor.name).getD (List.replicate a.vars.length 0) ∧
          a.tensor.dtype = (o.types a.tensor.name).getD 0) := by
  -- looking up
  obtain ⟨l, st0, h1, i0, si0⟩ := parseAccess_sized hs hu (p := (s.name, s.vars)) (by simp [allAccs]) (inv_start o ho) (sinv_start hs)
  obtain ⟨_, _, f0⟩ := parseAccess_inv (inv_start o ho) h1
  obtain ⟨rhs, st, h2, i1, si1⟩ := traverse_ok (f := parseAccess o) (I := fun st => Inv o st ∧ SInv o s size st) (T.ofX s.rhs)
    (fun p hp st hst => by
      obtain ⟨b, st', x, y, z⟩ := parseAccess_sized hs hu (p := p) (by rw [leaves_ofX] at hp; simp [allAccs, hp]) hst.1 hst.2
      exact ⟨b, st', x, y, z⟩) st0 ⟨i0, si0⟩
  obtain ⟨_, l1, rel1⟩ := traverse_rel Le.refl Le.trans Found.mono (T.ofX s.rhs) (fun a _ s b s' hi h => parseAccess_inv hi h) st0 rhs st i0 h2
  have fl := Found.mono _ _ _ _ l1 f0
  have hacc : ∀ a ∈ rhs.leaves, ∃ p ∈ accs s.rhs, Found st p a := by
    intro a ha
    obtain ⟨p, hp, hf⟩ := RelT.leaf _ _ rel1 a ha
    exact ⟨p, by rw [← leaves_ofX]; exact hp, hf⟩
  -- collecting
  have hnd : ∀ p ∈ allAccs s, ∀ a, Found st p a → ∀ (i : Nat) v d, a.vars[i]? = some v → a.tensor.dims[i]? = some d →
      (a.tensor.id, i) ∉ st.defaults → d = size v := by
    intro p hp a hf i v d hv hd hx
    have := ((si1.tens p hp _ hf.1).2 i v (by rw [← hf.2.2.1]; exact hv)).2 hx
    rw [hd] at this; simpa using this
  obtain ⟨m, h3, hm⟩ := collect_ok (defaults := st.defaults) (size := size) (as := rhs.leaves) si1.varDims (fun a ha => by
    obtain ⟨p, hp, hf⟩ := hacc a ha
    exact hnd p (by simp [allAccs, hp]) a hf)
  obtain ⟨_, c2, _⟩ := collect_le h3
  -- the sizes that rewriting gives
  have hnew : ∀ p ∈ allAccs s, ∀ a, Found st p a → newDims m a.vars a.tensor.dims = a.vars.map size := by
    intro p hp a hf
    apply newDims_size hf.2.2.2 hm
    intro i v d hv hd hnone
    by_cases hx : (a.tensor.id, i) ∈ st.defaults
    · obtain ⟨x1, x2, x3⟩ := ((si1.tens p hp _ hf.1).2 i v (by rw [← hf.2.2.1]; exact hv)).1 hx
      rw [hd] at x1
      simp only [Option.some.injEq] at x1
      rw [x1]
      symm
      refine hs.others p hp x2 v (by rw [← hf.2.2.1]; exact List.mem_of_getElem? hv) ?_
      rintro (hdecl | ⟨b, hb, hg, hvb⟩)
      · exact hdecl x3
      · obtain ⟨c, hc, hfc⟩ := RelT.leaf' _ _ rel1 b (by rw [leaves_ofX]; exact hb)
        obtain ⟨j, hj⟩ := List.mem_iff_getElem?.mp hvb
        have hjc : c.vars[j]? = some v := by rw [hfc.2.2.1]; exact hj
        have hjl := (List.getElem?_eq_some_iff.mp hjc).1
        have hcd := List.getElem?_eq_getElem (l := c.tensor.dims) (i := j) (by rw [← hfc.2.2.2]; exact hjl)
        have := c2 c hc j v _ hjc hcd (fun hx => hg (((si1.tens b (by simp [allAccs, hb]) _ hfc.1).2 j v hj).1 hx).2.1)
        rw [hnone] at this; cases this
    · exact hnd p hp a hf i v d hv hd hx
  have hgiven : ∀ p ∈ allAccs s, ∀ a, Found st p a → newDims m a.vars a.tensor.dims ≠ a.tensor.dims → given o p.1 = none := by
    intro p hp a hf hch
    cases hg : given o p.1 with
    | none => rfl
    | some es =>
      exfalso
      apply hch
      rw [hnew p hp a hf]
      apply List.ext_getElem?
      intro i
      rw [List.getElem?_map]
      cases hv : a.vars[i]? with
      | none =>
        have := List.getElem?_eq_none_iff.mp hv
        rw [List.getElem?_eq_none (by rw [← hf.2.2.2]; exact this)]; rfl
      | some v =>
        obtain ⟨x1, x2⟩ := (si1.tens p hp _ hf.1).2 i v (by rw [← hf.2.2.1]; exact hv)
        rw [x2 (fun hx => by rw [(x1 hx).2.1] at hg; cases hg)]; rfl
  -- rewriting
  let RI : RSt → Prop := fun q => ∀ n t, q.tensors.lookup n = some t → ∃ t0 vs, (n, vs) ∈ allAccs s ∧ given o n = none ∧ st.tensors.lookup n = some t0 ∧
    newDims m vs t0.dims ≠ t0.dims ∧ t.dims = vs.map size ∧ t.name = t0.name ∧ t.fmt = t0.fmt ∧ t.dtype = t0.dtype
  let RL : RSt → RSt → Prop := fun q q' => ∀ n t, q.tensors.lookup n = some t → q'.tensors.lookup n = some t
  let RR : RSt → Access → Access → Prop := fun q a b => b.vars = a.vars ∧
    ((newDims m a.vars a.tensor.dims = a.tensor.dims ∧ b.tensor = a.tensor) ∨
      (newDims m a.vars a.tensor.dims ≠ a.tensor.dims ∧ q.tensors.lookup a.tensor.name = some b.tensor))
  have step : ∀ p ∈ allAccs s, ∀ a, Found st p a → ∀ q, RI q → ∃ b q', rewriteAccess m a q = .ok (b, q') ∧ RI q' ∧ RL q q' ∧ RR q' a b := by
    intro p hp a hf q hq
    unfold rewriteAccess
    rw [if_neg (by simpa using hf.2.2.2)]
    by_cases hch : newDims m a.vars a.tensor.dims = a.tensor.dims
    · rw [if_pos hch]
      exact ⟨a, q, rfl, hq, fun _ _ h => h, rfl, Or.inl ⟨hch, rfl⟩⟩
    · rw [if_neg hch]
      cases hl : q.tensors.lookup a.tensor.name with
      | some t =>
        obtain ⟨t0, vs, y1, y0, y2, y3, y4, y5, y6, y7⟩ := hq _ _ hl
        have hvs : vs = a.vars := by
          rw [hf.2.2.1]
          exact hu (a.tensor.name, vs) y1 p hp hf.2.1 y0
        have hacc : access t a.vars = .ok ⟨t, a.vars⟩ := by
          unfold access; rw [if_pos (by rw [y4, hvs]; simp)]
        simp only [hacc]
        exact ⟨_, _, rfl, hq, fun _ _ h => h, rfl, Or.inr ⟨hch, hl⟩⟩
      | none =>
        refine ⟨_, _, rfl, ?_, fun n t ht => lookup_append_some ht, rfl, Or.inr ⟨hch, lookup_append_none hl⟩⟩
        intro n t ht
        rcases lookup_append_cases ht with ht | ⟨_, rfl, rfl⟩
        · exact hq n t ht
        · refine ⟨a.tensor, a.vars, ?_, by rw [hf.2.1]; exact hgiven p hp a hf hch, ?_, hch, hnew p hp a hf, rfl, rfl, rfl⟩
          · rw [hf.2.1, hf.2.2.1]; exact hp
          · rw [hf.2.1]; exact hf.1
  have stepok : ∀ p ∈ allAccs s, ∀ a, Found st p a → ∀ q b q', RI q → rewriteAccess m a q = .ok (b, q') → RI q' ∧ RL q q' ∧ RR q' a b := by
    intro p hp a hf q b q' hq hr
    obtain ⟨b', q'', hr', y⟩ := step p hp a hf q hq
    rw [hr] at hr'
    simp only [Except.ok.injEq, Prod.mk.injEq] at hr'
    obtain ⟨rfl, rfl⟩ := hr'
    exact y
  have hstart : RI ⟨[], st.next⟩ := by intro n t ht; simp at ht
  obtain ⟨rhs', q, h5, hq⟩ := traverse_ok (f := rewriteAccess m) (I := RI) rhs (fun a ha q hq => by
    obtain ⟨p, hp, hf⟩ := hacc a ha
    obtain ⟨b, q', x, y, _⟩ := step p (by simp [allAccs, hp]) a hf q hq
    exact ⟨b, q', x, y⟩) ⟨[], st.next⟩ hstart
  have rrmono : ∀ (q q' : RSt) (a b : Access), RL q q' → RR q a b → RR q' a b := by
    intro q q' a b hl hr
    refine ⟨hr.1, ?_⟩
    rcases hr.2 with h | ⟨h, k⟩
    · exact Or.inl h
    · exact Or.inr ⟨h, hl _ _ k⟩
  obtain ⟨_, _, rel2⟩ := traverse_rel (I := RI) (Le := RL) (R := RR) (fun _ _ _ h => h) (fun _ _ _ h k n t ht => k n t (h n t ht)) rrmono rhs
    (fun a ha q b q' hi hr => by
      obtain ⟨p, hp, hf⟩ := hacc a ha
      exact stepok p (by simp [allAccs, hp]) a hf q b q' hi hr) ⟨[], st.next⟩ rhs' q hstart h5
  obtain ⟨l', q', h6, hq', hle, hrl⟩ := step (s.name, s.vars) (by simp [allAccs]) l fl q hq
  -- the tensors in the end
  have hfin : ∀ p ∈ allAccs s, ∀ a b, Found st p a → RR q' a b →
      b.tensor.name = p.1 ∧ b.vars = p.2 ∧ b.tensor.dims = b.vars.map size ∧ (replaceTensors st.tensors q'.tensors).lookup p.1 = some b.tensor ∧
      (∀ t, o.loaded.lookup p.1 = some t → b.tensor = t) ∧
        (o.loaded.lookup p.1 = none → b.tensor.fmt = (o.formats p.1).getD (List.replicate b.vars.length 0) ∧
          b.tensor.dtype = (o.types p.1).getD 0) := by
    intro p hp a b hf hr
    obtain ⟨hbv, hr⟩ := hr
    have hlook : (replaceTensors st.tensors q'.tensors).lookup p.1 = some ((q'.tensors.lookup p.1).getD a.tensor) := by
      rw [lookup_replace, hf.1]; rfl
    have hvars : b.vars = p.2 := hbv.trans hf.2.2.1
    have hlab : o.loaded.lookup p.1 = none → a.tensor.fmt = (o.formats p.1).getD (List.replicate b.vars.length 0) ∧ a.tensor.dtype = (o.types p.1).getD 0 := by
      intro hn
      have := i1.labels _ _ hf.1 hn
      rw [hbv, hf.2.2.2]; exact this
    rcases hr with ⟨hch, heq⟩ | ⟨hch, heq⟩
    · have hnone : q'.tensors.lookup p.1 = none := by
        cases hx : q'.tensors.lookup p.1 with
        | none => rfl
        | some t =>
          obtain ⟨t0, vs, y1, y0, y2, y3, _⟩ := hq' _ _ hx
          have hvs : vs = a.vars := by
            rw [hf.2.2.1]
            exact hu (p.1, vs) y1 p hp rfl y0
          rw [hf.1] at y2
          simp only [Option.some.injEq] at y2
          subst y2; subst hvs
          exact absurd hch y3
      rw [hnone] at hlook
      refine ⟨by rw [heq]; exact hf.2.1, hvars, ?_, by rw [hlook, heq]; rfl, ?_, by rw [heq]; exact hlab⟩
      · rw [heq, hbv, ← hch]; exact hnew p hp a hf
      · intro t ht
        have := i1.loaded _ _ ht
        rw [hf.1] at this
        simp only [Option.some.injEq] at this
        rw [heq, this]
    · rw [hf.2.1] at heq
      obtain ⟨t0, vs, y1, y0, y2, y3, y4, y5, y6, y7⟩ := hq' _ _ heq
      have hvs : vs = a.vars := by
        rw [hf.2.2.1]
        exact hu (p.1, vs) y1 p hp rfl y0
      rw [hf.1] at y2
      simp only [Option.some.injEq] at y2
      subst y2
      refine ⟨by rw [y5]; exact hf.2.1, hvars, by rw [y4, hvs, hbv], by rw [hlook, heq]; rfl, ?_, by rw [y6, y7]; exact hlab⟩
      intro t ht
      exfalso
      have := i1.loaded _ _ ht
      rw [hf.1] at this
      simp only [Option.some.injEq] at this
      have hg := hs.tensors p hp t.dims (by unfold given; rw [ht])
      apply y3
      rw [hvs, hnew p hp a hf, this, hf.2.2.1, hg]
  obtain ⟨a1, a2, a3, a4, a5, a6⟩ := hfin (s.name, s.vars) (by simp [allAccs]) l l' fl hrl
  have hrhs : ∀ b ∈ rhs'.leaves, ∃ p ∈ accs s.rhs, ∃ a, Found st p a ∧ RR q' a b := by
    intro b hb
    obtain ⟨a, ha, hr⟩ := RelT.leaf _ _ rel2 b hb
    obtain ⟨p, hp, hf⟩ := hacc a ha
    exact ⟨p, hp, a, hf, rrmono _ _ _ _ hle hr⟩
  have hall : ∀ b ∈ (⟨⟨l'.tensor, s.vars⟩, s.acc, rhs', replaceTensors st.tensors q'.tensors⟩ : Parsed).accesses,
      b.tensor.dims = b.vars.map size ∧ (replaceTensors st.tensors q'.tensors).lookup b.tensor.name = some b.tensor ∧
        (∀ t, o.loaded.lookup b.tensor.name = some t → b.tensor = t) ∧
        (o.loaded.lookup b.tensor.name = none → b.tensor.fmt = (o.formats b.tensor.name).getD (List.replicate b.vars.length 0) ∧
          b.tensor.dtype = (o.types b.tensor.name).getD 0) := by
    intro b hb
    rcases List.mem_cons.mp hb with rfl | hb
    · simp only at a1 a2 a3 a4 a5 a6 ⊢
      rw [a2] at a3 a6
      rw [a1]
      exact ⟨a3, a4, a5, a6⟩
    · obtain ⟨p, hp, a, hf, hr⟩ := hrhs b hb
      obtain ⟨b1, b2, b3, b4, b5, b6⟩ := hfin p (by simp [allAccs, hp]) a b hf hr
      rw [b1]
      exact ⟨b3, b4, b5, b6⟩
  have hassign : assign s.acc l'.tensor s.vars rhs' (replaceTensors st.tensors q'.tensors) =
      .ok ⟨⟨l'.tensor, s.vars⟩, s.acc, rhs', replaceTensors st.tensors q'.tensors⟩ := by
    unfold assign access
    rw [if_pos (by rw [a3, a2]; simp)]
    simp only
    rw [if_pos]
    right
    rw [checkModes_spec]
    have hmode : ∀ u ∈ Access.modes ⟨l'.tensor, s.vars⟩ ++ rhs'.leaves.flatMap Access.modes, u.2 = size u.1 := by
      intro u hu
      have : ∃ b ∈ (⟨⟨l'.tensor, s.vars⟩, s.acc, rhs', replaceTensors st.tensors q'.tensors⟩ : Parsed).accesses, u ∈ b.modes := by
        rw [List.mem_append] at hu
        rcases hu with hu | hu
        · exact ⟨_, List.mem_cons_self, hu⟩
        · obtain ⟨b, hb, hub⟩ := List.mem_flatMap.mp hu
          exact ⟨b, List.mem_cons_of_mem _ hb, hub⟩
      obtain ⟨b, hb, hub⟩ := this
      have hd := (hall b hb).1
      unfold Access.modes at hub
      rw [hd] at hub
      obtain ⟨i, hi⟩ := List.mem_iff_getElem?.mp hub
      rw [List.getElem?_zip_eq_some, List.getElem?_map] at hi
      rw [hi.1] at hi
      simpa using hi.2.symm
    exact ⟨by simp, fun u hu w hw huw => by rw [hmode u hu, hmode w hw, huw]⟩
  refine ⟨⟨⟨l'.tensor, s.vars⟩, s.acc, rhs', replaceTensors st.tensors q'.tensors⟩, ?_, ?_, a1, rfl, rfl, hall⟩
  · unfold parseAssign
    simp only [h1, h2, h3, finish, h5, h6]
    rw [a4]
    exact hassign
  · apply same_of_relT
    refine RelT.mono ?_ _ _ (RelT.comp _ _ _ rel1 rel2)
    rintro p b ⟨a, hf, hr⟩
    refine ⟨?_, hr.1.trans hf.2.2.1⟩
    rcases hr.2 with ⟨_, h⟩ | ⟨_, h⟩
    · rw [h]; exact hf.2.1
    · obtain ⟨t0, vs, y1, _, y2, y3, y4, y5, y6, y7⟩ := hq _ _ h
      rw [hf.2.1, hf.1] at y2
      simp only [Option.some.injEq] at y2
      rw [y5, ← y2]; exact hf.2.1

/-! ### Cases -/

instance {α : Type} [DecidableEq α] : DecidableEq (Except Err α)
  | .ok a, .ok b => if h : a = b then isTrue (by rw [h]) else isFalse (by simpa using h)
  | .error a, .error b => if h : a = b then isTrue (by rw [h]) else isFalse (by simpa using h)
  | .ok _, .error _ => isFalse (by simp)
  | .error _, .ok _ => isFalse (by simp)

/-- No options but the default size 42 of the tool. -/
def plain : Options := ⟨fun _ => none, fun _ => none, fun _ => none, [], 42⟩

/-- `a(i) = B(i,j)*c(j)` with `-d=i:5`, a matrix in format `ds` and a vector of size 7 that was read. -/
def demo : Options := ⟨fun n => if n = ['B'] then some [0, 1] else none, fun _ => none, fun n => if n = ['i'] then some [5] else none,
  [(['c'], ⟨0, ['c'], 0, [0], [7]⟩)], 42⟩
def demoStmt : Assign := ⟨['a'], [['i']], false, .bin .mul (.acc ['B'] [['i'], ['j']]) (.acc ['c'] [['j']])⟩

example : LoadedOK demo ∧ Sizes demo demoStmt (fun v => if v = ['i'] then 5 else 7) ∧ Uniform demo demoStmt := by
  refine ⟨?_, ⟨?_, ?_, ?_, ?_⟩, ?_⟩
  · intro n t h
    simp only [demo, List.lookup] at h
    split at h
    · next hn => simp only [Option.some.injEq] at h; rw [← h]; simpa using (beq_iff_eq.mp hn).symm
    · cases h
  · intro a ha ds h
    simp only [allAccs, accs, demoStmt, List.cons_append, List.nil_append, List.mem_cons, List.not_mem_nil, or_false] at ha
    rcases ha with rfl | rfl | rfl <;> revert h
    · have : given demo ['a'] = none := by decide +kernel
      simp [this]
    · have : given demo ['B'] = none := by decide +kernel
      simp [this]
    · have : given demo ['c'] = some [7] := by decide +kernel
      simp only [this, Option.some.injEq]
      rintro rfl
      decide
  · intro a ha v hv ds h
    have : v = ['i'] := by
      simp only [demo] at h
      split at h
      · assumption
      · cases h
    subst this
    simp only [demo, if_true, Option.some.injEq] at h
    subst h; rfl
  · intro a ha hg v hv hd
    simp only [allAccs, accs, demoStmt, List.cons_append, List.nil_append, List.mem_cons, List.not_mem_nil, or_false] at ha
    exfalso
    apply hd
    have hi : Declared demo demoStmt ['i'] := Or.inl (by decide +kernel)
    have hj : Declared demo demoStmt ['j'] := Or.inr ⟨(['c'], [['j']]), by simp [accs, demoStmt], by decide +kernel, by simp⟩
    rcases ha with rfl | rfl | rfl <;> simp at hv
    · subst hv; exact hi
    · rcases hv with rfl | rfl
      · exact hi
      · exact hj
    · subst hv; exact hj
  · intro a ha f h
    simp only [demo] at h
    split at h
    · next hn =>
      simp only [allAccs, accs, demoStmt, List.cons_append, List.nil_append, List.mem_cons, List.not_mem_nil, or_false] at ha
      rcases ha with rfl | rfl | rfl <;> simp at hn
      simp only [Option.some.injEq] at h; subst h; rfl
    · cases h
  · intro a ha b hb
    simp only [allAccs, accs, demoStmt, List.cons_append, List.nil_append, List.mem_cons, List.not_mem_nil, or_false] at ha hb
    rcases ha with rfl | rfl | rfl <;> rcases hb with rfl | rfl | rfl <;> intro h _ <;> revert h <;> decide

/-- `-d=i:5` and a vector `c(i)` of size 7 that was read. -/
example : LoadedOK demo ∧ Asked demo ⟨['a'], [['i']], false, .acc ['c'] [['i']]⟩ ['i'] 5 ∧ Asked demo ⟨['a'], [['i']], false, .acc ['c'] [['i']]⟩ ['i'] 7 := by
  refine ⟨?_, .inl ⟨⟨(['a'], [['i']]), by simp [allAccs], by simp⟩, [], rfl⟩, .inr ⟨(['c'], [['i']]), by simp [accs], 0, [7], rfl, rfl, rfl⟩⟩
  intro n t h
  simp only [demo, List.lookup] at h
  split at h
  · next hn => simp only [Option.some.injEq] at h; rw [← h]; simpa using (beq_iff_eq.mp hn).symm
  · cases h

/-- A product `A(i,k) = B(i,j)*B(j,k)` of a matrix that was read with itself meets `Uniform`: its sizes are given. -/
example : Uniform { plain with loaded := [(['B'], ⟨0, ['B'], 0, [0, 0], [4, 4]⟩)] }
    ⟨['A'], [['i'], ['k']], false, .bin .mul (.acc ['B'] [['i'], ['j']]) (.acc ['B'] [['j'], ['k']])⟩ := by
  intro a ha b hb
  simp only [allAccs, accs, List.cons_append, List.nil_append, List.mem_cons, List.not_mem_nil, or_false] at ha hb
  rcases ha with rfl | rfl | rfl <;> rcases hb with rfl | rfl | rfl <;> intro h hg <;> first | rfl | (exact absurd h (by decide)) | (exact absurd hg (by decide +kernel))

/-- The sizes of the case. -/
example : (parseAssign demo demoStmt).toOption.map (fun r => r.accesses.map (fun a => (a.tensor.name, a.tensor.dims))) =
    some [(['a'], [5]), (['B'], [5, 7]), (['c'], [7])] := by decide +kernel

/-- `a = B(i)*c(i) + B(j)` with a vector `c` of size 10 that was read. -/
def twice : Assign := ⟨['a'], [], false, .bin .add (.bin .mul (.acc ['B'] [['i']]) (.acc ['c'] [['i']])) (.acc ['B'] [['j']])⟩
def twiceOptions : Options := { plain with loaded := [(['c'], ⟨0, ['c'], 0, [0], [10]⟩)] }

/-- A tensor that is indexed with different variables becomes two tensors of the same name and of different sizes, if only
one of the variables has a known size. The parser hands out one of them; the other is not filled by `-g`. -/
theorem two_tensors_fails : ∃ r a b, parseAssign twiceOptions twice = .ok r ∧ a ∈ r.accesses ∧ b ∈ r.accesses ∧
    a.tensor.name = b.tensor.name ∧ a.tensor.dims = [10] ∧ b.tensor.dims = [42] ∧
    r.tensors.lookup a.tensor.name = some a.tensor ∧ a.tensor.id ≠ b.tensor.id := by
  refine ⟨⟨⟨⟨1, ['a'], 0, [], []⟩, []⟩, false, .bin .add (.bin .mul (.acc ⟨⟨3, ['B'], 0, [0], [10]⟩, [['i']]⟩) (.acc ⟨⟨0, ['c'], 0, [0], [10]⟩, [['i']]⟩))
    (.acc ⟨⟨2, ['B'], 0, [0], [42]⟩, [['j']]⟩), [(['c'], ⟨0, ['c'], 0, [0], [10]⟩), (['a'], ⟨1, ['a'], 0, [], []⟩), (['B'], ⟨3, ['B'], 0, [0], [10]⟩)]⟩,
    ⟨⟨3, ['B'], 0, [0], [10]⟩, [['i']]⟩, ⟨⟨2, ['B'], 0, [0], [42]⟩, [['j']]⟩, by decide +kernel, by decide +kernel, by decide +kernel, ?_⟩
  decide +kernel

/-- The size of a variable that an option gives is not honoured: with `-d=j:5`, variable `j` ranges over 10 values,
although no tensor was given that asks for it. -/
theorem variable_size_fails : (parseAssign { twiceOptions with dims := fun n => if n = ['j'] then some [5] else none } twice).toOption.map
    (fun r => r.accesses.map (fun a => (a.tensor.name, a.vars, a.tensor.dims))) =
    some [(['a'], [], []), (['B'], [['i']], [10]), (['c'], [['i']], [10]), (['B'], [['j']], [10])] := by decide +kernel

/-- `A(i) = B(i)` -/
def copy : Assign := ⟨['A'], [['i']], false, .acc ['B'] [['i']]⟩

/-- The size of the result that an option gives is replaced without a message: `-d=A:10 -d=B:20` makes a result of
size 20, `-d=A:10 -d=i:7` one of size 7. -/
theorem result_size_fails :
    (parseAssign { plain with dims := fun n => if n = ['A'] then some [10] else if n = ['B'] then some [20] else none } copy).toOption.map
      (fun r => r.lhs.tensor.dims) = some [20] ∧
    (parseAssign { plain with dims := fun n => if n = ['A'] then some [10] else if n = ['i'] then some [7] else none } copy).toOption.map
      (fun r => r.lhs.tensor.dims) = some [7] := by decide +kernel

/-- The size of the result is not used for the operands: `-d=A:10` alone is rejected. -/
theorem result_ignored_fails :
    parseAssign { plain with dims := fun n => if n = ['A'] then some [10] else none } copy = .error .error ∧
    ∃ r, parseAssign { plain with dims := fun n => if n = ['B'] then some [10] else none } copy = .ok r ∧ r.lhs.tensor.dims = [10] :=
  ⟨by decide +kernel, ⟨⟨⟨2, ['A'], 0, [0], [10]⟩, [['i']]⟩, false, .acc ⟨⟨1, ['B'], 0, [0], [10]⟩, [['i']]⟩,
    [(['A'], ⟨2, ['A'], 0, [0], [10]⟩), (['B'], ⟨1, ['B'], 0, [0], [10]⟩)]⟩, by decide +kernel, rfl⟩

/-- With `+=` sizes that differ are accepted: `A(i) += B(i)` with a result of size 10 and an operand of size 42, so that the
kernel accesses one of them outside of its array. -/
theorem accumulate_unchecked_fails :
    (parseAssign { plain with dims := fun n => if n = ['A'] then some [10] else none } { copy with acc := true }).toOption.map
      (fun r => r.accesses.map (fun a => (a.vars, a.tensor.dims))) = some [([['i']], [10]), ([['i']], [42])] := by decide +kernel

/-- A size with too few modes is read outside of its bounds; one with too many is cut. -/
theorem order_unchecked_fails :
    parseAssign { plain with dims := fun n => if n = ['B'] then some [10] else none } ⟨['a'], [], false, .acc ['B'] [['i'], ['j']]⟩ = .error .ub ∧
    (parseAssign { plain with dims := fun n => if n = ['B'] then some [10, 20, 30] else none } ⟨['a'], [], false, .acc ['B'] [['i'], ['j']]⟩).toOption.map
      (fun r => r.rhs.leaves.map (fun a => a.tensor.dims)) = some [[10, 20]] := by decide +kernel

end Verif.Dims
