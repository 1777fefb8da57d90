import Verif.Memory.Steps

namespace Verif.Memory

/-- Everything that was there remains, and nothing new is left without an owner. -/
structure Grow (s : State) (own : Ptr → Owner) (s' : State) (own' : Ptr → Owner) : Prop where
  ready : ∀ i, Ready s i → Ready s' i
  stores : ∀ i st, s.stores i = some st → ∃ st', s'.stores i = some st'
  live : ∀ p, Live s.trace p → Live s'.trace p
  user : s'.user = s.user
  held : s'.held = s.held
  pend : ∀ p, Pend s' own' p → Pend s own p

theorem Grow.refl (s own) : Grow s own s own := ⟨fun _ h => h, fun _ st h => ⟨st, h⟩, fun _ h => h, rfl, rfl, fun _ h => h⟩

theorem Grow.trans {s own s' own' s'' own''} (h : Grow s own s' own') (g : Grow s' own' s'' own'') : Grow s own s'' own'' :=
  ⟨fun i hi => g.ready i (h.ready i hi), fun i st hi => by
    obtain ⟨st', h'⟩ := h.stores i st hi
    exact g.stores i st' h', fun p hp => g.live p (h.live p hp), g.user.trans h.user, g.held.trans h.held,
    fun p hp => h.pend p (g.pend p hp)⟩

theorem Ext.ready {s own s' own'} (e : Ext s own s' own') {i : Nat} (h : Ready s i) : Ready s' i := by
  obtain ⟨st, h1, h2⟩ := h
  exact ⟨st, by rw [e.stores]; exact h1, storeReady_mono e.arrays h2⟩

theorem Ext.grow {s own s' own'} (e : Ext s own s' own') : Grow s own s' own' :=
  ⟨fun _ h => e.ready h, fun _ st h => ⟨st, by rw [e.stores]; exact h⟩, e.live, e.user, e.held, e.pend⟩

theorem setTensor_inv {s : State} {own} (h : Inv s own) {t : Nat} {y : Tensor} (ht : t < s.nextT)
    (hy : ∃ st, s.stores y.store = some st) : Inv (setTensor t (some y) s) own := by
  refine { h with tensorB := ?_, tstore := ?_ }
  · intro a x ha
    have ha : upd s.tensors t (some y) a = some x := ha
    by_cases hat : a = t
    · subst hat; exact ht
    · rw [upd_other _ _ hat] at ha; exact h.tensorB a x ha
  · intro a x ha
    have ha : upd s.tensors t (some y) a = some x := ha
    by_cases hat : a = t
    · subst hat; rw [upd_same] at ha; injection ha with ha; subst ha; exact hy
    · rw [upd_other _ _ hat] at ha; exact h.tstore a x ha

theorem setTensor_grow (s : State) (own) (t : Nat) (y : Option Tensor) : Grow s own (setTensor t y s) own :=
  ⟨fun _ h => h, fun _ st h => ⟨st, h⟩, fun _ h => h, rfl, rfl, fun _ h => h⟩

/-! ### Structures of storages -/

theorem ptrAt_live {s : State} {own} (h : Inv s own) {ids : List Nat} {k : Nat} {p : Ptr} (hp : ptrAt s.arrays ids k = some p) :
    Live s.trace p := by
  unfold ptrAt at hp
  cases hk : ids[k]? with
  | none => rw [hk] at hp; cases hp
  | some a =>
    rw [hk] at hp
    dsimp only [Option.bind] at hp
    cases hf : s.arrays a with
    | none => rw [hf] at hp; cases hp
    | some x => rw [hf] at hp; exact (h.arr a x p hf hp).1

theorem args_mem {s : State} {st : Store} {l} (hl : l ∈ (args s st).levels) :
    ∃ m ∈ st.kinds.zip st.index, l = (m.1, slots s.arrays m.1 m.2) := by
  obtain ⟨m, h1, h2⟩ := List.mem_map.1 hl
  exact ⟨m, h1, h2.symm⟩

theorem args_dense {s : State} {own} (h : Inv s own) {i : Nat} {st : Store} (hi : s.stores i = some st) :
    ∀ l ∈ (args s st).levels, l.1 = .dense → SetLive s (slot l.2 0) := by
  intro l hl hd
  obtain ⟨m, h1, rfl⟩ := args_mem hl
  have hd : m.1 = .dense := hd
  obtain ⟨p, hp⟩ := h.base i st hi m h1 hd
  refine ⟨p, ?_, ptrAt_live h hp⟩
  dsimp only
  rw [hd]
  exact hp

theorem args_read {s : State} {own} (h : Inv s own) {st : Store} (hr : StoreReady s.arrays st) :
    SetLive s (args s st).vals ∧ ∀ l ∈ (args s st).levels, ReadOk s l := by
  constructor
  · obtain ⟨p, hp⟩ := hr.1
    refine ⟨p, hp, ?_⟩
    cases hf : s.arrays st.values with
    | none => rw [hf] at hp; cases hp
    | some x => rw [hf] at hp; exact (h.arr _ x p hf hp).1
  · intro l hl
    obtain ⟨m, h1, rfl⟩ := args_mem hl
    have := hr.2 m h1
    unfold LevelReady at this
    unfold ReadOk
    dsimp only
    cases hk : m.1 <;> rw [hk] at this <;> dsimp only at this ⊢
    · exact ⟨this.1.imp fun p hp => ⟨hp, ptrAt_live h hp⟩, this.2.imp fun p hp => ⟨hp, ptrAt_live h hp⟩⟩
    · exact this.imp fun p hp => ⟨hp, ptrAt_live h hp⟩

theorem args_fst (s : State) (st : Store) : (args s st).levels.map Prod.fst = (st.kinds.zip st.index).map Prod.fst := by
  unfold args
  rw [List.map_map]
  rfl

theorem zip_short : ∀ {ks : List Kind} {is : List (List Nat)} {ids : List (List Nat)}, ids.length = (ks.zip is).length →
    ks.zip ids = ((ks.zip is).map Prod.fst).zip ids
  | [], is, ids, _ => by simp
  | k :: ks, [], ids, h => by
    have : ids = [] := List.eq_nil_of_length_eq_zero (by simpa using h)
    subst this
    simp
  | k :: ks, i :: is, [], h => by simp
  | k :: ks, i :: is, d :: ids, h => by
    have h : ids.length + 1 = (ks.zip is).length + 1 := h
    show (k, d) :: ks.zip ids = (k, d) :: _
    rw [zip_short (Nat.succ.inj h)]
    rfl

theorem zip_snd_mem {ks : List Kind} {ids : List (List Nat)} (h : ids.length ≤ ks.length) {x : List Nat} (hx : x ∈ ids) :
    ∃ k, (k, x) ∈ ks.zip ids := by
  induction ids generalizing ks with
  | nil => cases hx
  | cons d ids ih =>
    cases ks with
    | nil => exact absurd h (by simp)
    | cons k ks =>
      rcases List.mem_cons.1 hx with rfl | hx
      · exact ⟨k, List.mem_cons_self⟩
      · obtain ⟨k', hk'⟩ := ih (ks := ks) (by simpa using h) hx
        exact ⟨k', List.mem_cons_of_mem _ hk'⟩

/-- Turning the structure of a kernel into arrays. -/
theorem unpack_inv {s : State} {own} {a : Args} {i : Nat} {st : Store} {p : Ptr} (h : Inv s own) (hi : s.stores i = some st)
    (hp : a.vals = some p) (lp : Live s.trace p) (op : own p = .pending) (hu : ∀ l ∈ a.levels, UnpackOk s own l)
    (hk : a.levels.map Prod.fst = (st.kinds.zip st.index).map Prod.fst) :
    ∃ own', Inv (unpack i a s) own' ∧ Grow s own (unpack i a s) own' ∧ Ready (unpack i a s) i ∧
      (unpack i a s).tensors = s.tensors ∧ (unpack i a s).nextT = s.nextT ∧ ¬ Pend (unpack i a s) own' p ∧
      (∀ q, Live s.trace q → q ≠ p → own' q = own q) ∧
      (∃ st', (unpack i a s).stores i = some st' ∧ ((unpack i a s).arrays st'.values).bind Arr.ptr = some p) := by
  obtain ⟨o1, h1, e1, u1, len1⟩ := unpackLevels_inv h hu
  have l1 := e1.live p lp
  have op1 : o1 p = .pending := by rw [e1.same p (h.lt lp)]; exact op
  have h2 := addArr_owned_inv h1 l1 op1 (Or.inl rfl)
  have m2 := addArr_arrays h1.arrB ⟨some p, true⟩
  have hv : addArr ⟨a.vals, true⟩ (unpackLevels a.levels s).1 = addArr ⟨some p, true⟩ (unpackLevels a.levels s).1 := by rw [hp]
  have a2 := addArr_at (unpackLevels a.levels s).1 ⟨some p, true⟩
  have hst : (addArr ⟨some p, true⟩ (unpackLevels a.levels s).1).1.stores i = some st := by
    show (unpackLevels a.levels s).1.stores i = some st
    rw [e1.stores]; exact hi
  have heq : unpack i a s = setStore i (some (Store.mk st.kinds (unpackLevels a.levels s).2 (addArr ⟨some p, true⟩ (unpackLevels a.levels s).1).2 st.desc)) (addArr ⟨some p, true⟩ (unpackLevels a.levels s).1).1 := by
    unfold unpack
    dsimp only
    rw [hv, hst]
  have hlen : (unpackLevels a.levels s).2.length = (st.kinds.zip st.index).length := by
    rw [len1, ← List.length_map (f := Prod.fst), hk, List.length_map]
  have hzip : st.kinds.zip (unpackLevels a.levels s).2 = (a.levels.map Prod.fst).zip (unpackLevels a.levels s).2 := by
    rw [hk]; exact zip_short hlen
  have hids : ∀ l ∈ st.kinds.zip (unpackLevels a.levels s).2, IdsOk (addArr ⟨some p, true⟩ (unpackLevels a.levels s).1).1.arrays l := by
    intro l hl
    rw [hzip] at hl
    exact (u1 l hl).mono m2
  have hle : (unpackLevels a.levels s).2.length ≤ st.kinds.length := by
    rw [hlen, List.length_zip]; exact Nat.min_le_left _ _
  rw [heq]
  have hsame : upd (addArr ⟨some p, true⟩ (unpackLevels a.levels s).1).1.stores i (some (Store.mk st.kinds (unpackLevels a.levels s).2 (addArr ⟨some p, true⟩ (unpackLevels a.levels s).1).2 st.desc)) i = _ := upd_same _ _ _
  have hready : StoreReady (addArr ⟨some p, true⟩ (unpackLevels a.levels s).1).1.arrays (Store.mk st.kinds (unpackLevels a.levels s).2 (addArr ⟨some p, true⟩ (unpackLevels a.levels s).1).2 st.desc) := by
    refine ⟨⟨p, ?_⟩, fun l hl => (hids l hl).2.2⟩
    dsimp only
    rw [a2]; rfl
  refine ⟨upd o1 p (.arr (unpackLevels a.levels s).1.nextA), ?_, ?_, ⟨_, hsame, hready⟩, e1.tensors, e1.nextT, ?_, ?_, ⟨_, hsame, ?_⟩⟩
  · refine { h2 with desc := ?_, storeB := ?_, tstore := ?_, refs := ?_, base := ?_, back := ?_ }
    · intro j sj hj
      have hj : upd (addArr ⟨some p, true⟩ (unpackLevels a.levels s).1).1.stores i _ j = some sj := hj
      by_cases hji : j = i
      · subst hji; rw [upd_same] at hj; injection hj with hj; subst hj; exact h2.desc j st hst
      · rw [upd_other _ _ hji] at hj; exact h2.desc j sj hj
    · intro j sj hj
      have hj : upd (addArr ⟨some p, true⟩ (unpackLevels a.levels s).1).1.stores i _ j = some sj := hj
      by_cases hji : j = i
      · subst hji; exact h2.storeB j st hst
      · rw [upd_other _ _ hji] at hj; exact h2.storeB j sj hj
    · intro t x ht
      obtain ⟨sx, hx⟩ := h2.tstore t x ht
      by_cases hji : x.store = i
      · exact ⟨_, by rw [hji]; exact hsame⟩
      · refine ⟨sx, ?_⟩
        show upd _ i _ x.store = _
        rw [upd_other _ _ hji]; exact hx
    · intro j sj hj
      have hj : upd (addArr ⟨some p, true⟩ (unpackLevels a.levels s).1).1.stores i _ j = some sj := hj
      by_cases hji : j = i
      · subst hji; rw [upd_same] at hj; injection hj with hj; subst hj
        refine ⟨⟨_, a2⟩, ?_⟩
        intro ids hids' b hb
        obtain ⟨k, hkk⟩ := zip_snd_mem hle hids'
        exact (hids _ hkk).1 b hb
      · rw [upd_other _ _ hji] at hj; exact h2.refs j sj hj
    · intro j sj hj
      have hj : upd (addArr ⟨some p, true⟩ (unpackLevels a.levels s).1).1.stores i _ j = some sj := hj
      by_cases hji : j = i
      · subst hji; rw [upd_same] at hj; injection hj with hj; subst hj
        intro l hl
        exact (hids l hl).2.1
      · rw [upd_other _ _ hji] at hj; exact h2.base j sj hj
    · intro q w hq hf
      have hb := h2.back q w hq hf
      revert hb
      generalize upd o1 p (.arr (unpackLevels a.levels s).1.nextA) q = o
      intro hb
      cases o with
      | arr b => exact hb
      | desc j =>
        obtain ⟨sj, g1, g2⟩ := hb
        by_cases hji : j = i
        · subst hji
          rw [hst] at g1; injection g1 with g1; subst g1
          exact ⟨_, hsame, g2⟩
        · refine ⟨sj, ?_, g2⟩
          show upd _ i _ j = _
          rw [upd_other _ _ hji]; exact g1
      | _ => trivial
  · refine ⟨?_, ?_, fun q hq => e1.live q hq, e1.user, e1.held, ?_⟩
    · intro j hj
      by_cases hji : j = i
      · subst hji; exact ⟨_, hsame, hready⟩
      · obtain ⟨sj, g1, g2⟩ := e1.ready hj
        refine ⟨sj, ?_, storeReady_mono m2 g2⟩
        show upd _ i _ j = _
        rw [upd_other _ _ hji]; exact g1
    · intro j sj hj
      by_cases hji : j = i
      · subst hji; exact ⟨_, hsame⟩
      · refine ⟨sj, ?_⟩
        show upd (addArr ⟨some p, true⟩ (unpackLevels a.levels s).1).1.stores i _ j = _
        rw [upd_other _ _ hji]
        show (unpackLevels a.levels s).1.stores j = some sj
        rw [e1.stores]; exact hj
    · rintro q ⟨hq, ho⟩
      by_cases hqp : q = p
      · subst hqp; rw [upd_same] at ho; rcases ho with ho | ho <;> cases ho
      · rw [upd_other _ _ hqp] at ho
        exact e1.pend q ⟨hq, ho⟩
  · rintro ⟨_, ho⟩
    rw [upd_same] at ho
    rcases ho with ho | ho <;> cases ho
  · intro q hq hqp
    rw [upd_other _ _ hqp, e1.same q (h.lt hq)]
  · show ((addArr ⟨some p, true⟩ (unpackLevels a.levels s).1).1.arrays _).bind Arr.ptr = some p
    dsimp only
    rw [a2]; rfl

/-! ### Running a kernel and taking its results -/

/-- A structure of a temporary that is freed at the end. -/
theorem free_tmp_inv {s : State} {own} (h : Inv s own) {d : Ptr} (ld : Live s.trace d) (od : own d = .tmp) :
    Inv (emit (.free d) s) own := by
  have hm : ∀ p w, Ev.malloc p w ∈ s.trace ++ [.free d] → Ev.malloc p w ∈ s.trace := by
    intro p w hm
    rcases List.mem_append.1 hm with hm | hm
    · exact hm
    · simp at hm
  have hl : ∀ p, Live s.trace p → own p ≠ .tmp → Live (s.trace ++ [.free d]) p := by
    intro p hl ho
    apply live_emit hl
    intro hh; injection hh with hh; subst hh; exact ho od
  refine { h with
    safe := safe_snoc h.safe ld
    bound := fun p w hw => h.bound p w (hm p w hw)
    arr := ?_
    desc := ?_
    user := ?_
    tag := fun p w hw => h.tag p w (hm p w hw)
    back := fun p w hw hf => h.back p w (hm p w hw) (fun hx => hf (List.mem_append_left _ hx))
    lost := fun p hp hx => by
      rcases List.mem_append.1 hx with hx | hx
      · exact h.lost p hp hx
      · rw [List.mem_singleton] at hx; injection hx with hx; subst hx; rw [od] at hp; cases hp }
  · intro a x p h1 h2
    obtain ⟨g1, g2⟩ := h.arr a x p h1 h2
    refine ⟨hl p g1 ?_, g2⟩
    intro ho
    unfold OwnsArr at g2
    rw [ho] at g2
    split at g2
    · cases g2
    · rcases g2 with g2 | g2 <;> cases g2
  · intro i st h1
    obtain ⟨g1, g2⟩ := h.desc i st h1
    exact ⟨hl _ g1 (by rw [g2]; simp), g2⟩
  · intro p h1
    obtain ⟨g1, g2⟩ := h.user p h1
    exact ⟨hl _ g1 (by rw [g2]; simp), g2⟩

theorem live_free {tr : List Ev} {d p : Ptr} (h : Live (tr ++ [.free d]) p) : Live tr p ∧ p ≠ d := by
  obtain ⟨⟨w, hw⟩, hf⟩ := h
  refine ⟨⟨⟨w, ?_⟩, fun hx => hf (List.mem_append_left _ hx)⟩, ?_⟩
  · rcases List.mem_append.1 hw with hw | hw
    · exact hw
    · simp at hw
  · intro hh; subst hh; exact hf (List.mem_append_right _ (List.mem_singleton.2 rfl))

/-- Readiness of a tensor: when its storage has to hold values. -/
def TensorReady (s : State) (x : Tensor) : Prop :=
  (x.neverPacked = false → Ready s x.store) ∧ (x.needsCompute = true → x.needsAssemble = false → Ready s x.store) ∧
    (x.needsPack = false → x.needsCompute = false → Ready s x.store)

/-- All tensors except one are ready. -/
def ReadyBut (s : State) (e : Option Nat) : Prop := ∀ t x, e ≠ some t → s.tensors t = some x → TensorReady s x

theorem TensorReady.mono {s s' : State} {x : Tensor} (h : TensorReady s x) (hr : ∀ i, Ready s i → Ready s' i) : TensorReady s' x :=
  ⟨fun a => hr _ (h.1 a), fun a b => hr _ (h.2.1 a b), fun a b => hr _ (h.2.2 a b)⟩

theorem TensorReady.of {s : State} {x : Tensor} (h : Ready s x.store) : TensorReady s x := ⟨fun _ => h, fun _ _ => h, fun _ _ => h⟩

/-- A kernel that assembles, followed by steps that write values, followed by taking the results. -/
theorem fresh_unpack {s : State} {own} {i : Nat} {st : Store} (h : Inv s own) (hi : s.stores i = some st) (a : Args)
    (ha : a.desc = st.desc) (hf : a.levels.map Prod.fst = (st.kinds.zip st.index).map Prod.fst)
    (hd : ∀ l ∈ a.levels, l.1 = .dense → SetLive s (slot l.2 0)) :
    ∃ p om, Inv (freshArgs a s).1 om ∧ (freshArgs a s).2.vals = some p ∧ Live (freshArgs a s).1.trace p ∧ om p = .pending ∧
      (freshArgs a s).1.stores i = some st ∧ (∀ l ∈ (freshArgs a s).2.levels, UnpackOk (freshArgs a s).1 om l) ∧
      (freshArgs a s).2.levels.map Prod.fst = (st.kinds.zip st.index).map Prod.fst ∧
      (freshArgs a s).1.tensors = s.tensors ∧ (freshArgs a s).1.nextT = s.nextT ∧ (∀ j, Ready s j → Ready (freshArgs a s).1 j) ∧
      (freshArgs a s).1.stores = s.stores ∧ (∀ q, Live s.trace q → Live (freshArgs a s).1.trace q) ∧
      (freshArgs a s).1.user = s.user ∧ (freshArgs a s).1.held = s.held ∧
      (∀ q, Pend (freshArgs a s).1 om q → Pend s own q ∨ q = p) ∧ (∀ q, Live s.trace q → om q = own q) := by
  have hdl : Live s.trace a.desc := by rw [ha]; exact (h.desc i st hi).1
  obtain ⟨sm, om, own', p, h1, e1, hs, hp, ho, h2, hv, lp, op, hu, hk⟩ := freshArgs_inv h hdl hd
  have hlm : ∀ q, Live s.trace q → Live (freshArgs a s).1.trace q := by
    intro q hq; rw [hs]; exact live_emit (e1.live q hq) (by simp)
  refine ⟨p, own', h2, hv, lp, op, ?_, hu, hk.trans hf, ?_, ?_, ?_, ?_, hlm, ?_, ?_, ?_, ?_⟩
  · rw [hs]; show sm.stores i = _; rw [e1.stores]; exact hi
  · rw [hs]; exact e1.tensors
  · rw [hs]; exact e1.nextT
  · intro j hj; rw [hs]; exact e1.ready hj
  · rw [hs]; exact e1.stores
  · rw [hs]; exact e1.user
  · rw [hs]; exact e1.held
  · rintro q ⟨hq, hoq⟩
    rw [hs] at hq
    rcases live_malloc hq with hq | hq
    · left
      apply e1.pend q
      refine ⟨hq, ?_⟩
      rw [ho, upd_other _ _ (by rw [hp]; exact Nat.ne_of_lt (h1.lt hq))] at hoq
      exact hoq
    · right; rw [hp]; exact hq
  · intro q hq
    rw [ho, upd_other _ _ (by rw [hp]; exact Nat.ne_of_lt (h1.lt (e1.live q hq))), e1.same q (h.lt hq)]

end Verif.Memory
