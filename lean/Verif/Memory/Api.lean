import Verif.Memory.Ops

namespace Verif.Memory

/-- What packing leaves of a tensor. -/
structure After (s s' : State) (t : Nat) : Prop where
  nextT : s'.nextT = s.nextT
  other : ∀ v, v ≠ t → s'.tensors v = s.tensors v
  same : ∀ x, s.tensors t = some x → ∃ x', s'.tensors t = some x' ∧ x'.store = x.store ∧ x'.needsCompute = x.needsCompute ∧ x'.needsPack = false ∧
    x'.flag = x.flag

theorem pack_inv {s : State} {own} {t : Nat} {e : Option Nat} (h : Inv s own) (hr : ReadyBut s e) (he : e ≠ some t) :
    ∃ own', Inv (packTensor t s) own' ∧ Grow s own (packTensor t s) own' ∧ ReadyBut (packTensor t s) e ∧ After s (packTensor t s) t := by
  unfold packTensor
  cases hx : s.tensors t with
  | none => exact ⟨own, h, Grow.refl _ _, hr, rfl, fun _ _ => rfl, fun x hx' => by rw [hx] at hx'; cases hx'⟩
  | some x =>
    dsimp only
    cases hnp : x.needsPack with
    | false =>
      refine ⟨own, h, Grow.refl _ _, hr, rfl, fun _ _ => rfl, fun x' hx' => ⟨x', hx', rfl, rfl, ?_, rfl⟩⟩
      rw [hx] at hx'; injection hx' with hx'; subst hx'; exact hnp
    | true =>
      obtain ⟨st, hst⟩ := h.tstore t x hx
      simp only [Bool.not_true, Bool.false_eq_true, if_false, hst]
      have h1 : Inv (setTensor t (some { x with needsPack := false, neverPacked := false }) s) own :=
        setTensor_inv h (h.tensorB t x hx) ⟨st, hst⟩
      generalize hs1 : setTensor t (some { x with needsPack := false, neverPacked := false }) s = s1 at h1 ⊢
      have g1 : Grow s own s1 own := hs1 ▸ setTensor_grow s own t _
      have st1 : s1.stores x.store = some st := by rw [← hs1]; exact hst
      have t1 : s1.tensors = upd s.tensors t (some { x with needsPack := false, neverPacked := false }) := by rw [← hs1]; rfl
      have n1 : s1.nextT = s.nextT := by rw [← hs1]; rfl
      have h2 : Inv (if x.neverPacked then s1 else readArgs s1 (args s1 st)) own ∧
          Ext s1 own (if x.neverPacked then s1 else readArgs s1 (args s1 st)) own := by
        cases hnv : x.neverPacked with
        | true => exact ⟨h1, Ext.refl _ _⟩
        | false =>
          obtain ⟨st', q1, q2⟩ := g1.ready _ ((hr t x he hx).1 hnv)
          rw [st1] at q1; injection q1 with q1; subst q1
          obtain ⟨r1, r2⟩ := args_read h1 q2
          exact readArgs_inv h1 (h1.desc _ _ st1).1 r1 r2
      generalize (if x.neverPacked then s1 else readArgs s1 (args s1 st)) = s2 at h2 ⊢
      obtain ⟨h2, e2⟩ := h2
      obtain ⟨h3, l3⟩ := alloc_inv h2 (w := .desc) (o := .tmp) trivial (Or.inl rfl)
      obtain ⟨h4, _⟩ := alloc_inv h3 (w := .fill) (o := .lost) trivial rfl
      have e4 := alloc_ext h3 (w := .fill) (o := .lost) ⟨by simp, by simp⟩
      obtain ⟨h5, e5⟩ := access_set (o := some s2.next) h4 ⟨_, rfl, e4.live _ l3⟩
      have e45 := e4.trans e5
      have st5 : (access (some s2.next) (alloc .fill (alloc .desc s2).1).1).stores x.store = some st := by
        rw [e45.stores]
        show s2.stores _ = _
        rw [e2.stores]; exact st1
      obtain ⟨p, o6, h6, v6, lp6, op6, st6, u6, k6, t6, n6, r6, ss6, lv6, us6, hd6, pd6, ow6⟩ :=
        fresh_unpack h5 st5 (args (access (some s2.next) (alloc .fill (alloc .desc s2).1).1) st) rfl (args_fst _ _) (args_dense h5 st5)
      have hdest : (alloc .desc s2).2 = s2.next := rfl
      rw [hdest]
      have hargs : args (alloc .fill (alloc .desc s2).1).1 st = args (access (some s2.next) (alloc .fill (alloc .desc s2).1).1) st := rfl
      rw [hargs]
      generalize hk : freshArgs (args (access (some s2.next) (alloc .fill (alloc .desc s2).1).1) st)
        (access (some s2.next) (alloc .fill (alloc .desc s2).1).1) = k at *
      have ld6 : Live k.1.trace s2.next := lv6 _ (e45.live _ l3)
      have od6 : o6 s2.next = .tmp := by
        rw [ow6 _ (e45.live _ l3), e45.same _ (h3.lt l3), upd_same]
      rw [v6]
      have h7 := modify_inv h6 lp6
      have e7 : Ext k.1 o6 (modify (some p) k.1) o6 := emit_ext trivial
      obtain ⟨o8, h8, g8, r8, t8, n8, np8, ow8, _⟩ := unpack_inv h7 (by rw [e7.stores]; exact st6) v6 (e7.live _ lp6) op6
        (fun l hl => (u6 l hl).ext h6 e7) k6
      have hdp : s2.next ≠ p := by intro hh; rw [← hh, od6] at op6; cases op6
      have ld8 := g8.live _ (e7.live _ ld6)
      have od8 : o8 s2.next = .tmp := by rw [ow8 _ (e7.live _ ld6) hdp]; exact od6
      have h9 := free_tmp_inv h8 ld8 od8
      generalize hU : unpack x.store k.2 (modify (some p) k.1) = U at *
      have hrd : ∀ i, Ready s i → Ready U i := fun i hi => g8.ready i (e7.ready (r6 i (e45.ready (e2.ready (g1.ready i hi)))))
      have hlive : ∀ q, Live s.trace q → Live U.trace q := fun q hq =>
        g8.live q (e7.live q (lv6 q (e45.live q (live_emit (e2.live q (g1.live q hq)) (by simp)))))
      have htens : U.tensors = s1.tensors := by
        rw [t8, e7.tensors, t6, e45.tensors]; show s2.tensors = _; rw [e2.tensors]
      refine ⟨o8, h9, ?_, ?_, ?_, ?_, ?_⟩
      · refine ⟨hrd, ?_, ?_, ?_, ?_, ?_⟩
        · intro i si hi
          obtain ⟨s', q1⟩ := g1.stores i si hi
          exact g8.stores i s' (by rw [e7.stores, ss6, e45.stores]; show s2.stores i = _; rw [e2.stores]; exact q1)
        · intro q hq
          apply live_emit (hlive q hq)
          intro hh
          injection hh with hh
          have : q < s2.next := Nat.lt_of_lt_of_le (h1.lt (g1.live q hq)) e2.next
          rw [hh] at this
          exact Nat.lt_irrefl _ this
        · show U.user = _
          rw [g8.user, e7.user, us6, e45.user]; show s2.user = _; rw [e2.user, g1.user]
        · show U.held = _
          rw [g8.held, e7.held, hd6, e45.held]; show s2.held = _; rw [e2.held, g1.held]
        · rintro q ⟨hq, hoq⟩
          obtain ⟨hq, hqd⟩ := live_free hq
          have hp8 : Pend U o8 q := ⟨hq, hoq⟩
          have hp7 := e7.pend q (g8.pend q hp8)
          rcases pd6 q hp7 with hp5 | rfl
          · have hp3 := e45.pend q hp5
            obtain ⟨hl3, ho3⟩ := hp3
            rcases live_malloc hl3 with hl2 | hl2
            · rw [upd_other _ _ (Nat.ne_of_lt (h2.lt hl2))] at ho3
              exact g1.pend q (e2.pend q ⟨hl2, ho3⟩)
            · exact absurd hl2 hqd
          · exact absurd hp8 np8
      · intro v y hv hy
        have hy : U.tensors v = some y := hy
        rw [htens, t1] at hy
        by_cases hvt : v = t
        · subst hvt
          rw [upd_same] at hy; injection hy with hy; subst hy
          exact TensorReady.of r8
        · rw [upd_other _ _ hvt] at hy
          exact (hr v y hv hy).mono hrd
      · show U.nextT = _
        rw [n8, e7.nextT, n6, e45.nextT]; show s2.nextT = _; rw [e2.nextT, n1]
      · intro v hv
        show U.tensors v = _
        rw [htens, t1, upd_other _ _ hv]
      · intro y hy
        rw [hx] at hy; injection hy with hy; subst hy
        refine ⟨{ x with needsPack := false, neverPacked := false }, ?_, rfl, rfl, rfl, rfl⟩
        show U.tensors t = _
        rw [htens, t1, upd_same]

/-! ### Operands -/

theorem sync_inv {e : Option Nat} : ∀ {us : List Nat} {s : State} {own}, Inv s own → ReadyBut s e → (∀ u ∈ us, e ≠ some u) →
    ∃ own', Inv (us.foldl sync s) own' ∧ Grow s own (us.foldl sync s) own' ∧ ReadyBut (us.foldl sync s) e ∧
      (us.foldl sync s).nextT = s.nextT ∧ (∀ v, e = some v → (us.foldl sync s).tensors v = s.tensors v) ∧
      (∀ v x, s.tensors v = some x → ∃ x', (us.foldl sync s).tensors v = some x' ∧ x'.store = x.store ∧
        x'.needsCompute = x.needsCompute ∧ x'.flag = x.flag ∧ (x.needsPack = false ∨ v ∈ us → x'.needsPack = false)) ∧
      (∀ v x, (us.foldl sync s).tensors v = some x → ∃ x', s.tensors v = some x' ∧ x'.flag = x.flag) := by
  intro us
  induction us with
  | nil =>
    intro s own h hr _
    refine ⟨own, h, Grow.refl _ _, hr, rfl, fun _ _ => rfl, fun v x hx => ⟨x, hx, rfl, rfl, rfl, ?_⟩, fun v x hx => ⟨x, hx, rfl⟩⟩
    rintro (h | h)
    · exact h
    · cases h
  | cons u us ih =>
    intro s own h hr he
    obtain ⟨o1, h1, g1, r1, a1⟩ := pack_inv h hr (he u List.mem_cons_self)
    obtain ⟨o2, h2, g2, r2, n2, x2, y2, z2⟩ := ih h1 r1 (fun v hv => he v (List.mem_cons_of_mem _ hv))
    have hfl : ∀ v x, (packTensor u s).tensors v = some x → ∃ x', s.tensors v = some x' ∧ x'.flag = x.flag := by
      intro v x hx
      by_cases hvu : v = u
      · subst hvu
        cases hs : s.tensors v with
        | none =>
          have : packTensor v s = s := by unfold packTensor; rw [hs]
          rw [this, hs] at hx; cases hx
        | some y =>
          obtain ⟨x', q1, _, _, _, q5⟩ := a1.same y hs
          rw [q1] at hx; injection hx with hx; subst hx
          exact ⟨y, rfl, q5.symm⟩
      · rw [a1.other v hvu] at hx; exact ⟨x, hx, rfl⟩
    refine ⟨o2, h2, g1.trans g2, r2, n2.trans a1.nextT, ?_, ?_, ?_⟩
    · intro v hv
      have hvu : v ≠ u := by
        intro hh; subst hh; exact he v List.mem_cons_self hv
      exact (x2 v hv).trans (a1.other v hvu)
    · intro v x hx
      by_cases hvu : v = u
      · subst hvu
        obtain ⟨x', q1, q2, q3, q4, q5⟩ := a1.same x hx
        obtain ⟨x'', p1, p2, p3, p4, p5⟩ := y2 v x' q1
        exact ⟨x'', p1, p2.trans q2, p3.trans q3, p4.trans q5, fun _ => p5 (Or.inl q4)⟩
      · have hx' : (packTensor u s).tensors v = some x := by rw [a1.other v hvu]; exact hx
        obtain ⟨x'', p1, p2, p3, p4, p5⟩ := y2 v x hx'
        refine ⟨x'', p1, p2, p3, p4, ?_⟩
        rintro (hh | hh)
        · exact p5 (Or.inl hh)
        · rcases List.mem_cons.1 hh with hh | hh
          · exact absurd hh hvu
          · exact p5 (Or.inr hh)
    · intro v x hx
      obtain ⟨x', q1, q2⟩ := z2 v x hx
      obtain ⟨x'', p1, p2⟩ := hfl v x' q1
      exact ⟨x'', p1, p2.trans q2⟩

theorem readTensors_inv {own} : ∀ {us : List Nat} {s : State}, Inv s own →
    (∀ u ∈ us, ∀ x, s.tensors u = some x → Ready s x.store) →
    Inv (us.foldl readTensor s) own ∧ Ext s own (us.foldl readTensor s) own := by
  intro us
  induction us with
  | nil => intro s h _; exact ⟨h, Ext.refl _ _⟩
  | cons u us ih =>
    intro s h hr
    have h1 : Inv (readTensor s u) own ∧ Ext s own (readTensor s u) own := by
      unfold readTensor
      cases hx : s.tensors u with
      | none => exact ⟨h, Ext.refl _ _⟩
      | some x =>
        obtain ⟨st, q1, q2⟩ := hr u List.mem_cons_self x hx
        dsimp only
        rw [q1]
        obtain ⟨r1, r2⟩ := args_read h q2
        exact readArgs_inv h (h.desc _ _ q1).1 r1 r2
    obtain ⟨h1, e1⟩ := h1
    obtain ⟨h2, e2⟩ := ih h1 (fun v hv x hx => e1.ready (hr v (List.mem_cons_of_mem _ hv) x (by rw [← e1.tensors]; exact hx)))
    exact ⟨h2, e1.trans e2⟩

/-- Operands are packed and read. -/
theorem operands_inv {s : State} {own} {e : Option Nat} {us : List Nat} (h : Inv s own) (hr : ReadyBut s e)
    (he : ∀ u ∈ us, e ≠ some u) (hp : ∀ u ∈ us, NotPending s u) :
    ∃ own', Inv (us.foldl readTensor (us.foldl sync s)) own' ∧ Grow s own (us.foldl readTensor (us.foldl sync s)) own' ∧
      ReadyBut (us.foldl readTensor (us.foldl sync s)) e ∧ (us.foldl readTensor (us.foldl sync s)).nextT = s.nextT ∧
      (us.foldl readTensor (us.foldl sync s)).stores = (us.foldl sync s).stores ∧
      (∀ v, e = some v → (us.foldl readTensor (us.foldl sync s)).tensors v = s.tensors v) ∧
      (∀ v x, (us.foldl readTensor (us.foldl sync s)).tensors v = some x → ∃ x', s.tensors v = some x' ∧ x'.flag = x.flag) := by
  obtain ⟨o1, h1, g1, r1, n1, x1, y1, z1⟩ := sync_inv h hr he
  obtain ⟨h2, e2⟩ := readTensors_inv h1 (us := us) (by
    intro u hu x hx
    obtain ⟨x0, q1, q2⟩ := hp u hu
    obtain ⟨x', p1, p2, p3, _, p5⟩ := y1 u x0 q1
    rw [p1] at hx; injection hx with hx; subst hx
    exact (r1 u x' (he u hu) p1).2.2 (p5 (Or.inr hu)) (p3.trans q2))
  refine ⟨o1, h2, g1.trans e2.grow, ?_, e2.nextT.trans n1, e2.stores, ?_, ?_⟩
  · intro v x hv hx
    rw [e2.tensors] at hx
    exact (r1 v x hv hx).mono fun i hi => e2.ready hi
  · intro v hv; rw [e2.tensors]; exact x1 v hv
  · intro v x hx; rw [e2.tensors] at hx; exact z1 v x hx

/-- The state of memory and of all tensors. -/
def Good (s : State) (own : Ptr → Owner) : Prop := Inv s own ∧ ReadyBut s none

/-- All flags `assembleWhileCompute` are off. -/
def FlagsOff (s : State) : Prop := ∀ t x, s.tensors t = some x → x.flag = false

/-- What a call guarantees. -/
structure Okay (s : State) (own : Ptr → Owner) (s' : State) (own' : Ptr → Owner) : Prop where
  good : Good s' own'
  pend : FlagsOff s → ∀ p, Pend s' own' p → Pend s own p
  flags : FlagsOff s → FlagsOff s'

theorem Okay.refl {s own} (h : Good s own) : Okay s own s own := ⟨h, fun _ _ h => h, fun h => h⟩

theorem assemble_okay {s : State} {own} {t : Nat} (h : Good s own) (ha : Allowed s (.assemble t)) :
    ∃ own', Okay s own (assemble t s) own' := by
  obtain ⟨h, hr⟩ := h
  unfold assemble
  cases hx : s.tensors t with
  | none => exact ⟨own, Okay.refl ⟨h, hr⟩⟩
  | some x =>
    dsimp only
    split
    · exact ⟨own, Okay.refl ⟨h, hr⟩⟩
    · obtain ⟨o1, h1, g1, r1, n1, ss1, _, f1⟩ := operands_inv h hr (fun u _ hh => by cases hh) (ha x hx)
      obtain ⟨st0, hst0⟩ := h.tstore t x hx
      obtain ⟨st, hst⟩ := g1.stores _ _ hst0
      have hst' : (x.srcs.foldl sync s).stores x.store = some st := by rw [← ss1]; exact hst
      rw [hst']
      dsimp only
      generalize x.srcs.foldl readTensor (x.srcs.foldl sync s) = s2 at *
      obtain ⟨p, o6, h6, v6, lp6, op6, st6, u6, k6, t6, n6, r6, ss6, lv6, us6, hd6, pd6, ow6⟩ :=
        fresh_unpack h1 hst (args s2 st) rfl (args_fst _ _) (args_dense h1 hst)
      generalize hk : freshArgs (args s2 st) s2 = k at *
      by_cases hfl : x.flag = true
      · rw [if_pos hfl]
        refine ⟨o6, ⟨h6, ?_⟩, ?_, ?_⟩
        · intro v y hv hy
          rw [t6] at hy
          exact (r1 v y hv hy).mono r6
        · intro hf
          rw [hf t x hx] at hfl; cases hfl
        · intro hf
          rw [hf t x hx] at hfl; cases hfl
      · rw [if_neg hfl]
        have hfl : x.flag = false := Bool.eq_false_iff.2 hfl
        have h7 := setTensor_inv h6 (t := t) (y := { x with needsAssemble := false })
          (by rw [n6, n1]; exact h.tensorB t x hx) ⟨st, st6⟩
        obtain ⟨o8, h8, g8, r8, t8, n8, np8, ow8, _⟩ := unpack_inv h7 st6 v6 lp6 op6 u6 k6
        refine ⟨o8, ⟨h8, ?_⟩, ?_, ?_⟩
        · intro v y hv hy
          rw [t8] at hy
          have hy : upd k.1.tensors t _ v = some y := hy
          by_cases hvt : v = t
          · subst hvt
            rw [upd_same] at hy; injection hy with hy; subst hy
            exact TensorReady.of r8
          · rw [upd_other _ _ hvt, t6] at hy
            exact (r1 v y hv hy).mono fun i hi => g8.ready i (r6 i hi)
        · intro _ q hq
          have := g8.pend q hq
          rcases pd6 q this with hh | rfl
          · exact g1.pend q hh
          · exact absurd hq np8
        · intro hf v y hy
          rw [t8] at hy
          have hy : upd k.1.tensors t _ v = some y := hy
          by_cases hvt : v = t
          · subst hvt
            rw [upd_same] at hy; injection hy with hy; subst hy
            exact hfl
          · rw [upd_other _ _ hvt, t6] at hy
            obtain ⟨x', q1, q2⟩ := f1 v y hy
            rw [← q2]; exact hf v x' q1

/-! ### Writes -/

/-- The memory that kernels wrote values to. -/
def writes (tr : List Ev) : List Ptr := tr.filterMap fun e => match e with | .write p => some p | _ => none

theorem writes_append (a b : List Ev) : writes (a ++ b) = writes a ++ writes b := List.filterMap_append

theorem writes_access {o : Option Ptr} {s : State} : writes (access o s).trace = writes s.trace := by
  unfold access emit
  rw [writes_append]
  cases o <;> exact List.append_nil _

theorem writes_makeArray {s : State} : writes (makeArray s).1.trace = writes s.trace := by
  show writes (s.trace ++ [_]) = _
  rw [writes_append]; exact List.append_nil _

theorem writes_unpackLevel {l} {s : State} : writes (unpackLevel l s).1.trace = writes s.trace := by
  unfold unpackLevel
  cases l.1 <;> dsimp only
  · rw [writes_makeArray, writes_access]
  · exact writes_access
  · exact writes_makeArray

theorem writes_unpackLevels : ∀ {ls} {s : State}, writes (unpackLevels ls s).1.trace = writes s.trace
  | [], _ => rfl
  | l :: ls, s => by
    show writes (unpackLevels ls (unpackLevel l s).1).1.trace = _
    rw [writes_unpackLevels, writes_unpackLevel]

theorem writes_unpack {i : Nat} {a : Args} {s : State} : writes (unpack i a s).trace = writes s.trace := by
  unfold unpack
  dsimp only
  split
  · exact writes_unpackLevels
  · exact writes_unpackLevels

/-- The tensor holds the values that were written last. -/
def HoldsLast (s : State) (i : Nat) : Prop :=
  ∃ st p, s.stores i = some st ∧ (s.arrays st.values).bind Arr.ptr = some p ∧ (writes s.trace).getLast? = some p

theorem compute_okay {s : State} {own} {t : Nat} (h : Good s own) (ha : Allowed s (.compute t)) :
    ∃ own', Okay s own (compute t s) own' ∧ ∀ x, s.tensors t = some x → x.needsCompute = true →
      HoldsLast (compute t s) x.store ∧ ∃ x', (compute t s).tensors t = some x' ∧ x'.store = x.store ∧ x'.needsCompute = false := by
  obtain ⟨h, hr⟩ := h
  unfold compute
  cases hx : s.tensors t with
  | none => exact ⟨own, Okay.refl ⟨h, hr⟩, fun _ hh => by cases hh⟩
  | some x =>
    obtain ⟨hsrc, hkern, hasm⟩ := ha x hx
    dsimp only
    rw [hkern]
    dsimp only
    cases hnc : x.needsCompute with
    | false =>
      refine ⟨own, Okay.refl ⟨h, hr⟩, ?_⟩
      intro y hy hyc
      injection hy with hy
      subst hy
      rw [hnc] at hyc; cases hyc
    | true =>
      simp only [Bool.not_true, Bool.false_eq_true, if_false]
      unfold computeWith
      dsimp only
      obtain ⟨st0, hst0⟩ := h.tstore t x hx
      have h1 : Inv (setTensor t (some { x with needsCompute := false }) s) own :=
        setTensor_inv h (h.tensorB t x hx) ⟨st0, hst0⟩
      have g0 : Grow s own (setTensor t (some { x with needsCompute := false }) s) own := setTensor_grow s own t _
      have hts : ∀ v, v ≠ t → (setTensor t (some { x with needsCompute := false }) s).tensors v = s.tensors v :=
        fun v hv => upd_other _ _ hv
      have htt : (setTensor t (some { x with needsCompute := false }) s).tensors t = some { x with needsCompute := false } := upd_same _ _ _
      have hst1 : (setTensor t (some { x with needsCompute := false }) s).stores x.store = some st0 := hst0
      have hn1 : (setTensor t (some { x with needsCompute := false }) s).nextT = s.nextT := rfl
      generalize setTensor t (some { x with needsCompute := false }) s = s1 at *
      have hr1 : ReadyBut s1 (some t) := by
        intro v y hv hy
        have hvt : v ≠ t := fun hh => hv (by rw [hh])
        rw [hts v hvt] at hy
        exact (hr v y (fun hh => by cases hh) hy).mono g0.ready
      have hnt : ∀ u ∈ x.srcs, u ≠ t := by
        intro u hu hh
        subst hh
        obtain ⟨y, q1, q2⟩ := hsrc u hu
        rw [hx] at q1; injection q1 with q1; subst q1
        rw [hnc] at q2; cases q2
      obtain ⟨o2, h2, g2, r2, n2, ss2, tt2, f2⟩ := operands_inv h1 hr1 (us := x.srcs)
        (fun u hu hh => hnt u hu (by injection hh with hh; exact hh.symm))
        (fun u hu => by
          obtain ⟨y, q1, q2⟩ := hsrc u hu
          exact ⟨y, by rw [hts u (hnt u hu)]; exact q1, q2⟩)
      obtain ⟨st, hst⟩ := g2.stores _ _ hst1
      have hst' : (x.srcs.foldl sync s1).stores x.store = some st := by rw [← ss2]; exact hst
      rw [hst']
      dsimp only
      have tt2' := tt2 t rfl
      generalize x.srcs.foldl readTensor (x.srcs.foldl sync s1) = s2 at *
      rw [htt] at tt2'
      have hflags : FlagsOff s → ∀ v y, v ≠ t → s2.tensors v = some y → y.flag = false := by
        intro hf v y hvt hy
        obtain ⟨x', q1, q2⟩ := f2 v y hy
        rw [hts v hvt] at q1
        rw [← q2]; exact hf v x' q1
      unfold computeKernel
      by_cases hfl : x.flag = true
      · rw [if_pos hfl, if_pos hfl]
        obtain ⟨p, o6, h6, v6, lp6, op6, st6, u6, k6, t6, n6, r6, ss6, lv6, us6, hd6, pd6, ow6⟩ :=
          fresh_unpack h2 hst (args s2 st) rfl (args_fst _ _) (args_dense h2 hst)
        generalize hk : freshArgs (args s2 st) s2 = k at *
        dsimp only
        rw [v6]
        have h7 := modify_inv h6 lp6
        have e7 : Ext k.1 o6 (modify (some p) k.1) o6 := emit_ext trivial
        have st7 : (modify (some p) k.1).stores x.store = some st := by rw [e7.stores]; exact st6
        have w7 : (writes (modify (some p) k.1).trace).getLast? = some p := by
          show (writes (k.1.trace ++ [.write p])).getLast? = _
          rw [writes_append]
          exact List.getLast?_concat
        have n7 : (modify (some p) k.1).nextT = s.nextT := by rw [e7.nextT, n6, n2, hn1]
        have t7 : (modify (some p) k.1).tensors = s2.tensors := by rw [e7.tensors, t6]
        have u7 : ∀ l ∈ k.2.levels, UnpackOk (modify (some p) k.1) o6 l := fun l hl => (u6 l hl).ext h6 e7
        have lp7 := e7.live _ lp6
        have r7 : ∀ j, Ready s2 j → Ready (modify (some p) k.1) j := fun j hj => e7.ready (r6 j hj)
        have p7 : ∀ q, Pend (modify (some p) k.1) o6 q → Pend s2 o2 q ∨ q = p := fun q hq => pd6 q (e7.pend q hq)
        generalize modify (some p) k.1 = s7 at *
        have h8 := setTensor_inv h7 (t := t) (y := { x with needsCompute := false, needsAssemble := false })
          (by rw [n7]; exact h.tensorB t x hx) ⟨st, st7⟩
        obtain ⟨o9, h9, g9, r9, t9, n9, np9, ow9, st9, q9, q9'⟩ := unpack_inv h8 st7 v6 lp7 op6 u7 k6
        refine ⟨o9, ⟨⟨h9, ?_⟩, ?_, ?_⟩, ?_⟩
        · intro v y hv hy
          rw [t9] at hy
          have hy : upd s7.tensors t _ v = some y := hy
          by_cases hvt : v = t
          · subst hvt
            rw [upd_same] at hy; injection hy with hy; subst hy
            exact TensorReady.of r9
          · rw [upd_other _ _ hvt, t7] at hy
            exact (r2 v y (fun hh => hvt (by injection hh with hh; exact hh.symm)) hy).mono fun i hi => g9.ready i (r7 i hi)
        · intro hf
          rw [hf t x hx] at hfl; cases hfl
        · intro hf
          rw [hf t x hx] at hfl; cases hfl
        · intro y hy _
          injection hy with hy; subst hy
          refine ⟨⟨st9, p, q9, q9', ?_⟩, { x with needsCompute := false, needsAssemble := false }, ?_, rfl, rfl⟩
          · rw [writes_unpack]; exact w7
          · rw [t9]; exact upd_same _ _ _
      · rw [if_neg hfl, if_neg hfl]
        have hfl : x.flag = false := Bool.eq_false_iff.2 hfl
        have hR : Ready s2 x.store := g2.ready _ (g0.ready _ ((hr t x (fun hh => by cases hh) hx).2.1 hnc (hasm hfl)))
        obtain ⟨st', q1, q2⟩ := hR
        rw [hst] at q1; injection q1 with q1; subst q1
        obtain ⟨r3, r4⟩ := args_read h2 q2
        obtain ⟨h5, e5⟩ := access_set (o := some (args s2 st).desc) h2 ⟨_, rfl, (h2.desc _ _ hst).1⟩
        obtain ⟨h6, e6⟩ := readLevels_inv h5 (ls := (args s2 st).levels) (fun l hl => (r4 l hl).ext e5)
        obtain ⟨p, hp, lp⟩ := r3
        rw [hp]
        have e56 := e5.trans e6
        have lp6 := e56.live _ lp
        generalize List.foldl readLevel (access (some (args s2 st).desc) s2) (args s2 st).levels = s6 at *
        have h7 := modify_inv h6 lp6
        have e7 : Ext s6 o2 (modify (some p) s6) o2 := emit_ext trivial
        have e67 := e56.trans e7
        have tt7 : (modify (some p) s6).tensors t = some { x with needsCompute := false } := by rw [e67.tensors]; exact tt2'
        refine ⟨o2, ⟨⟨h7, ?_⟩, ?_, ?_⟩, ?_⟩
        · intro v y hv hy
          by_cases hvt : v = t
          · subst hvt
            rw [tt7] at hy; injection hy with hy; subst hy
            exact TensorReady.of (e67.ready ⟨st, hst, q2⟩)
          · rw [e67.tensors] at hy
            exact (r2 v y (fun hh => hvt (by injection hh with hh; exact hh.symm)) hy).mono fun i hi => e67.ready hi
        · intro _ q hq
          exact g0.pend q (g2.pend q (e67.pend q hq))
        · intro hf v y hy
          by_cases hvt : v = t
          · subst hvt
            rw [tt7] at hy; injection hy with hy; subst hy
            exact hfl
          · rw [e67.tensors] at hy
            exact hflags hf v y hvt hy
        · intro y hy _
          injection hy with hy; subst hy
          refine ⟨⟨st, p, by rw [e67.stores]; exact hst, ?_, ?_⟩, _, tt7, rfl, rfl⟩
          · cases hv : s2.arrays st.values with
            | none => rw [show (args s2 st).vals = (s2.arrays st.values).bind Arr.ptr from rfl, hv] at hp; cases hp
            | some z =>
              rw [show (args s2 st).vals = (s2.arrays st.values).bind Arr.ptr from rfl, hv] at hp
              rw [e67.arrays _ _ hv]; exact hp
          · show (writes (s6.trace ++ [.write p])).getLast? = _
            rw [writes_append]
            exact List.getLast?_concat

end Verif.Memory
