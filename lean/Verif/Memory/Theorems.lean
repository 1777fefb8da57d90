import Verif.Memory.History

namespace Verif.Memory

/-! ### One call -/

theorem change_okay {s : State} {own} (h : Good s own) (t : Nat) (f : Tensor → Tensor)
    (hst : ∀ x, s.tensors t = some x → ∃ st, s.stores (f x).store = some st)
    (hr : ∀ x, s.tensors t = some x → TensorReady s x → TensorReady s (f x)) (hf : ∀ x : Tensor, x.flag = false → (f x).flag = false) :
    Okay s own (change t f s) own := by
  have hc : ∀ v y, (change t f s).tensors v = some y → (v = t ∧ ∃ x, s.tensors t = some x ∧ y = f x) ∨ (v ≠ t ∧ s.tensors v = some y) := by
    intro v y hy
    have hy : upd s.tensors t ((s.tensors t).map f) v = some y := hy
    by_cases hvt : v = t
    · subst hvt
      rw [upd_same] at hy
      cases hx : s.tensors v with
      | none => rw [hx] at hy; cases hy
      | some x => rw [hx] at hy; injection hy with hy; exact Or.inl ⟨rfl, x, rfl, hy.symm⟩
    · rw [upd_other _ _ hvt] at hy; exact Or.inr ⟨hvt, hy⟩
  refine ⟨⟨{ h.1 with tensorB := ?_, tstore := ?_ }, ?_⟩, fun _ _ hp => hp, ?_⟩
  · intro v y hy
    rcases hc v y hy with ⟨rfl, x, hx, _⟩ | ⟨_, hx⟩
    · exact h.1.tensorB v x hx
    · exact h.1.tensorB v y hx
  · intro v y hy
    rcases hc v y hy with ⟨rfl, x, hx, rfl⟩ | ⟨_, hx⟩
    · exact hst x hx
    · exact h.1.tstore v y hx
  · intro v y _ hy
    rcases hc v y hy with ⟨rfl, x, hx, rfl⟩ | ⟨_, hx⟩
    · exact hr x hx (h.2 v x (fun hh => by cases hh) hx)
    · exact h.2 v y (fun hh => by cases hh) hx
  · intro hfo v y hy
    rcases hc v y hy with ⟨rfl, x, hx, rfl⟩ | ⟨_, hx⟩
    · exact hf x (hfo v x hx)
    · exact hfo v y hx

theorem pack_okay {s : State} {own} (h : Good s own) (t : Nat) : ∃ own', Okay s own (packTensor t s) own' := by
  obtain ⟨o, h1, g1, r1, a1⟩ := pack_inv (t := t) h.1 h.2 (fun hh => by cases hh)
  refine ⟨o, ⟨h1, r1⟩, fun _ => g1.pend, ?_⟩
  intro hf v y hy
  by_cases hvt : v = t
  · subst hvt
    cases hs : s.tensors v with
    | none =>
      have : packTensor v s = s := by unfold packTensor; rw [hs]
      rw [this, hs] at hy; cases hy
    | some x =>
      obtain ⟨x', q1, _, _, _, q5⟩ := a1.same x hs
      rw [q1] at hy; injection hy with hy; subst hy
      rw [q5]; exact hf v x hs
  · rw [a1.other v hvt] at hy; exact hf v y hy

/-- Calls that do not turn `assembleWhileCompute` on. -/
def Quiet : Op → Prop
  | .setFlag _ b => b = false
  | _ => True

theorem act_okay {s : State} {own} (h : Good s own) {o : Op} (ha : Allowed s o) :
    ∃ own', Good (act o s) own' ∧ (Quiet o → Okay s own (act o s) own') := by
  have fin : ∀ {s' own'}, Okay s own s' own' → ∃ own', Good s' own' ∧ (Quiet o → Okay s own s' own') :=
    fun {s' own'} hk => ⟨own', hk.good, fun _ => hk⟩
  cases o with
  | new ks => obtain ⟨o', hk⟩ := construct_okay h ks; exact fin hk
  | csr r c v ow => obtain ⟨o', hk⟩ := csr_okay h ha; exact fin hk
  | insert t =>
    refine fin (change_okay h t _ (fun x hx => h.1.tstore t x hx) (fun x _ hr => ?_) (fun x hx => hx))
    exact ⟨hr.1, hr.2.1, (fun hh => nomatch hh)⟩
  | pack t => obtain ⟨o', hk⟩ := pack_okay h t; exact fin hk
  | assign t srcs =>
    refine fin (change_okay h t _ (fun x hx => h.1.tstore t x hx) (fun x _ hr => ?_) (fun x hx => hx))
    exact ⟨hr.1, (fun _ hh => nomatch hh), (fun _ hh => nomatch hh)⟩
  | setFlag t b =>
    have hk : b = false → Okay s own (act (.setFlag t b) s) own := fun hb =>
      change_okay h t _ (fun x hx => h.1.tstore t x hx) (fun x _ hr => hr) (fun x _ => hb)
    refine ⟨own, ?_, fun hq => hk hq⟩
    -- readiness does not depend on the flag
    have h0 : Okay s own (change t (fun x => { x with flag := false }) s) own :=
      change_okay h t _ (fun x hx => h.1.tstore t x hx) (fun x _ hr => hr) (fun x _ => rfl)
    have hc : ∀ v y, (change t (fun x => { x with flag := b }) s).tensors v = some y →
        ∃ y', (change t (fun x => { x with flag := false }) s).tensors v = some y' ∧ y' = { y with flag := y'.flag } := by
      intro v y hy
      have hy : upd s.tensors t ((s.tensors t).map _) v = some y := hy
      by_cases hvt : v = t
      · subst hvt
        rw [upd_same] at hy
        cases hx : s.tensors v with
        | none => rw [hx] at hy; cases hy
        | some x =>
          rw [hx] at hy; injection hy with hy; subst hy
          refine ⟨{ x with flag := false }, ?_, rfl⟩
          show upd s.tensors v ((s.tensors v).map _) v = _
          rw [upd_same, hx]; rfl
      · rw [upd_other _ _ hvt] at hy
        refine ⟨y, ?_, rfl⟩
        show upd s.tensors t _ v = _
        rw [upd_other _ _ hvt]; exact hy
    refine ⟨{ h.1 with tensorB := ?_, tstore := ?_ }, ?_⟩
    · intro v y hy
      obtain ⟨y', q1, _⟩ := hc v y hy
      exact h0.good.1.tensorB v y' q1
    · intro v y hy
      obtain ⟨y', q1, q2⟩ := hc v y hy
      have := h0.good.1.tstore v y' q1
      rw [q2] at this; exact this
    · intro v y _ hy
      obtain ⟨y', q1, q2⟩ := hc v y hy
      have := h0.good.2 v y' (fun hh => by cases hh) q1
      rw [q2] at this; exact this
  | compile t a => exact fin (change_okay h t _ (fun x hx => h.1.tstore t x hx) (fun x _ hr => hr) (fun x hx => hx))
  | assemble t => obtain ⟨o', hk⟩ := assemble_okay h ha; exact fin hk
  | compute t => obtain ⟨o', hk, _⟩ := compute_okay h ha; exact fin hk
  | share t u =>
    cases hu : s.tensors u with
    | none =>
      have : act (.share t u) s = s := by unfold act; dsimp only; rw [hu]
      rw [this]; exact fin (Okay.refl h)
    | some y =>
      have heq : act (.share t u) s = change t (fun x => { x with needsPack := false, store := y.store }) s := by
        show (match s.tensors u with | some y => _ | none => s) = _
        rw [hu]
      rw [heq]
      obtain ⟨a1, a2⟩ := ha y hu
      exact fin (change_okay h t _ (fun x hx => h.1.tstore u y hu)
        (fun x _ _ => TensorReady.of ((h.2 u y (fun hh => by cases hh) hu).2.2 a1 a2)) (fun x hx => hx))
  | hold a =>
    by_cases hs : (s.arrays a).isSome = true
    · have heq : act (.hold a) s = { s with held := a :: s.held } := if_pos hs
      rw [heq]
      refine fin ⟨⟨{ h.1 with held := ?_ }, h.2⟩, fun _ _ hp => hp, fun hf => hf⟩
      intro b hb
      rcases List.mem_cons.1 hb with rfl | hb
      · exact Option.isSome_iff_exists.1 hs
      · exact h.1.held b hb
    · have heq : act (.hold a) s = s := if_neg hs
      rw [heq]; exact fin (Okay.refl h)
  | release a =>
    exact fin ⟨⟨{ h.1 with held := fun b hb => h.1.held b (List.mem_of_mem_erase hb) }, h.2⟩, fun _ _ hp => hp, fun hf => hf⟩
  | drop t =>
    have hc : ∀ v y, (setTensor t none s).tensors v = some y → s.tensors v = some y := by
      intro v y hy
      have hy : upd s.tensors t none v = some y := hy
      by_cases hvt : v = t
      · subst hvt; rw [upd_same] at hy; cases hy
      · rw [upd_other _ _ hvt] at hy; exact hy
    exact fin ⟨⟨{ h.1 with tensorB := fun v y hy => h.1.tensorB v y (hc v y hy), tstore := fun v y hy => h.1.tstore v y (hc v y hy) },
      fun v y hv hy => h.2 v y hv (hc v y hy)⟩, fun _ _ hp => hp, fun hf v y hy => hf v y (hc v y hy)⟩
  | userMalloc =>
    obtain ⟨h1, l1⟩ := alloc_inv h.1 (w := .user) (o := .user) trivial (Or.inl rfl)
    have e1 := alloc_ext h.1 (w := .user) (o := .user) ⟨by simp, by simp⟩
    refine fin (own' := upd own s.next .user) ⟨⟨{ h1 with user := ?_ }, ?_⟩, fun _ p hp => e1.pend p hp, fun hf => hf⟩
    · intro p hp
      rcases List.mem_cons.1 hp with rfl | hp
      · exact ⟨l1, upd_same _ _ _⟩
      · exact h1.user p hp
    · intro v y hv hy
      exact (h.2 v y hv hy).mono fun i hi => e1.ready hi
  | userFree p =>
    obtain ⟨hp, hu⟩ := ha
    obtain ⟨lp, op⟩ := h.1.user p hp
    have hm : ∀ q w, Ev.malloc q w ∈ s.trace ++ [.free p] → Ev.malloc q w ∈ s.trace := by
      intro q w hm
      rcases List.mem_append.1 hm with hm | hm
      · exact hm
      · simp at hm
    have hl : ∀ q, Live s.trace q → q ≠ p → Live (s.trace ++ [.free p]) q := fun q hq hne =>
      live_emit hq (fun hh => hne (by injection hh with hh; exact hh.symm))
    refine fin (own' := own) ⟨⟨{ h.1 with
      safe := safe_snoc h.1.safe lp
      bound := fun q w hw => h.1.bound q w (hm q w hw)
      arr := ?_
      desc := ?_
      user := ?_
      tag := fun q w hw => h.1.tag q w (hm q w hw)
      back := fun q w hw hf => h.1.back q w (hm q w hw) (fun hx => hf (List.mem_append_left _ hx))
      lost := fun q hq hx => by
        rcases List.mem_append.1 hx with hx | hx
        · exact h.1.lost q hq hx
        · rw [List.mem_singleton] at hx; injection hx with hx; subst hx; rw [op] at hq; cases hq }, h.2⟩, ?_, fun hf => hf⟩
    · intro a x q h1 h2
      obtain ⟨g1, g2⟩ := h.1.arr a x q h1 h2
      exact ⟨hl q g1 (fun hh => hu a x h1 (hh ▸ h2)), g2⟩
    · intro i st h1
      obtain ⟨g1, g2⟩ := h.1.desc i st h1
      exact ⟨hl _ g1 (fun hh => by rw [hh, op] at g2; cases g2), g2⟩
    · intro q hq
      obtain ⟨hq, hne⟩ := List.mem_filter.1 hq
      obtain ⟨g1, g2⟩ := h.1.user q hq
      exact ⟨hl q g1 (by simpa using hne), g2⟩
    · rintro _ q ⟨hq, ho⟩
      exact ⟨(live_free hq).1, ho⟩

theorem step_okay {s : State} {own} (h : Good s own) {o : Op} (ha : Allowed s o) :
    ∃ own', Good (step o s) own' ∧ (Quiet o → Okay s own (step o s) own') := by
  obtain ⟨o', h1, h2⟩ := act_okay h ha
  have := reclaim_okay (Okay.refl h1)
  exact ⟨o', this.good, fun hq => reclaim_okay (h2 hq)⟩

theorem init_good : Good init (fun _ => .lost) := by
  refine ⟨⟨safe_nil, ?_, ?_, ?_, ?_, ?_, ?_, ?_, ?_, ?_, ?_, ?_, ?_, ?_, ?_⟩, ?_⟩
  · intro p w h; cases h
  · intro a x p h; cases h
  · intro a x h; cases h
  · intro a h; cases h
  · intro a x h; cases h
  · intro a x h; cases h
  · intro a x h; cases h
  · intro a x h; cases h
  · intro a x h; cases h
  · intro a h; cases h
  · intro a x h; cases h
  · intro a x h; cases h
  · intro a x h; cases h
  · intro a _ h; cases h
  · intro a x _ h; cases h

theorem run_good : ∀ {ops : List Op} {s : State} {own}, Good s own → AllowedAll ops s → ∃ own', Good (run ops s) own'
  | [], _, own, h, _ => ⟨own, h⟩
  | o :: ops, s, own, h, ha => by
    obtain ⟨o1, h1, _⟩ := step_okay h ha.1
    exact run_good (ops := ops) h1 ha.2

theorem run_quiet : ∀ {ops : List Op} {s : State} {own}, Good s own → AllowedAll ops s → NoFlag ops → FlagsOff s →
    (∀ p, ¬ Pend s own p) → ∃ own', Good (run ops s) own' ∧ ∀ p, ¬ Pend (run ops s) own' p
  | [], _, own, h, _, _, _, hp => ⟨own, h, hp⟩
  | o :: ops, s, own, h, ha, hn, hf, hp => by
    obtain ⟨o1, _, h2⟩ := step_okay h ha.1
    have hk := h2 (by
      have := hn o List.mem_cons_self
      cases o <;> exact this)
    exact run_quiet (ops := ops) hk.good ha.2 (fun o' ho' => hn o' (List.mem_cons_of_mem _ ho')) (hk.flags hf)
      (fun p hh => hp p (hk.pend hf p hh))

theorem run_append (a b : List Op) (s : State) : run (a ++ b) s = run b (run a s) := List.foldl_append

theorem allowed_append : ∀ {a b : List Op} {s : State}, AllowedAll (a ++ b) s ↔ AllowedAll a s ∧ AllowedAll b (run a s)
  | [], _, _ => by simp [AllowedAll, run]
  | o :: a, b, s => by
    show Allowed s o ∧ AllowedAll (a ++ b) (step o s) ↔ (Allowed s o ∧ AllowedAll a (step o s)) ∧ AllowedAll b (run a (step o s))
    rw [allowed_append, and_assoc]

/-! ### The properties -/

/-- C77, safety. In every history in which the user observes the rules, memory is used and freed only while it is allocated.
(Partial: the rules are needed, see `double_free_fails` and `unassembled_fails`; CUDA memory, and what kernels do inside
the arrays, are left out.) -/
theorem memory_safe_partial (ops : List Op) (h : AllowedAll ops init) : Safe (run ops init).trace := by
  obtain ⟨o, hg⟩ := run_good init_good h
  exact hg.1.safe

/-- C77, arrays. The memory of every array that a tensor refers to or that the user holds is there. -/
theorem arrays_alive_partial (ops : List Op) (h : AllowedAll ops init) (a : Nat) (x : Arr) (p : Ptr)
    (ha : (run ops init).arrays a = some x) (hp : x.ptr = some p) : (∃ w, .malloc p w ∈ (run ops init).trace) ∧ .free p ∉ (run ops init).trace := by
  obtain ⟨o, hg⟩ := run_good init_good h
  exact (hg.1.arr a x p ha hp).1

/-- C77, memory of the user. What the user allocated and has neither given away nor freed is not freed. -/
theorem user_memory_partial (ops : List Op) (h : AllowedAll ops init) (p : Ptr) (hp : p ∈ (run ops init).user) :
    .free p ∉ (run ops init).trace := by
  obtain ⟨o, hg⟩ := run_good init_good h
  exact (hg.1.user p hp).1.2

/-- C77, leaks. When all tensors and arrays are gone, values, structures and sizes were freed: what remains is index arrays of
kernels, fill values, and memory of the user. (Partial: without `assembleWhileCompute`, see `assemble_twice_fails`; index
arrays and fill values do remain, see `index_arrays_fails`.) -/
theorem no_leak_partial (ops : List Op) (h : AllowedAll ops init) (hn : NoFlag ops) (hne : ops ≠ [])
    (ht : ∀ t, (run ops init).tensors t = none) (hh : (run ops init).held = []) (p : Ptr) (w : What)
    (hl : Leaked (run ops init).trace p w) : w = .index ∨ w = .fill ∨ w = .user := by
  obtain ⟨own, hg, hp⟩ := run_quiet init_good h hn (fun t x hx => by cases hx) (fun p hp => by
    obtain ⟨⟨w, hw⟩, _⟩ := hp.1
    cases hw)
  -- nothing is left that could free memory
  obtain ⟨s, hrun⟩ : ∃ s, run ops init = reclaim s := by
    rcases List.eq_nil_or_concat ops with rfl | ⟨l, b, rfl⟩
    · exact absurd rfl hne
    · exact ⟨act b (run l init), by rw [List.concat_eq_append, run_append]; rfl⟩
  rw [hrun] at ht hh hl hg hp
  have ht' : ∀ t, s.tensors t = none := ht
  have hh' : s.held = [] := hh
  have hsu : ∀ i, storeUsed s i = false := by
    intro i
    unfold storeUsed
    rw [List.any_eq_false]
    intro t _
    rw [ht' t]
    simp
  have hau : ∀ a, arrayUsed s a = false := by
    intro a
    unfold arrayUsed
    rw [hh', Bool.or_eq_false_iff]
    refine ⟨rfl, ?_⟩
    rw [List.any_eq_false]
    intro i _
    rw [hsu i]
    simp
  have htag := hg.1.tag p w hl.1
  have hback := hg.1.back p w hl.1 hl.2
  have hnp : own p ≠ .pending ∧ own p ≠ .tmp :=
    ⟨fun hh => hp p ⟨⟨⟨w, hl.1⟩, hl.2⟩, Or.inl hh⟩, fun hh => hp p ⟨⟨⟨w, hl.1⟩, hl.2⟩, Or.inr hh⟩⟩
  have hna : ∀ a, own p ≠ .arr a := by
    intro a ho
    rw [ho] at hback
    obtain ⟨x, q1, _⟩ := hback
    obtain ⟨q, _⟩ := reclaim_arr q1
    rw [hau a] at q; cases q
  have hnd : ∀ i, own p ≠ .desc i := by
    intro i ho
    rw [ho] at hback
    obtain ⟨x, q1, _⟩ := hback
    obtain ⟨q, _⟩ := reclaim_store q1
    rw [hsu i] at q; cases q
  cases w with
  | values =>
    rcases htag with hh | ⟨a, hh⟩
    · exact absurd hh hnp.1
    · exact absurd hh (hna a)
  | size =>
    rcases htag with hh | ⟨a, hh⟩
    · exact absurd hh hnp.1
    · exact absurd hh (hna a)
  | desc =>
    rcases htag with hh | ⟨a, hh⟩
    · exact absurd hh hnp.2
    · exact absurd hh (hnd a)
  | index => exact Or.inl rfl
  | fill => exact Or.inr (Or.inl rfl)
  | user => exact Or.inr (Or.inr rfl)

/-- C77, what remains. No array of positions or coordinates that a kernel allocated, and no fill value, is ever freed,
whatever the history. -/
theorem index_arrays_fails (ops : List Op) (h : AllowedAll ops init) (p : Ptr) (w : What) (hw : w = .index ∨ w = .fill)
    (hm : .malloc p w ∈ (run ops init).trace) : Leaked (run ops init).trace p w := by
  obtain ⟨own, hg⟩ := run_good init_good h
  refine ⟨hm, ?_⟩
  have htag := hg.1.tag p w hm
  have hlost : own p = .lost := by rcases hw with rfl | rfl <;> exact htag
  exact hg.1.lost p hlost

/-- C77, results. After `compute` of a tensor that waits for it, the tensor holds the memory that the kernel wrote values to.
(Partial: the kernel has to be compiled for the `assembleWhileCompute` of the tensor, see `lost_result_fails`.) -/
theorem computed_partial (ops : List Op) (t : Nat) (h : AllowedAll (ops ++ [.compute t]) init) (x : Tensor)
    (hx : (run ops init).tensors t = some x) (hn : x.needsCompute = true) :
    ∃ y st p, (run (ops ++ [.compute t]) init).tensors t = some y ∧ y.needsCompute = false ∧
      (run (ops ++ [.compute t]) init).stores y.store = some st ∧
      ((run (ops ++ [.compute t]) init).arrays st.values).bind Arr.ptr = some p ∧
      (((run (ops ++ [.compute t]) init).trace.filterMap fun e => match e with | .write q => some q | _ => none).getLast? = some p) := by
  rw [allowed_append] at h
  obtain ⟨own, hg⟩ := run_good init_good h.1
  obtain ⟨o', hk, hc⟩ := compute_okay hg h.2.1
  obtain ⟨⟨st, p, q1, q2, q3⟩, y, q4, q5, q6⟩ := hc x hx hn
  rw [run_append]
  have hrun : run [Op.compute t] (run ops init) = reclaim (compute t (run ops init)) := rfl
  rw [hrun]
  have hu := storeUsed_of hk.good.1 q4
  rw [q5] at hu
  refine ⟨y, st, p, q4, q6, ?_, ?_, ?_⟩
  · rw [q5, reclaim_store' hu]; exact q1
  · rw [reclaim_arr' (arrayUsed_values hk.good.1 q1 hu)]; exact q2
  · have := writes_reclaim (s := compute t (run ops init))
    show (writes _).getLast? = _
    rw [this]; exact q3

/-! ### What is handed to the next kernel -/

def Stable (s s' : State) : Prop := s.nextA ≤ s'.nextA ∧ ∀ a, a < s.nextA → s'.arrays a = s.arrays a

theorem Stable.trans {s s' s'' : State} (h : Stable s s') (g : Stable s' s'') : Stable s s'' :=
  ⟨Nat.le_trans h.1 g.1, fun a ha => (g.2 a (Nat.lt_of_lt_of_le ha h.1)).trans (h.2 a ha)⟩

theorem addArr_stable (s : State) (y : Arr) : Stable s (addArr y s).1 := ⟨Nat.le_succ _, fun _ ha => upd_other _ _ (Nat.ne_of_lt ha)⟩

/-- The arrays hold the pointers of the level. -/
def Holds (s : State) (l : Kind × List (Option Ptr)) (ids : List Nat) : Prop := match l.1 with
  | .dense => True
  | .sparse => ∃ a b, ids = [a, b] ∧ a < s.nextA ∧ b < s.nextA ∧ s.arrays a = some ⟨slot l.2 0, false⟩ ∧ s.arrays b = some ⟨slot l.2 1, false⟩
  | .singleton => ∃ a b, ids = [a, b] ∧ b < s.nextA ∧ s.arrays b = some ⟨slot l.2 1, false⟩

theorem Holds.stable {s s' l ids} (h : Holds s l ids) (g : Stable s s') : Holds s' l ids := by
  unfold Holds at h ⊢
  cases hk : l.1 <;> rw [hk] at h <;> dsimp only at h ⊢
  · obtain ⟨a, b, h1, h2, h3, h4, h5⟩ := h
    exact ⟨a, b, h1, Nat.lt_of_lt_of_le h2 g.1, Nat.lt_of_lt_of_le h3 g.1, by rw [g.2 a h2]; exact h4, by rw [g.2 b h3]; exact h5⟩
  · obtain ⟨a, b, h1, h3, h5⟩ := h
    exact ⟨a, b, h1, Nat.lt_of_lt_of_le h3 g.1, by rw [g.2 b h3]; exact h5⟩

theorem unpackLevel_holds (l : Kind × List (Option Ptr)) (s : State) :
    Stable s (unpackLevel l s).1 ∧ Holds (unpackLevel l s).1 l (unpackLevel l s).2 := by
  unfold unpackLevel Holds
  cases hk : l.1 <;> dsimp only
  · exact ⟨addArr_stable (alloc .size (access (slot l.2 0) s)).1 _, trivial⟩
  · refine ⟨(addArr_stable (access (slot l.2 0) s) _).trans (addArr_stable _ _), _, _, rfl, ?_, Nat.lt_succ_self _, ?_, addArr_at _ _⟩
    · exact Nat.lt_succ_of_lt (Nat.lt_succ_self _)
    · rw [(addArr_stable _ _).2 _ (Nat.lt_succ_self _)]; exact addArr_at _ _
  · exact ⟨(addArr_stable (alloc .size s).1 _).trans (addArr_stable _ _), _, _, rfl, Nat.lt_succ_self _, addArr_at _ _⟩

theorem unpackLevels_holds : ∀ (ls : List (Kind × List (Option Ptr))) (s : State), Stable s (unpackLevels ls s).1 ∧
    ∀ (n : Nat) (l : Kind × List (Option Ptr)), ls[n]? = some l → ∃ ids, (unpackLevels ls s).2[n]? = some ids ∧ Holds (unpackLevels ls s).1 l ids := by
  intro ls
  induction ls with
  | nil => intro s; exact ⟨⟨Nat.le_refl _, fun _ _ => rfl⟩, fun n l h => by simp at h⟩
  | cons m ls ih =>
    intro s
    obtain ⟨g1, h1⟩ := unpackLevel_holds m s
    obtain ⟨g2, h2⟩ := ih (unpackLevel m s).1
    refine ⟨g1.trans g2, ?_⟩
    intro n l hl
    cases n with
    | zero =>
      have hl : some m = some l := hl
      injection hl with hl; subst hl
      exact ⟨_, rfl, h1.stable g2⟩
    | succ n => exact h2 n l hl

/-- C77, handing on. The structure that the next kernel gets holds the pointers of the values, of the positions and coordinates
of compressed levels and of the coordinates of singleton levels that the last kernel left. -/
theorem handed_on (i : Nat) (a : Args) (s : State) (st : Store) (hi : s.stores i = some st)
    (hk : a.levels.map Prod.fst = (st.kinds.zip st.index).map Prod.fst) :
    ∃ st', (unpack i a s).stores i = some st' ∧ (args (unpack i a s) st').vals = a.vals ∧ st'.kinds = st.kinds ∧ st'.desc = st.desc ∧
      ∀ (n : Nat) (k : Kind) (sl : List (Option Ptr)), a.levels[n]? = some (k, sl) → ∃ sl', (args (unpack i a s) st').levels[n]? = some (k, sl') ∧
        (k = .sparse → sl' = [slot sl 0, slot sl 1]) ∧ (k = .singleton → sl' = [none, slot sl 1]) := by
  obtain ⟨g, hh⟩ := unpackLevels_holds a.levels s
  have hst : (addArr ⟨a.vals, true⟩ (unpackLevels a.levels s).1).1.stores i = some st := by
    have : ∀ ls (s : State), (unpackLevels ls s).1.stores = s.stores := by
      intro ls
      induction ls with
      | nil => intro s; rfl
      | cons m ls ih =>
        intro s
        show (unpackLevels ls (unpackLevel m s).1).1.stores = _
        rw [ih]
        unfold unpackLevel
        cases m.1 <;> rfl
    show (unpackLevels a.levels s).1.stores i = some st
    rw [this]; exact hi
  have heq : unpack i a s = setStore i (some (Store.mk st.kinds (unpackLevels a.levels s).2
      (addArr ⟨a.vals, true⟩ (unpackLevels a.levels s).1).2 st.desc)) (addArr ⟨a.vals, true⟩ (unpackLevels a.levels s).1).1 := by
    unfold unpack
    dsimp only
    rw [hst]
  have g' := addArr_stable (unpackLevels a.levels s).1 ⟨a.vals, true⟩
  rw [heq]
  refine ⟨_, upd_same _ _ _, ?_, rfl, rfl, ?_⟩
  · show ((addArr ⟨a.vals, true⟩ (unpackLevels a.levels s).1).1.arrays _).bind Arr.ptr = _
    dsimp only
    rw [addArr_at]; rfl
  · intro n k sl hl
    obtain ⟨ids, h1, h2⟩ := hh n (k, sl) hl
    have h2 := h2.stable g'
    have hkn : st.kinds[n]? = some k := by
      have h3 : (a.levels.map Prod.fst)[n]? = some k := by rw [List.getElem?_map, hl]; rfl
      rw [hk, List.getElem?_map] at h3
      cases hz : (st.kinds.zip st.index)[n]? with
      | none => rw [hz] at h3; cases h3
      | some z =>
        rw [hz] at h3
        injection h3 with h3
        rw [← h3]
        exact (List.getElem?_zip_eq_some.1 hz).1
    have hlev : (args (setStore i (some (Store.mk st.kinds (unpackLevels a.levels s).2
        (addArr ⟨a.vals, true⟩ (unpackLevels a.levels s).1).2 st.desc)) (addArr ⟨a.vals, true⟩ (unpackLevels a.levels s).1).1)
        (Store.mk st.kinds (unpackLevels a.levels s).2 (addArr ⟨a.vals, true⟩ (unpackLevels a.levels s).1).2 st.desc)).levels[n]? =
        some (k, slots (addArr ⟨a.vals, true⟩ (unpackLevels a.levels s).1).1.arrays k ids) := by
      show ((st.kinds.zip (unpackLevels a.levels s).2).map _)[n]? = _
      rw [List.getElem?_map, List.getElem?_zip_eq_some (z := (k, ids)) |>.2 ⟨hkn, h1⟩]
      rfl
    refine ⟨_, hlev, ?_, ?_⟩
    · rintro rfl
      obtain ⟨x, y, rfl, _, _, q1, q2⟩ := h2
      show [ptrAt _ [x, y] 0, ptrAt _ [x, y] 1] = _
      unfold ptrAt
      show [Option.bind (some x) _, Option.bind (some y) _] = _
      dsimp only [Option.bind]
      rw [q1, q2]
    · rintro rfl
      obtain ⟨x, y, rfl, _, q2⟩ := h2
      show [none, ptrAt _ [x, y] 1] = _
      unfold ptrAt
      show [none, Option.bind (some y) _] = _
      dsimp only [Option.bind]
      rw [q2]

/-- A matrix with a dense and a compressed level that a kernel has assembled. -/
example : ∃ st', (unpack 0 ⟨[(.dense, [some 0]), (.sparse, [some 9, some 10])], some 11, 1⟩ (run [.new [.dense, .sparse]] init)).stores 0 = some st' ∧
    (args (unpack 0 ⟨[(.dense, [some 0]), (.sparse, [some 9, some 10])], some 11, 1⟩ (run [.new [.dense, .sparse]] init)) st').levels[1]? =
      some (.sparse, [some 9, some 10]) := ⟨_, rfl, by decide +kernel⟩

/-! ### Cases -/

instance decSome {α : Type} (o : Option α) (P : α → Prop) [DecidablePred P] : Decidable (∀ x, o = some x → P x) := match o with
  | none => isTrue (fun _ h => nomatch h)
  | some y => if h : P y then isTrue (fun x hx => by injection hx with hx; exact hx ▸ h) else isFalse (fun hh => h (hh y rfl))

instance decEx {α : Type} (o : Option α) (P : α → Prop) [DecidablePred P] : Decidable (∃ x, o = some x ∧ P x) := match o with
  | none => isFalse (fun ⟨_, h, _⟩ => nomatch h)
  | some y => if h : P y then isTrue ⟨y, rfl, h⟩ else isFalse (fun ⟨x, hx, hh⟩ => h (by injection hx with hx; exact hx ▸ hh))

instance (s : State) (t : Nat) : Decidable (NotPending s t) := decEx _ _

/-- A compressed vector is assigned a dense vector and computed, twice; then both tensors go. -/
def twice : List Op := [.new [.sparse], .new [.dense], .insert 1, .assign 0 [1], .compile 0 false, .assemble 0, .compute 0,
  .assign 0 [1], .compile 0 false, .assemble 0, .compute 0]

theorem twice_allowed : AllowedAll twice init := by
  unfold twice AllowedAll
  repeat' (first | refine ⟨?_, ?_⟩ | unfold AllowedAll)
  all_goals first | trivial | (unfold Allowed; decide +kernel) | skip

theorem allowed_drop {ops : List Op} (h : AllowedAll ops init) (a b : Nat) : AllowedAll (ops ++ [.drop a, .drop b]) init :=
  allowed_append.2 ⟨h, trivial, trivial, trivial⟩

/-- The history is safe; it has freed all values and left two arrays of positions and two of coordinates. -/
example : Safe (run (twice ++ [.drop 0, .drop 1]) init).trace := memory_safe_partial _ (allowed_drop twice_allowed 0 1)

example : ∀ t, (run (twice ++ [.drop 0, .drop 1]) init).tensors t = none := by
  intro t
  match t with
  | 0 => rfl
  | 1 => rfl
  | _ + 2 => rfl

example : ((run (twice ++ [.drop 0, .drop 1]) init).trace.filterMap fun e => match e with | .malloc p .values => some p | _ => none) = [7, 11, 14] ∧
    ((run (twice ++ [.drop 0, .drop 1]) init).trace.filterMap fun e => match e with | .malloc p .index => some p | _ => none) = [9, 10, 12, 13] ∧
    ((run (twice ++ [.drop 0, .drop 1]) init).trace.filterMap fun e => match e with | .free p => some p | _ => none) = [5, 2, 11, 14, 0, 8, 7, 3] := by
  decide +kernel

/-- The user gives values away and keeps the index arrays. -/
def given : List Op := [.userMalloc, .userMalloc, .userMalloc, .csr 0 1 2 true, .new [.dense, .dense], .assign 1 [0], .compile 1 false,
  .assemble 1, .compute 1]

theorem given_allowed : AllowedAll given init := by
  refine ⟨trivial, trivial, trivial, ⟨by decide, by decide, by decide, fun _ => ⟨by decide, by decide, ?_⟩⟩, trivial, trivial, trivial, ?_, ?_, trivial⟩
  · intro a x h
    have h1 := (reclaim_arr (a := a) (s := act .userMalloc (step .userMalloc (step .userMalloc init))) h).2
    have h2 := (reclaim_arr (a := a) (s := act .userMalloc (step .userMalloc init)) h1).2
    have h3 := (reclaim_arr (a := a) (s := act .userMalloc init) h2).2
    exact nomatch (show (none : Option Arr) = some x from h3)
  · unfold Allowed; decide +kernel
  · unfold Allowed; decide +kernel

example : (run given init).user = [1, 0] := by decide +kernel

example : Ev.free 0 ∉ (run given init).trace := user_memory_partial _ given_allowed 0 (by decide +kernel)

/-- Tensors that are computed with assembling in one kernel. -/
def fusing : List Op := [.new [.sparse], .new [.dense], .insert 1, .setFlag 0 true, .assign 0 [1], .compile 0 true, .assemble 0, .compute 0]

theorem fusing_allowed : AllowedAll fusing init := by
  refine ⟨trivial, trivial, trivial, trivial, trivial, trivial, ?_, ?_, trivial⟩
  · unfold Allowed; decide +kernel
  · unfold Allowed; decide +kernel

example : ∃ x, (run (fusing.take 7) init).tensors 0 = some x ∧ x.needsCompute = true := by decide +kernel

/-! ### The rules are needed -/

theorem unsafe_free {tr : List Ev} (i : Nat) (p : Ptr) (h1 : tr[i]? = some (.free p)) (h2 : Ev.free p ∈ tr.take i) : ¬ Safe tr := by
  intro h
  obtain ⟨hi, hp⟩ := List.getElem?_eq_some_iff.1 h1
  have := h (tr.take i) (.free p) (tr.drop (i + 1)) (by
    rw [← hp, ← List.drop_eq_getElem_cons hi, List.take_append_drop])
  exact this.2 h2

theorem unsafe_use {tr : List Ev} (i : Nat) (p : Ptr) (h1 : tr[i]? = some (.use p)) (h2 : Ev.free p ∈ tr.take i) : ¬ Safe tr := by
  intro h
  obtain ⟨hi, hp⟩ := List.getElem?_eq_some_iff.1 h1
  have := h (tr.take i) (.use p) (tr.drop (i + 1)) (by
    rw [← hp, ← List.drop_eq_getElem_cons hi, List.take_append_drop])
  exact this.2 h2

theorem unsafe_wild {tr : List Ev} (h2 : Ev.wild ∈ tr) : ¬ Safe tr := by
  intro h
  obtain ⟨pre, post, hp⟩ := List.append_of_mem h2
  exact h pre _ post hp

/-- C77 fails when `assembleWhileCompute` is turned on and the module comes from the cache, compiled without it
(`Verif.Kernel.cache_flag_fails`): the tensor wraps its own values a second time and frees them, and frees them again later. -/
theorem double_free_fails : ¬ Safe (run [.new [.dense], .new [.dense], .insert 1, .assign 0 [1], .compile 0 false, .assemble 0, .compute 0,
    .setFlag 0 true, .assign 0 [1], .compile 0 false, .compute 0, .drop 0] init).trace :=
  unsafe_free 36 10 (by decide +kernel) (by decide +kernel)

/-- C77 fails when a tensor is computed that was not assembled. -/
theorem unassembled_fails : ¬ Safe (run [.new [.sparse], .new [.dense], .insert 1, .assign 0 [1], .compile 0 false, .compute 0] init).trace :=
  unsafe_wild (by decide +kernel)

/-- C77 fails for results of a kernel that was compiled to assemble (`compile(stmt, true)`) for a tensor that does not have
`assembleWhileCompute`: the kernel writes to memory that nothing refers to, and the values the tensor holds were never written. -/
theorem lost_result_fails : ∃ s, s = run [.new [.dense], .new [.dense], .insert 1, .assign 0 [1], .compile 0 true, .assemble 0, .compute 0] init ∧
    ∃ x, s.tensors 0 = some x ∧ x.needsCompute = false ∧ ∃ st, s.stores x.store = some st ∧
      ∃ p, (s.arrays st.values).bind Arr.ptr = some p ∧ Ev.write p ∉ s.trace :=
  ⟨_, rfl, by
    refine ⟨_, rfl, by decide +kernel, _, rfl, 10, by decide +kernel, by decide +kernel⟩⟩

/-- C77 fails for leaks with `assembleWhileCompute`: what `assemble` allocates is dropped. All rules are observed and all
tensors are gone, and an array of values is not freed. -/
theorem assemble_twice_fails : AllowedAll (fusing ++ [.drop 0, .drop 1]) init ∧ (∀ t, (run (fusing ++ [.drop 0, .drop 1]) init).tensors t = none) ∧
    ∃ p, Leaked (run (fusing ++ [.drop 0, .drop 1]) init).trace p .values := by
  refine ⟨allowed_drop fusing_allowed 0 1, ?_, 11, ?_⟩
  · intro t
    match t with
    | 0 => rfl
    | 1 => rfl
    | _ + 2 => rfl
  · unfold Leaked; decide +kernel

/-- Values that are given to two tensors are freed twice. -/
theorem given_twice_fails : ¬ Safe (run [.userMalloc, .userMalloc, .userMalloc, .csr 0 1 2 true, .csr 0 1 2 true, .drop 0, .drop 1] init).trace :=
  unsafe_free 15 2 (by decide +kernel) (by decide +kernel)

end Verif.Memory
