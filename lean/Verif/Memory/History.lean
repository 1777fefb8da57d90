import Verif.Memory.Api

namespace Verif.Memory

/-! ### Destructors -/

theorem storeUsed_of {s : State} {own} (h : Inv s own) {t : Nat} {x : Tensor} (hx : s.tensors t = some x) : storeUsed s x.store = true := by
  unfold storeUsed
  rw [List.any_eq_true]
  refine ⟨t, List.mem_range.2 (h.tensorB t x hx), ?_⟩
  rw [hx]
  exact beq_self_eq_true _

theorem arrayUsed_values {s : State} {own} (h : Inv s own) {i : Nat} {st : Store} (hi : s.stores i = some st) (hu : storeUsed s i = true) :
    arrayUsed s st.values = true := by
  unfold arrayUsed
  rw [Bool.or_eq_true]
  right
  rw [List.any_eq_true]
  refine ⟨i, List.mem_range.2 (h.storeB i st hi), ?_⟩
  rw [hi, hu]
  simp

theorem arrayUsed_index {s : State} {own} (h : Inv s own) {i : Nat} {st : Store} (hi : s.stores i = some st) (hu : storeUsed s i = true)
    {ids : List Nat} (hids : ids ∈ st.index) {a : Nat} (ha : a ∈ ids) : arrayUsed s a = true := by
  unfold arrayUsed
  rw [Bool.or_eq_true]
  right
  rw [List.any_eq_true]
  refine ⟨i, List.mem_range.2 (h.storeB i st hi), ?_⟩
  rw [hi, hu]
  dsimp only
  rw [Bool.true_and, Bool.or_eq_true]
  right
  rw [List.any_eq_true]
  exact ⟨ids, hids, by simpa using ha⟩

theorem arrayUsed_held {s : State} {a : Nat} (ha : a ∈ s.held) : arrayUsed s a = true := by
  unfold arrayUsed
  rw [Bool.or_eq_true]
  left
  simpa using ha

/-- The destructors, by owner. -/
def drops (s : State) : Owner → List Ev
  | .arr a => dropArr s a
  | .desc i => dropStore s i
  | _ => []

theorem drops_eq (s : State) : (List.range s.nextA).flatMap (dropArr s) ++ (List.range s.nextS).flatMap (dropStore s) =
    ((List.range s.nextA).map Owner.arr ++ (List.range s.nextS).map Owner.desc).flatMap (drops s) := by
  rw [List.flatMap_append, List.flatMap_map, List.flatMap_map]
  rfl

theorem drops_mem {s : State} {own} (h : Inv s own) {p : Ptr}
    (hp : Ev.free p ∈ (List.range s.nextA).flatMap (dropArr s) ++ (List.range s.nextS).flatMap (dropStore s)) :
    Live s.trace p ∧ ((∃ a, own p = .arr a ∧ arrayUsed s a = false) ∨ ∃ i, own p = .desc i ∧ storeUsed s i = false) := by
  rcases List.mem_append.1 hp with hp | hp
  · obtain ⟨a, _, ha⟩ := List.mem_flatMap.1 hp
    unfold dropArr at ha
    split at ha
    · cases ha
    · rename_i hu
      split at ha
      · rename_i q hq
        rw [List.mem_singleton] at ha; injection ha with ha; subst ha
        obtain ⟨g1, g2⟩ := h.arr a _ p hq rfl
        exact ⟨g1, Or.inl ⟨a, g2, by simpa using hu⟩⟩
      · cases ha
  · obtain ⟨i, _, hi⟩ := List.mem_flatMap.1 hp
    unfold dropStore at hi
    split at hi
    · cases hi
    · rename_i hu
      split at hi
      · rename_i st hst
        rw [List.mem_singleton] at hi; injection hi with hi; subst hi
        obtain ⟨g1, g2⟩ := h.desc i st hst
        exact ⟨g1, Or.inr ⟨i, g2, by simpa using hu⟩⟩
      · cases hi

theorem drops_malloc {s : State} {p : Ptr} {w : What} :
    Ev.malloc p w ∉ (List.range s.nextA).flatMap (dropArr s) ++ (List.range s.nextS).flatMap (dropStore s) := by
  intro hp
  rcases List.mem_append.1 hp with hp | hp
  · obtain ⟨a, _, ha⟩ := List.mem_flatMap.1 hp
    unfold dropArr at ha
    split at ha
    · cases ha
    · split at ha
      · rw [List.mem_singleton] at ha; cases ha
      · cases ha
  · obtain ⟨a, _, ha⟩ := List.mem_flatMap.1 hp
    unfold dropStore at ha
    split at ha
    · cases ha
    · split at ha
      · rw [List.mem_singleton] at ha; cases ha
      · cases ha

theorem reclaim_arr {s : State} {a : Nat} {x : Arr} (h : (reclaim s).arrays a = some x) : arrayUsed s a = true ∧ s.arrays a = some x := by
  have h : (if arrayUsed s a then s.arrays a else none) = some x := h
  split at h
  · exact ⟨by assumption, h⟩
  · cases h

theorem reclaim_store {s : State} {a : Nat} {x : Store} (h : (reclaim s).stores a = some x) : storeUsed s a = true ∧ s.stores a = some x := by
  have h : (if storeUsed s a then s.stores a else none) = some x := h
  split at h
  · exact ⟨by assumption, h⟩
  · cases h

theorem reclaim_arr' {s : State} {a : Nat} (h : arrayUsed s a = true) : (reclaim s).arrays a = s.arrays a := if_pos h

theorem reclaim_store' {s : State} {a : Nat} (h : storeUsed s a = true) : (reclaim s).stores a = s.stores a := if_pos h

theorem ptrAt_congr {f g : Nat → Option Arr} {ids : List Nat} (h : ∀ a ∈ ids, f a = g a) (k : Nat) : ptrAt f ids k = ptrAt g ids k := by
  unfold ptrAt
  cases hk : ids[k]? with
  | none => rfl
  | some a =>
    dsimp only [Option.bind]
    rw [h a (List.mem_of_getElem? hk)]

theorem reclaim_ptrAt {s : State} {own} (h : Inv s own) {i : Nat} {st : Store} (hi : s.stores i = some st) (hu : storeUsed s i = true)
    {l} (hl : l ∈ st.kinds.zip st.index) (k : Nat) : ptrAt (reclaim s).arrays l.2 k = ptrAt s.arrays l.2 k :=
  ptrAt_congr (fun _ ha => reclaim_arr' (arrayUsed_index h hi hu (List.of_mem_zip hl).2 ha)) k

theorem reclaim_inv {s : State} {own} (h : Inv s own) : Inv (reclaim s) own := by
  have hl : ∀ p, Live s.trace p → (∀ a, own p = .arr a → arrayUsed s a = true) → (∀ i, own p = .desc i → storeUsed s i = true) →
      Live (reclaim s).trace p := by
    intro p hl ha hi
    apply live_append hl
    intro hm
    rcases (drops_mem h hm).2 with ⟨a, q1, q2⟩ | ⟨i, q1, q2⟩
    · rw [ha a q1] at q2; cases q2
    · rw [hi i q1] at q2; cases q2
  have hm : ∀ p w, Ev.malloc p w ∈ (reclaim s).trace → Ev.malloc p w ∈ s.trace := by
    intro p w hm
    rcases List.mem_append.1 hm with hm | hm
    · exact hm
    · exact absurd hm drops_malloc
  refine { safe := ?_, bound := fun p w hw => h.bound p w (hm p w hw), arr := ?_, desc := ?_, user := ?_, arrB := ?_, storeB := ?_,
           tensorB := h.tensorB, tstore := ?_, refs := ?_, held := ?_, base := ?_, tag := fun p w hw => h.tag p w (hm p w hw), back := ?_, lost := ?_ }
  · show Safe (s.trace ++ _)
    rw [drops_eq]
    apply safe_frees (own := own)
    · rw [List.nodup_append]
      refine ⟨List.Pairwise.map _ (fun a b hab hh => hab (by injection hh)) List.nodup_range,
        List.Pairwise.map _ (fun a b hab hh => hab (by injection hh)) List.nodup_range, ?_⟩
      intro a ha b hb hab
      obtain ⟨a', _, rfl⟩ := List.mem_map.1 ha
      obtain ⟨b', _, rfl⟩ := List.mem_map.1 hb
      cases hab
    · intro o ho
      rcases List.mem_append.1 ho with ho | ho
      · obtain ⟨a, _, rfl⟩ := List.mem_map.1 ho
        show dropArr s a = [] ∨ ∃ p, dropArr s a = [.free p] ∧ own p = .arr a ∧ Live s.trace p
        unfold dropArr
        split
        · exact Or.inl rfl
        · split
          · rename_i q hq
            obtain ⟨g1, g2⟩ := h.arr a _ q hq rfl
            exact Or.inr ⟨q, rfl, g2, g1⟩
          · exact Or.inl rfl
      · obtain ⟨a, _, rfl⟩ := List.mem_map.1 ho
        show dropStore s a = [] ∨ ∃ p, dropStore s a = [.free p] ∧ own p = .desc a ∧ Live s.trace p
        unfold dropStore
        split
        · exact Or.inl rfl
        · split
          · rename_i q hq
            obtain ⟨g1, g2⟩ := h.desc a _ hq
            exact Or.inr ⟨q.desc, rfl, g2, g1⟩
          · exact Or.inl rfl
    · exact h.safe
  · intro a x p h1 h2
    obtain ⟨hu, h1⟩ := reclaim_arr h1
    obtain ⟨g1, g2⟩ := h.arr a x p h1 h2
    refine ⟨hl p g1 ?_ ?_, g2⟩
    · intro b hb
      unfold OwnsArr at g2
      rw [hb] at g2
      split at g2
      · injection g2 with g2; subst g2; exact hu
      · rcases g2 with g2 | g2 <;> cases g2
    · intro b hb
      unfold OwnsArr at g2
      rw [hb] at g2
      split at g2
      · cases g2
      · rcases g2 with g2 | g2 <;> cases g2
  · intro i st h1
    obtain ⟨hu, h1⟩ := reclaim_store h1
    obtain ⟨g1, g2⟩ := h.desc i st h1
    refine ⟨hl _ g1 (fun a ha => by rw [g2] at ha; cases ha) (fun a ha => ?_), g2⟩
    rw [g2] at ha; injection ha with ha; subst ha; exact hu
  · intro p hp
    obtain ⟨g1, g2⟩ := h.user p hp
    exact ⟨hl p g1 (fun a ha => by rw [g2] at ha; cases ha) (fun a ha => by rw [g2] at ha; cases ha), g2⟩
  · intro a x h1; exact h.arrB a x (reclaim_arr h1).2
  · intro a x h1; exact h.storeB a x (reclaim_store h1).2
  · intro t x ht
    have ht : s.tensors t = some x := ht
    obtain ⟨st, hst⟩ := h.tstore t x ht
    exact ⟨st, by rw [reclaim_store' (storeUsed_of h ht)]; exact hst⟩
  · intro i st h1
    obtain ⟨hu, h1⟩ := reclaim_store h1
    obtain ⟨⟨x, g1⟩, g2⟩ := h.refs i st h1
    refine ⟨⟨x, by rw [reclaim_arr' (arrayUsed_values h h1 hu)]; exact g1⟩, ?_⟩
    intro ids hids a ha
    obtain ⟨y, hy⟩ := g2 ids hids a ha
    exact ⟨y, by rw [reclaim_arr' (arrayUsed_index h h1 hu hids ha)]; exact hy⟩
  · intro a ha
    have ha : a ∈ s.held := ha
    obtain ⟨x, hx⟩ := h.held a ha
    exact ⟨x, by rw [reclaim_arr' (arrayUsed_held ha)]; exact hx⟩
  · intro i st h1 l hl hd
    obtain ⟨hu, h1⟩ := reclaim_store h1
    rw [reclaim_ptrAt h h1 hu hl]
    exact h.base i st h1 l hl hd
  · intro p w hw hf
    have hb := h.back p w (hm p w hw) (fun hx => hf (List.mem_append_left _ hx))
    have hnf : Ev.free p ∉ (List.range s.nextA).flatMap (dropArr s) ++ (List.range s.nextS).flatMap (dropStore s) :=
      fun hx => hf (List.mem_append_right _ hx)
    cases ho : own p with
    | arr a =>
      rw [ho] at hb
      obtain ⟨x, q1, q2, q3⟩ := hb
      refine ⟨x, ?_, q2, q3⟩
      rw [reclaim_arr']
      · exact q1
      · cases hu : arrayUsed s a with
        | true => rfl
        | false =>
          exfalso
          apply hnf
          apply List.mem_append_left
          apply List.mem_flatMap.2
          refine ⟨a, List.mem_range.2 (h.arrB a x q1), ?_⟩
          unfold dropArr
          obtain ⟨xp, xo⟩ := x
          dsimp only at q2 q3
          subst q2; subst q3
          rw [hu, q1]
          exact List.mem_singleton.2 rfl
    | desc i =>
      rw [ho] at hb
      obtain ⟨st, q1, q2⟩ := hb
      refine ⟨st, ?_, q2⟩
      rw [reclaim_store']
      · exact q1
      · cases hu : storeUsed s i with
        | true => rfl
        | false =>
          exfalso
          apply hnf
          apply List.mem_append_right
          apply List.mem_flatMap.2
          refine ⟨i, List.mem_range.2 (h.storeB i st q1), ?_⟩
          unfold dropStore
          rw [hu, q1]
          dsimp only
          rw [q2]
          exact List.mem_singleton.2 rfl
    | _ => trivial
  · intro p hp hx
    rcases List.mem_append.1 hx with hx | hx
    · exact h.lost p hp hx
    · rcases (drops_mem h hx).2 with ⟨a, q1, _⟩ | ⟨i, q1, _⟩
      · rw [hp] at q1; cases q1
      · rw [hp] at q1; cases q1

theorem reclaim_ready {s : State} {own} (h : Inv s own) {t : Nat} {x : Tensor} (hx : s.tensors t = some x) (hr : Ready s x.store) :
    Ready (reclaim s) x.store := by
  obtain ⟨st, q1, q2, q3⟩ := hr
  have hu := storeUsed_of h hx
  refine ⟨st, by rw [reclaim_store' hu]; exact q1, ?_, ?_⟩
  · rw [reclaim_arr' (arrayUsed_values h q1 hu)]; exact q2
  · intro l hl
    have := q3 l hl
    unfold LevelReady at this ⊢
    rw [reclaim_ptrAt h q1 hu hl, reclaim_ptrAt h q1 hu hl]
    exact this

theorem reclaim_okay {s own s' own'} (h : Okay s own s' own') : Okay s own (reclaim s') own' := by
  refine ⟨⟨reclaim_inv h.good.1, ?_⟩, ?_, h.flags⟩
  · intro t x ht hx
    have hx : s'.tensors t = some x := hx
    have := h.good.2 t x ht hx
    exact ⟨fun a => reclaim_ready h.good.1 hx (this.1 a), fun a b => reclaim_ready h.good.1 hx (this.2.1 a b),
      fun a b => reclaim_ready h.good.1 hx (this.2.2 a b)⟩
  · rintro hf p ⟨hl, ho⟩
    refine h.pend hf p ⟨⟨?_, ?_⟩, ho⟩
    · obtain ⟨w, hw⟩ := hl.1
      rcases List.mem_append.1 hw with hw | hw
      · exact ⟨w, hw⟩
      · exact absurd hw drops_malloc
    · exact fun hx => hl.2 (List.mem_append_left _ hx)

theorem writes_reclaim {s : State} : writes (reclaim s).trace = writes s.trace := by
  show writes (s.trace ++ _) = _
  rw [writes_append]
  have : writes ((List.range s.nextA).flatMap (dropArr s) ++ (List.range s.nextS).flatMap (dropStore s)) = [] := by
    unfold writes
    rw [List.filterMap_eq_nil_iff]
    intro e he
    rcases List.mem_append.1 he with hp | hp
    · obtain ⟨a, _, ha⟩ := List.mem_flatMap.1 hp
      unfold dropArr at ha
      split at ha
      · cases ha
      · split at ha
        · rw [List.mem_singleton] at ha; subst ha; rfl
        · cases ha
    · obtain ⟨a, _, ha⟩ := List.mem_flatMap.1 hp
      unfold dropStore at ha
      split at ha
      · cases ha
      · split at ha
        · rw [List.mem_singleton] at ha; subst ha; rfl
        · cases ha
  rw [this, List.append_nil]

/-! ### New tensors -/

theorem newStore_inv {s : State} {own} (h : Inv s own) {kinds index values} (hv : ∃ x, s.arrays values = some x)
    (hx : ∀ ids ∈ index, ∀ a ∈ ids, ∃ x, s.arrays a = some x) (hb : ∀ l ∈ kinds.zip index, LevelBase s.arrays l) :
    ∃ own', Inv (newStore kinds index values s).1 own' ∧ Grow s own (newStore kinds index values s).1 own' ∧
      (newStore kinds index values s).1.stores (newStore kinds index values s).2 = some ⟨kinds, index, values, s.next⟩ ∧
      (newStore kinds index values s).1.tensors = s.tensors ∧ (newStore kinds index values s).1.nextT = s.nextT ∧
      (newStore kinds index values s).1.arrays = s.arrays := by
  obtain ⟨h1, l1⟩ := alloc_inv h (w := .desc) (o := .tmp) trivial (Or.inl rfl)
  obtain ⟨h2, _⟩ := alloc_inv h1 (w := .fill) (o := .lost) trivial rfl
  have e2 := alloc_ext h1 (w := .fill) (o := .lost) ⟨by simp, by simp⟩
  have l2 := e2.live _ l1
  have hlt : s.next < (alloc .desc s).1.next := h1.lt l1
  have od : upd (upd own s.next .tmp) (alloc .desc s).1.next .lost s.next = .tmp := by
    rw [upd_other _ _ (Nat.ne_of_lt hlt), upd_same]
  generalize upd (upd own s.next .tmp) (alloc .desc s).1.next .lost = o2 at *
  have hs2 : newStore kinds index values s = ({ setStore (alloc .fill (alloc .desc s).1).1.nextS (some ⟨kinds, index, values, s.next⟩)
    (alloc .fill (alloc .desc s).1).1 with nextS := (alloc .fill (alloc .desc s).1).1.nextS + 1 }, (alloc .fill (alloc .desc s).1).1.nextS) := rfl
  have ha2 : (alloc .fill (alloc .desc s).1).1.arrays = s.arrays := rfl
  have hss2 : (alloc .fill (alloc .desc s).1).1.stores = s.stores := rfl
  have hn2 : (alloc .fill (alloc .desc s).1).1.nextS = s.nextS := rfl
  have ht2 : (alloc .fill (alloc .desc s).1).1.tensors = s.tensors := rfl
  have hnt2 : (alloc .fill (alloc .desc s).1).1.nextT = s.nextT := rfl
  have hu2 : (alloc .fill (alloc .desc s).1).1.user = s.user := rfl
  have hh2 : (alloc .fill (alloc .desc s).1).1.held = s.held := rfl
  have hlive : ∀ p, Live s.trace p → Live (alloc .fill (alloc .desc s).1).1.trace p :=
    fun p hp => e2.live p (live_emit hp (by simp))
  have hpend : ∀ p, p ≠ s.next → Pend (alloc .fill (alloc .desc s).1).1 o2 p → Pend s own p := by
    intro p hp hq
    obtain ⟨hl, ho⟩ := e2.pend p hq
    rcases live_malloc hl with hl | hl
    · rw [upd_other _ _ hp] at ho; exact ⟨hl, ho⟩
    · exact absurd hl hp
  rw [hs2]
  clear hs2 e2 hlt h1 l1
  generalize (alloc .fill (alloc .desc s).1).1 = s2 at *
  have hne : ∀ q, Live s2.trace q → o2 q ≠ .tmp → q ≠ s.next := fun q _ hq hh => hq (hh ▸ od)
  have hself : upd s2.stores s2.nextS (some ⟨kinds, index, values, s.next⟩) s2.nextS = some ⟨kinds, index, values, s.next⟩ := upd_same _ _ _
  refine ⟨upd o2 s.next (.desc s2.nextS), ?_, ?_, hself, ht2, hnt2, ha2⟩
  · refine { h2 with arr := ?_, desc := ?_, user := ?_, storeB := ?_, tstore := ?_, refs := ?_, base := ?_, tag := ?_, back := ?_, lost := ?_ }
    · intro a x p q1 q2
      obtain ⟨g1, g2⟩ := h2.arr a x p q1 q2
      refine ⟨g1, ?_⟩
      rw [upd_other _ _ (hne p g1 ?_)]
      · exact g2
      · intro hh
        unfold OwnsArr at g2
        rw [hh] at g2
        split at g2
        · cases g2
        · rcases g2 with g2 | g2 <;> cases g2
    · intro i st hi
      have hi : upd s2.stores s2.nextS _ i = some st := hi
      by_cases hin : i = s2.nextS
      · subst hin
        rw [upd_same] at hi; injection hi with hi; subst hi
        exact ⟨l2, upd_same _ _ _⟩
      · rw [upd_other _ _ hin] at hi
        obtain ⟨g1, g2⟩ := h2.desc i st hi
        refine ⟨g1, ?_⟩
        rw [upd_other _ _ (hne _ g1 (by rw [g2]; simp))]
        exact g2
    · intro p hp
      obtain ⟨g1, g2⟩ := h2.user p hp
      refine ⟨g1, ?_⟩
      rw [upd_other _ _ (hne _ g1 (by rw [g2]; simp))]
      exact g2
    · intro i st hi
      have hi : upd s2.stores s2.nextS _ i = some st := hi
      by_cases hin : i = s2.nextS
      · subst hin; exact Nat.lt_succ_self _
      · rw [upd_other _ _ hin] at hi; exact Nat.lt_succ_of_lt (h2.storeB i st hi)
    · intro t x htx
      obtain ⟨st, hst⟩ := h2.tstore t x htx
      refine ⟨st, ?_⟩
      show upd s2.stores s2.nextS _ x.store = _
      rw [upd_other _ _ (Nat.ne_of_lt (h2.storeB _ _ hst))]
      exact hst
    · intro i st hi
      have hi : upd s2.stores s2.nextS _ i = some st := hi
      by_cases hin : i = s2.nextS
      · subst hin
        rw [upd_same] at hi; injection hi with hi; subst hi
        show (∃ x, s2.arrays values = some x) ∧ ∀ ids ∈ index, ∀ a ∈ ids, ∃ x, s2.arrays a = some x
        rw [ha2]; exact ⟨hv, hx⟩
      · rw [upd_other _ _ hin] at hi; exact h2.refs i st hi
    · intro i st hi
      have hi : upd s2.stores s2.nextS _ i = some st := hi
      by_cases hin : i = s2.nextS
      · subst hin
        rw [upd_same] at hi; injection hi with hi; subst hi
        show ∀ l ∈ kinds.zip index, LevelBase s2.arrays l
        rw [ha2]; exact hb
      · rw [upd_other _ _ hin] at hi; exact h2.base i st hi
    · intro q w hq
      by_cases hqn : q = s.next
      · subst hqn
        rw [upd_same]
        have := h2.tag _ w hq
        rw [od] at this
        cases w <;> first | exact Or.inr ⟨_, rfl⟩ | (cases this; done) | (rcases this with this | ⟨_, this⟩ <;> cases this)
      · rw [upd_other _ _ hqn]; exact h2.tag q w hq
    · intro q w hq hf
      by_cases hqn : q = s.next
      · subst hqn
        rw [upd_same]
        exact ⟨_, hself, rfl⟩
      · rw [upd_other _ _ hqn]
        have hb' := h2.back q w hq hf
        cases ho : o2 q with
        | arr b => rw [ho] at hb'; exact hb'
        | desc j =>
          rw [ho] at hb'
          obtain ⟨sj, g1, g2⟩ := hb'
          refine ⟨sj, ?_, g2⟩
          show upd s2.stores s2.nextS _ j = _
          rw [upd_other _ _ (Nat.ne_of_lt (h2.storeB _ _ g1))]
          exact g1
        | _ => trivial
    · intro q hq
      by_cases hqn : q = s.next
      · subst hqn; rw [upd_same] at hq; cases hq
      · rw [upd_other _ _ hqn] at hq; exact h2.lost q hq
  · refine ⟨?_, ?_, hlive, hu2, hh2, ?_⟩
    · rintro i ⟨st, q1, q2⟩
      rw [← hss2] at q1
      refine ⟨st, ?_, ?_⟩
      · show upd s2.stores s2.nextS _ i = _
        rw [upd_other _ _ (Nat.ne_of_lt (h2.storeB _ _ q1))]
        exact q1
      · show StoreReady s2.arrays st
        rw [ha2]; exact q2
    · intro i st q1
      rw [← hss2] at q1
      refine ⟨st, ?_⟩
      show upd s2.stores s2.nextS _ i = _
      rw [upd_other _ _ (Nat.ne_of_lt (h2.storeB _ _ q1))]
      exact q1
    · rintro q ⟨hl, ho⟩
      by_cases hqn : q = s.next
      · subst hqn
        rw [upd_same] at ho
        rcases ho with ho | ho <;> cases ho
      · rw [upd_other _ _ hqn] at ho
        exact hpend q hqn ⟨hl, ho⟩

theorem newTensor_okay {s own s' own'} (hs : Good s own) (h : Inv s' own') (g : Grow s own s' own') (ht : s'.tensors = s.tensors) {y : Tensor}
    (hy : ∃ st, s'.stores y.store = some st) (hr : TensorReady s' y) (hf : y.flag = false) : Okay s own (newTensor y s') own' := by
  refine ⟨⟨{ h with tensorB := ?_, tstore := ?_ }, ?_⟩, fun _ => g.pend, ?_⟩
  · intro t x hx
    have hx : upd s'.tensors s'.nextT (some y) t = some x := hx
    by_cases htn : t = s'.nextT
    · subst htn; exact Nat.lt_succ_self _
    · rw [upd_other _ _ htn] at hx; exact Nat.lt_succ_of_lt (h.tensorB t x hx)
  · intro t x hx
    have hx : upd s'.tensors s'.nextT (some y) t = some x := hx
    by_cases htn : t = s'.nextT
    · subst htn; rw [upd_same] at hx; injection hx with hx; subst hx; exact hy
    · rw [upd_other _ _ htn] at hx; exact h.tstore t x hx
  · intro t x _ hx
    have hx : upd s'.tensors s'.nextT (some y) t = some x := hx
    by_cases htn : t = s'.nextT
    · subst htn; rw [upd_same] at hx; injection hx with hx; subst hx; exact hr
    · rw [upd_other _ _ htn, ht] at hx
      exact (hs.2 t x (fun hh => by cases hh) hx).mono g.ready
  · intro hfo t x hx
    have hx : upd s'.tensors s'.nextT (some y) t = some x := hx
    by_cases htn : t = s'.nextT
    · subst htn; rw [upd_same] at hx; injection hx with hx; subst hx; exact hf
    · rw [upd_other _ _ htn, ht] at hx
      exact hfo t x hx

theorem newIndex_inv : ∀ {ks : List Kind} {s : State} {own}, Inv s own →
    ∃ own', Inv (newIndex ks s).1 own' ∧ Ext s own (newIndex ks s).1 own' ∧
      (∀ ids ∈ (newIndex ks s).2, ∀ a ∈ ids, ∃ x, (newIndex ks s).1.arrays a = some x) ∧
      (∀ l ∈ ks.zip (newIndex ks s).2, LevelBase (newIndex ks s).1.arrays l) := by
  intro ks
  induction ks with
  | nil => intro s own h; exact ⟨own, h, Ext.refl _ _, (fun _ hx => nomatch hx), (fun _ hx => nomatch hx)⟩
  | cons k ks ih =>
    intro s own h
    have hrest : k ≠ .dense → ∃ own', Inv (newIndex ks s).1 own' ∧ Ext s own (newIndex ks s).1 own' ∧
        (∀ ids ∈ [] :: (newIndex ks s).2, ∀ a ∈ ids, ∃ x, (newIndex ks s).1.arrays a = some x) ∧
        (∀ l ∈ (k :: ks).zip ([] :: (newIndex ks s).2), LevelBase (newIndex ks s).1.arrays l) := by
      intro hk
      obtain ⟨o2, h2, e2, i2, b2⟩ := ih h
      refine ⟨o2, h2, e2, ?_, ?_⟩
      · intro ids hids a ha
        rcases List.mem_cons.1 hids with rfl | hids
        · cases ha
        · exact i2 ids hids a ha
      · intro l hl
        rcases List.mem_cons.1 hl with rfl | hl
        · exact fun hd => absurd hd hk
        · exact b2 l hl
    cases k with
    | dense =>
      obtain ⟨o1, h1, e1, a1⟩ := makeArray_inv h
      obtain ⟨o2, h2, e2, i2, b2⟩ := ih h1
      refine ⟨o2, h2, e1.trans e2, ?_, ?_⟩
      · intro ids hids a ha
        rcases List.mem_cons.1 hids with rfl | hids
        · rw [List.mem_singleton] at ha; subst ha
          exact ⟨_, e2.arrays _ _ a1⟩
        · exact i2 ids hids a ha
      · intro l hl
        rcases List.mem_cons.1 hl with rfl | hl
        · intro _
          refine ⟨s.next, ?_⟩
          apply ptrAt_mono e2.arrays
          unfold ptrAt
          show Option.bind (some _) _ = _
          dsimp only [Option.bind]
          rw [a1]
        · exact b2 l hl
    | sparse => exact hrest (by simp)
    | singleton => exact hrest (by simp)

theorem construct_okay {s : State} {own} (h : Good s own) (ks : List Kind) : ∃ own', Okay s own (construct ks s) own' := by
  obtain ⟨o1, h1, e1, i1, b1⟩ := newIndex_inv (ks := ks) h.1
  have h2 := addArr_inv h1 (y := ⟨none, false⟩) rfl (fun p hp => by cases hp)
  have e2 := addArr_ext h1 ⟨none, false⟩
  have a2 := addArr_at (newIndex ks s).1 ⟨none, false⟩
  obtain ⟨o3, h3, g3, st3, t3, n3, _⟩ := newStore_inv h2 (kinds := ks) (index := (newIndex ks s).2) ⟨_, a2⟩
    (fun ids hids a ha => (i1 ids hids a ha).imp fun x hx => e2.arrays _ _ hx) (fun l hl => levelBase_mono e2.arrays (b1 l hl))
  refine ⟨o3, newTensor_okay h h3 ((e1.trans e2).grow.trans g3) (by rw [t3, e2.tensors, e1.tensors]) ⟨_, st3⟩ ?_ rfl⟩
  exact ⟨(fun hh => nomatch hh), (fun hh => nomatch hh), (fun hh => nomatch hh)⟩

theorem filterUser_inv {s : State} {own} (h : Inv s own) (f : Ptr → Bool) : Inv { s with user := s.user.filter f } own :=
  { h with user := fun p hp => h.user p ((List.mem_filter.1 hp).1) }

theorem csr_okay {s : State} {own} (h : Good s own) {r c v : Ptr} {o : Bool} (ha : Allowed s (.csr r c v o)) :
    ∃ own', Okay s own (makeCSR r c v o s) own' := by
  obtain ⟨hr, hc, hv, ho⟩ := ha
  obtain ⟨lr, or⟩ := h.1.user r hr
  obtain ⟨lc, oc⟩ := h.1.user c hc
  obtain ⟨lv, ov⟩ := h.1.user v hv
  obtain ⟨h1, e1⟩ := access_set (o := some r) h.1 ⟨r, rfl, lr⟩
  obtain ⟨o2, h2, e2, a2⟩ := makeArray_inv h1
  have e12 := e1.trans e2
  have h3 := addArr_inv h2 (y := ⟨some r, false⟩) rfl (fun p hp => by
    injection hp with hp; subst hp; exact ⟨e12.live _ lr, Or.inl (by rw [e12.same _ (h.1.lt lr)]; exact or)⟩)
  have e3 := addArr_ext h2 ⟨some r, false⟩
  have e13 := e12.trans e3
  have a3 := addArr_at (makeArray (access (some r) s)).1 ⟨some r, false⟩
  have h4 := addArr_inv h3 (y := ⟨some c, false⟩) rfl (fun p hp => by
    injection hp with hp; subst hp; exact ⟨e13.live _ lc, Or.inl (by rw [e13.same _ (h.1.lt lc)]; exact oc)⟩)
  have e4 := addArr_ext h3 ⟨some c, false⟩
  have e14 := e13.trans e4
  have a4 := addArr_at (addArr ⟨some r, false⟩ (makeArray (access (some r) s)).1).1 ⟨some c, false⟩
  have lv4 := e14.live _ lv
  have ov4 : o2 v = .user := by rw [e14.same _ (h.1.lt lv)]; exact ov
  -- what is known of the arrays before the values
  have hun : o = true → Unreferenced (addArr ⟨some c, false⟩ (addArr ⟨some r, false⟩ (makeArray (access (some r) s)).1).1).1 v := by
    intro hot a x hx hp
    obtain ⟨hvr, hvc, hu⟩ := ho hot
    have hx : upd (upd (upd s.arrays s.nextA (some ⟨some s.next, true⟩)) (s.nextA + 1) (some ⟨some r, false⟩)) (s.nextA + 1 + 1) (some ⟨some c, false⟩) a
      = some x := hx
    by_cases q1 : a = s.nextA + 1 + 1
    · rw [q1, upd_same] at hx; injection hx with hx; subst hx; injection hp with hp; exact hvc hp.symm
    · rw [upd_other _ _ q1] at hx
      by_cases q2 : a = s.nextA + 1
      · rw [q2, upd_same] at hx; injection hx with hx; subst hx; injection hp with hp; exact hvr hp.symm
      · rw [upd_other _ _ q2] at hx
        by_cases q3 : a = s.nextA
        · rw [q3, upd_same] at hx; injection hx with hx; subst hx; injection hp with hp
          exact Nat.lt_irrefl _ (hp ▸ h.1.lt lv)
        · rw [upd_other _ _ q3] at hx
          exact hu a x hx hp
  unfold makeCSR
  dsimp only
  have key : ∀ s4 : State, ∀ d rr cc, s4 = (addArr ⟨some c, false⟩ (addArr ⟨some r, false⟩ (makeArray (access (some r) s)).1).1).1 →
      d = (makeArray (access (some r) s)).2 → rr = (addArr ⟨some r, false⟩ (makeArray (access (some r) s)).1).2 →
      cc = (addArr ⟨some c, false⟩ (addArr ⟨some r, false⟩ (makeArray (access (some r) s)).1).1).2 →
      ∃ own', Okay s own (newTensor ⟨(newStore [.dense, .sparse] [[d], [rr, cc]] (addArr ⟨some v, o⟩ s4).2
        { (addArr ⟨some v, o⟩ s4).1 with user := if o then (addArr ⟨some v, o⟩ s4).1.user.filter (· != v) else (addArr ⟨some v, o⟩ s4).1.user }).2,
        false, true, false, false, false, none, []⟩ (newStore [.dense, .sparse] [[d], [rr, cc]] (addArr ⟨some v, o⟩ s4).2
        { (addArr ⟨some v, o⟩ s4).1 with user := if o then (addArr ⟨some v, o⟩ s4).1.user.filter (· != v) else (addArr ⟨some v, o⟩ s4).1.user }).1) own' := by
    intro s4 d rr cc hs4 hd hrr hcc
    rw [← hs4] at h4 e4 e14 a4 hun lv4
    rw [← hcc] at a4
    have ar := e4.arrays _ _ a3
    have ad := e4.arrays _ _ (e3.arrays _ _ a2)
    rw [← hd] at ad
    rw [← hrr] at ar
    have h5 : ∃ o5, Inv { (addArr ⟨some v, o⟩ s4).1 with user := if o then (addArr ⟨some v, o⟩ s4).1.user.filter (· != v) else (addArr ⟨some v, o⟩ s4).1.user } o5 ∧
        ∀ p, Live s4.trace p → (o5 p = .pending ∨ o5 p = .tmp) → (o2 p = .pending ∨ o2 p = .tmp) := by
      cases o with
      | false =>
        refine ⟨o2, addArr_inv h4 (y := ⟨some v, false⟩) rfl (fun p hp => ?_), fun _ _ hh => hh⟩
        injection hp with hp; subst hp; exact ⟨lv4, Or.inl ov4⟩
      | true =>
        refine ⟨upd o2 v (.arr s4.nextA), ?_, ?_⟩
        · exact addArr_owned_inv (filterUser_inv h4 (· != v)) lv4 ov4 (Or.inr ⟨rfl, hun rfl, by simp⟩)
        · intro p hp hh
          by_cases hpv : p = v
          · subst hpv; rw [upd_same] at hh; rcases hh with hh | hh <;> cases hh
          · rw [upd_other _ _ hpv] at hh; exact hh
    obtain ⟨o5, h5, p5⟩ := h5
    have m5 := addArr_arrays h4.arrB ⟨some v, o⟩
    have a5 := addArr_at s4 ⟨some v, o⟩
    have hS : ∀ i, Ready s i → Ready { (addArr ⟨some v, o⟩ s4).1 with user := if o then (addArr ⟨some v, o⟩ s4).1.user.filter (· != v) else (addArr ⟨some v, o⟩ s4).1.user } i := by
      intro i hi
      obtain ⟨st, q1, q2⟩ := e14.ready hi
      exact ⟨st, q1, storeReady_mono m5 q2⟩
    have hD : (addArr ⟨some v, o⟩ s4).1.stores = s.stores := e14.stores
    have hT : (addArr ⟨some v, o⟩ s4).1.tensors = s.tensors := e14.tensors
    have hL : ∀ p, Pend { (addArr ⟨some v, o⟩ s4).1 with user := if o then (addArr ⟨some v, o⟩ s4).1.user.filter (· != v) else (addArr ⟨some v, o⟩ s4).1.user } o5 p → Pend s own p :=
      fun p hp => e14.pend p ⟨hp.1, p5 p hp.1 hp.2⟩
    have hlist : ∀ ids ∈ [[d], [rr, cc]], ∀ a ∈ ids, ∃ x, (addArr ⟨some v, o⟩ s4).1.arrays a = some x := by
      intro ids hids a haa
      rcases List.mem_cons.1 hids with rfl | hids
      · rw [List.mem_singleton] at haa; subst haa; exact ⟨_, m5 _ _ ad⟩
      · rw [List.mem_singleton] at hids; subst hids
        rcases List.mem_cons.1 haa with rfl | haa
        · exact ⟨_, m5 _ _ ar⟩
        · rw [List.mem_singleton] at haa; subst haa; exact ⟨_, m5 _ _ a4⟩
    have hpd : ptrAt (addArr ⟨some v, o⟩ s4).1.arrays [d] 0 = some s.next := by
      unfold ptrAt
      show Option.bind (some _) _ = _
      dsimp only [Option.bind]
      rw [m5 _ _ ad]; rfl
    have hpr : ptrAt (addArr ⟨some v, o⟩ s4).1.arrays [rr, cc] 0 = some r := by
      unfold ptrAt
      show Option.bind (some _) _ = _
      dsimp only [Option.bind]
      rw [m5 _ _ ar]
    have hpc : ptrAt (addArr ⟨some v, o⟩ s4).1.arrays [rr, cc] 1 = some c := by
      unfold ptrAt
      show Option.bind (some _) _ = _
      dsimp only [Option.bind]
      rw [m5 _ _ a4]
    have hbase : ∀ l ∈ [Kind.dense, .sparse].zip [[d], [rr, cc]], LevelBase (addArr ⟨some v, o⟩ s4).1.arrays l := by
      intro l hl
      rcases List.mem_cons.1 hl with rfl | hl
      · exact fun _ => ⟨_, hpd⟩
      · rcases List.mem_cons.1 hl with rfl | hl
        · exact fun hh => nomatch hh
        · cases hl
    have hrdy : StoreReady (addArr ⟨some v, o⟩ s4).1.arrays ⟨[.dense, .sparse], [[d], [rr, cc]], (addArr ⟨some v, o⟩ s4).2, s.next⟩ := by
      refine ⟨⟨v, by dsimp only; rw [a5]; rfl⟩, ?_⟩
      intro l hl
      rcases List.mem_cons.1 hl with rfl | hl
      · trivial
      · rcases List.mem_cons.1 hl with rfl | hl
        · exact ⟨⟨_, hpr⟩, ⟨_, hpc⟩⟩
        · cases hl
    obtain ⟨o6, h6, g6, st6, t6, n6, aa6⟩ := newStore_inv h5 (kinds := [.dense, .sparse]) (index := [[d], [rr, cc]]) ⟨_, a5⟩ hlist hbase
    refine ⟨o6, ⟨⟨?_, ?_⟩, fun _ p hp => hL p (g6.pend p hp), ?_⟩⟩
    · refine { h6 with tensorB := ?_, tstore := ?_ }
      · intro t x hx
        have hx : upd _ _ (some _) t = some x := hx
        by_cases htn : t = (newStore [.dense, .sparse] [[d], [rr, cc]] (addArr ⟨some v, o⟩ s4).2
          { (addArr ⟨some v, o⟩ s4).1 with user := if o then (addArr ⟨some v, o⟩ s4).1.user.filter (· != v) else (addArr ⟨some v, o⟩ s4).1.user }).1.nextT
        · rw [htn]; exact Nat.lt_succ_self _
        · rw [upd_other _ _ htn] at hx; exact Nat.lt_succ_of_lt (h6.tensorB t x hx)
      · intro t x hx
        have hx : upd _ _ (some _) t = some x := hx
        by_cases htn : t = (newStore [.dense, .sparse] [[d], [rr, cc]] (addArr ⟨some v, o⟩ s4).2
          { (addArr ⟨some v, o⟩ s4).1 with user := if o then (addArr ⟨some v, o⟩ s4).1.user.filter (· != v) else (addArr ⟨some v, o⟩ s4).1.user }).1.nextT
        · rw [htn, upd_same] at hx; injection hx with hx; subst hx; exact ⟨_, st6⟩
        · rw [upd_other _ _ htn] at hx; exact h6.tstore t x hx
    · intro t x _ hx
      have hx : upd _ _ (some _) t = some x := hx
      by_cases htn : t = (newStore [.dense, .sparse] [[d], [rr, cc]] (addArr ⟨some v, o⟩ s4).2
        { (addArr ⟨some v, o⟩ s4).1 with user := if o then (addArr ⟨some v, o⟩ s4).1.user.filter (· != v) else (addArr ⟨some v, o⟩ s4).1.user }).1.nextT
      · rw [htn, upd_same] at hx; injection hx with hx; subst hx
        refine TensorReady.of ⟨_, st6, ?_⟩
        exact Eq.mpr (congrArg (fun f => StoreReady f _) aa6) hrdy
      · rw [upd_other _ _ htn, t6] at hx
        have hx : (addArr ⟨some v, o⟩ s4).1.tensors t = some x := hx
        rw [hT] at hx
        exact (h.2 t x (fun hh => by cases hh) hx).mono fun i hi => g6.ready i (hS i hi)
    · intro hf t x hx
      have hx : upd _ _ (some _) t = some x := hx
      by_cases htn : t = (newStore [.dense, .sparse] [[d], [rr, cc]] (addArr ⟨some v, o⟩ s4).2
        { (addArr ⟨some v, o⟩ s4).1 with user := if o then (addArr ⟨some v, o⟩ s4).1.user.filter (· != v) else (addArr ⟨some v, o⟩ s4).1.user }).1.nextT
      · rw [htn, upd_same] at hx; injection hx with hx; subst hx; rfl
      · rw [upd_other _ _ htn, t6] at hx
        have hx : (addArr ⟨some v, o⟩ s4).1.tensors t = some x := hx
        rw [hT] at hx
        exact hf t x hx
  exact key _ _ _ _ rfl rfl rfl rfl

end Verif.Memory
