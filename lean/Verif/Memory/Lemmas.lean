import Verif.Memory.Spec

namespace Verif.Memory

def Live (tr : List Ev) (p : Ptr) : Prop := (∃ w, Ev.malloc p w ∈ tr) ∧ Ev.free p ∉ tr

/-- Who frees memory. -/
inductive Owner | arr (a : Nat) | desc (i : Nat) | user | lost | pending | tmp
  deriving DecidableEq

def TagOk : What → Owner → Prop
  | .index, o => o = .lost
  | .fill, o => o = .lost
  | .size, o => o = .pending ∨ ∃ a, o = .arr a
  | .values, o => o = .pending ∨ ∃ a, o = .arr a
  | .desc, o => o = .tmp ∨ ∃ i, o = .desc i
  | .user, o => o = .user ∨ ∃ a, o = .arr a

def Back (s : State) (p : Ptr) : Owner → Prop
  | .arr a => ∃ x, s.arrays a = some x ∧ x.ptr = some p ∧ x.owned = true
  | .desc i => ∃ st, s.stores i = some st ∧ st.desc = p
  | _ => True

def OwnsArr (o : Owner) (a : Nat) (x : Arr) : Prop := if x.owned then o = .arr a else (o = .user ∨ o = .lost)

def LevelBase (arrays : Nat → Option Arr) (l : Kind × List Nat) : Prop := l.1 = .dense → ∃ p, ptrAt arrays l.2 0 = some p

def LevelReady (arrays : Nat → Option Arr) (l : Kind × List Nat) : Prop := match l.1 with
  | .dense => True
  | .sparse => (∃ p, ptrAt arrays l.2 0 = some p) ∧ ∃ p, ptrAt arrays l.2 1 = some p
  | .singleton => ∃ p, ptrAt arrays l.2 1 = some p

def StoreReady (arrays : Nat → Option Arr) (st : Store) : Prop :=
  (∃ p, (arrays st.values).bind Arr.ptr = some p) ∧ ∀ l ∈ st.kinds.zip st.index, LevelReady arrays l

def Ready (s : State) (i : Nat) : Prop := ∃ st, s.stores i = some st ∧ StoreReady s.arrays st

structure Inv (s : State) (own : Ptr → Owner) : Prop where
  safe : Safe s.trace
  bound : ∀ p w, Ev.malloc p w ∈ s.trace → p < s.next
  arr : ∀ a x p, s.arrays a = some x → x.ptr = some p → Live s.trace p ∧ OwnsArr (own p) a x
  desc : ∀ i st, s.stores i = some st → Live s.trace st.desc ∧ own st.desc = .desc i
  user : ∀ p ∈ s.user, Live s.trace p ∧ own p = .user
  arrB : ∀ a x, s.arrays a = some x → a < s.nextA
  storeB : ∀ a x, s.stores a = some x → a < s.nextS
  tensorB : ∀ a x, s.tensors a = some x → a < s.nextT
  tstore : ∀ t x, s.tensors t = some x → ∃ st, s.stores x.store = some st
  refs : ∀ i st, s.stores i = some st → (∃ x, s.arrays st.values = some x) ∧ ∀ ids ∈ st.index, ∀ a ∈ ids, ∃ x, s.arrays a = some x
  held : ∀ a ∈ s.held, ∃ x, s.arrays a = some x
  base : ∀ i st, s.stores i = some st → ∀ l ∈ st.kinds.zip st.index, LevelBase s.arrays l
  tag : ∀ p w, Ev.malloc p w ∈ s.trace → TagOk w (own p)
  back : ∀ p w, Ev.malloc p w ∈ s.trace → Ev.free p ∉ s.trace → Back s p (own p)
  lost : ∀ p, own p = .lost → Ev.free p ∉ s.trace

/-! ### Traces -/

def EvOk (tr : List Ev) (e : Ev) : Prop := match e with
  | .malloc p _ => ∀ w, Ev.malloc p w ∉ tr
  | .free p | .use p | .write p => Live tr p
  | .wild => False

theorem safe_nil : Safe [] := by
  intro pre e post h
  cases pre <;> simp at h

theorem safe_snoc {tr : List Ev} {e : Ev} (h : Safe tr) (he : EvOk tr e) : Safe (tr ++ [e]) := by
  intro pre e' post hp
  rcases List.eq_nil_or_concat post with rfl | ⟨l, b, rfl⟩
  · have := List.append_inj' hp rfl
    obtain ⟨h1, h2⟩ := this
    injection h2 with h2 _
    subst h1; subst h2
    exact he
  · have hq : tr ++ [e] = (pre ++ e' :: l) ++ [b] := by
      rw [hp]
      simp
    have := List.append_inj' hq rfl
    exact h pre e' l this.1

theorem live_emit {tr : List Ev} {e : Ev} {p : Ptr} (h : Live tr p) (he : e ≠ .free p) : Live (tr ++ [e]) p := by
  obtain ⟨⟨w, hw⟩, hf⟩ := h
  refine ⟨⟨w, List.mem_append_left _ hw⟩, ?_⟩
  intro hm
  rcases List.mem_append.1 hm with hm | hm
  · exact hf hm
  · exact he (List.mem_singleton.1 hm).symm

theorem live_append {tr l : List Ev} {p : Ptr} (h : Live tr p) (he : Ev.free p ∉ l) : Live (tr ++ l) p := by
  obtain ⟨⟨w, hw⟩, hf⟩ := h
  refine ⟨⟨w, List.mem_append_left _ hw⟩, ?_⟩
  intro hm
  rcases List.mem_append.1 hm with hm | hm
  · exact hf hm
  · exact he hm

theorem safe_frees {own : Ptr → Owner} {f : Owner → List Ev} : ∀ {os : List Owner} {tr : List Ev}, os.Nodup →
    (∀ o ∈ os, f o = [] ∨ ∃ p, f o = [.free p] ∧ own p = o ∧ Live tr p) → Safe tr → Safe (tr ++ os.flatMap f) := by
  intro os
  induction os with
  | nil => intro tr _ _ h; simpa using h
  | cons o os ih =>
    intro tr hn hf hs
    rw [List.nodup_cons] at hn
    rw [List.flatMap_cons, ← List.append_assoc]
    apply ih hn.2
    · intro o' ho'
      rcases hf o' (List.mem_cons_of_mem _ ho') with h | ⟨p, h1, h2, h3⟩
      · exact Or.inl h
      · refine Or.inr ⟨p, h1, h2, live_append h3 ?_⟩
        intro hm
        rcases hf o List.mem_cons_self with h | ⟨q, g1, g2, _⟩
        · rw [h] at hm; cases hm
        · rw [g1, List.mem_singleton] at hm
          injection hm with hm
          subst hm
          rw [h2] at g2
          subst g2
          exact hn.1 ho'
    · rcases hf o List.mem_cons_self with h | ⟨q, g1, _, g3⟩
      · rw [h, List.append_nil]; exact hs
      · rw [g1]; exact safe_snoc hs g3

/-! ### Primitive steps -/

theorem upd_same {α : Type} (f : Nat → α) (i : Nat) (x : α) : upd f i x i = x := by simp [upd]
theorem upd_other {α : Type} (f : Nat → α) {i j : Nat} (x : α) (h : j ≠ i) : upd f i x j = f j := by simp [upd, h]

theorem Inv.lt {s : State} {own} (h : Inv s own) {p : Ptr} (hl : Live s.trace p) : p < s.next := by
  obtain ⟨⟨w, hw⟩, _⟩ := hl
  exact h.bound p w hw

/-- Events that neither allocate nor free. -/
def Plain : Ev → Prop
  | .use _ => True
  | .write _ => True
  | _ => False

theorem emit_plain {s : State} {own} (h : Inv s own) {e : Ev} (hpl : Plain e) (he : EvOk s.trace e) : Inv (emit e s) own := by
  have hm : ∀ p w, Ev.malloc p w ∈ s.trace ++ [e] → Ev.malloc p w ∈ s.trace := by
    intro p w hm
    rcases List.mem_append.1 hm with hm | hm
    · exact hm
    · rw [List.mem_singleton] at hm; subst hm; cases hpl
  have hl : ∀ p, Live s.trace p → Live (s.trace ++ [e]) p := by
    intro p hl
    apply live_emit hl
    intro hh; subst hh; cases hpl
  exact { h with
    safe := safe_snoc h.safe he
    bound := fun p w hw => h.bound p w (hm p w hw)
    arr := fun a x p h1 h2 => ⟨hl p (h.arr a x p h1 h2).1, (h.arr a x p h1 h2).2⟩
    desc := fun i st h1 => ⟨hl _ (h.desc i st h1).1, (h.desc i st h1).2⟩
    user := fun p h1 => ⟨hl _ (h.user p h1).1, (h.user p h1).2⟩
    tag := fun p w hw => h.tag p w (hm p w hw)
    back := fun p w hw hf => h.back p w (hm p w hw) (fun hx => hf (List.mem_append_left _ hx))
    lost := fun p hp hx => by
      rcases List.mem_append.1 hx with hx | hx
      · exact h.lost p hp hx
      · rw [List.mem_singleton] at hx; subst hx; cases hpl }

theorem access_inv {s : State} {own} (h : Inv s own) {p : Ptr} (hl : Live s.trace p) : Inv (access (some p) s) own :=
  emit_plain h trivial hl

theorem modify_inv {s : State} {own} (h : Inv s own) {p : Ptr} (hl : Live s.trace p) : Inv (modify (some p) s) own :=
  emit_plain h trivial hl

/-- Owners that need not show in the state. -/
def Silent : Owner → Prop
  | .arr _ => False
  | .desc _ => False
  | _ => True

theorem alloc_inv {s : State} {own} (h : Inv s own) {w : What} {o : Owner} (ho : Silent o) (ht : TagOk w o) :
    Inv (alloc w s).1 (upd own s.next o) ∧ Live (alloc w s).1.trace s.next := by
  have hnew : ∀ w', Ev.malloc s.next w' ∉ s.trace := fun w' hw => Nat.lt_irrefl _ (h.bound _ _ hw)
  have hnf : Ev.free s.next ∉ s.trace := by
    intro hf
    obtain ⟨pre, post, hp⟩ := List.append_of_mem hf
    obtain ⟨⟨w', hw'⟩, _⟩ := h.safe pre _ post hp
    exact hnew w' (hp ▸ List.mem_append_left _ hw')
  have hl : ∀ p, Live s.trace p → Live (s.trace ++ [Ev.malloc s.next w]) p := fun p hl => live_emit hl (by simp)
  have hown : ∀ p, Live s.trace p → upd own s.next o p = own p := fun p hl => upd_other _ _ (Nat.ne_of_lt (h.lt hl))
  refine ⟨{ h with
    safe := safe_snoc h.safe hnew
    bound := ?_
    arr := ?_
    desc := ?_
    user := ?_
    tag := ?_
    back := ?_
    lost := ?_ }, ⟨w, List.mem_append_right _ (List.mem_singleton.2 rfl)⟩, ?_⟩
  · intro p w' hw'
    rcases List.mem_append.1 hw' with hw' | hw'
    · exact Nat.lt_succ_of_lt (h.bound p w' hw')
    · rw [List.mem_singleton] at hw'; injection hw' with h1 _; subst h1; exact Nat.lt_succ_self _
  · intro a x p h1 h2
    obtain ⟨g1, g2⟩ := h.arr a x p h1 h2
    exact ⟨hl p g1, by rw [hown p g1]; exact g2⟩
  · intro i st h1
    obtain ⟨g1, g2⟩ := h.desc i st h1
    exact ⟨hl _ g1, by rw [hown _ g1]; exact g2⟩
  · intro p h1
    obtain ⟨g1, g2⟩ := h.user p h1
    exact ⟨hl _ g1, by rw [hown _ g1]; exact g2⟩
  · intro p w' hw'
    rcases List.mem_append.1 hw' with hw' | hw'
    · rw [upd_other _ _ (Nat.ne_of_lt (h.bound p w' hw'))]; exact h.tag p w' hw'
    · rw [List.mem_singleton] at hw'; injection hw' with h1 h2; subst h1; subst h2; rw [upd_same]; exact ht
  · intro p w' hw' hf
    rcases List.mem_append.1 hw' with hw' | hw'
    · rw [upd_other _ _ (Nat.ne_of_lt (h.bound p w' hw'))]
      exact h.back p w' hw' (fun hx => hf (List.mem_append_left _ hx))
    · rw [List.mem_singleton] at hw'; injection hw' with h1 h2; subst h1; rw [upd_same]
      cases o <;> first | trivial | cases ho
  · intro p hp hx
    rcases List.mem_append.1 hx with hx | hx
    · by_cases hpn : p = s.next
      · subst hpn; exact hnf hx
      · rw [upd_other _ _ hpn] at hp; exact h.lost p hp hx
    · simp at hx
  · intro hm
    rcases List.mem_append.1 hm with hm | hm
    · exact hnf hm
    · simp at hm

theorem ptrAt_mono {f g : Nat → Option Arr} (hfg : ∀ a x, f a = some x → g a = some x) {ids : List Nat} {k : Nat} {p : Ptr}
    (h : ptrAt f ids k = some p) : ptrAt g ids k = some p := by
  unfold ptrAt at h ⊢
  cases hk : ids[k]? with
  | none => rw [hk] at h; cases h
  | some a =>
    rw [hk] at h
    dsimp only [Option.bind] at h ⊢
    cases hf : f a with
    | none => rw [hf] at h; cases h
    | some x => rw [hf] at h; rw [hfg a x hf]; exact h

theorem levelBase_mono {f g : Nat → Option Arr} (hfg : ∀ a x, f a = some x → g a = some x) {l} (h : LevelBase f l) : LevelBase g l := by
  intro hd
  obtain ⟨p, hp⟩ := h hd
  exact ⟨p, ptrAt_mono hfg hp⟩

theorem levelReady_mono {f g : Nat → Option Arr} (hfg : ∀ a x, f a = some x → g a = some x) {l} (h : LevelReady f l) : LevelReady g l := by
  unfold LevelReady at h ⊢
  cases hk : l.1 <;> rw [hk] at h <;> dsimp only at h ⊢
  · exact ⟨h.1.imp fun p hp => ptrAt_mono hfg hp, h.2.imp fun p hp => ptrAt_mono hfg hp⟩
  · exact h.imp fun p hp => ptrAt_mono hfg hp

theorem storeReady_mono {f g : Nat → Option Arr} (hfg : ∀ a x, f a = some x → g a = some x) {st} (h : StoreReady f st) : StoreReady g st := by
  refine ⟨?_, fun l hl => levelReady_mono hfg (h.2 l hl)⟩
  obtain ⟨p, hp⟩ := h.1
  refine ⟨p, ?_⟩
  cases hf : f st.values with
  | none => rw [hf] at hp; cases hp
  | some x => rw [hf] at hp; rw [hfg _ x hf]; exact hp

theorem addArr_arrays {s : State} (h : ∀ a x, s.arrays a = some x → a < s.nextA) (y : Arr) :
    ∀ a x, s.arrays a = some x → (addArr y s).1.arrays a = some x := by
  intro a x ha
  show upd s.arrays s.nextA (some y) a = some x
  rw [upd_other _ _ (Nat.ne_of_lt (h a x ha))]
  exact ha

/-- An array around memory of the user, around an index array of a kernel, or around nothing. -/
theorem addArr_inv {s : State} {own} (h : Inv s own) {y : Arr} (hy : y.owned = false)
    (hp : ∀ p, y.ptr = some p → Live s.trace p ∧ (own p = .user ∨ own p = .lost)) : Inv (addArr y s).1 own := by
  have hm := addArr_arrays h.arrB y
  refine { h with arr := ?_, arrB := ?_, refs := ?_, held := ?_, base := ?_, back := ?_ }
  · intro a x p h1 h2
    by_cases ha : a = s.nextA
    · subst ha
      have h1' : upd s.arrays s.nextA (some y) s.nextA = some x := h1
      rw [upd_same] at h1'
      injection h1' with h1'
      subst h1'
      refine ⟨(hp p h2).1, ?_⟩
      unfold OwnsArr
      rw [hy]
      exact (hp p h2).2
    · have h1' : upd s.arrays s.nextA (some y) a = some x := h1
      rw [upd_other _ _ ha] at h1'
      exact h.arr a x p h1' h2
  · intro a x h1
    have h1' : upd s.arrays s.nextA (some y) a = some x := h1
    by_cases ha : a = s.nextA
    · subst ha; exact Nat.lt_succ_self _
    · rw [upd_other _ _ ha] at h1'
      exact Nat.lt_succ_of_lt (h.arrB a x h1')
  · intro i st h1
    obtain ⟨⟨x, g1⟩, g2⟩ := h.refs i st h1
    exact ⟨⟨x, hm _ _ g1⟩, fun ids hi a ha => (g2 ids hi a ha).imp fun x hx => hm _ _ hx⟩
  · intro a ha
    exact (h.held a ha).imp fun x hx => hm _ _ hx
  · intro i st h1 l hl
    exact levelBase_mono hm (h.base i st h1 l hl)
  · intro p w h1 h2
    have := h.back p w h1 h2
    unfold Back at this ⊢
    cases ho : own p <;> rw [ho] at this <;> dsimp only at this ⊢
    · obtain ⟨x, g1, g2⟩ := this
      exact ⟨x, hm _ _ g1, g2⟩
    · exact this

theorem tag_arr {w : What} {o : Owner} {a : Nat} (ho : o = .pending ∨ o = .user) (h : TagOk w o) : TagOk w (.arr a) := by
  rcases ho with rfl | rfl <;> cases w <;> first | exact Or.inr ⟨a, rfl⟩ | (cases h; done) | skip
  all_goals (rcases h with h | ⟨_, h⟩ <;> cases h)

/-- An array that will free memory nothing else refers to. -/
theorem addArr_owned_inv {s : State} {own} (h : Inv s own) {p : Ptr} {o : Owner} (hl : Live s.trace p) (ho : own p = o)
    (hpo : o = .pending ∨ (o = .user ∧ Unreferenced s p ∧ p ∉ s.user)) :
    Inv (addArr ⟨some p, true⟩ s).1 (upd own p (.arr s.nextA)) := by
  have hm := addArr_arrays h.arrB ⟨some p, true⟩
  have hno : ∀ a x, s.arrays a = some x → x.ptr ≠ some p := by
    intro a x h1 h2
    rcases hpo with rfl | ⟨rfl, hu, _⟩
    · have := (h.arr a x p h1 h2).2
      unfold OwnsArr at this
      rw [ho] at this
      split at this
      · cases this
      · rcases this with this | this <;> cases this
    · exact hu a x h1 h2
  have hpo' : o = .pending ∨ o = .user := hpo.imp id And.left
  have hlen : ∀ q, q ≠ p → upd own p (.arr s.nextA) q = own q := fun q hq => upd_other _ _ hq
  refine { h with arr := ?_, desc := ?_, user := ?_, arrB := ?_, refs := ?_, held := ?_, base := ?_, tag := ?_, back := ?_, lost := ?_ }
  · intro a x q h1 h2
    by_cases ha : a = s.nextA
    · subst ha
      have h1' : upd s.arrays s.nextA (some ⟨some p, true⟩) s.nextA = some x := h1
      rw [upd_same] at h1'
      injection h1' with h1'
      subst h1'
      injection h2 with h2
      subst h2
      refine ⟨hl, ?_⟩
      unfold OwnsArr
      rw [upd_same]
      rfl
    · have h1' : upd s.arrays s.nextA (some ⟨some p, true⟩) a = some x := h1
      rw [upd_other _ _ ha] at h1'
      have hq : q ≠ p := fun hh => hno a x h1' (hh ▸ h2)
      rw [hlen q hq]
      exact h.arr a x q h1' h2
  · intro i st h1
    obtain ⟨g1, g2⟩ := h.desc i st h1
    refine ⟨g1, ?_⟩
    rw [hlen _ ?_]
    · exact g2
    · intro hh
      rw [hh, ho] at g2
      rcases hpo with rfl | ⟨rfl, _⟩ <;> cases g2
  · intro q hq
    obtain ⟨g1, g2⟩ := h.user q hq
    refine ⟨g1, ?_⟩
    rw [hlen _ ?_]
    · exact g2
    · intro hh
      rw [hh] at hq
      rcases hpo with rfl | ⟨rfl, _, hn⟩
      · rw [hh, ho] at g2; cases g2
      · exact hn hq
  · intro a x h1
    have h1' : upd s.arrays s.nextA (some ⟨some p, true⟩) a = some x := h1
    by_cases ha : a = s.nextA
    · subst ha; exact Nat.lt_succ_self _
    · rw [upd_other _ _ ha] at h1'
      exact Nat.lt_succ_of_lt (h.arrB a x h1')
  · intro i st h1
    obtain ⟨⟨x, g1⟩, g2⟩ := h.refs i st h1
    exact ⟨⟨x, hm _ _ g1⟩, fun ids hi a ha => (g2 ids hi a ha).imp fun x hx => hm _ _ hx⟩
  · intro a ha
    exact (h.held a ha).imp fun x hx => hm _ _ hx
  · intro i st h1 l hl
    exact levelBase_mono hm (h.base i st h1 l hl)
  · intro q w hw
    by_cases hq : q = p
    · subst hq; rw [upd_same]; exact tag_arr hpo' (ho ▸ h.tag q w hw)
    · rw [hlen q hq]; exact h.tag q w hw
  · intro q w h1 h2
    by_cases hq : q = p
    · subst hq; rw [upd_same]
      refine ⟨⟨some q, true⟩, ?_, rfl, rfl⟩
      show upd s.arrays s.nextA _ s.nextA = _
      rw [upd_same]
    · rw [hlen q hq]
      have := h.back q w h1 h2
      unfold Back at this ⊢
      cases ho' : own q <;> rw [ho'] at this <;> dsimp only at this ⊢
      · obtain ⟨x, g1, g2⟩ := this
        exact ⟨x, hm _ _ g1, g2⟩
      · exact this
  · intro q hq
    by_cases hqp : q = p
    · subst hqp; rw [upd_same] at hq; cases hq
    · rw [hlen q hqp] at hq; exact h.lost q hq

end Verif.Memory
