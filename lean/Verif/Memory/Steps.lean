import Verif.Memory.Lemmas

namespace Verif.Memory

/-- Memory that no object is responsible for yet. -/
def Pend (s : State) (own : Ptr → Owner) (p : Ptr) : Prop := Live s.trace p ∧ (own p = .pending ∨ own p = .tmp)

/-- Steps that only add arrays and memory. -/
structure Ext (s : State) (own : Ptr → Owner) (s' : State) (own' : Ptr → Owner) : Prop where
  arrays : ∀ a x, s.arrays a = some x → s'.arrays a = some x
  stores : s'.stores = s.stores
  tensors : s'.tensors = s.tensors
  nextT : s'.nextT = s.nextT
  nextS : s'.nextS = s.nextS
  user : s'.user = s.user
  held : s'.held = s.held
  next : s.next ≤ s'.next
  same : ∀ p, p < s.next → own' p = own p
  live : ∀ p, Live s.trace p → Live s'.trace p
  pend : ∀ p, Pend s' own' p → Pend s own p

theorem Ext.refl (s : State) (own) : Ext s own s own :=
  ⟨fun _ _ h => h, rfl, rfl, rfl, rfl, rfl, rfl, Nat.le_refl _, fun _ _ => rfl, fun _ h => h, fun _ h => h⟩

theorem Ext.trans {s own s' own' s'' own''} (h : Ext s own s' own') (g : Ext s' own' s'' own'') : Ext s own s'' own'' :=
  ⟨fun a x hx => g.arrays a x (h.arrays a x hx), g.stores.trans h.stores, g.tensors.trans h.tensors, g.nextT.trans h.nextT,
    g.nextS.trans h.nextS, g.user.trans h.user, g.held.trans h.held, Nat.le_trans h.next g.next,
    fun p hp => (g.same p (Nat.lt_of_lt_of_le hp h.next)).trans (h.same p hp), fun p hp => g.live p (h.live p hp),
    fun p hp => h.pend p (g.pend p hp)⟩

theorem live_plain {tr : List Ev} {e : Ev} (he : Plain e) {p : Ptr} : Live (tr ++ [e]) p ↔ Live tr p := by
  constructor
  · rintro ⟨⟨w, hw⟩, hf⟩
    refine ⟨⟨w, ?_⟩, fun hx => hf (List.mem_append_left _ hx)⟩
    rcases List.mem_append.1 hw with hw | hw
    · exact hw
    · rw [List.mem_singleton] at hw; subst hw; cases he
  · intro h
    apply live_emit h
    intro hh; subst hh; cases he

theorem emit_ext {s : State} {own} {e : Ev} (he : Plain e) : Ext s own (emit e s) own :=
  ⟨fun _ _ h => h, rfl, rfl, rfl, rfl, rfl, rfl, Nat.le_refl _, fun _ _ => rfl, fun _ h => (live_plain he).2 h,
    fun _ h => ⟨(live_plain he).1 h.1, h.2⟩⟩

theorem live_malloc {tr : List Ev} {p q : Ptr} {w : What} (h : Live (tr ++ [.malloc q w]) p) : Live tr p ∨ p = q := by
  obtain ⟨⟨w', hw⟩, hf⟩ := h
  rcases List.mem_append.1 hw with hw | hw
  · exact Or.inl ⟨⟨w', hw⟩, fun hx => hf (List.mem_append_left _ hx)⟩
  · rw [List.mem_singleton] at hw; injection hw with h1 _; exact Or.inr h1

theorem alloc_ext {s : State} {own} (h : Inv s own) {w : What} {o : Owner} (ho : o ≠ .pending ∧ o ≠ .tmp) :
    Ext s own (alloc w s).1 (upd own s.next o) := by
  refine ⟨fun _ _ h => h, rfl, rfl, rfl, rfl, rfl, rfl, Nat.le_succ _, fun p hp => upd_other _ _ (Nat.ne_of_lt hp),
    fun p hl => live_emit hl (by simp), ?_⟩
  rintro p ⟨hl, hp⟩
  rcases live_malloc hl with hl | rfl
  · rw [upd_other _ _ (Nat.ne_of_lt (h.lt hl))] at hp
    exact ⟨hl, hp⟩
  · rw [upd_same] at hp
    rcases hp with hp | hp
    · exact absurd hp ho.1
    · exact absurd hp ho.2

theorem addArr_ext {s : State} {own} (h : Inv s own) (y : Arr) : Ext s own (addArr y s).1 own :=
  ⟨addArr_arrays h.arrB y, rfl, rfl, rfl, rfl, rfl, rfl, Nat.le_refl _, fun _ _ => rfl, fun _ h => h, fun _ h => h⟩

theorem addArr_at (s : State) (y : Arr) : (addArr y s).1.arrays (addArr y s).2 = some y := upd_same _ _ _

theorem makeArray_inv {s : State} {own} (h : Inv s own) : ∃ own', Inv (makeArray s).1 own' ∧ Ext s own (makeArray s).1 own' ∧
    (makeArray s).1.arrays (makeArray s).2 = some ⟨some s.next, true⟩ := by
  obtain ⟨h1, hl⟩ := alloc_inv h (w := .size) (o := .pending) trivial (Or.inl rfl)
  have h2 := addArr_owned_inv h1 hl (upd_same _ _ _) (Or.inl rfl)
  refine ⟨_, h2, ?_, addArr_at _ _⟩
  refine ⟨addArr_arrays h1.arrB _, rfl, rfl, rfl, rfl, rfl, rfl, Nat.le_succ _, ?_, fun p hl => live_emit hl (by simp), ?_⟩
  · intro p hp
    rw [upd_other _ _ (Nat.ne_of_lt hp), upd_other _ _ (Nat.ne_of_lt hp)]
  · rintro p ⟨hl, hp⟩
    have hl' : Live (s.trace ++ [.malloc s.next .size]) p := hl
    rcases live_malloc hl' with hl' | rfl
    · rw [upd_other _ _ (Nat.ne_of_lt (h.lt hl')), upd_other _ _ (Nat.ne_of_lt (h.lt hl'))] at hp
      exact ⟨hl', hp⟩
    · rw [upd_same] at hp
      rcases hp with hp | hp <;> cases hp

/-! ### Kernels -/

/-- The pointer is set, and the memory is there and remains. -/
def Kept (s : State) (own : Ptr → Owner) (o : Option Ptr) : Prop := ∃ p, o = some p ∧ Live s.trace p ∧ (own p = .user ∨ own p = .lost)

def SetLive (s : State) (o : Option Ptr) : Prop := ∃ p, o = some p ∧ Live s.trace p

theorem Kept.ext {s own s' own' o} (h : Kept s own o) (hi : Inv s own) (e : Ext s own s' own') : Kept s' own' o := by
  obtain ⟨p, h1, h2, h3⟩ := h
  exact ⟨p, h1, e.live p h2, by rw [e.same p (hi.lt h2)]; exact h3⟩

theorem SetLive.ext {s own s' own' o} (h : SetLive s o) (e : Ext s own s' own') : SetLive s' o := by
  obtain ⟨p, h1, h2⟩ := h
  exact ⟨p, h1, e.live p h2⟩

/-- A level of a structure that can be turned into arrays. -/
def UnpackOk (s : State) (own : Ptr → Owner) (l : Kind × List (Option Ptr)) : Prop := match l.1 with
  | .dense => SetLive s (slot l.2 0)
  | .sparse => Kept s own (slot l.2 0) ∧ Kept s own (slot l.2 1)
  | .singleton => Kept s own (slot l.2 1)

theorem UnpackOk.ext {s own s' own' l} (h : UnpackOk s own l) (hi : Inv s own) (e : Ext s own s' own') : UnpackOk s' own' l := by
  unfold UnpackOk at h ⊢
  cases hk : l.1 <;> rw [hk] at h <;> dsimp only at h ⊢
  · exact h.ext e
  · exact ⟨h.1.ext hi e, h.2.ext hi e⟩
  · exact h.ext hi e

/-- A level of a structure that a kernel can read. -/
def ReadOk (s : State) (l : Kind × List (Option Ptr)) : Prop := match l.1 with
  | .dense => True
  | .sparse => SetLive s (slot l.2 0) ∧ SetLive s (slot l.2 1)
  | .singleton => SetLive s (slot l.2 1)

theorem ReadOk.ext {s own s' own' l} (h : ReadOk s l) (e : Ext s own s' own') : ReadOk s' l := by
  unfold ReadOk at h ⊢
  cases hk : l.1 <;> rw [hk] at h <;> dsimp only at h ⊢
  · exact ⟨h.1.ext e, h.2.ext e⟩
  · exact h.ext e

theorem access_set {s : State} {own} {o : Option Ptr} (h : Inv s own) (ho : SetLive s o) :
    Inv (access o s) own ∧ Ext s own (access o s) own := by
  obtain ⟨p, rfl, hl⟩ := ho
  exact ⟨access_inv h hl, emit_ext trivial⟩

theorem readLevel_inv {s : State} {own} {l} (h : Inv s own) (hl : ReadOk s l) :
    Inv (readLevel s l) own ∧ Ext s own (readLevel s l) own := by
  unfold ReadOk at hl
  unfold readLevel
  cases hk : l.1 <;> rw [hk] at hl <;> dsimp only at hl ⊢
  · exact ⟨h, Ext.refl _ _⟩
  · obtain ⟨h1, e1⟩ := access_set h hl.1
    obtain ⟨h2, e2⟩ := access_set h1 (hl.2.ext e1)
    exact ⟨h2, e1.trans e2⟩
  · exact access_set h hl

theorem readLevels_inv {own} : ∀ {ls : List (Kind × List (Option Ptr))} {s : State}, Inv s own → (∀ l ∈ ls, ReadOk s l) →
    Inv (ls.foldl readLevel s) own ∧ Ext s own (ls.foldl readLevel s) own := by
  intro ls
  induction ls with
  | nil => intro s h _; exact ⟨h, Ext.refl _ _⟩
  | cons l ls ih =>
    intro s h hl
    obtain ⟨h1, e1⟩ := readLevel_inv h (hl l List.mem_cons_self)
    obtain ⟨h2, e2⟩ := ih h1 (fun l' hl' => (hl l' (List.mem_cons_of_mem _ hl')).ext e1)
    exact ⟨h2, e1.trans e2⟩

theorem readArgs_inv {s : State} {own} {a : Args} (h : Inv s own) (hd : Live s.trace a.desc) (hv : SetLive s a.vals)
    (hl : ∀ l ∈ a.levels, ReadOk s l) : Inv (readArgs s a) own ∧ Ext s own (readArgs s a) own := by
  obtain ⟨h1, e1⟩ := access_set (o := some a.desc) h ⟨_, rfl, hd⟩
  obtain ⟨h2, e2⟩ := readLevels_inv h1 (fun l' hl' => (hl l' hl').ext e1)
  obtain ⟨h3, e3⟩ := access_set h2 (hv.ext (e1.trans e2))
  exact ⟨h3, (e1.trans e2).trans e3⟩

theorem freshLevel_inv {s : State} {own} {l} (h : Inv s own) (hd : l.1 = .dense → SetLive s (slot l.2 0)) :
    ∃ own', Inv (freshLevel l s).1 own' ∧ Ext s own (freshLevel l s).1 own' ∧ UnpackOk (freshLevel l s).1 own' (freshLevel l s).2 ∧
      (freshLevel l s).2.1 = l.1 := by
  unfold freshLevel
  cases hk : l.1 <;> dsimp only
  · refine ⟨own, h, Ext.refl _ _, ?_, hk⟩
    unfold UnpackOk
    rw [hk]
    exact hd hk
  · obtain ⟨h1, l1⟩ := alloc_inv h (w := .index) (o := .lost) trivial rfl
    have e1 := alloc_ext h (w := .index) (o := .lost) ⟨by simp, by simp⟩
    obtain ⟨h2, l2⟩ := alloc_inv h1 (w := .index) (o := .lost) trivial rfl
    have e2 := alloc_ext h1 (w := .index) (o := .lost) ⟨by simp, by simp⟩
    refine ⟨_, h2, e1.trans e2, ⟨⟨s.next, rfl, e2.live _ l1, Or.inr ?_⟩, ⟨_, rfl, l2, Or.inr (upd_same _ _ _)⟩⟩, rfl⟩
    rw [e2.same _ (h1.lt l1), upd_same]
  · obtain ⟨h1, l1⟩ := alloc_inv h (w := .index) (o := .lost) trivial rfl
    have e1 := alloc_ext h (w := .index) (o := .lost) ⟨by simp, by simp⟩
    exact ⟨_, h1, e1, ⟨s.next, rfl, l1, Or.inr (upd_same _ _ _)⟩, rfl⟩

theorem freshLevels_inv : ∀ {ls : List (Kind × List (Option Ptr))} {s : State} {own}, Inv s own →
    (∀ l ∈ ls, l.1 = .dense → SetLive s (slot l.2 0)) →
    ∃ own', Inv (freshLevels ls s).1 own' ∧ Ext s own (freshLevels ls s).1 own' ∧
      (∀ l ∈ (freshLevels ls s).2, UnpackOk (freshLevels ls s).1 own' l) ∧
      (freshLevels ls s).2.map Prod.fst = ls.map Prod.fst := by
  intro ls
  induction ls with
  | nil => intro s own h _; exact ⟨own, h, Ext.refl _ _, (fun _ hx => nomatch hx), rfl⟩
  | cons l ls ih =>
    intro s own h hl
    obtain ⟨o1, h1, e1, u1, k1⟩ := freshLevel_inv h (hl l List.mem_cons_self)
    obtain ⟨o2, h2, e2, u2, k2⟩ := ih h1 (fun l' hl' hd => (hl l' (List.mem_cons_of_mem _ hl') hd).ext e1)
    refine ⟨o2, h2, e1.trans e2, ?_, ?_⟩
    · intro l' hl'
      rcases List.mem_cons.1 hl' with rfl | hl'
      · exact u1.ext h1 e2
      · exact u2 l' hl'
    · show _ :: _ = _ :: _
      rw [k1, k2]

/-- What running an assembling kernel gives: memory for the values that nothing is responsible for yet. -/
theorem freshArgs_inv {s : State} {own} {a : Args} (h : Inv s own) (hd : Live s.trace a.desc)
    (hl : ∀ l ∈ a.levels, l.1 = .dense → SetLive s (slot l.2 0)) :
    ∃ sm om own' p, Inv sm om ∧ Ext s own sm om ∧ (freshArgs a s).1 = (alloc .values sm).1 ∧ p = sm.next ∧ own' = upd om p .pending ∧
      Inv (freshArgs a s).1 own' ∧ (freshArgs a s).2.vals = some p ∧ Live (freshArgs a s).1.trace p ∧ own' p = .pending ∧
      (∀ l ∈ (freshArgs a s).2.levels, UnpackOk (freshArgs a s).1 own' l) ∧
      (freshArgs a s).2.levels.map Prod.fst = a.levels.map Prod.fst := by
  obtain ⟨h1, e1⟩ := access_set (o := some a.desc) h ⟨_, rfl, hd⟩
  obtain ⟨o2, h2, e2, u2, k2⟩ := freshLevels_inv h1 (fun l' hl' hx => (hl l' hl' hx).ext e1)
  obtain ⟨h3, l3⟩ := alloc_inv h2 (w := .values) (o := .pending) trivial (Or.inl rfl)
  refine ⟨_, o2, _, _, h2, e1.trans e2, rfl, rfl, rfl, h3, rfl, l3, upd_same _ _ _, ?_, k2⟩
  intro l hl'
  have hu := u2 l hl'
  have hlive : ∀ p, Live (freshLevels a.levels (access (some a.desc) s)).1.trace p →
      Live (alloc .values (freshLevels a.levels (access (some a.desc) s)).1).1.trace p := fun p hp => live_emit hp (by simp)
  have hk : ∀ o, Kept (freshLevels a.levels (access (some a.desc) s)).1 o2 o →
      Kept (alloc .values (freshLevels a.levels (access (some a.desc) s)).1).1
        (upd o2 (freshLevels a.levels (access (some a.desc) s)).1.next .pending) o := by
    rintro o ⟨p, q1, q2, q3⟩
    exact ⟨p, q1, hlive p q2, by rw [upd_other _ _ (Nat.ne_of_lt (h2.lt q2))]; exact q3⟩
  show UnpackOk (alloc .values (freshLevels a.levels (access (some a.desc) s)).1).1 _ l
  unfold UnpackOk at hu ⊢
  cases hkk : l.1 <;> rw [hkk] at hu <;> dsimp only at hu ⊢
  · obtain ⟨p, q1, q2⟩ := hu
    exact ⟨p, q1, hlive p q2⟩
  · exact ⟨hk _ hu.1, hk _ hu.2⟩
  · exact hk _ hu

/-! ### Results -/

/-- The arrays of a level exist and are set. -/
def IdsOk (arrays : Nat → Option Arr) (l : Kind × List Nat) : Prop :=
  (∀ a ∈ l.2, ∃ x, arrays a = some x) ∧ LevelBase arrays l ∧ LevelReady arrays l

theorem IdsOk.mono {f g : Nat → Option Arr} (hfg : ∀ a x, f a = some x → g a = some x) {l} (h : IdsOk f l) : IdsOk g l :=
  ⟨fun a ha => (h.1 a ha).imp fun x hx => hfg a x hx, levelBase_mono hfg h.2.1, levelReady_mono hfg h.2.2⟩

theorem unpackLevel_inv {s : State} {own} {l} (h : Inv s own) (hu : UnpackOk s own l) :
    ∃ own', Inv (unpackLevel l s).1 own' ∧ Ext s own (unpackLevel l s).1 own' ∧
      IdsOk (unpackLevel l s).1.arrays (l.1, (unpackLevel l s).2) := by
  unfold UnpackOk at hu
  unfold unpackLevel
  cases hk : l.1 <;> rw [hk] at hu <;> dsimp only at hu ⊢
  · obtain ⟨h1, e1⟩ := access_set h hu
    obtain ⟨o2, h2, e2, a2⟩ := makeArray_inv h1
    refine ⟨o2, h2, e1.trans e2, ?_, ?_, trivial⟩
    · intro a ha
      have ha : a ∈ [(makeArray (access (slot l.2 0) s)).2] := ha
      rw [List.mem_singleton] at ha
      subst ha
      exact ⟨_, a2⟩
    · intro _
      refine ⟨(access (slot l.2 0) s).next, ?_⟩
      unfold ptrAt
      show Option.bind (some _) _ = _
      dsimp only [Option.bind]
      rw [a2]
  · obtain ⟨⟨p, hp, lp, op⟩, ⟨q, hq, lq, oq⟩⟩ := hu
    obtain ⟨h1, e1⟩ := access_set h ⟨p, hp, lp⟩
    have h2 := addArr_inv h1 (y := ⟨slot l.2 0, false⟩) rfl (fun p' hp' => by
      have hp' : slot l.2 0 = some p' := hp'
      rw [hp] at hp'; injection hp' with hp'; subst hp'
      exact ⟨e1.live _ lp, op⟩)
    have e2 := addArr_ext h1 ⟨slot l.2 0, false⟩
    have h3 := addArr_inv h2 (y := ⟨slot l.2 1, false⟩) rfl (fun p' hp' => by
      have hp' : slot l.2 1 = some p' := hp'
      rw [hq] at hp'; injection hp' with hp'; subst hp'
      exact ⟨e2.live _ (e1.live _ lq), oq⟩)
    have e3 := addArr_ext h2 ⟨slot l.2 1, false⟩
    have a2 := e3.arrays _ _ (addArr_at (access (slot l.2 0) s) ⟨slot l.2 0, false⟩)
    have a3 := addArr_at (addArr ⟨slot l.2 0, false⟩ (access (slot l.2 0) s)).1 ⟨slot l.2 1, false⟩
    refine ⟨own, h3, (e1.trans e2).trans e3, ?_, ?_, ?_, ?_⟩
    · intro a ha
      rcases List.mem_cons.1 ha with rfl | ha
      · exact ⟨_, a2⟩
      · rw [List.mem_singleton] at ha
        subst ha
        exact ⟨_, a3⟩
    · intro hh; cases hh
    · refine ⟨p, ?_⟩
      unfold ptrAt
      show Option.bind (some _) _ = _
      dsimp only [Option.bind]
      rw [a2]
      exact hp
    · refine ⟨q, ?_⟩
      unfold ptrAt
      show Option.bind (some _) _ = _
      dsimp only [Option.bind]
      rw [a3]
      exact hq
  · obtain ⟨q, hq, lq, oq⟩ := hu
    obtain ⟨o1, h1, e1, a1⟩ := makeArray_inv h
    have h2 := addArr_inv h1 (y := ⟨slot l.2 1, false⟩) rfl (fun p' hp' => by
      have hp' : slot l.2 1 = some p' := hp'
      rw [hq] at hp'; injection hp' with hp'; subst hp'
      exact ⟨e1.live _ lq, by rw [e1.same _ (h.lt lq)]; exact oq⟩)
    have e2 := addArr_ext h1 ⟨slot l.2 1, false⟩
    have a2 := addArr_at (makeArray s).1 ⟨slot l.2 1, false⟩
    refine ⟨o1, h2, e1.trans e2, ?_, ?_, ?_⟩
    · intro a ha
      rcases List.mem_cons.1 ha with rfl | ha
      · exact ⟨_, e2.arrays _ _ a1⟩
      · rw [List.mem_singleton] at ha
        subst ha
        exact ⟨_, a2⟩
    · intro hh; cases hh
    · refine ⟨q, ?_⟩
      unfold ptrAt
      show Option.bind (some _) _ = _
      dsimp only [Option.bind]
      rw [a2]
      exact hq

theorem unpackLevels_inv : ∀ {ls : List (Kind × List (Option Ptr))} {s : State} {own}, Inv s own → (∀ l ∈ ls, UnpackOk s own l) →
    ∃ own', Inv (unpackLevels ls s).1 own' ∧ Ext s own (unpackLevels ls s).1 own' ∧
      (∀ l ∈ (ls.map Prod.fst).zip (unpackLevels ls s).2, IdsOk (unpackLevels ls s).1.arrays l) ∧
      (unpackLevels ls s).2.length = ls.length := by
  intro ls
  induction ls with
  | nil => intro s own h _; exact ⟨own, h, Ext.refl _ _, (fun _ hx => nomatch hx), rfl⟩
  | cons l ls ih =>
    intro s own h hl
    obtain ⟨o1, h1, e1, u1⟩ := unpackLevel_inv h (hl l List.mem_cons_self)
    obtain ⟨o2, h2, e2, u2, k2⟩ := ih h1 (fun l' hl' => (hl l' (List.mem_cons_of_mem _ hl')).ext h e1)
    refine ⟨o2, h2, e1.trans e2, ?_, ?_⟩
    · intro l' hl'
      have hl' : l' ∈ (l.1, (unpackLevel l s).2) :: (ls.map Prod.fst).zip (unpackLevels ls (unpackLevel l s).1).2 := hl'
      rcases List.mem_cons.1 hl' with rfl | hl'
      · exact u1.mono e2.arrays
      · exact u2 l' hl'
    · show _ + 1 = _ + 1
      rw [k2]

end Verif.Memory
