import Verif.Order.Spec
/-! Comparison of composite objects; search trees; iterators. -/
namespace Verif.Order
open Spec

/-! ### Orders -/

theorem TotalOrder.asymm {α : Type} {S : α → Prop} {lt : α → α → Bool} (h : TotalOrder S lt) {a b : α}
    (ha : S a) (hb : S b) (hab : lt a b = true) : lt b a = false := by
  cases hba : lt b a with
  | false => rfl
  | true => have := h.trans a b a ha hb ha hab hba; rw [h.irrefl a ha] at this; cases this

theorem TotalOrder.mono {α : Type} {S T : α → Prop} {lt : α → α → Bool} (h : TotalOrder S lt)
    (hT : ∀ a, T a → S a) : TotalOrder T lt :=
  ⟨fun a ha => h.irrefl a (hT a ha), fun a b c ha hb hc => h.trans a b c (hT a ha) (hT b hb) (hT c hc),
   fun a b ha hb => h.same a b (hT a ha) (hT b hb)⟩

theorem intLess_total : TotalOrder (fun _ => True) intLess := by
  refine ⟨fun a _ => ?_, fun a b c _ _ _ h1 h2 => ?_, fun a b _ _ h1 h2 => ?_⟩ <;>
    simp only [intLess, decide_eq_true_eq, decide_eq_false_iff_not] at * <;> omega

theorem natLess_total : TotalOrder (fun _ => True) natLess := by
  refine ⟨fun a _ => ?_, fun a b c _ _ _ h1 h2 => ?_, fun a b _ _ h1 h2 => ?_⟩ <;>
    simp only [natLess, decide_eq_true_eq, decide_eq_false_iff_not] at * <;> omega

theorem charLess_total : TotalOrder (fun _ => True) charLess := by
  refine ⟨fun a _ => ?_, fun a b c _ _ _ h1 h2 => ?_, fun a b _ _ h1 h2 => ?_⟩ <;>
    simp only [charLess, decide_eq_true_eq, decide_eq_false_iff_not] at *
  · omega
  · omega
  · exact Char.toNat_inj.mp (by omega)

theorem lexLess_irrefl {α : Type} {S : α → Prop} {lt : α → α → Bool} (h : TotalOrder S lt) :
    ∀ as : List α, (∀ a ∈ as, S a) → lexLess lt as as = false
  | [], _ => rfl
  | a :: as, hs => by
    have ha := h.irrefl a (hs a (by simp))
    simp only [lexLess, ha]
    exact lexLess_irrefl h as fun x hx => hs x (by simp [hx])

theorem lexLess_trans {α : Type} {S : α → Prop} {lt : α → α → Bool} (h : TotalOrder S lt) :
    ∀ as bs cs : List α, (∀ a ∈ as, S a) → (∀ a ∈ bs, S a) → (∀ a ∈ cs, S a) →
      lexLess lt as bs = true → lexLess lt bs cs = true → lexLess lt as cs = true
  | [], bs, [], _, _, _, h1, h2 => by
    cases bs <;> simp [lexLess] at h1 h2
  | [], _, _ :: _, _, _, _, _, _ => rfl
  | _ :: _, [], _, _, _, _, h1, _ => by simp [lexLess] at h1
  | _ :: _, _ :: _, [], _, _, _, _, h2 => by simp [lexLess] at h2
  | a :: as, b :: bs, c :: cs, ha, hb, hc, h1, h2 => by
    have sa := ha a (by simp)
    have sb := hb b (by simp)
    have sc := hc c (by simp)
    have ih := lexLess_trans h as bs cs (fun x hx => ha x (by simp [hx])) (fun x hx => hb x (by simp [hx]))
      (fun x hx => hc x (by simp [hx]))
    simp only [lexLess] at h1 h2 ⊢
    cases hab : lt a b with
    | true =>
      cases hbc : lt b c with
      | true => simp [h.trans a b c sa sb sc hab hbc]
      | false =>
        cases hcb : lt c b with
        | true => simp [hbc, hcb] at h2
        | false =>
          have := h.same b c sb sc hbc hcb
          subst this
          simp [hab]
    | false =>
      cases hba : lt b a with
      | true => simp [hab, hba] at h1
      | false =>
        have := h.same a b sa sb hab hba
        subst this
        simp only [hab, Bool.false_eq_true, if_false] at h1
        cases hac : lt a c with
        | true => simp
        | false =>
          cases hca : lt c a with
          | true => simp [hac, hca] at h2
          | false =>
            simp only [hac, hca, Bool.false_eq_true, if_false] at h2 ⊢
            exact ih h1 h2

theorem lexLess_same {α : Type} {S : α → Prop} {lt : α → α → Bool} (h : TotalOrder S lt) :
    ∀ as bs : List α, (∀ a ∈ as, S a) → (∀ a ∈ bs, S a) →
      lexLess lt as bs = false → lexLess lt bs as = false → as = bs
  | [], [], _, _, _, _ => rfl
  | [], _ :: _, _, _, h1, _ => by simp [lexLess] at h1
  | _ :: _, [], _, _, _, h2 => by simp [lexLess] at h2
  | a :: as, b :: bs, ha, hb, h1, h2 => by
    have sa := ha a (by simp)
    have sb := hb b (by simp)
    have ih := lexLess_same h as bs (fun x hx => ha x (by simp [hx])) (fun x hx => hb x (by simp [hx]))
    simp only [lexLess] at h1 h2
    cases hab : lt a b with
    | true => simp [hab] at h1
    | false =>
      cases hba : lt b a with
      | true => simp [hba] at h2
      | false =>
        have := h.same a b sa sb hab hba
        subst this
        simp only [hab, Bool.false_eq_true, if_false] at h1 h2
        rw [ih h1 h2]

theorem lexLess_total {α : Type} {S : α → Prop} {lt : α → α → Bool} (h : TotalOrder S lt) :
    TotalOrder (fun as : List α => ∀ a ∈ as, S a) (lexLess lt) :=
  ⟨lexLess_irrefl h, lexLess_trans h, lexLess_same h⟩

theorem pairLess_total {α : Type} {S : α → Prop} {lt : α → α → Bool} (h : TotalOrder S lt) :
    TotalOrder (fun p : Int × α => S p.2) (pairLess lt) := by
  refine ⟨fun a ha => ?_, fun a b c ha hb hc h1 h2 => ?_, fun a b ha hb h1 h2 => ?_⟩
  · simp [pairLess, h.irrefl _ ha]
  · simp only [pairLess, Bool.or_eq_true, Bool.and_eq_true, decide_eq_true_eq, Bool.not_eq_true',
      decide_eq_false_iff_not] at h1 h2 ⊢
    rcases h1 with h1 | ⟨h1, h1'⟩ <;> rcases h2 with h2 | ⟨h2, h2'⟩
    · exact Or.inl (by omega)
    · exact Or.inl (by omega)
    · exact Or.inl (by omega)
    · exact Or.inr ⟨by omega, h.trans _ _ _ ha hb hc h1' h2'⟩
  · simp only [pairLess, Bool.or_eq_false_iff, Bool.and_eq_false_iff, decide_eq_false_iff_not,
      Bool.not_eq_false', decide_eq_true_eq] at h1 h2
    have he : a.1 = b.1 := by omega
    have h1' : lt a.2 b.2 = false := by
      rcases h1.2 with h | h
      · omega
      · exact h
    have h2' : lt b.2 a.2 = false := by
      rcases h2.2 with h | h
      · omega
      · exact h
    exact Prod.ext he (h.same _ _ ha hb h1' h2')

/-- First by one key, then by another. -/
def byThen {α β : Type} [DecidableEq β] (f : α → β) (l1 : β → β → Bool) (l2 : α → α → Bool) (a b : α) : Bool :=
  if f a ≠ f b then l1 (f a) (f b) else l2 a b

/-- Lexicographic combination: the second order needs to be total only among objects with equal first
key. -/
theorem byThen_total {α β : Type} [DecidableEq β] {S : α → Prop} {T : β → Prop} {f : α → β}
    {l1 : β → β → Bool} {l2 : α → α → Bool} (h1 : TotalOrder T l1) (hT : ∀ a, S a → T (f a))
    (h2 : ∀ x, TotalOrder (fun a => S a ∧ f a = x) l2) : TotalOrder S (byThen f l1 l2) := by
  refine ⟨fun a ha => ?_, fun a b c ha hb hc e1 e2 => ?_, fun a b ha hb e1 e2 => ?_⟩
  · simp only [byThen, ne_eq, not_true_eq_false, if_false]
    exact (h2 (f a)).irrefl a ⟨ha, rfl⟩
  · simp only [byThen, ne_eq] at e1 e2 ⊢
    by_cases hab : f a = f b
    · by_cases hbc : f b = f c
      · rw [if_neg (by simp [hab])] at e1
        rw [if_neg (by simp [hbc])] at e2
        rw [if_neg (by simp [hab, hbc])]
        exact (h2 (f c)).trans a b c ⟨ha, hab.trans hbc⟩ ⟨hb, hbc⟩ ⟨hc, rfl⟩ e1 e2
      · rw [if_pos hbc] at e2
        rw [if_pos (by rw [hab]; exact hbc), hab]
        exact e2
    · rw [if_pos hab] at e1
      by_cases hbc : f b = f c
      · rw [if_pos (by rw [← hbc]; exact hab), ← hbc]
        exact e1
      · rw [if_pos hbc] at e2
        have e3 := h1.trans _ _ _ (hT a ha) (hT b hb) (hT c hc) e1 e2
        by_cases hac : f a = f c
        · rw [hac, h1.irrefl _ (hT c hc)] at e3; cases e3
        · rw [if_pos hac]; exact e3
  · simp only [byThen, ne_eq] at e1 e2
    by_cases hab : f a = f b
    · rw [if_neg (by simp [hab])] at e1
      rw [if_neg (by simp [hab])] at e2
      exact (h2 (f b)).same a b ⟨ha, hab⟩ ⟨hb, rfl⟩ e1 e2
    · rw [if_pos hab] at e1
      rw [if_pos (fun h => hab h.symm)] at e2
      exact absurd (h1.same _ _ (hT a ha) (hT b hb) e1 e2) hab

/-- Two orders, of which one or the other may make an object smaller, form an order if they never
disagree. -/
theorem or_total {α β γ : Type} {S : α → Prop} {T1 : β → Prop} {T2 : γ → Prop} {f : α → β} {g : α → γ}
    {l1 : β → β → Bool} {l2 : γ → γ → Bool} (h1 : TotalOrder T1 l1) (h2 : TotalOrder T2 l2)
    (hT1 : ∀ a, S a → T1 (f a)) (hT2 : ∀ a, S a → T2 (g a))
    (inj : ∀ a b, S a → S b → f a = f b → g a = g b → a = b)
    (agree : ∀ a b, S a → S b → l1 (f a) (f b) = true → l2 (g b) (g a) = true → False) :
    TotalOrder S (fun a b => if l1 (f a) (f b) then l1 (f a) (f b) else l2 (g a) (g b)) := by
  have key : ∀ a b, (if l1 (f a) (f b) then l1 (f a) (f b) else l2 (g a) (g b)) =
      (l1 (f a) (f b) || l2 (g a) (g b)) := by
    intro a b; cases l1 (f a) (f b) <;> rfl
  simp only [key]
  refine ⟨fun a ha => ?_, fun a b c ha hb hc e1 e2 => ?_, fun a b ha hb e1 e2 => ?_⟩
  · simp [h1.irrefl _ (hT1 a ha), h2.irrefl _ (hT2 a ha)]
  · simp only [Bool.or_eq_true] at e1 e2 ⊢
    -- in each case the other order is at most equal
    have le1 : ∀ x y, S x → S y → (l1 (f x) (f y) = true ∨ l2 (g x) (g y) = true) →
        (l1 (f x) (f y) = true ∨ f x = f y) ∧ (l2 (g x) (g y) = true ∨ g x = g y) := by
      intro x y hx hy h
      refine ⟨?_, ?_⟩
      · cases e : l1 (f x) (f y) with
        | true => exact Or.inl rfl
        | false =>
          cases e' : l1 (f y) (f x) with
          | false => exact Or.inr (h1.same _ _ (hT1 x hx) (hT1 y hy) e e')
          | true =>
            rcases h with h | h
            · rw [h] at e; cases e
            · exact (agree y x hy hx e' h).elim
      · cases e : l2 (g x) (g y) with
        | true => exact Or.inl rfl
        | false =>
          cases e' : l2 (g y) (g x) with
          | false => exact Or.inr (h2.same _ _ (hT2 x hx) (hT2 y hy) e e')
          | true =>
            rcases h with h | h
            · exact (agree x y hx hy h e').elim
            · rw [h] at e; cases e
    have a1 := le1 a b ha hb e1
    have a2 := le1 b c hb hc e2
    rcases e1 with e1 | e1
    · rcases a2.1 with h | h
      · exact Or.inl (h1.trans _ _ _ (hT1 a ha) (hT1 b hb) (hT1 c hc) e1 h)
      · exact Or.inl (by rw [← h]; exact e1)
    · rcases a2.2 with h | h
      · exact Or.inr (h2.trans _ _ _ (hT2 a ha) (hT2 b hb) (hT2 c hc) e1 h)
      · exact Or.inr (by rw [← h]; exact e1)
  · simp only [Bool.or_eq_false_iff] at e1 e2
    exact inj a b ha hb (h1.same _ _ (hT1 a ha) (hT1 b hb) e1.1 e2.1)
      (h2.same _ _ (hT2 a ha) (hT2 b hb) e1.2 e2.2)

theorem varLess_total : TotalOrder (fun _ : Name => True) varLess :=
  TotalOrder.mono (lexLess_total charLess_total) fun _ _ _ _ => trivial

theorem windowLess_total : TotalOrder (fun _ : Window => True) windowLess := by
  have h : windowLess = byThen Window.lo intLess (byThen Window.hi intLess
      fun a b => intLess a.stride b.stride) := rfl
  rw [h]
  refine byThen_total intLess_total (fun _ _ => trivial) fun x =>
    byThen_total intLess_total (fun _ _ => trivial) fun y => ⟨fun a _ => ?_, fun a b c _ _ _ e1 e2 => ?_, ?_⟩
  · exact intLess_total.irrefl _ trivial
  · exact intLess_total.trans _ _ _ trivial trivial trivial e1 e2
  · intro a b ha hb e1 e2
    have e := intLess_total.same _ _ trivial trivial e1 e2
    cases a; cases b
    simp only at ha hb e
    simp [ha.1.2, hb.1.2, ha.2, hb.2, e]

theorem indexSetLess_total {S : IndexSet → Prop} (h : ∀ a b, S a → S b → ¬ SetsOpposed a b) :
    TotalOrder S indexSetLess := by
  refine or_total (f := IndexSet.set) (g := IndexSet.tensor) (l1 := lexLess intLess) (l2 := natLess)
    (lexLess_total intLess_total) natLess_total (fun _ _ _ _ => trivial) (fun _ _ => trivial) ?_ ?_
  · intro a b _ _ h1 h2; cases a; cases b; simp only at h1 h2; rw [h1, h2]
  · intro a b ha hb h1 h2
    exact h a b ha hb ⟨h1, by simpa [natLess] using h2⟩

theorem accessLess_total {S : Access → Prop}
    (hset : ∀ a b, S a → S b → ∀ p ∈ a.sets, ∀ q ∈ b.sets, ¬ SetsOpposed p.2 q.2)
    (hopp : ∀ a b, S a → S b → ¬ Opposed a b) : TotalOrder S accessLess := by
  have hk : accessLess = byThen Access.tensor natLess (byThen Access.vars (lexLess varLess)
      fun a b => if lexLess (pairLess windowLess) a.windows b.windows then
        lexLess (pairLess windowLess) a.windows b.windows
        else lexLess (pairLess indexSetLess) a.sets b.sets) := rfl
  rw [hk]
  refine byThen_total natLess_total (fun _ _ => trivial) fun x =>
    byThen_total (lexLess_total varLess_total) (fun _ _ _ _ => trivial) fun y => ?_
  have hs : TotalOrder (fun s : IndexSet => ∃ a, S a ∧ ∃ p ∈ a.sets, p.2 = s) indexSetLess := by
    refine indexSetLess_total ?_
    rintro s t ⟨a, ha, p, hp, rfl⟩ ⟨b, hb, q, hq, rfl⟩
    exact hset a b ha hb p hp q hq
  refine or_total (f := Access.windows) (g := Access.sets)
    (lexLess_total (pairLess_total windowLess_total)) (lexLess_total (pairLess_total hs))
    (fun _ _ _ _ => trivial) ?_ ?_ ?_
  · intro a ha p hp
    exact ⟨a, ha.1.1, p, hp, rfl⟩
  · intro a b ha hb h1 h2
    cases a; cases b
    simp only at ha hb h1 h2
    simp [ha.1.2, hb.1.2, ha.2, hb.2, h1, h2]
  · intro a b ha hb h1 h2
    exact hopp a b ha.1.1 hb.1.1 ⟨ha.1.2.trans hb.1.2.symm, ha.2.trans hb.2.symm, h1, h2⟩

theorem modeAccessLess_total {S : Access → Prop} (h : TotalOrder S accessLess) :
    TotalOrder (fun m : ModeAccess => S m.access) modeAccessLess := by
  have hk : modeAccessLess = byThen ModeAccess.mode natLess
      fun a b => accessLess a.access b.access := rfl
  rw [hk]
  refine byThen_total natLess_total (fun _ _ => trivial) fun x => ⟨fun a ha => ?_, fun a b c ha hb hc e1 e2 => ?_, ?_⟩
  · exact h.irrefl _ ha.1
  · exact h.trans _ _ _ ha.1 hb.1 hc.1 e1 e2
  · intro a b ha hb e1 e2
    have e := h.same _ _ ha.1 hb.1 e1 e2
    cases a; cases b
    simp only at ha hb e
    simp [ha.2, hb.2, e]

/-! ### Search trees -/

section trees
variable {κ ν : Type} {S : κ → Prop} {lt : κ → κ → Bool}

/-- Sorted entries with keys in `S`. -/
def Sorted (S : κ → Prop) (lt : κ → κ → Bool) (es : List (κ × ν)) : Prop :=
  es.Pairwise (fun a b => lt a.1 b.1 = true) ∧ ∀ e ∈ es, S e.1

theorem lowerBound_spec (h : TotalOrder S lt) {key : κ} (hk : S key) :
    ∀ (t : Tree κ ν) (best : Option (κ × ν)), Sorted S lt t.entries →
      Tree.lowerBound lt key t best =
        match t.entries.find? fun e => !lt e.1 key with
        | some e => some e
        | none => best
  | .leaf, best, _ => rfl
  | .node l k v r, best, hs => by
    simp only [Tree.entries] at hs
    have hl : Sorted S lt l.entries :=
      ⟨(List.pairwise_append.mp hs.1).1, fun e he => hs.2 e (by simp [he])⟩
    have hr : Sorted S lt r.entries :=
      ⟨(List.pairwise_cons.mp (List.pairwise_append.mp hs.1).2.1).2, fun e he => hs.2 e (by simp [he])⟩
    have hlk : ∀ e ∈ l.entries, lt e.1 k = true := fun e he =>
      (List.pairwise_append.mp hs.1).2.2 e he (k, v) (by simp)
    have sk : S k := hs.2 (k, v) (by simp)
    simp only [Tree.lowerBound, Tree.entries, List.find?_append]
    cases hkk : lt k key with
    | true =>
      simp only [if_true]
      rw [lowerBound_spec h hk r best hr]
      have hnone : l.entries.find? (fun e => !lt e.1 key) = none := by
        rw [List.find?_eq_none]
        intro e he
        have := h.trans _ _ _ (hl.2 e he) sk hk (hlk e he) hkk
        simp [this]
      rw [hnone]
      simp [hkk]
    | false =>
      simp only [Bool.false_eq_true, if_false]
      rw [lowerBound_spec h hk l (some (k, v)) hl]
      simp only [List.find?_cons, hkk, Bool.not_false]
      cases l.entries.find? (fun e => !lt e.1 key) <;> rfl

theorem find_spec [DecidableEq κ] (h : TotalOrder S lt) {key : κ} (hk : S key) (t : Tree κ ν)
    (hs : Sorted S lt t.entries) :
    t.find lt key = (t.entries.find? fun e => decide (e.1 = key)).map (·.2) := by
  unfold Tree.find
  rw [lowerBound_spec h hk t none hs]
  obtain ⟨hp, hS⟩ := hs
  generalize t.entries = es at hp hS
  induction es with
  | nil => rfl
  | cons e es ih =>
    have hp' := List.pairwise_cons.mp hp
    have se := hS e (by simp)
    simp only [List.find?_cons]
    cases hek : lt e.1 key with
    | true =>
      have hne : e.1 ≠ key := by
        intro he; rw [he, h.irrefl _ hk] at hek; cases hek
      simp only [Bool.not_true, hne, decide_false]
      exact ih hp'.2 fun x hx => hS x (by simp [hx])
    | false =>
      simp only [Bool.not_false]
      cases hke : lt key e.1 with
      | true =>
        have hne : e.1 ≠ key := by
          intro he; rw [he, h.irrefl _ hk] at hke; cases hke
        simp only [hke, if_true, hne, decide_false]
        symm
        rw [Option.map_eq_none_iff, List.find?_eq_none]
        intro x hx hxe
        simp only [decide_eq_true_eq] at hxe
        have h1 := hp'.1 x hx
        rw [hxe, hek] at h1
        cases h1
      | false =>
        have he := h.same _ _ se hk hek hke
        simp [hke, he]

theorem before_spec (h : TotalOrder S lt) {key : κ} (hk : S key) :
    ∀ (t : Tree κ ν) (best : Option κ), Sorted S lt t.entries →
      Tree.before lt key t best =
        match (t.entries.filter fun e => !lt key e.1).getLast? with
        | some e => some e.1
        | none => best
  | .leaf, best, _ => rfl
  | .node l k v r, best, hs => by
    simp only [Tree.entries] at hs
    have hl : Sorted S lt l.entries :=
      ⟨(List.pairwise_append.mp hs.1).1, fun e he => hs.2 e (by simp [he])⟩
    have hr : Sorted S lt r.entries :=
      ⟨(List.pairwise_cons.mp (List.pairwise_append.mp hs.1).2.1).2, fun e he => hs.2 e (by simp [he])⟩
    have hkr : ∀ e ∈ r.entries, lt k e.1 = true := fun e he =>
      (List.pairwise_cons.mp (List.pairwise_append.mp hs.1).2.1).1 e he
    have sk : S k := hs.2 (k, v) (by simp)
    simp only [Tree.before, Tree.entries, List.filter_append, List.filter_cons]
    cases hkk : lt key k with
    | true =>
      simp only [if_true, Bool.not_true, Bool.false_eq_true, if_false]
      rw [before_spec h hk l best hl]
      have hnil : r.entries.filter (fun e => !lt key e.1) = [] := by
        rw [List.filter_eq_nil_iff]
        intro e he
        have := h.trans _ _ _ hk sk (hr.2 e he) hkk (hkr e he)
        simp [this]
      rw [hnil, List.append_nil]
    | false =>
      simp only [Bool.not_false, if_true, Bool.false_eq_true, if_false]
      rw [before_spec h hk r (some k) hr]
      rw [List.getLast?_append, List.getLast?_cons]
      cases hgl : (r.entries.filter fun e => !lt key e.1).getLast? with
      | none => simp [List.getLast?_eq_none_iff.mp hgl]
      | some e => simp [List.getLastD_eq_getLast?, hgl]

theorem place_entries (h : TotalOrder S lt) {key : κ} (hk : S key) (v : ν) :
    ∀ t : Tree κ ν, Sorted S lt t.entries →
      (Tree.place lt key v t).entries =
        (t.entries.filter fun e => !lt key e.1) ++ (key, v) :: t.entries.filter fun e => lt key e.1
  | .leaf, _ => rfl
  | .node l k w r, hs => by
    simp only [Tree.entries] at hs
    have hl : Sorted S lt l.entries :=
      ⟨(List.pairwise_append.mp hs.1).1, fun e he => hs.2 e (by simp [he])⟩
    have hr : Sorted S lt r.entries :=
      ⟨(List.pairwise_cons.mp (List.pairwise_append.mp hs.1).2.1).2, fun e he => hs.2 e (by simp [he])⟩
    have hkr : ∀ e ∈ r.entries, lt k e.1 = true := fun e he =>
      (List.pairwise_cons.mp (List.pairwise_append.mp hs.1).2.1).1 e he
    have hlk : ∀ e ∈ l.entries, lt e.1 k = true := fun e he =>
      (List.pairwise_append.mp hs.1).2.2 e he (k, w) (by simp)
    have sk : S k := hs.2 (k, w) (by simp)
    simp only [Tree.place, Tree.entries, List.filter_append, List.filter_cons]
    cases hkk : lt key k with
    | true =>
      have h1 : r.entries.filter (fun e => !lt key e.1) = [] := by
        rw [List.filter_eq_nil_iff]
        intro e he
        have := h.trans _ _ _ hk sk (hr.2 e he) hkk (hkr e he)
        simp [this]
      have h2 : r.entries.filter (fun e => lt key e.1) = r.entries := by
        rw [List.filter_eq_self]
        intro e he
        exact h.trans _ _ _ hk sk (hr.2 e he) hkk (hkr e he)
      simp only [if_true, Tree.entries, place_entries h hk v l hl, h1, h2]
      simp
    | false =>
      have h0 : ∀ e ∈ l.entries, lt key e.1 = false := by
        intro e he
        cases hc : lt key e.1 with
        | false => rfl
        | true => rw [h.trans _ _ _ hk (hl.2 e he) sk hc (hlk e he)] at hkk; cases hkk
      have h1 : l.entries.filter (fun e => !lt key e.1) = l.entries := by
        rw [List.filter_eq_self]; intro e he; simp [h0 e he]
      have h2 : l.entries.filter (fun e => lt key e.1) = [] := by
        rw [List.filter_eq_nil_iff]; intro e he; simp [h0 e he]
      simp only [Bool.false_eq_true, if_false, Tree.entries, place_entries h hk v r hr, h1, h2]
      simp

/-- The entries after an insertion are sorted, and every other key keeps its value. -/
theorem insert_spec [DecidableEq κ] (h : TotalOrder S lt) {key : κ} (hk : S key) (v : ν) (t : Tree κ ν)
    (hs : Sorted S lt t.entries) :
    Sorted S lt (t.insert lt key v).entries ∧
      ∀ k', ((t.insert lt key v).entries.find? fun e => decide (e.1 = k')).map (·.2) =
        match (t.entries.find? fun e => decide (e.1 = k')).map (·.2) with
        | some w => some w
        | none => if key = k' then some v else none := by
  unfold Tree.insert
  rw [before_spec h hk t none hs]
  have hplace : (∀ e ∈ t.entries, e.1 ≠ key) →
      Sorted S lt (Tree.place lt key v t).entries ∧
      ∀ k', ((Tree.place lt key v t).entries.find? fun e => decide (e.1 = k')).map (·.2) =
        match (t.entries.find? fun e => decide (e.1 = k')).map (·.2) with
        | some w => some w
        | none => if key = k' then some v else none := by
    intro hne
    rw [place_entries h hk v t hs]
    have hlow : ∀ e ∈ t.entries, lt key e.1 = false → lt e.1 key = true := by
      intro e he hc
      cases hc' : lt e.1 key with
      | true => rfl
      | false => exact absurd (h.same _ _ (hs.2 e he) hk hc' hc) (hne e he)
    refine ⟨⟨?_, ?_⟩, ?_⟩
    · rw [List.pairwise_append]
      refine ⟨hs.1.filter _, List.pairwise_cons.mpr ⟨?_, hs.1.filter _⟩, ?_⟩
      · intro e he; exact (List.mem_filter.mp he).2
      · intro a ha b hb
        obtain ⟨ha1, ha2⟩ := List.mem_filter.mp ha
        have ha3 := hlow a ha1 (by simpa using ha2)
        rcases List.mem_cons.mp hb with rfl | hb
        · exact ha3
        · obtain ⟨hb1, hb2⟩ := List.mem_filter.mp hb
          exact h.trans _ _ _ (hs.2 a ha1) hk (hs.2 b hb1) ha3 hb2
    · intro e he
      rw [List.mem_append, List.mem_cons, List.mem_filter, List.mem_filter] at he
      rcases he with he | rfl | he
      · exact hs.2 e he.1
      · exact hk
      · exact hs.2 e he.1
    · intro k'
      -- the entries are those before and after the new one
      have hsplit : ∀ es : List (κ × ν), es.Pairwise (fun a b => lt a.1 b.1 = true) → (∀ e ∈ es, S e.1) →
          (es.find? fun e => decide (e.1 = k')) =
            ((es.filter fun e => !lt key e.1) ++ es.filter fun e => lt key e.1).find?
              fun e => decide (e.1 = k') := by
        intro es hp hS
        have : (es.filter fun e => !lt key e.1) ++ es.filter (fun e => lt key e.1) = es := by
          induction es with
          | nil => rfl
          | cons e es ih =>
            have hp' := List.pairwise_cons.mp hp
            cases hc : lt key e.1 with
            | false =>
              simp only [List.filter_cons, hc, Bool.not_false, if_true, Bool.false_eq_true, if_false,
                List.cons_append]
              rw [ih hp'.2 fun x hx => hS x (by simp [hx])]
            | true =>
              have hall : ∀ x ∈ e :: es, lt key x.1 = true := by
                intro x hx
                rcases List.mem_cons.mp hx with rfl | hx
                · exact hc
                · exact h.trans _ _ _ hk (hS e (by simp)) (hS x (by simp [hx])) hc (hp'.1 x hx)
              rw [List.filter_eq_nil_iff.mpr (fun x hx => by simp [hall x hx]),
                List.filter_eq_self.mpr hall]
              rfl
        rw [this]
      rw [hsplit _ hs.1 hs.2]
      simp only [List.find?_append, List.find?_cons]
      cases h1 : (t.entries.filter fun e => !lt key e.1).find? (fun e => decide (e.1 = k')) with
      | some e => simp
      | none =>
        simp only [Option.none_or]
        by_cases hkk : key = k'
        · have : (t.entries.filter fun e => lt key e.1).find? (fun e => decide (e.1 = k')) = none := by
            rw [List.find?_eq_none]
            intro e he
            simp only [decide_eq_true_eq]
            rw [← hkk]
            exact hne e (List.mem_filter.mp he).1
          rw [this]
          simp [hkk]
        · simp only [hkk, decide_false, if_false]
          cases (t.entries.filter fun e => lt key e.1).find? (fun e => decide (e.1 = k')) <;> rfl
  have hkeep : (∃ e ∈ t.entries, e.1 = key) →
      Sorted S lt t.entries ∧
      ∀ k', (t.entries.find? fun e => decide (e.1 = k')).map (·.2) =
        match (t.entries.find? fun e => decide (e.1 = k')).map (·.2) with
        | some w => some w
        | none => if key = k' then some v else none := by
    rintro ⟨e, he, hek⟩
    refine ⟨hs, fun k' => ?_⟩
    cases hf : t.entries.find? (fun e => decide (e.1 = k')) with
    | some w => rfl
    | none =>
      simp only [Option.map_none]
      rw [List.find?_eq_none] at hf
      have := hf e he
      rw [hek] at this
      rw [if_neg (by simpa using this)]
  cases hgl : (t.entries.filter fun e => !lt key e.1).getLast? with
  | none =>
    apply hplace
    intro e he hek
    have hnil := List.getLast?_eq_none_iff.mp hgl
    rw [List.filter_eq_nil_iff] at hnil
    have := hnil e he
    rw [hek, h.irrefl _ hk] at this
    simp at this
  | some b =>
    have hb := List.mem_of_getLast? hgl
    obtain ⟨hb1, hb2⟩ := List.mem_filter.mp hb
    have hb3 : lt key b.1 = false := by simpa using hb2
    simp only
    cases hbk : lt b.1 key with
    | false =>
      simp only [Bool.false_eq_true, if_false]
      exact hkeep ⟨b, hb1, h.same _ _ (hs.2 b hb1) hk hbk hb3⟩
    | true =>
      simp only [if_true]
      apply hplace
      intro e he hek
      -- `e` is among those that are not greater, and `b` is the last of them
      have hef : e ∈ t.entries.filter fun e => !lt key e.1 := by
        rw [List.mem_filter]; exact ⟨he, by rw [hek, h.irrefl _ hk]; rfl⟩
      have hpf : (t.entries.filter fun e => !lt key e.1).Pairwise (fun a b => lt a.1 b.1 = true) :=
        hs.1.filter _
      obtain ⟨ys, hys⟩ := List.getLast?_eq_some_iff.mp hgl
      rw [hys] at hef hpf
      rcases List.mem_append.mp hef with hy | hy
      · have := (List.pairwise_append.mp hpf).2.2 e hy b (by simp)
        rw [hek] at this
        rw [this] at hb3; cases hb3
      · rw [List.mem_singleton] at hy
        rw [← hy, hek, h.irrefl _ hk] at hbk; cases hbk

theorem inserted_spec [DecidableEq κ] (h : TotalOrder S lt) {log : List (κ × ν)} {t : Tree κ ν}
    (hi : Inserted lt log t) (hS : ∀ e ∈ log, S e.1) :
    Sorted S lt t.entries ∧
      ∀ k, (t.entries.find? fun e => decide (e.1 = k)).map (·.2) = firstInserted log k := by
  induction hi with
  | empty => exact ⟨⟨List.Pairwise.nil, by simp [Tree.entries]⟩, fun k => rfl⟩
  | @insert log t k v t' _ he ih =>
    obtain ⟨hs, hf⟩ := ih fun e h' => hS e (by simp [h'])
    obtain ⟨h1, h2⟩ := insert_spec h (hS (k, v) (by simp)) v t hs
    rw [he]
    refine ⟨h1, fun k' => ?_⟩
    rw [h2 k', hf k']
    unfold firstInserted
    rw [List.reverse_cons, List.find?_append]
    cases hlog : log.reverse.find? (fun e => decide (e.1 = k')) with
    | some e => rfl
    | none =>
      simp only [Option.map_none, Option.none_or, List.find?_cons, List.find?_nil]
      by_cases hkk : k = k' <;> simp [hkk]

end trees

/-! ### Names -/

theorem generated_inj {m n : Nat} (h : generated m = generated n) : m = n := by
  unfold generated at h
  have h' := List.cons.inj h
  rw [← decVal_dec m, ← decVal_dec n, h'.2]

theorem generated_mem_names : ∀ (ms : List Made) (c : Nat) (x : Name), x ∈ names c ms →
    (∃ k, c ≤ k ∧ x = generated k) ∨ Made.named x ∈ ms
  | [], _, _, h => by simp [names] at h
  | .unnamed :: ms, c, x, h => by
    rcases List.mem_cons.mp h with h | h
    · exact Or.inl ⟨c, Nat.le_refl _, h⟩
    · rcases generated_mem_names ms (c + 1) x h with ⟨k, hk, hx⟩ | h'
      · exact Or.inl ⟨k, by omega, hx⟩
      · exact Or.inr (by simp [h'])
  | .named n :: ms, c, x, h => by
    rcases List.mem_cons.mp h with h | h
    · exact Or.inr (by simp [h])
    · rcases generated_mem_names ms c x h with h' | h'
      · exact Or.inl h'
      · exact Or.inr (by simp [h'])

/-! ### Iterators -/

theorem nodup_index {α : Type} {l : List α} (h : l.Nodup) {i j : Nat} {hi : i < l.length} {hj : j < l.length}
    {v : α} (h1 : l[i] = v) (h2 : l[j] = v) : i = j := by
  have hp := List.pairwise_iff_getElem.mp h
  rcases Nat.lt_trichotomy i j with hlt | heq | hgt
  · exact absurd (h1.trans h2.symm) (hp i j hi hj hlt)
  · exact heq
  · exact absurd (h2.trans h1.symm) (hp j i hj hi hgt)

/-- What is known of the `k`-th content made, after the content `prev`. -/
def Content (addr tick : Nat → Nat) (fresh : Name → Prop) (k : Nat) (prev : Option Iter) : Iter → Prop
  | .dim a _ => a = addr k
  | .root a v _ => a = addr k ∧ v = generated (tick k)
  | .level a v _ p => a = addr k ∧ fresh v ∧ prev = some p

/-- The contents made from the `k`-th on. -/
def Contents (addr tick : Nat → Nat) (fresh : Name → Prop) : Nat → Option Iter → List Iter → Prop
  | _, _, [] => True
  | k, prev, it :: rest =>
    Content addr tick fresh k prev it ∧ Contents addr tick fresh (k + 1) (some it) rest

section iters
variable {addr tick : Nat → Nat} {fresh : Name → Prop}

theorem Contents.get : ∀ (l : List Iter) (k : Nat) (prev : Option Iter),
    Contents addr tick fresh k prev l → ∀ (j : Nat) (it : Iter), l[j]? = some it →
      Content addr tick fresh (k + j) (if j = 0 then prev else l[j - 1]?) it
  | [], _, _, _, j, it, h => by simp at h
  | x :: l, k, prev, hc, 0, it, h => by
    simp only [List.getElem?_cons_zero, Option.some.injEq] at h
    subst h
    simpa using hc.1
  | x :: l, k, prev, hc, j + 1, it, h => by
    rw [List.getElem?_cons_succ] at h
    have := Contents.get l (k + 1) (some x) hc.2 j it h
    rw [show k + (j + 1) = k + 1 + j by omega]
    cases j with
    | zero => simpa using this
    | succ j => simpa using this

theorem Contents.append : ∀ (l m : List Iter) (k : Nat) (prev : Option Iter),
    Contents addr tick fresh k prev l → (∀ p, Contents addr tick fresh (k + l.length) p m) →
      Contents addr tick fresh k prev (l ++ m)
  | [], m, k, prev, _, hm => hm prev
  | x :: l, m, k, prev, hl, hm => by
    refine ⟨hl.1, Contents.append l m (k + 1) (some x) hl.2 fun p => ?_⟩
    have := hm p
    rw [List.length_cons, show k + (l.length + 1) = k + 1 + l.length by omega] at this
    exact this

theorem levelsFrom_contents (t : Nat) : ∀ (vars : List Name) (k : Nat) (p : Iter), (∀ v ∈ vars, fresh v) →
    Contents addr tick fresh k (some p) (levelsFrom addr t k p vars)
  | [], _, _, _ => trivial
  | v :: vs, k, p, h => by
    refine ⟨⟨rfl, h v (by simp), rfl⟩, ?_⟩
    exact levelsFrom_contents t vs (k + 1) _ fun w hw => h w (by simp [hw])

theorem levelsFrom_length (t : Nat) : ∀ (vars : List Name) (k : Nat) (p : Iter),
    (levelsFrom addr t k p vars).length = vars.length
  | [], _, _ => rfl
  | _ :: vs, k, p => by simp [levelsFrom, levelsFrom_length t vs]

theorem statementIters_contents : ∀ (accs : List (Nat × List Name)) (k : Nat) (prev : Option Iter),
    (∀ a ∈ accs, ∀ v ∈ a.2, fresh v) →
      Contents addr tick fresh k prev (statementIters addr tick k accs)
  | [], _, _, _ => trivial
  | (t, vars) :: rest, k, prev, h => by
    unfold statementIters
    refine Contents.append _ _ k prev ?_ fun p => ?_
    · exact ⟨⟨rfl, rfl⟩, levelsFrom_contents t vars (k + 1) _ (h (t, vars) (by simp))⟩
    · have := statementIters_contents rest (k + 1 + vars.length) p fun a ha => h a (by simp [ha])
      simp only [accessIters, List.length_cons, levelsFrom_length]
      rw [show k + (vars.length + 1) = k + 1 + vars.length by omega]
      exact this

theorem dimIters_contents : ∀ (vars : List Name) (k : Nat) (prev : Option Iter),
    Contents addr tick fresh k prev (dimIters addr k vars)
  | [], _, _ => trivial
  | _ :: vs, k, _ => ⟨rfl, dimIters_contents vs (k + 1) _⟩

theorem dimIters_length : ∀ (vars : List Name) (k : Nat), (dimIters addr k vars).length = vars.length
  | [], _ => rfl
  | _ :: vs, k => by simp [dimIters, dimIters_length vs]

theorem allIters_contents {vars : List Name} {accs : List (Nat × List Name)}
    (h : ∀ a ∈ accs, ∀ v ∈ a.2, fresh v) :
    Contents addr tick fresh 0 none (allIters addr tick vars accs) := by
  refine Contents.append _ _ 0 none (dimIters_contents vars 0 none) fun p => ?_
  rw [dimIters_length, Nat.zero_add]
  exact statementIters_contents accs vars.length p h

theorem dimIters_get : ∀ (vars : List Name) (k j : Nat), (dimIters addr k vars)[j]? =
    vars[j]?.map fun v => Iter.dim (addr (k + j)) v
  | [], _, _ => by simp [dimIters]
  | v :: vs, k, 0 => by simp [dimIters]
  | v :: vs, k, j + 1 => by
    simp only [dimIters, List.getElem?_cons_succ, dimIters_get vs]
    rw [show k + 1 + j = k + (j + 1) by omega]

theorem levelsFrom_noDim (t : Nat) : ∀ (vars : List Name) (k : Nat) (p : Iter) (a : Nat) (v : Name),
    Iter.dim a v ∉ levelsFrom addr t k p vars
  | [], _, _, _, _ => by simp [levelsFrom]
  | _ :: vs, k, p, a, v => by
    simp only [levelsFrom, List.mem_cons, not_or]
    exact ⟨nofun, levelsFrom_noDim t vs _ _ a v⟩

theorem statementIters_noDim : ∀ (accs : List (Nat × List Name)) (k a : Nat) (v : Name),
    Iter.dim a v ∉ statementIters addr tick k accs
  | [], _, _, _ => by simp [statementIters]
  | (t, vars) :: rest, k, a, v => by
    simp only [statementIters, accessIters, List.cons_append, List.mem_cons, List.mem_append, not_or]
    exact ⟨nofun, levelsFrom_noDim t vars _ _ a v, statementIters_noDim rest _ a v⟩

/-- The dimension iterators are the first ones. -/
theorem allIters_dim {vars : List Name} {accs : List (Nat × List Name)} {j a : Nat} {v : Name}
    (h : (allIters addr tick vars accs)[j]? = some (.dim a v)) : vars[j]? = some v := by
  unfold allIters at h
  by_cases hj : j < (dimIters addr 0 vars).length
  · rw [List.getElem?_append_left hj, dimIters_get] at h
    cases hv : vars[j]? with
    | none => rw [hv] at h; simp at h
    | some w => rw [hv] at h; simp at h; rw [h.2]
  · rw [List.getElem?_append_right (by omega)] at h
    exact (statementIters_noDim accs _ a v (List.mem_of_getElem? h)).elim

theorem Content.addr_eq {k : Nat} {prev : Option Iter} {it : Iter}
    (h : Content addr tick fresh k prev it) : it.addr = addr k := by
  cases it with
  | dim a v => exact h
  | root a v t => exact h.1
  | level a v t p => exact h.1

theorem eq_spec (haddr : ∀ i j, addr i = addr j → i = j) (htick : ∀ i j, tick i = tick j → i = j)
    (hfresh : ∀ v, fresh v → ∀ k, v ≠ generated (tick k)) {l : List Iter}
    (hl : Contents addr tick fresh 0 none l)
    (hdim : ∀ (i j a b : Nat) (v : Name), l[i]? = some (Iter.dim a v) → l[j]? = some (Iter.dim b v) → i = j) :
    ∀ (i j : Nat) (x y : Iter), l[i]? = some x → l[j]? = some y → x.eq y = some (decide (i = j)) := by
  intro i
  induction i with
  | zero =>
    intro j x y hx hy
    have cx := Contents.get l 0 none hl 0 x hx
    have cy := Contents.get l 0 none hl j y hy
    simp only [if_true] at cx
    rw [Nat.zero_add] at cx cy
    cases x with
    | level a v t p => exact absurd cx.2.2 (by simp)
    | dim a v =>
      cases y with
      | dim b w =>
        simp only [Iter.eq, varEq, Option.some.injEq, decide_eq_decide]
        constructor
        · intro h; subst h; exact hdim 0 j a b v hx hy
        · intro h; subst h; rw [hx] at hy; cases hy; rfl
      | root b w u =>
        have : j ≠ 0 := by rintro rfl; rw [hx] at hy; cases hy
        simp only [Iter.eq, Option.some.injEq, Bool.false_eq, decide_eq_false_iff_not]
        exact fun h => this h.symm
      | level b w u q =>
        have : j ≠ 0 := by rintro rfl; rw [hx] at hy; cases hy
        simp only [Iter.eq, Option.some.injEq, Bool.false_eq, decide_eq_false_iff_not]
        exact fun h => this h.symm
    | root a v t =>
      cases y with
      | dim b w =>
        have : j ≠ 0 := by rintro rfl; rw [hx] at hy; cases hy
        simp only [Iter.eq, Option.some.injEq, Bool.false_eq, decide_eq_false_iff_not]
        exact fun h => this h.symm
      | root b w u =>
        simp only [Iter.eq]
        by_cases hj : 0 = j
        · subst hj; rw [hx] at hy; cases hy; simp
        · have ha : a ≠ b := by rw [cx.1, cy.1]; exact fun h => hj (haddr _ _ h)
          have hv : varEq v w = false := by
            simp only [varEq, decide_eq_false_iff_not, cx.2, cy.2]
            exact fun h => hj (htick _ _ (generated_inj h))
          simp [ha, hv, hj]
      | level b w u q =>
        have : j ≠ 0 := by rintro rfl; rw [hx] at hy; cases hy
        have hv : varEq v w = false := by
          simp only [varEq, decide_eq_false_iff_not, cx.2]
          exact fun h => hfresh w cy.2.1 _ h.symm
        simp only [Iter.eq, hv, Bool.false_and]
        simp [Ne.symm this]
  | succ i ih =>
    intro j x y hx hy
    have cx := Contents.get l 0 none hl (i + 1) x hx
    have cy := Contents.get l 0 none hl j y hy
    rw [if_neg (by omega), Nat.zero_add, Nat.add_sub_cancel] at cx
    rw [Nat.zero_add] at cy
    cases x with
    | dim a v =>
      cases y with
      | dim b w =>
        simp only [Iter.eq, varEq, Option.some.injEq, decide_eq_decide]
        constructor
        · intro h; subst h; exact hdim _ j a b v hx hy
        · intro h; subst h; rw [hx] at hy; cases hy; rfl
      | root b w u =>
        have : j ≠ i + 1 := by rintro rfl; rw [hx] at hy; cases hy
        simp only [Iter.eq, Option.some.injEq, Bool.false_eq, decide_eq_false_iff_not]
        exact fun h => this h.symm
      | level b w u q =>
        have : j ≠ i + 1 := by rintro rfl; rw [hx] at hy; cases hy
        simp only [Iter.eq, Option.some.injEq, Bool.false_eq, decide_eq_false_iff_not]
        exact fun h => this h.symm
    | root a v t =>
      cases y with
      | dim b w =>
        have : j ≠ i + 1 := by rintro rfl; rw [hx] at hy; cases hy
        simp only [Iter.eq, Option.some.injEq, Bool.false_eq, decide_eq_false_iff_not]
        exact fun h => this h.symm
      | root b w u =>
        simp only [Iter.eq]
        by_cases hj : i + 1 = j
        · subst hj; rw [hx] at hy; cases hy; simp
        · have ha : a ≠ b := by rw [cx.1, cy.1]; exact fun h => hj (haddr _ _ h)
          have hv : varEq v w = false := by
            simp only [varEq, decide_eq_false_iff_not, cx.2, cy.2]
            exact fun h => hj (htick _ _ (generated_inj h))
          simp [ha, hv, hj]
      | level b w u q =>
        have : j ≠ i + 1 := by rintro rfl; rw [hx] at hy; cases hy
        have hv : varEq v w = false := by
          simp only [varEq, decide_eq_false_iff_not, cx.2]
          exact fun h => hfresh w cy.2.1 _ h.symm
        simp only [Iter.eq, hv, Bool.false_and]
        simp [Ne.symm this]
    | level a v t p =>
      cases y with
      | dim b w =>
        have : j ≠ i + 1 := by rintro rfl; rw [hx] at hy; cases hy
        simp only [Iter.eq, Option.some.injEq, Bool.false_eq, decide_eq_false_iff_not]
        exact fun h => this h.symm
      | root b w u =>
        have : j ≠ i + 1 := by rintro rfl; rw [hx] at hy; cases hy
        have hv : varEq v w = false := by
          simp only [varEq, decide_eq_false_iff_not, cy.2]
          exact fun h => hfresh v cx.2.1 _ h
        simp only [Iter.eq, hv, Bool.false_and]
        simp [Ne.symm this]
      | level b w u q =>
        simp only [Iter.eq]
        by_cases hj : i + 1 = j
        · subst hj; rw [hx] at hy; cases hy; simp
        · have ha : a ≠ b := by rw [cx.1, cy.1]; exact fun h => hj (haddr _ _ h)
          rw [if_neg ha]
          have hf : some false = some (decide (i + 1 = j)) := by simp [hj]
          split
          · cases j with
            | zero => simp at cy; exact absurd cy.2.2 (by simp)
            | succ j =>
              have hq := cy.2.2
              rw [if_neg (by omega), Nat.add_sub_cancel] at hq
              rw [ih j p q cx.2.2 hq]
              simp
          · exact hf

end iters

end Verif.Order
