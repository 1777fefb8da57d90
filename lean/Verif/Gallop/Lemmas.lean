import Verif.Gallop.Spec
import Verif.Search.Theorems
/-! Lemmas for C64: the remaining segments are cut at a threshold in every iteration. -/
namespace Verif.Gallop
open Verif.Search

/-- The iterator restricted to the positions not yet visited. -/
def rem (x : Iter × Nat) : Iter := { x.1 with s := x.2 }

/-- Moving from `x.2` to `p'` drops the coordinates up to `t` and keeps those above. -/
structure Cut (t : Int) (x : Iter × Nat) (p' : Nat) : Prop where
  lo : x.2 ≤ p'
  hi : p' ≤ x.1.e
  below : ∀ i v, x.2 ≤ i → i < p' → x.1.crd[i]? = some v → v ≤ t
  above : ∀ i v, p' ≤ i → i < x.1.e → x.1.crd[i]? = some v → t < v

/-- All iterators are cut at the same threshold. -/
def CutAll (t : Int) : St → St → Prop
  | [], [] => True
  | x :: xs, y :: ys => y.1 = x.1 ∧ Cut t x y.2 ∧ CutAll t xs ys
  | _, _ => False

theorem stored_cut {t : Int} {x : Iter × Nat} {p' : Nat} (h : Cut t x p') {c : Int} {p q : Nat} :
    Stored (rem (x.1, p')) c p q ↔ Stored (rem x) c p q ∧ t < c := by
  constructor
  · rintro ⟨h1, h2, h3, h4⟩
    simp only [rem] at h1 h3 h4
    have hc : x.1.crd[p]? = some c := (h4 p h1 (by omega)).2 ⟨by omega, h2⟩
    have htc := h.above p c h1 (by omega) hc
    refine ⟨⟨?_, h2, h3, ?_⟩, htc⟩
    · have := h.lo; simp only [rem]; omega
    · intro i hi1 hi2
      simp only [rem] at hi1 hi2 ⊢
      by_cases hip : p' ≤ i
      · exact h4 i hip hi2
      · constructor
        · intro hv
          have := h.below i c hi1 (by omega) hv
          omega
        · intro ⟨h5, _⟩; omega
  · rintro ⟨⟨h1, h2, h3, h4⟩, htc⟩
    simp only [rem] at h1 h3 h4
    have hc : x.1.crd[p]? = some c := (h4 p h1 (by omega)).2 ⟨by omega, h2⟩
    have hp : p' ≤ p := by
      apply Classical.byContradiction
      intro hn
      have := h.below p c h1 (by omega) hc
      omega
    refine ⟨hp, h2, h3, ?_⟩
    intro i hi1 hi2
    simp only [rem] at hi1 hi2 ⊢
    exact h4 i (by have := h.lo; omega) hi2

theorem allStored_cut {t : Int} : ∀ {st st' : St}, CutAll t st st' → ∀ {c : Int} {rs : List (Nat × Nat)},
    t < c → (AllStored c (st'.map rem) rs ↔ AllStored c (st.map rem) rs)
  | [], [], _, _, _, _ => Iff.rfl
  | [], _ :: _, h, _, _, _ => h.elim
  | _ :: _, [], h, _, _, _ => h.elim
  | x :: xs, y :: ys, ⟨h1, h2, h3⟩, c, rs, ht => by
    cases rs with
    | nil => exact Iff.rfl
    | cons r rs =>
      have hy : rem y = rem (x.1, y.2) := by rw [← h1]
      simp only [List.map_cons, AllStored, hy]
      rw [stored_cut h2, allStored_cut h3 ht]
      simp [ht]

theorem allStored_above {t : Int} {st st' : St} (hne : st ≠ []) (h : CutAll t st st') {c : Int}
    {rs : List (Nat × Nat)} (hs : AllStored c (st'.map rem) rs) : t < c := by
  cases st with
  | nil => exact absurd rfl hne
  | cons x xs =>
    cases st' with
    | nil => exact h.elim
    | cons y ys =>
      cases rs with
      | nil => exact hs.elim
      | cons r rs =>
        have hy : rem y = rem (x.1, y.2) := by rw [← h.1]
        have := hs.1
        rw [hy] at this
        exact ((stored_cut h.2.1).1 this).2

theorem cutAll_ne {t : Int} {st st' : St} (hne : st ≠ []) (h : CutAll t st st') : st' ≠ [] := by
  cases st with
  | nil => exact absurd rfl hne
  | cons x xs => cases st' with
    | nil => exact h.elim
    | cons y ys => simp

/-- Positions that remain to be visited. -/
def remaining (st : St) : Nat := (st.map (fun x => x.1.e - x.2)).sum

theorem remaining_le {t : Int} : ∀ {st st' : St}, CutAll t st st' → remaining st' ≤ remaining st
  | [], [], _ => Nat.le_refl _
  | [], _ :: _, h => h.elim
  | _ :: _, [], h => h.elim
  | x :: xs, y :: ys, ⟨h1, h2, h3⟩ => by
    have := remaining_le h3
    have := h2.lo
    simp only [remaining, List.map_cons, List.sum_cons, h1] at *
    omega

theorem remaining_lt {t : Int} : ∀ {st st' : St}, CutAll t st st' →
    ∀ x ∈ st, x.2 < x.1.e → (∃ v, x.1.crd[x.2]? = some v ∧ v ≤ t) → remaining st' < remaining st
  | [], _, _, _, hx, _, _ => by cases hx
  | _ :: _, [], h, _, _, _, _ => h.elim
  | z :: zs, y :: ys, ⟨h1, h2, h3⟩, x, hx, hlt, ⟨v, hv, hvt⟩ => by
    have hle := remaining_le h3
    simp only [remaining, List.map_cons, List.sum_cons, h1] at *
    rcases List.mem_cons.1 hx with rfl | hx
    · have : x.2 < y.2 := by
        apply Classical.byContradiction
        intro hn
        have := h2.above x.2 v (by omega) hlt hv
        omega
      omega
    · have h4 := remaining_lt h3 x hx hlt ⟨v, hv, hvt⟩
      have := h2.lo
      simp only [remaining] at h4
      omega

theorem stored_unique {it : Iter} {c : Int} {p q p' q' : Nat} (h : Stored it c p q)
    (h' : Stored it c p' q') : p = p' ∧ q = q' := by
  obtain ⟨h1, h2, h3, h4⟩ := h
  obtain ⟨g1, g2, g3, g4⟩ := h'
  have a1 := (h4 p' (by omega) (by omega)).1 ((g4 p' (by omega) (by omega)).2 ⟨by omega, by omega⟩)
  have a2 := (g4 p (by omega) (by omega)).1 ((h4 p (by omega) (by omega)).2 ⟨by omega, by omega⟩)
  have a3 := (h4 (q' - 1) (by omega) (by omega)).1
    ((g4 (q' - 1) (by omega) (by omega)).2 ⟨by omega, by omega⟩)
  have a4 := (g4 (q - 1) (by omega) (by omega)).1
    ((h4 (q - 1) (by omega) (by omega)).2 ⟨by omega, by omega⟩)
  omega

theorem allStored_unique {c : Int} : ∀ {its : List Iter} {rs rs' : List (Nat × Nat)},
    AllStored c its rs → AllStored c its rs' → rs = rs'
  | [], [], [], _, _ => rfl
  | [], _ :: _, _, h, _ => h.elim
  | [], _, _ :: _, _, h => h.elim
  | _ :: _, [], _, h, _ => h.elim
  | _ :: _, _ :: _, [], _, h => h.elim
  | it :: its, r :: rs, r' :: rs', ⟨h1, h2⟩, ⟨g1, g2⟩ => by
    obtain ⟨a, b⟩ := stored_unique h1 g1
    rw [allStored_unique h2 g2]
    congr 1
    exact Prod.ext a b

/-- The specification determines the events. -/
theorem intersection_unique {its : List Iter} {evs evs' : List Event} (h : Intersection its evs)
    (h' : Intersection its evs') : evs = evs' := by
  have key : ∀ (l l' : List Event), l.Pairwise (fun a b => a.1 < b.1) → l'.Pairwise (fun a b => a.1 < b.1) →
      (∀ x, x ∈ l ↔ x ∈ l') → l = l' := by
    intro l
    induction l with
    | nil =>
      intro l' _ _ hm
      cases l' with
      | nil => rfl
      | cons y ys => exact absurd ((hm y).2 List.mem_cons_self) (by simp)
    | cons x xs ih =>
      intro l' hp hp' hm
      cases l' with
      | nil => exact absurd ((hm x).1 List.mem_cons_self) (by simp)
      | cons y ys =>
        rw [List.pairwise_cons] at hp hp'
        have hxy : x = y := by
          have hx := (hm x).1 List.mem_cons_self
          have hy := (hm y).2 List.mem_cons_self
          rcases List.mem_cons.1 hx with h1 | h1
          · exact h1
          · rcases List.mem_cons.1 hy with h2 | h2
            · exact h2.symm
            · have := hp.1 y h2; have := hp'.1 x h1; omega
        subst hxy
        congr 1
        apply ih ys hp.2 hp'.2
        intro z
        constructor
        · intro hz
          rcases List.mem_cons.1 ((hm z).1 (List.mem_cons_of_mem _ hz)) with h1 | h1
          · subst h1; have := hp.1 z hz; omega
          · exact h1
        · intro hz
          rcases List.mem_cons.1 ((hm z).2 (List.mem_cons_of_mem _ hz)) with h1 | h1
          · subst h1; have := hp'.1 z hz; omega
          · exact h1
  apply key evs evs' h.1 h'.1
  intro ⟨c, rs⟩
  rw [h.2, h'.2]

/-- What one iteration has to establish. -/
structure StepOK (strat : Strategy) (Inv : St → Prop) (st : St) : Prop where
  ok : ∃ evs st' t, step strat st = some (some (evs, st')) ∧ CutAll t st st' ∧ Inv st' ∧
    (∃ x ∈ st, ∃ v, x.1.crd[x.2]? = some v ∧ v ≤ t) ∧
    (∀ c rs, (c, rs) ∈ evs ↔ c ≤ t ∧ AllStored c (st.map rem) rs) ∧ evs.length ≤ 1

theorem not_allStored_exhausted {c : Int} : ∀ {st : St} {rs : List (Nat × Nat)},
    st.all (fun x => decide (x.2 < x.1.e)) = false → ¬ AllStored c (st.map rem) rs
  | [], _, h => by simp at h
  | x :: xs, [], _ => fun h => h.elim
  | x :: xs, r :: rs, h => by
    rintro ⟨h1, h2⟩
    simp only [List.all_cons, Bool.and_eq_false_iff, decide_eq_false_iff_not] at h
    rcases h with h | h
    · obtain ⟨a, b, d, _⟩ := h1
      simp only [rem] at a d
      omega
    · exact not_allStored_exhausted h h2

theorem loop_spec (strat : Strategy) (Inv : St → Prop)
    (hstep : ∀ st, st ≠ [] → Inv st → st.all (fun x => decide (x.2 < x.1.e)) = true → StepOK strat Inv st) :
    ∀ n st, st ≠ [] → Inv st → remaining st < n →
      ∃ evs, loop strat n st = some (evs, true) ∧ Intersection (st.map rem) evs
  | 0, _, _, _, h => by omega
  | n + 1, st, hne, hinv, hlt => by
    cases hall : st.all (fun x => decide (x.2 < x.1.e)) with
    | false =>
      refine ⟨[], ?_, List.Pairwise.nil, ?_⟩
      · simp only [loop, step, hall]; rfl
      · intro c rs
        refine ⟨fun h => absurd h (by simp), fun h => absurd h (not_allStored_exhausted hall)⟩
    | true =>
      obtain ⟨evs, st', t, h1, h2, h3, ⟨x, hx, hv⟩, h5, h6⟩ := (hstep st hne hinv hall).ok
      have hxe : x.2 < x.1.e := by
        have := List.all_eq_true.1 hall x hx
        simpa using this
      have hlt' := remaining_lt h2 x hx hxe hv
      obtain ⟨evs', g1, g2⟩ := loop_spec strat Inv hstep n st' (cutAll_ne hne h2) h3 (by omega)
      refine ⟨evs ++ evs', ?_, ?_, ?_⟩
      · simp only [loop, h1, g1]
      · rw [List.pairwise_append]
        refine ⟨?_, g2.1, ?_⟩
        · match evs, h6 with
          | [], _ => exact List.Pairwise.nil
          | [a], _ => exact List.pairwise_singleton _ _
        · intro a ha b hb
          have h7 := ((h5 a.1 a.2).1 ha).1
          have h8 := allStored_above hne h2 ((g2.2 b.1 b.2).1 hb)
          omega
      · intro c rs
        rw [List.mem_append, h5, g2.2]
        constructor
        · rintro (⟨_, h⟩ | h)
          · exact h
          · exact (allStored_cut h2 (allStored_above hne h2 h)).1 h
        · intro h
          by_cases hc : c ≤ t
          · exact Or.inl ⟨hc, h⟩
          · exact Or.inr ((allStored_cut h2 (by omega)).2 h)

/-! ### One iteration -/

/-- The coordinates at the positions. -/
def Heads : St → List Int → Prop
  | [], [] => True
  | x :: xs, v :: vs => x.1.crd[x.2]? = some v ∧ Heads xs vs
  | _, _ => False

theorem loadAll_heads : ∀ (st : St), (∀ x ∈ st, x.1.window = none ∧ x.2 < x.1.crd.length) →
    ∃ cs, loadAll st = some (.coords cs) ∧ Heads st cs
  | [], _ => ⟨[], rfl, trivial⟩
  | x :: xs, h => by
    obtain ⟨h1, h2⟩ := h x List.mem_cons_self
    obtain ⟨cs, g1, g2⟩ := loadAll_heads xs (fun y hy => h y (List.mem_cons_of_mem _ hy))
    refine ⟨x.1.crd[x.2] :: cs, ?_, List.getElem?_eq_getElem h2, g2⟩
    simp only [loadAll, loadOne, List.getElem?_eq_getElem h2, h1, g1]

theorem foldl_min_le (c : Int) : ∀ (cs : List Int) (a : Int),
    (cs.foldl min a ≤ a ∧ ∀ v ∈ cs, cs.foldl min a ≤ v) ∧ (cs.foldl min a = a ∨ cs.foldl min a ∈ cs)
  | [], a => by simp
  | b :: cs, a => by
    obtain ⟨⟨h1, h2⟩, h3⟩ := foldl_min_le c cs (min a b)
    refine ⟨⟨?_, ?_⟩, ?_⟩
    · simp only [List.foldl_cons]; omega
    · intro v hv
      rcases List.mem_cons.1 hv with rfl | hv
      · simp only [List.foldl_cons]; omega
      · exact h2 v hv
    · simp only [List.foldl_cons]
      rcases h3 with h3 | h3
      · rw [h3]
        rcases Int.le_total a b with h | h
        · left; omega
        · right; rw [Int.min_eq_right h]; exact List.mem_cons_self
      · right; exact List.mem_cons_of_mem _ h3

theorem foldl_max_ge (c : Int) : ∀ (cs : List Int) (a : Int),
    (a ≤ cs.foldl max a ∧ ∀ v ∈ cs, v ≤ cs.foldl max a) ∧ (cs.foldl max a = a ∨ cs.foldl max a ∈ cs)
  | [], a => by simp
  | b :: cs, a => by
    obtain ⟨⟨h1, h2⟩, h3⟩ := foldl_max_ge c cs (max a b)
    refine ⟨⟨?_, ?_⟩, ?_⟩
    · simp only [List.foldl_cons]; omega
    · intro v hv
      rcases List.mem_cons.1 hv with rfl | hv
      · simp only [List.foldl_cons]; omega
      · exact h2 v hv
    · simp only [List.foldl_cons]
      rcases h3 with h3 | h3
      · rw [h3]
        rcases Int.le_total a b with h | h
        · right; rw [Int.max_eq_right h]; exact List.mem_cons_self
        · left; omega
      · right; exact List.mem_cons_of_mem _ h3

theorem resolve_min {cs : List Int} (h : cs ≠ []) :
    (∀ v ∈ cs, resolve .twoFinger cs ≤ v) ∧ resolve .twoFinger cs ∈ cs := by
  cases cs with
  | nil => exact absurd rfl h
  | cons a cs =>
    obtain ⟨⟨h1, h2⟩, h3⟩ := foldl_min_le 0 cs a
    refine ⟨?_, ?_⟩
    · intro v hv
      rcases List.mem_cons.1 hv with rfl | hv
      · exact h1
      · exact h2 v hv
    · rcases h3 with h3 | h3
      · simp only [resolve]; rw [h3]; exact List.mem_cons_self
      · exact List.mem_cons_of_mem _ h3

theorem resolve_max {cs : List Int} (h : cs ≠ []) :
    (∀ v ∈ cs, v ≤ resolve .gallop cs) ∧ resolve .gallop cs ∈ cs := by
  cases cs with
  | nil => exact absurd rfl h
  | cons a cs =>
    obtain ⟨⟨h1, h2⟩, h3⟩ := foldl_max_ge 0 cs a
    refine ⟨?_, ?_⟩
    · intro v hv
      rcases List.mem_cons.1 hv with rfl | hv
      · exact h1
      · exact h2 v hv
    · rcases h3 with h3 | h3
      · simp only [resolve]; rw [h3]; exact List.mem_cons_self
      · exact List.mem_cons_of_mem _ h3

theorem heads_mem : ∀ {st : St} {cs : List Int}, Heads st cs → ∀ {v : Int}, v ∈ cs →
    ∃ x ∈ st, x.1.crd[x.2]? = some v
  | [], [], _, _, hv => by cases hv
  | [], _ :: _, h, _, _ => h.elim
  | _ :: _, [], _, _, hv => by cases hv
  | x :: xs, a :: cs, ⟨h1, h2⟩, v, hv => by
    rcases List.mem_cons.1 hv with rfl | hv
    · exact ⟨x, List.mem_cons_self, h1⟩
    · obtain ⟨y, hy, hyv⟩ := heads_mem h2 hv
      exact ⟨y, List.mem_cons_of_mem _ hy, hyv⟩

theorem heads_ne {st : St} {cs : List Int} (hne : st ≠ []) (h : Heads st cs) : cs ≠ [] := by
  cases st with
  | nil => exact absurd rfl hne
  | cons x xs => cases cs with
    | nil => exact h.elim
    | cons v vs => simp

theorem dupEnd_spec (crd : List Int) (e : Nat) (c : Int) (hl : e ≤ crd.length) : ∀ n p, e ≤ p + n → p ≤ e →
    ∃ q, dupEnd crd e c n p = some q ∧ p ≤ q ∧ q ≤ e ∧ (∀ i, p ≤ i → i < q → crd[i]? = some c) ∧
      (q < e → ∃ v, crd[q]? = some v ∧ v ≠ c)
  | 0, p, h, hp => ⟨p, rfl, Nat.le_refl _, hp, by omega, by omega⟩
  | n + 1, p, h, hp => by
    by_cases hpe : p < e
    · have hg := List.getElem?_eq_getElem (show p < crd.length by omega)
      by_cases hv : crd[p] = c
      · obtain ⟨q, g1, g2, g3, g4, g5⟩ := dupEnd_spec crd e c hl n (p + 1) (by omega) (by omega)
        refine ⟨q, ?_, by omega, g3, ?_, g5⟩
        · simp only [dupEnd, if_pos hpe, hg, hv, if_true]; exact g1
        · intro i h1 h2
          by_cases hi : i = p
          · subst hi; rw [hg, hv]
          · exact g4 i (by omega) h2
      · refine ⟨p, ?_, Nat.le_refl _, hp, by omega, fun _ => ⟨_, hg, hv⟩⟩
        simp only [dupEnd, if_pos hpe, hg, if_neg hv]
    · exact ⟨p, by simp only [dupEnd, if_neg hpe], Nat.le_refl _, hp, by omega, fun h => absurd h hpe⟩

/-- The end of the positions used by the body when the level is at `c`, or a position that has not moved. -/
theorem rangeEnd_spec {x : Iter × Nat} (ho : Ordered (rem x)) (hp : x.2 < x.1.e) {v c : Int}
    (hv : x.1.crd[x.2]? = some v) (hc : c ≤ v) :
    ∃ q, rangeEnd x c = some q ∧ (v = c → Cut c x q ∧ x.2 < q ∧ Stored (rem x) c x.2 q) ∧
      (v ≠ c → x.1.unique = false → q = x.2) := by
  have hin : x.1.e ≤ x.1.crd.length := ho.inside
  have hso : ∀ i j a b, x.2 ≤ i → i < j → j < x.1.e → x.1.crd[i]? = some a → x.1.crd[j]? = some b →
    a ≤ b ∧ (x.1.unique = true → a < b) := ho.sorted
  cases hu : x.1.unique with
  | true =>
    refine ⟨x.2 + 1, by simp [rangeEnd, hu], ?_, fun _ h => by simp at h⟩
    rintro rfl
    refine ⟨⟨by omega, by omega, ?_, ?_⟩, by omega, ?_, by omega, ?_, ?_⟩
    · intro i w h1 h2 hw
      have : i = x.2 := by omega
      subst this
      rw [hv] at hw
      exact Int.le_of_eq (Option.some.inj hw).symm
    · intro i w h1 h2 hw
      exact (hso x.2 i v w (Nat.le_refl _) (by omega) h2 hv hw).2 hu
    · exact Nat.le_refl _
    · simp only [rem]; omega
    · intro i h1 h2
      simp only [rem] at h1 h2 ⊢
      constructor
      · intro hw
        by_cases hi : i = x.2
        · omega
        · have := (hso x.2 i v v (Nat.le_refl _) (by omega) h2 hv hw).2 hu
          omega
      · intro ⟨_, h3⟩
        have : i = x.2 := by omega
        subst this
        exact hv
  | false =>
    obtain ⟨q, g1, g2, g3, g4, g5⟩ := dupEnd_spec x.1.crd x.1.e c hin (x.1.e - x.2) x.2 (by omega) (by omega)
    refine ⟨q, by simp [rangeEnd, hu, g1], ?_, ?_⟩
    · rintro rfl
      have hpq : x.2 < q := by
        apply Classical.byContradiction
        intro hn
        have : q = x.2 := by omega
        subst this
        obtain ⟨w, hw, hne⟩ := g5 hp
        rw [hv] at hw
        exact hne (Option.some.inj hw).symm
      have hab : ∀ i w, q ≤ i → i < x.1.e → x.1.crd[i]? = some w → v < w := by
        intro i w h1 h2 hw
        obtain ⟨u, hu', hne⟩ := g5 (by omega)
        have h3 := (hso x.2 q v u (Nat.le_refl _) hpq (by omega) hv hu').1
        by_cases hi : i = q
        · subst hi; rw [hu'] at hw; cases hw; omega
        · have := (hso q i u w (by omega) (by omega) h2 hu' hw).1
          omega
      refine ⟨⟨by omega, g3, ?_, hab⟩, hpq, Nat.le_refl _, hpq, g3, ?_⟩
      · intro i w h1 h2 hw
        rw [g4 i h1 h2] at hw
        exact Int.le_of_eq (Option.some.inj hw).symm
      · intro i h1 h2
        simp only [rem] at h1 h2 ⊢
        constructor
        · intro hw
          refine ⟨h1, ?_⟩
          apply Classical.byContradiction
          intro hn
          have := hab i v (by omega) h2 hw
          omega
        · intro ⟨_, h3⟩
          exact g4 i h1 h3
    · intro hne _
      apply Classical.byContradiction
      intro hn
      have := g4 x.2 (Nat.le_refl _) (by omega)
      rw [hv] at this
      exact hne (Option.some.inj this)

theorem ranges_spec {c : Int} : ∀ {st : St} {cs : List Int}, Heads st cs → (∀ v ∈ cs, v = c) →
    (∀ x ∈ st, Ordered (rem x) ∧ x.2 < x.1.e) →
    ∃ rs, ranges c st = some rs ∧ AllStored c (st.map rem) rs
  | [], [], _, _, _ => ⟨[], rfl, trivial⟩
  | [], _ :: _, h, _, _ => h.elim
  | _ :: _, [], h, _, _ => h.elim
  | x :: xs, v :: vs, ⟨h1, h2⟩, hc, hst => by
    obtain ⟨ho, hp⟩ := hst x List.mem_cons_self
    have hvc := hc v List.mem_cons_self
    obtain ⟨q, g1, g2, _⟩ := rangeEnd_spec ho hp h1 (Int.le_of_eq hvc.symm)
    obtain ⟨rs, k1, k2⟩ := ranges_spec h2 (fun w hw => hc w (List.mem_cons_of_mem _ hw))
      (fun y hy => hst y (List.mem_cons_of_mem _ hy))
    exact ⟨(x.2, q) :: rs, by simp only [ranges, g1, k1], (g2 hvc).2.2, k2⟩

/-- The ranges are always computed without undefined behaviour. -/
theorem ranges_some (c : Int) : ∀ (st : St), (∀ x ∈ st, Ordered (rem x) ∧ x.2 < x.1.e) →
    ∃ rs, ranges c st = some rs
  | [], _ => ⟨[], rfl⟩
  | x :: xs, hst => by
    obtain ⟨ho, hp⟩ := hst x List.mem_cons_self
    obtain ⟨rs, k1⟩ := ranges_some c xs (fun y hy => hst y (List.mem_cons_of_mem _ hy))
    have : ∃ q, rangeEnd x c = some q := by
      unfold rangeEnd
      split
      · exact ⟨_, rfl⟩
      · obtain ⟨q, g1, _⟩ := dupEnd_spec x.1.crd x.1.e c ho.inside (x.1.e - x.2) x.2 (by omega) (by omega)
        exact ⟨q, g1⟩
    obtain ⟨q, g1⟩ := this
    exact ⟨(x.2, q) :: rs, by simp only [ranges, g1, k1]⟩

theorem ordered_move {x : Iter × Nat} (ho : Ordered (rem x)) {p' : Nat} (h1 : x.2 ≤ p') (h2 : p' ≤ x.1.e) :
    Ordered (rem (x.1, p')) :=
  ⟨h2, ho.inside, fun i j a b g1 g2 g3 g4 g5 => ho.sorted i j a b (Nat.le_trans h1 g1) g2 g3 g4 g5⟩

/-- If every level is moved to a cut, so is the state. -/
theorem advance_cut {strat : Strategy} {c t : Int} {m : Bool} {P : Iter → Nat → Prop} :
    ∀ {st : St} {cs : List Int}, Heads st cs →
    (∀ x ∈ st, ∀ v ∈ cs, x.1.crd[x.2]? = some v →
      ∃ p', advanceOne strat c m x v = some p' ∧ Cut t x p' ∧ P x.1 p') →
    ∃ st', advance strat c m st cs = some st' ∧ CutAll t st st' ∧ ∀ y ∈ st', P y.1 y.2
  | [], [], _, _ => ⟨[], rfl, trivial, by simp⟩
  | [], _ :: _, h, _ => h.elim
  | _ :: _, [], h, _ => h.elim
  | x :: xs, v :: vs, ⟨h1, h2⟩, h => by
    obtain ⟨p', g1, g2, g3⟩ := h x List.mem_cons_self v List.mem_cons_self h1
    obtain ⟨st', k1, k2, k3⟩ := advance_cut (t := t) (P := P) h2
      (fun y hy w hw => h y (List.mem_cons_of_mem _ hy) w (List.mem_cons_of_mem _ hw))
    refine ⟨(x.1, p') :: st', by simp only [advance, g1, k1], ⟨rfl, g2, k2⟩, ?_⟩
    intro y hy
    rcases List.mem_cons.1 hy with rfl | hy
    · exact g3
    · exact k3 y hy

/-- Below the heads of some level nothing is common. -/
theorem allStored_ge {c : Int} : ∀ {st : St} {cs : List Int} {rs : List (Nat × Nat)}, Heads st cs →
    (∀ x ∈ st, Ordered (rem x)) → AllStored c (st.map rem) rs → ∀ v ∈ cs, v ≤ c
  | [], [], _, _, _, _, v, hv => by cases hv
  | [], _ :: _, _, h, _, _, _, _ => h.elim
  | _ :: _, [], _, h, _, _, _, _ => h.elim
  | x :: xs, a :: cs, [], _, _, h, _, _ => h.elim
  | x :: xs, a :: cs, r :: rs, ⟨h1, h2⟩, ho, ⟨h3, h4⟩, v, hv => by
    rcases List.mem_cons.1 hv with rfl | hv
    · obtain ⟨a1, a2, a3, a4⟩ := h3
      simp only [rem] at a1 a3 a4
      have hc : x.1.crd[r.1]? = some c := (a4 r.1 a1 (by omega)).2 ⟨by omega, a2⟩
      by_cases he : r.1 = x.2
      · rw [he, h1] at hc; exact Int.le_of_eq (Option.some.inj hc)
      · exact ((ho x List.mem_cons_self).sorted x.2 r.1 v c (Nat.le_refl _)
          (by omega) (by simp only [rem]; omega) h1 hc).1
    · exact allStored_ge h2 (fun y hy => ho y (List.mem_cons_of_mem _ hy)) h4 v hv

theorem allStored_head_eq {c : Int} : ∀ {st : St} {cs : List Int} {rs : List (Nat × Nat)}, Heads st cs →
    (∀ x ∈ st, Ordered (rem x)) → AllStored c (st.map rem) rs → (∀ v ∈ cs, c ≤ v) → ∀ v ∈ cs, v = c := by
  intro st cs rs h ho hs hle v hv
  have := allStored_ge h ho hs v hv
  have := hle v hv
  omega

end Verif.Gallop
