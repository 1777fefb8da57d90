import Verif.Tensor.Spec
import Verif.Pack.Theorems
namespace Verif.Tensor
open Verif.Pack
open Verif.Merge (Lvl)

variable {V : Type}

theorem firstAt_cons (z : V) (r : Row V) (l : List (Row V)) (c : List Nat) :
    firstAt z (r :: l) c = if r.1 = c then r.2 else firstAt z l c := by
  unfold firstAt
  rw [List.find?_cons]
  by_cases h : r.1 = c
  · simp [h]
  · have : (r.1 == c) = false := by simpa using h
    rw [this, if_neg h]

theorem firstAt_all (z : V) (isZero : V → Bool) (hz : isZero z = true) : ∀ (l : List (Row V)),
    (l.map Prod.fst).Nodup → ((∀ c, isZero (firstAt z l c) = true) ↔ l.all (fun b => isZero b.2) = true) := by
  intro l
  induction l with
  | nil => intro _; simp [firstAt, hz]
  | cons r l ih =>
    intro hnd
    rw [List.map_cons, List.nodup_cons] at hnd
    rw [List.all_cons, Bool.and_eq_true, ← ih hnd.2]
    constructor
    · intro h
      refine ⟨by have := h r.1; rwa [firstAt_cons, if_pos rfl] at this, ?_⟩
      intro c
      by_cases hc : r.1 = c
      · subst hc; rw [firstAt_not_mem hnd.1]; exact hz
      · have := h c; rwa [firstAt_cons, if_neg hc] at this
    · rintro ⟨h1, h2⟩ c
      rw [firstAt_cons]
      split
      · exact h1
      · exact h2 c

/-- The loops of `equalsTyped` over two lists in the same order. -/
theorem equalsLoop_iff {isZero : V → Bool} {feq : V → V → Bool} {z : V} (hz : isZero z = true)
    {lt : List Nat → List Nat → Prop} (htr : ∀ {a b c}, lt a b → lt b c → lt a c)
    (hir : ∀ a, ¬ lt a a) :
    ∀ (n : Nat) (as bs : List (Row V)), as.length + bs.length < n →
      (∀ u ∈ z :: as.map Prod.snd, ∀ w ∈ z :: bs.map Prod.snd, (isZero u = true → feq u w = isZero w) ∧
        (isZero w = true → feq u w = isZero u)) →
      as.Pairwise (fun a b => lt a.1 b.1) → bs.Pairwise (fun a b => lt a.1 b.1) →
      (∀ a ∈ as, ∀ b ∈ bs, a.1 ≠ b.1 → lt a.1 b.1 ∨ lt b.1 a.1) →
      (equalsLoop isZero feq n as bs = true ↔ ∀ c, feq (firstAt z as c) (firstAt z bs c) = true) := by
  have hnodup : ∀ l : List (Row V), l.Pairwise (fun a b => lt a.1 b.1) → (l.map Prod.fst).Nodup := by
    intro l h
    unfold List.Nodup
    rw [List.pairwise_map]
    refine h.imp ?_
    intro a b hab he
    rw [he] at hab
    exact hir _ hab
  have hval : ∀ (l : List (Row V)) c, firstAt z l c ∈ z :: l.map Prod.snd := by
    intro l c
    unfold firstAt
    cases h : l.find? (fun r => r.1 == c) with
    | none => exact List.mem_cons_self
    | some r => exact List.mem_cons_of_mem _ (List.mem_map_of_mem (List.mem_of_find?_eq_some h))
  intro n
  induction n with
  | zero => intro as bs h; omega
  | succ n ih =>
    intro as bs hlen hc ha hb hab
    cases as with
    | nil =>
      have e : equalsLoop isZero feq (n + 1) [] bs = bs.all (fun b => isZero b.2) := by
        cases bs <;> rfl
      rw [e, ← firstAt_all z isZero hz bs (hnodup _ hb)]
      refine forall_congr' (fun c => ?_)
      rw [show firstAt z [] c = z from rfl, (hc z List.mem_cons_self _ (hval bs c)).1 hz]
    | cons a as =>
      cases bs with
      | nil =>
        have e : equalsLoop isZero feq (n + 1) (a :: as) [] = (a :: as).all (fun b => isZero b.2) := rfl
        rw [e, ← firstAt_all z isZero hz (a :: as) (hnodup _ ha)]
        refine forall_congr' (fun c => ?_)
        rw [show firstAt z [] c = z from rfl, (hc _ (hval (a :: as) c) z List.mem_cons_self).2 hz]
      | cons b bs =>
        have hna := hnodup _ ha
        have hnb := hnodup _ hb
        rw [List.map_cons, List.nodup_cons] at hna hnb
        simp only [List.length_cons] at hlen
        have hca : ∀ u ∈ z :: as.map Prod.snd, u ∈ z :: (a :: as).map Prod.snd := by
          intro u hu; simp only [List.map_cons, List.mem_cons] at hu ⊢; rcases hu with h | h; exact Or.inl h; exact Or.inr (Or.inr h)
        have hcb : ∀ u ∈ z :: bs.map Prod.snd, u ∈ z :: (b :: bs).map Prod.snd := by
          intro u hu; simp only [List.map_cons, List.mem_cons] at hu ⊢; rcases hu with h | h; exact Or.inl h; exact Or.inr (Or.inr h)
        have hav : a.2 ∈ z :: (a :: as).map Prod.snd := by simp
        have hbv : b.2 ∈ z :: (b :: bs).map Prod.snd := by simp
        rw [List.pairwise_cons] at ha hb
        unfold equalsLoop
        by_cases hne : a.1 ≠ b.1
        · rw [if_pos hne]
          by_cases hza : isZero a.2 = true
          · rw [if_pos hza, ih as (b :: bs) (by simp; omega) (fun u hu w hw => hc u (hca u hu) w hw)
              ha.2 (List.pairwise_cons.2 hb) (fun x hx y hy => hab x (List.mem_cons_of_mem _ hx) y hy)]
            refine forall_congr' (fun c => ?_)
            rw [firstAt_cons z a as]
            by_cases hac : a.1 = c
            · subst hac
              rw [if_pos rfl, firstAt_not_mem hna.1, (hc z List.mem_cons_self _ (hval (b :: bs) a.1)).1 hz,
                (hc a.2 hav _ (hval (b :: bs) a.1)).1 hza]
            · rw [if_neg hac]
          · rw [if_neg hza]
            by_cases hzb : isZero b.2 = true
            · rw [if_pos hzb, ih (a :: as) bs (by simp; omega) (fun u hu w hw => hc u hu w (hcb w hw))
                (List.pairwise_cons.2 ha) hb.2 (fun x hx y hy => hab x hx y (List.mem_cons_of_mem _ hy))]
              refine forall_congr' (fun c => ?_)
              rw [firstAt_cons z b bs]
              by_cases hbc : b.1 = c
              · subst hbc
                rw [if_pos rfl, firstAt_not_mem hnb.1, (hc _ (hval (a :: as) b.1) z List.mem_cons_self).2 hz,
                  (hc _ (hval (a :: as) b.1) b.2 hbv).2 hzb]
              · rw [if_neg hbc]
            · rw [if_neg hzb]
              refine ⟨fun h => (by cases h), fun h => ?_⟩
              exfalso
              rcases hab a List.mem_cons_self b List.mem_cons_self hne with hlt | hlt
              · have hnot : a.1 ∉ (b :: bs).map Prod.fst := by
                  rw [List.map_cons, List.mem_cons]
                  rintro (he | hm)
                  · exact hne he
                  · obtain ⟨y, hy, hye⟩ := List.mem_map.1 hm
                    have := htr hlt (hb.1 y hy)
                    rw [hye] at this; exact hir _ this
                have := h a.1
                rw [firstAt_cons, if_pos rfl, firstAt_not_mem hnot, (hc a.2 hav z List.mem_cons_self).2 hz] at this
                exact hza this
              · have hnot : b.1 ∉ (a :: as).map Prod.fst := by
                  rw [List.map_cons, List.mem_cons]
                  rintro (he | hm)
                  · exact hne he.symm
                  · obtain ⟨y, hy, hye⟩ := List.mem_map.1 hm
                    have := htr hlt (ha.1 y hy)
                    rw [hye] at this; exact hir _ this
                have := h b.1
                rw [firstAt_not_mem hnot, firstAt_cons, if_pos rfl, (hc z List.mem_cons_self b.2 hbv).1 hz] at this
                exact hzb this
        · rw [if_neg hne]
          have he : a.1 = b.1 := by simpa using hne
          by_cases hf : feq a.2 b.2 = true
          · rw [hf]
            simp only [Bool.not_true, Bool.false_eq_true, if_false]
            rw [ih as bs (by omega) (fun u hu w hw => hc u (hca u hu) w (hcb w hw)) ha.2 hb.2
              (fun x hx y hy => hab x (List.mem_cons_of_mem _ hx) y (List.mem_cons_of_mem _ hy))]
            refine forall_congr' (fun c => ?_)
            rw [firstAt_cons z a as, firstAt_cons z b bs]
            by_cases hac : a.1 = c
            · have hbc : b.1 = c := he ▸ hac
              rw [if_pos hac, if_pos hbc, hf, ← hac, firstAt_not_mem hna.1, he, firstAt_not_mem hnb.1,
                (hc z List.mem_cons_self z List.mem_cons_self).1 hz, hz]
            · rw [if_neg hac, if_neg (fun h => hac (he.trans h))]
          · have hf' : feq a.2 b.2 = false := by simpa using hf
            rw [hf']
            simp only [Bool.not_false, if_true]
            refine ⟨fun h => (by cases h), fun h => ?_⟩
            exfalso
            have := h a.1
            rw [firstAt_cons, if_pos rfl, firstAt_cons, if_pos he.symm, hf'] at this
            cases this

/-- What iterating over a tensor delivers. -/
theorem holds_components {t : Tensor V} {fill : V} {dims : List Nat} {comps : List (Row V)}
    (h : Holds t fill dims comps) :
    t.dims = dims ∧ t.fill = fill ∧ t.kinds.length = dims.length ∧
    ∃ out, t.components = some out ∧
      (∀ r ∈ out, inRange dims r.1) ∧ (out.map Prod.fst).Nodup ∧
      (out.map (fun r => permute t.perm r.1)).Pairwise (fun a b => lexCmp a b < 0) ∧
      (∀ c, firstAt fill out c = firstAt fill comps c) ∧ (∀ r ∈ comps, r ∈ out) ∧
      ((∀ k ∈ t.kinds, k = .sparse) → t.kinds ≠ [] → ∀ r ∈ out, r ∈ comps) := by
  obtain ⟨⟨qs, hq, hm⟩, hp, hr, hd⟩ := h
  unfold make at hm
  split at hm
  · rename_i hk
    rw [Option.some.injEq] at hm
    have h1 : t.dims = dims := by rw [← hm]
    have h2 : t.fill = fill := by rw [← hm]
    have h3 : t.st = tensorPack qs fill dims t.kinds t.perm comps := by rw [← hm]
    obtain ⟨out, ho, hin, hof, hs, hnd, hsp⟩ := tensor_pack_iterate fill dims hq t.kinds t.perm hk hp comps hr hd
    refine ⟨h1, h2, hk, out, ?_, fun r hro => (hof r hro).1, hnd, hs, ?_, hin, ?_⟩
    · unfold Tensor.components; rw [h3]; exact ho
    · intro c
      by_cases hc : c ∈ comps.map Prod.fst
      · obtain ⟨r, hrc, rfl⟩ := List.mem_map.1 hc
        rw [firstAt_mem hnd (hin r hrc), firstAt_mem hd hrc]
      · rw [firstAt_not_mem hc]
        by_cases hco : c ∈ out.map Prod.fst
        · obtain ⟨r, hro, rfl⟩ := List.mem_map.1 hco
          rw [firstAt_mem hnd hro]
          rcases (hof r hro).2 with hb | ⟨hf, _⟩
          · exact absurd (List.mem_map_of_mem hb) hc
          · exact hf
        · rw [firstAt_not_mem hco]
    · intro h hne r hro
      exact hsp h r hro hne
  · cases hm

theorem lexCmp_lt_trans : ∀ {a b c : List Nat}, lexCmp a b < 0 → lexCmp b c < 0 → lexCmp a c < 0
  | [], _, _, h, _ => by simp [lexCmp] at h
  | _ :: _, [], _, h, _ => by simp [lexCmp] at h
  | _ :: _, _ :: _, [], _, h => by simp [lexCmp] at h
  | a :: as, b :: bs, c :: cs, h1, h2 => by
    unfold lexCmp at h1 h2 ⊢
    have := @lexCmp_lt_trans as bs cs
    split at h1 <;> split at h2 <;> split
    · omega
    · omega
    · omega
    · omega
    · omega
    · omega
    · omega
    · exact this h1 h2

theorem lexCmp_neg : ∀ (a b : List Nat), lexCmp b a = - lexCmp a b := by
  intro a
  induction a with
  | nil => intro b; cases b <;> simp [lexCmp]
  | cons x xs ih =>
    intro b
    cases b with
    | nil => simp [lexCmp]
    | cons y ys =>
      unfold lexCmp
      by_cases hxy : x = y
      · subst hxy; simp [ih]
      · rw [if_pos (by omega), if_pos (by omega)]; omega

theorem lexCmp_total_lt {a b : List Nat} (hl : a.length = b.length) (hne : a ≠ b) :
    lexCmp a b < 0 ∨ lexCmp b a < 0 := by
  have e := lexCmp_neg a b
  rcases Int.lt_trichotomy (lexCmp a b) 0 with h | h | h
  · exact Or.inl h
  · exact absurd (lexCmp_antisymm hl (by omega) (by omega)) hne
  · exact Or.inr (by omega)

end Verif.Tensor
