import Verif.Omit.Model
import Verif.Algebra.Spec
import Verif.Algebra.Lemmas
/-! Facts about iteration-space descriptions. -/
namespace Verif.Omit
open Verif.Algebra (Alg dispatch applier Normal)

theorem holds_congr {S T : Nat → Bool} : ∀ (a : Alg), (∀ k ∈ regions a, S k = T k) → holds S a = holds T a
  | .region k, h => h k (by simp [regions])
  | .compl a, h => by simp only [holds]; rw [holds_congr a h]
  | .inter a b, h => by
    simp only [holds]
    rw [holds_congr a (fun k hk => h k (by simp [regions, hk])), holds_congr b (fun k hk => h k (by simp [regions, hk]))]
  | .union a b, h => by
    simp only [holds]
    rw [holds_congr a (fun k hk => h k (by simp [regions, hk])), holds_congr b (fun k hk => h k (by simp [regions, hk]))]

theorem reach_congr {S T : Nat → Bool} : ∀ (a : Alg) (neg : Bool), (∀ k ∈ regions a, S k = T k) →
    reach neg S a = reach neg T a
  | .region k, neg, h => by simp only [reach]; rw [h k (by simp [regions])]
  | .compl a, neg, h => by simp only [reach]; rw [reach_congr a _ h]
  | .inter a b, neg, h => by
    simp only [reach]
    rw [reach_congr a _ (fun k hk => h k (by simp [regions, hk])), reach_congr b _ (fun k hk => h k (by simp [regions, hk]))]
  | .union a b, neg, h => by
    simp only [reach]
    rw [reach_congr a _ (fun k hk => h k (by simp [regions, hk])), reach_congr b _ (fun k hk => h k (by simp [regions, hk]))]

theorem reach_mono {S T : Nat → Bool} : ∀ (a : Alg) (neg : Bool), (∀ k ∈ regions a, S k = true → T k = true) →
    reach neg S a = true → reach neg T a = true
  | .region k, neg, h => by
    simp only [reach, Bool.or_eq_true]
    exact fun h' => h'.imp id (h k (by simp [regions]))
  | .compl a, neg, h => by simp only [reach]; exact reach_mono a _ h
  | .inter a b, neg, h => by
    have h1 := reach_mono a neg (fun k hk => h k (by simp [regions, hk]))
    have h2 := reach_mono b neg (fun k hk => h k (by simp [regions, hk]))
    cases neg <;> simp only [reach, Bool.false_eq_true, if_true, if_false, Bool.or_eq_true, Bool.and_eq_true]
    · exact fun h => ⟨h1 h.1, h2 h.2⟩
    · exact fun h => h.imp h1 h2
  | .union a b, neg, h => by
    have h1 := reach_mono a neg (fun k hk => h k (by simp [regions, hk]))
    have h2 := reach_mono b neg (fun k hk => h k (by simp [regions, hk]))
    cases neg <;> simp only [reach, Bool.false_eq_true, if_true, if_false, Bool.or_eq_true, Bool.and_eq_true]
    · exact fun h => h.imp h1 h2
    · exact fun h => ⟨h1 h.1, h2 h.2⟩

/-- The space is inside what is reached. -/
theorem reach_of_holds {S : Nat → Bool} : ∀ (a : Alg) (neg : Bool), holds S a = !neg → reach neg S a = true
  | .region k, neg, h => by
    simp only [holds] at h; cases neg <;> simp_all [reach]
  | .compl a, neg, h => by
    simp only [holds] at h; simp only [reach]
    exact reach_of_holds a _ (by rw [← h]; simp)
  | .inter a b, neg, h => by
    have h1 := reach_of_holds (S := S) a neg
    have h2 := reach_of_holds (S := S) b neg
    simp only [holds] at h
    cases neg <;> simp_all [reach]
    cases hb : holds S a <;> simp_all
  | .union a b, neg, h => by
    have h1 := reach_of_holds (S := S) a neg
    have h2 := reach_of_holds (S := S) b neg
    simp only [holds] at h
    cases neg <;> simp_all [reach]
    exact h.imp h1 h2

theorem reach_none : ∀ (a : Alg) (neg : Bool), reach neg (fun _ => false) a = (holds (fun _ => false) a != neg)
  | .region k, neg => by cases neg <;> rfl
  | .compl a, neg => by
    simp only [reach, holds, reach_none a]
    cases neg <;> cases holds (fun _ => false) a <;> rfl
  | .inter a b, neg => by
    simp only [reach, holds, reach_none a, reach_none b]
    cases neg <;> cases holds (fun _ => false) a <;> cases holds (fun _ => false) b <;> rfl
  | .union a b, neg => by
    simp only [reach, holds, reach_none a, reach_none b]
    cases neg <;> cases holds (fun _ => false) a <;> cases holds (fun _ => false) b <;> rfl

theorem reach_all {S : Nat → Bool} : ∀ (a : Alg) (neg : Bool), (∀ k ∈ regions a, S k = true) → reach neg S a = true
  | .region k, neg, h => by simp only [reach]; rw [h k (by simp [regions])]; simp
  | .compl a, neg, h => by simp only [reach]; exact reach_all a _ h
  | .inter a b, neg, h => by
    have h1 := reach_all a neg (fun k hk => h k (by simp [regions, hk]))
    have h2 := reach_all b neg (fun k hk => h k (by simp [regions, hk]))
    simp [reach, h1, h2]
  | .union a b, neg, h => by
    have h1 := reach_all a neg (fun k hk => h k (by simp [regions, hk]))
    have h2 := reach_all b neg (fun k hk => h k (by simp [regions, hk]))
    simp [reach, h1, h2]

theorem regions_ne_nil : ∀ (a : Alg), regions a ≠ []
  | .region k => by simp [regions]
  | .compl a => regions_ne_nil a
  | .inter a b => by simp [regions, regions_ne_nil a]
  | .union a b => by simp [regions, regions_ne_nil a]

/-- Without complements what is reached is the space. -/
theorem reach_eq_holds {S : Nat → Bool} : ∀ (a : Alg), hasCompl a = false → reach false S a = holds S a
  | .region k, _ => by simp [reach, holds]
  | .compl a, h => by simp [hasCompl] at h
  | .inter a b, h => by
    simp only [hasCompl, Bool.or_eq_false_iff] at h
    simp [reach, holds, reach_eq_holds a h.1, reach_eq_holds b h.2]
  | .union a b, h => by
    simp only [hasCompl, Bool.or_eq_false_iff] at h
    simp [reach, holds, reach_eq_holds a h.1, reach_eq_holds b h.2]

/-! ### De Morgan -/

mutual
theorem holds_applier (S : Nat → Bool) : ∀ a, holds S (applier a) = !holds S a
  | .region n => rfl
  | .compl a => by simp only [applier, holds]; rw [holds_dispatch S a]; simp
  | .inter a b => by simp only [applier, holds, holds_applier S a, holds_applier S b, Bool.not_and]
  | .union a b => by simp only [applier, holds, holds_applier S a, holds_applier S b, Bool.not_or]
theorem holds_dispatch (S : Nat → Bool) : ∀ a, holds S (dispatch a) = holds S a
  | .region n => rfl
  | .compl a => by simp only [dispatch, holds, holds_applier S a]
  | .inter a b => by simp only [dispatch, holds, holds_dispatch S a, holds_dispatch S b]
  | .union a b => by simp only [dispatch, holds, holds_dispatch S a, holds_dispatch S b]
end

mutual
theorem regions_applier : ∀ a, regions (applier a) = regions a
  | .region n => rfl
  | .compl a => by simp only [applier, regions]; exact regions_dispatch a
  | .inter a b => by simp only [applier, regions, regions_applier a, regions_applier b]
  | .union a b => by simp only [applier, regions, regions_applier a, regions_applier b]
theorem regions_dispatch : ∀ a, regions (dispatch a) = regions a
  | .region n => rfl
  | .compl a => by simp only [dispatch, regions]; exact regions_applier a
  | .inter a b => by simp only [dispatch, regions, regions_dispatch a, regions_dispatch b]
  | .union a b => by simp only [dispatch, regions, regions_dispatch a, regions_dispatch b]
end

mutual
theorem reach_applier (S : Nat → Bool) : ∀ a neg, reach neg S (applier a) = reach (!neg) S a
  | .region n, neg => rfl
  | .compl a, neg => by simp only [applier, reach]; rw [reach_dispatch S a]; simp
  | .inter a b, neg => by
    simp only [applier, reach, reach_applier S a, reach_applier S b]; cases neg <;> rfl
  | .union a b, neg => by
    simp only [applier, reach, reach_applier S a, reach_applier S b]; cases neg <;> rfl
theorem reach_dispatch (S : Nat → Bool) : ∀ a neg, reach neg S (dispatch a) = reach neg S a
  | .region n, neg => rfl
  | .compl a, neg => by simp only [dispatch, reach, reach_applier S a]
  | .inter a b, neg => by simp only [dispatch, reach, reach_dispatch S a, reach_dispatch S b]
  | .union a b, neg => by simp only [dispatch, reach, reach_dispatch S a, reach_dispatch S b]
end

theorem alone_applier (a : Alg) (neg : Bool) : alone neg (applier a) = alone (!neg) a := by
  unfold alone; rw [regions_applier]; simp only [reach_applier]

theorem alone_dispatch (a : Alg) (neg : Bool) : alone neg (dispatch a) = alone neg a := by
  unfold alone; rw [regions_dispatch]; simp only [reach_dispatch]

mutual
theorem covered_applier : ∀ a neg, covered neg (applier a) = covered (!neg) a
  | .region n, neg => rfl
  | .compl a, neg => by simp only [applier, covered]; rw [covered_dispatch a]; simp
  | .inter a b, neg => by
    simp only [applier, covered, covered_applier a, covered_applier b, alone_applier]; cases neg <;> rfl
  | .union a b, neg => by
    simp only [applier, covered, covered_applier a, covered_applier b, alone_applier]
theorem covered_dispatch : ∀ a neg, covered neg (dispatch a) = covered neg a
  | .region n, neg => rfl
  | .compl a, neg => by simp only [dispatch, covered, covered_applier a]
  | .inter a b, neg => by simp only [dispatch, covered, covered_dispatch a, covered_dispatch b, alone_dispatch]
  | .union a b, neg => by simp only [dispatch, covered, covered_dispatch a, covered_dispatch b, alone_dispatch]
end

theorem supported_dispatch (a : Alg) : supported (dispatch a) = supported a := by
  unfold supported
  rw [covered_dispatch, holds_dispatch, regions_dispatch]
  simp only [reach_dispatch, holds_dispatch]

theorem hasCompl_dispatch : ∀ (a : Alg), hasCompl a = false → dispatch a = a
  | .region k, _ => rfl
  | .compl a, h => by simp [hasCompl] at h
  | .inter a b, h => by
    simp only [hasCompl, Bool.or_eq_false_iff] at h
    simp only [dispatch]; rw [hasCompl_dispatch a h.1, hasCompl_dispatch b h.2]
  | .union a b, h => by
    simp only [hasCompl, Bool.or_eq_false_iff] at h
    simp only [dispatch]; rw [hasCompl_dispatch a h.1, hasCompl_dispatch b h.2]

/-- A description all of whose regions alone reach it is reached by every nonempty set. -/
theorem reach_of_alone {a : Alg} {neg : Bool} (h : alone neg a = true) {S : Nat → Bool} {k : Nat}
    (hk : k ∈ regions a) (hS : S k = true) : reach neg S a = true := by
  have := List.all_eq_true.1 h k hk
  refine reach_mono a neg ?_ this
  intro j _ hj
  rw [beq_iff_eq] at hj; rw [hj]; exact hS

end Verif.Omit
