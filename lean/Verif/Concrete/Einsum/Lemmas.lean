import Verif.Concrete.Lemmas
import Verif.Concrete.Einsum.Model
import Verif.Concrete.Einsum.Spec
/-
Lemmas about the steps to concrete notation.
-/
namespace Verif.Concrete

set_option linter.unusedSectionVars false

variable {R : Type} [CommRing R]

theorem mem_vars {e : Expr R} {i : Nat} : i ∈ e.vars ↔ i ∈ e.varsAll := by
  simp [Expr.vars, List.mem_eraseDups]

theorem nodup_eraseDups : ∀ (l : List Nat), l.eraseDups.Nodup := by
  intro l
  induction h : l.length using Nat.strong_induction_on generalizing l with
  | _ n ih =>
    cases l with
    | nil => simp
    | cons a l =>
      rw [List.eraseDups_cons]
      refine List.nodup_cons.mpr ⟨?_, ?_⟩
      · simp [List.mem_eraseDups]
      · refine ih _ ?_ _ rfl
        subst h
        exact Nat.lt_succ_of_le (List.length_filter_le _ _)

/-- The variables an expression is summed over. -/
def redVars (free : List Nat) (e : Expr R) : List Nat := e.vars.filter (fun i => !free.contains i)

theorem mem_redVars {free : List Nat} {e : Expr R} {i : Nat} :
    i ∈ redVars free e ↔ i ∈ e.varsAll ∧ i ∉ free := by
  simp [redVars, List.mem_filter, mem_vars]

theorem nodup_redVars (free : List Nat) (e : Expr R) : (redVars free e).Nodup :=
  (nodup_eraseDups _).filter _

theorem terms_vars {x : Expr R} : ∀ {e : Expr R}, x ∈ terms e → ∀ i ∈ x.varsAll, i ∈ e.varsAll := by
  intro e
  induction e with
  | add a b iha ihb =>
    intro h i hi
    rcases List.mem_append.mp h with h | h
    · exact List.mem_append_left _ (iha h i hi)
    · exact List.mem_append_right _ (ihb h i hi)
  | sub a b iha ihb =>
    intro h i hi
    rcases List.mem_append.mp h with h | h
    · exact List.mem_append_left _ (iha h i hi)
    · exact List.mem_append_right _ (ihb h i hi)
  | neg a ih => intro h i hi; exact ih h i hi
  | lit r => intro h i hi; simp [terms] at h; subst h; exact hi
  | acc t is => intro h i hi; simp [terms] at h; subst h; exact hi
  | mul a b _ _ => intro h i hi; simp [terms] at h; subst h; exact hi
  | red j a _ => intro h i hi; simp [terms] at h; subst h; exact hi

/-- Summing over the right variables gives the value in einsum notation. -/
theorem sumOver_einsum {dim : Nat → Nat} {σ : Store R} {free vs : List Nat} (hvs : vs.Nodup)
    (e : Expr R) (h : ∀ x ∈ terms e, ∀ i, i ∈ vs ↔ i ∈ x.varsAll ∧ i ∉ free) (ρ : Env) :
    sumOver dim vs (fun ρ => eval dim σ ρ e) ρ = einsum dim σ free e ρ := by
  have leaf : ∀ e : Expr R, (∀ i, i ∈ vs ↔ i ∈ e.varsAll ∧ i ∉ free) →
      sumOver dim vs (fun ρ => eval dim σ ρ e) ρ =
        sumOver dim (redVars free e) (fun ρ => eval dim σ ρ e) ρ := by
    intro e he
    apply sumOver_perm
    refine (List.perm_ext_iff_of_nodup hvs (nodup_redVars free e)).mpr ?_
    intro i
    rw [he i, mem_redVars]
  induction e with
  | add a b iha ihb =>
    simp only [eval, einsum]
    rw [sumOver_add, iha (fun x hx => h x (List.mem_append_left _ hx)),
      ihb (fun x hx => h x (List.mem_append_right _ hx))]
  | sub a b iha ihb =>
    simp only [eval, einsum]
    rw [sumOver_sub, iha (fun x hx => h x (List.mem_append_left _ hx)),
      ihb (fun x hx => h x (List.mem_append_right _ hx))]
  | neg a ih =>
    simp only [eval, einsum]
    rw [sumOver_neg, ih h]
  | lit r => exact leaf _ (h _ (by simp [terms]))
  | acc t is => exact leaf _ (h _ (by simp [terms]))
  | mul a b _ _ => exact leaf _ (h _ (by simp [terms]))
  | red j a _ => exact leaf _ (h _ (by simp [terms]))

theorem eval_addReductions {dim : Nat → Nat} {σ : Store R} {free : List Nat} {e : Expr R}
    (h : Uniform free e) (ρ : Env) :
    eval dim σ ρ (addReductions free e) = einsum dim σ free e ρ := by
  unfold addReductions
  rw [eval_foldr_red]
  refine sumOver_einsum (nodup_redVars free e) e ?_ ρ
  intro x hx i
  rw [mem_redVars]
  constructor
  · rintro ⟨h1, h2⟩
    rcases h x hx i h1 with h3 | h3
    · exact absurd h3 h2
    · exact ⟨h3, h2⟩
  · rintro ⟨h1, h2⟩
    exact ⟨terms_vars hx i h1, h2⟩

theorem isEinsum_mul {free : List Nat} : ∀ {e : Expr R}, isEinsum true e = true →
    einsumRewrite free e = (e, true) ∧ isEinsum false e = true ∧ ∃ x, terms e = [x] ∧ x.varsAll = e.varsAll := by
  intro e
  induction e with
  | add a b _ _ => intro h; simp [isEinsum] at h
  | sub a b _ _ => intro h; simp [isEinsum] at h
  | neg a ih =>
    intro h
    obtain ⟨h1, h2, x, h3, h4⟩ := ih h
    exact ⟨by simp [einsumRewrite, h1], h2, x, h3, h4⟩
  | lit r => intro _; exact ⟨rfl, rfl, _, rfl, rfl⟩
  | acc t is => intro _; exact ⟨rfl, rfl, _, rfl, rfl⟩
  | mul a b iha ihb =>
    intro h
    simp only [isEinsum, Bool.and_eq_true] at h
    obtain ⟨a1, _, _⟩ := iha h.1
    obtain ⟨b1, _, _⟩ := ihb h.2
    refine ⟨by simp [einsumRewrite, a1, b1], by simp [isEinsum, h.1, h.2], _, rfl, rfl⟩
  | red i a _ => intro h; simp [isEinsum] at h

theorem einsumRewrite_one {free : List Nat} : ∀ {e : Expr R}, isEinsum false e = true →
    (einsumRewrite free e).2 = true →
    (einsumRewrite free e).1 = e ∧ ∃ x, terms e = [x] ∧ x.varsAll = e.varsAll := by
  intro e
  induction e with
  | add a b _ _ => intro _ h; simp [einsumRewrite] at h
  | sub a b _ _ => intro _ h; simp [einsumRewrite] at h
  | neg a ih =>
    intro h h'
    obtain ⟨h1, x, h2, h3⟩ := ih h h'
    exact ⟨by simp [einsumRewrite, h1], x, h2, h3⟩
  | lit r => intro _ _; exact ⟨rfl, _, rfl, rfl⟩
  | acc t is => intro _ _; exact ⟨rfl, _, rfl, rfl⟩
  | mul a b _ _ =>
    intro h _
    simp only [isEinsum, Bool.and_eq_true] at h
    refine ⟨by simp [einsumRewrite, (isEinsum_mul h.1).1, (isEinsum_mul h.2).1], _, rfl, rfl⟩
  | red i a _ => intro h; simp [isEinsum] at h

theorem einsumRewrite_more {dim : Nat → Nat} {σ : Store R} {free : List Nat} : ∀ {e : Expr R},
    isEinsum false e = true → (einsumRewrite free e).2 = false →
    (∀ x ∈ topOperands e, Uniform free x) → ∀ ρ,
    eval dim σ ρ (einsumRewrite free e).1 = einsum dim σ free e ρ := by
  intro e
  induction e with
  | add a b _ _ =>
    intro _ _ hu ρ
    simp only [einsumRewrite, eval, einsum]
    rw [eval_addReductions (hu a (by simp [topOperands])),
      eval_addReductions (hu b (by simp [topOperands]))]
  | sub a b _ _ =>
    intro _ _ hu ρ
    simp only [einsumRewrite, eval, einsum]
    rw [eval_addReductions (hu a (by simp [topOperands])),
      eval_addReductions (hu b (by simp [topOperands]))]
  | neg a ih =>
    intro h h' hu ρ
    simp only [einsumRewrite, eval, einsum]
    rw [ih h h' hu]
  | lit r => intro _ h; simp [einsumRewrite] at h
  | acc t is => intro _ h; simp [einsumRewrite] at h
  | mul a b _ _ =>
    intro h h'
    simp only [isEinsum, Bool.and_eq_true] at h
    simp [einsumRewrite, (isEinsum_mul (free := free) h.1).1, (isEinsum_mul (free := free) h.2).1] at h'
  | red i a _ => intro h; simp [isEinsum] at h

theorem makeReduction_ok {dim : Nat → Nat} {σ : Store R} {free : List Nat} {e : Expr R}
    (h : isEinsum false e = true) (hu : ∀ x ∈ topOperands e, Uniform free x) (ρ : Env) :
    eval dim σ ρ (makeReduction free e) = einsum dim σ free e ρ := by
  unfold makeReduction
  rw [if_pos h]
  cases hr : (einsumRewrite free e).2 with
  | true =>
    obtain ⟨h1, x, h2, h3⟩ := einsumRewrite_one h hr
    simp only [if_true]
    rw [h1]
    apply eval_addReductions
    intro y hy i hi
    rw [h2] at hy
    simp only [List.mem_singleton] at hy
    subst hy
    right; rw [h3]; exact hi
  | false =>
    simp only [Bool.false_eq_true, if_false]
    exact einsumRewrite_more h hr hu ρ

theorem isReduction_of_vars : ∀ (e : Expr R) (bound : List Nat), (∀ i ∈ e.varsAll, i ∈ bound) →
    isReduction bound e = true
  | .lit _, _, _ => rfl
  | .acc _ is, bound, h => by simpa [isReduction, Expr.varsAll] using h
  | .neg a, bound, h => isReduction_of_vars a bound h
  | .add a b, bound, h => by
    simp only [Expr.varsAll, List.mem_append] at h
    simp [isReduction, isReduction_of_vars a bound fun i hi => h i (Or.inl hi),
      isReduction_of_vars b bound fun i hi => h i (Or.inr hi)]
  | .sub a b, bound, h => by
    simp only [Expr.varsAll, List.mem_append] at h
    simp [isReduction, isReduction_of_vars a bound fun i hi => h i (Or.inl hi),
      isReduction_of_vars b bound fun i hi => h i (Or.inr hi)]
  | .mul a b, bound, h => by
    simp only [Expr.varsAll, List.mem_append] at h
    simp [isReduction, isReduction_of_vars a bound fun i hi => h i (Or.inl hi),
      isReduction_of_vars b bound fun i hi => h i (Or.inr hi)]
  | .red j a, bound, h => isReduction_of_vars a (j :: bound) fun i hi => List.mem_cons_of_mem _ (h i hi)

theorem isReduction_foldr (e : Expr R) : ∀ (vs bound : List Nat),
    (∀ i ∈ e.varsAll, i ∈ vs ∨ i ∈ bound) → isReduction bound (vs.foldr .red e) = true
  | [], bound, h => isReduction_of_vars e bound fun i hi => by simpa using h i hi
  | v :: vs, bound, h => isReduction_foldr e vs (v :: bound) fun i hi => by
      have := h i hi
      simp only [List.mem_cons] at this ⊢
      tauto

theorem isReduction_addReductions (free : List Nat) (e : Expr R) :
    isReduction free (addReductions free e) = true := by
  unfold addReductions
  refine isReduction_foldr e _ free fun i hi => ?_
  by_cases h : i ∈ free
  · exact Or.inr h
  · exact Or.inl (mem_redVars.mpr ⟨hi, h⟩)

theorem isReduction_rewrite {free : List Nat} : ∀ {e : Expr R}, isEinsum false e = true →
    (einsumRewrite free e).2 = false → isReduction free (einsumRewrite free e).1 = true := by
  intro e
  induction e with
  | add a b _ _ => intro _ _; simp [einsumRewrite, isReduction, isReduction_addReductions]
  | sub a b _ _ => intro _ _; simp [einsumRewrite, isReduction, isReduction_addReductions]
  | neg a ih => intro h h'; exact ih h h'
  | lit r => intro _ h; simp [einsumRewrite] at h
  | acc t is => intro _ h; simp [einsumRewrite] at h
  | mul a b _ _ =>
    intro h h'
    simp only [isEinsum, Bool.and_eq_true] at h
    simp [einsumRewrite, (isEinsum_mul (free := free) h.1).1, (isEinsum_mul (free := free) h.2).1] at h'
  | red i a _ => intro h; simp [isEinsum] at h

/-! ### Concrete notation -/

theorem pull_spec {t : Nat} : ∀ {e e' : Expr R} {i : Nat} {b : Expr R}, pull t e = some (e', i, b) →
    reds e' + reds b + 1 = reds e ∧ (∀ u ∈ e'.tensors, u ∈ e.tensors ∨ u = t) ∧
    (∀ u ∈ b.tensors, u ∈ e.tensors) ∧
    ∀ (dim : Nat → Nat) (σ σ' : Store R) (ρ : Env), (∀ u ∈ e.tensors, σ' u = σ u) →
      σ' t [] = (∑ v ∈ Finset.range (dim i), eval dim σ (ρ.set i v) b) →
      eval dim σ' ρ e' = eval dim σ ρ e := by
  intro e
  induction e with
  | lit r => intro e' i b h; simp [pull] at h
  | acc t is => intro e' i b h; simp [pull] at h
  | neg a ih =>
    intro e' i b h
    simp only [pull, Option.map_eq_some_iff] at h
    obtain ⟨⟨a', i', b'⟩, h1, h2⟩ := h
    simp only [Prod.mk.injEq] at h2
    obtain ⟨rfl, rfl, rfl⟩ := h2
    obtain ⟨q1, q2, q3, q4⟩ := ih h1
    refine ⟨q1, q2, q3, ?_⟩
    intro dim σ σ' ρ hs ht
    simp only [eval]; rw [q4 dim σ σ' ρ hs ht]
  | red j a _ =>
    intro e' i b h
    simp only [pull, Option.some.injEq, Prod.mk.injEq] at h
    obtain ⟨rfl, rfl, rfl⟩ := h
    refine ⟨by simp [reds], by simp [Expr.tensors], by simp [Expr.tensors], ?_⟩
    intro dim σ σ' ρ hs ht
    simp only [eval, List.map_nil]; exact ht
  | add a b iha ihb =>
    intro e' i x h
    simp only [pull] at h
    cases hp : pull t a with
    | some r =>
      rw [hp] at h
      obtain ⟨a', i', b'⟩ := r
      simp only [Option.some.injEq, Prod.mk.injEq] at h
      obtain ⟨rfl, rfl, rfl⟩ := h
      obtain ⟨q1, q2, q3, q4⟩ := iha hp
      refine ⟨by simp only [reds]; omega, ?_, ?_, ?_⟩
      · intro u hu
        simp only [Expr.tensors, List.mem_append] at hu ⊢
        rcases hu with hu | hu
        · rcases q2 u hu with h | h
          · exact Or.inl (Or.inl h)
          · exact Or.inr h
        · exact Or.inl (Or.inr hu)
      · intro u hu
        simp only [Expr.tensors, List.mem_append]
        exact Or.inl (q3 u hu)
      · intro dim σ σ' ρ hs ht
        simp only [Expr.tensors, List.mem_append] at hs
        simp only [eval]
        rw [q4 dim σ σ' ρ (fun u hu => hs u (Or.inl hu)) ht,
          eval_store b ρ (fun u hu => hs u (Or.inr hu))]
    | none =>
      rw [hp] at h
      simp only [Option.map_eq_some_iff] at h
      obtain ⟨⟨a', i', b'⟩, h1, h2⟩ := h
      simp only [Prod.mk.injEq] at h2
      obtain ⟨rfl, rfl, rfl⟩ := h2
      obtain ⟨q1, q2, q3, q4⟩ := ihb h1
      refine ⟨by simp only [reds]; omega, ?_, ?_, ?_⟩
      · intro u hu
        simp only [Expr.tensors, List.mem_append] at hu ⊢
        rcases hu with hu | hu
        · exact Or.inl (Or.inl hu)
        · rcases q2 u hu with h | h
          · exact Or.inl (Or.inr h)
          · exact Or.inr h
      · intro u hu
        simp only [Expr.tensors, List.mem_append]
        exact Or.inr (q3 u hu)
      · intro dim σ σ' ρ hs ht
        simp only [Expr.tensors, List.mem_append] at hs
        simp only [eval]
        rw [q4 dim σ σ' ρ (fun u hu => hs u (Or.inr hu)) ht,
          eval_store a ρ (fun u hu => hs u (Or.inl hu))]
  | sub a b iha ihb =>
    intro e' i x h
    simp only [pull] at h
    cases hp : pull t a with
    | some r =>
      rw [hp] at h
      obtain ⟨a', i', b'⟩ := r
      simp only [Option.some.injEq, Prod.mk.injEq] at h
      obtain ⟨rfl, rfl, rfl⟩ := h
      obtain ⟨q1, q2, q3, q4⟩ := iha hp
      refine ⟨by simp only [reds]; omega, ?_, ?_, ?_⟩
      · intro u hu
        simp only [Expr.tensors, List.mem_append] at hu ⊢
        rcases hu with hu | hu
        · rcases q2 u hu with h | h
          · exact Or.inl (Or.inl h)
          · exact Or.inr h
        · exact Or.inl (Or.inr hu)
      · intro u hu
        simp only [Expr.tensors, List.mem_append]
        exact Or.inl (q3 u hu)
      · intro dim σ σ' ρ hs ht
        simp only [Expr.tensors, List.mem_append] at hs
        simp only [eval]
        rw [q4 dim σ σ' ρ (fun u hu => hs u (Or.inl hu)) ht,
          eval_store b ρ (fun u hu => hs u (Or.inr hu))]
    | none =>
      rw [hp] at h
      simp only [Option.map_eq_some_iff] at h
      obtain ⟨⟨a', i', b'⟩, h1, h2⟩ := h
      simp only [Prod.mk.injEq] at h2
      obtain ⟨rfl, rfl, rfl⟩ := h2
      obtain ⟨q1, q2, q3, q4⟩ := ihb h1
      refine ⟨by simp only [reds]; omega, ?_, ?_, ?_⟩
      · intro u hu
        simp only [Expr.tensors, List.mem_append] at hu ⊢
        rcases hu with hu | hu
        · exact Or.inl (Or.inl hu)
        · rcases q2 u hu with h | h
          · exact Or.inl (Or.inr h)
          · exact Or.inr h
      · intro u hu
        simp only [Expr.tensors, List.mem_append]
        exact Or.inr (q3 u hu)
      · intro dim σ σ' ρ hs ht
        simp only [Expr.tensors, List.mem_append] at hs
        simp only [eval]
        rw [q4 dim σ σ' ρ (fun u hu => hs u (Or.inr hu)) ht,
          eval_store a ρ (fun u hu => hs u (Or.inl hu))]
  | mul a b iha ihb =>
    intro e' i x h
    simp only [pull] at h
    cases hp : pull t a with
    | some r =>
      rw [hp] at h
      obtain ⟨a', i', b'⟩ := r
      simp only [Option.some.injEq, Prod.mk.injEq] at h
      obtain ⟨rfl, rfl, rfl⟩ := h
      obtain ⟨q1, q2, q3, q4⟩ := iha hp
      refine ⟨by simp only [reds]; omega, ?_, ?_, ?_⟩
      · intro u hu
        simp only [Expr.tensors, List.mem_append] at hu ⊢
        rcases hu with hu | hu
        · rcases q2 u hu with h | h
          · exact Or.inl (Or.inl h)
          · exact Or.inr h
        · exact Or.inl (Or.inr hu)
      · intro u hu
        simp only [Expr.tensors, List.mem_append]
        exact Or.inl (q3 u hu)
      · intro dim σ σ' ρ hs ht
        simp only [Expr.tensors, List.mem_append] at hs
        simp only [eval]
        rw [q4 dim σ σ' ρ (fun u hu => hs u (Or.inl hu)) ht,
          eval_store b ρ (fun u hu => hs u (Or.inr hu))]
    | none =>
      rw [hp] at h
      simp only [Option.map_eq_some_iff] at h
      obtain ⟨⟨a', i', b'⟩, h1, h2⟩ := h
      simp only [Prod.mk.injEq] at h2
      obtain ⟨rfl, rfl, rfl⟩ := h2
      obtain ⟨q1, q2, q3, q4⟩ := ihb h1
      refine ⟨by simp only [reds]; omega, ?_, ?_, ?_⟩
      · intro u hu
        simp only [Expr.tensors, List.mem_append] at hu ⊢
        rcases hu with hu | hu
        · exact Or.inl (Or.inl hu)
        · rcases q2 u hu with h | h
          · exact Or.inl (Or.inr h)
          · exact Or.inr h
      · intro u hu
        simp only [Expr.tensors, List.mem_append]
        exact Or.inr (q3 u hu)
      · intro dim σ σ' ρ hs ht
        simp only [Expr.tensors, List.mem_append] at hs
        simp only [eval]
        rw [q4 dim σ σ' ρ (fun u hu => hs u (Or.inr hu)) ht,
          eval_store a ρ (fun u hu => hs u (Or.inl hu))]

theorem sumFree_of_reds : ∀ (e : Expr R), reds e = 0 → e.sumFree
  | .lit _, _ => trivial
  | .acc _ _, _ => trivial
  | .neg a, h => sumFree_of_reds a h
  | .add a b, h => by
    simp only [reds] at h
    exact ⟨sumFree_of_reds a (by omega), sumFree_of_reds b (by omega)⟩
  | .sub a b, h => by
    simp only [reds] at h
    exact ⟨sumFree_of_reds a (by omega), sumFree_of_reds b (by omega)⟩
  | .mul a b, h => by
    simp only [reds] at h
    exact ⟨sumFree_of_reds a (by omega), sumFree_of_reds b (by omega)⟩
  | .red _ a, h => by simp [reds] at h

theorem pull_none {t : Nat} : ∀ {e : Expr R}, pull t e = none → reds e = 0 := by
  intro e
  induction e with
  | lit r => intro _; rfl
  | acc t is => intro _; rfl
  | neg a ih => intro h; simp only [pull, Option.map_eq_none_iff] at h; exact ih h
  | add a b iha ihb =>
    intro h; simp only [pull] at h
    cases hp : pull t a with
    | some r => rw [hp] at h; simp at h
    | none => rw [hp] at h; simp only [Option.map_eq_none_iff] at h; simp [reds, iha hp, ihb h]
  | sub a b iha ihb =>
    intro h; simp only [pull] at h
    cases hp : pull t a with
    | some r => rw [hp] at h; simp at h
    | none => rw [hp] at h; simp only [Option.map_eq_none_iff] at h; simp [reds, iha hp, ihb h]
  | mul a b iha ihb =>
    intro h; simp only [pull] at h
    cases hp : pull t a with
    | some r => rw [hp] at h; simp at h
    | none => rw [hp] at h; simp only [Option.map_eq_none_iff] at h; simp [reds, iha hp, ihb h]
  | red i a _ => intro h; simp [pull] at h

/-- Replacing reductions by where statements changes nothing. -/
theorem wheres_ok (dim : Nat → Nat) : ∀ (fuel n t : Nat) (is : List Nat) (plus : Bool) (e : Expr R),
    reds e ≤ fuel → t < n → (∀ u ∈ e.tensors, u < n) →
    (wheres fuel n t is plus e).1.results = [t] ∧ n ≤ (wheres fuel n t is plus e).2 ∧
    (wheres fuel n t is plus e).1.sumFree ∧
    ∀ ρ σ, exec dim (wheres fuel n t is plus e).1 ρ σ = exec dim (.assign t is plus e) ρ σ
  | 0, n, t, is, plus, e, hf, _, _ => ⟨rfl, Nat.le_refl _, sumFree_of_reds e (Nat.le_zero.mp hf), fun _ _ => rfl⟩
  | fuel + 1, n, t, is, plus, e, hf, ht, hn => by
    unfold wheres
    cases hp : pull n e with
    | none => exact ⟨rfl, Nat.le_refl _, sumFree_of_reds e (pull_none hp), fun _ _ => rfl⟩
    | some r =>
      obtain ⟨e', i, b⟩ := r
      obtain ⟨q1, q2, q3, q4⟩ := pull_spec hp
      simp only
      obtain ⟨c1, c2, c3, c4⟩ := wheres_ok dim fuel (n + 1) t is plus e' (by omega) (by omega) (by
        intro u hu
        rcases q2 u hu with h | h
        · have := hn u h; omega
        · omega)
      obtain ⟨p1, p2, p3, p4⟩ := wheres_ok dim fuel (wheres fuel (n + 1) t is plus e').2 n [] true b
        (by omega) (by omega) (by
          intro u hu
          have := hn u (q3 u hu)
          omega)
      refine ⟨c1, by omega, ⟨c3, p3⟩, ?_⟩
      intro ρ σ
      simp only [exec, Stmt.results, p1]
      rw [c4]
      simp only [p4, exec, List.map_nil, if_true]
      -- the producer sums into the scalar
      have hb : ∀ (τ : Store R), (∀ u ∈ b.tensors, τ u = σ u) →
          ∀ l : List Nat, l.foldl (fun τ v => put τ n [] (τ n [] + eval dim τ (ρ.set i v) b)) τ =
            put τ n [] (τ n [] + (l.map fun v => eval dim σ (ρ.set i v) b).sum) := by
        intro τ hτ l
        induction l generalizing τ with
        | nil => simp [put_self]
        | cons v l ih =>
          rw [List.foldl_cons, ih]
          · rw [put_same, put_put, eval_store b _ hτ]; simp [add_assoc]
          · intro u hu
            have hun : u ≠ n := by have := hn u (q3 u hu); omega
            rw [put_ne_tensor _ _ _ hun]; exact hτ u hu
      rw [hb (clear [n] σ) (by
        intro u hu
        have hun : u ≠ n := by have := hn u (q3 u hu); omega
        simp [clear, hun]), sum_map_range]
      generalize hσ1 : put (clear [n] σ) n [] _ = σ1
      have h1 : ∀ u, u ≠ n → σ1 u = σ u := by
        intro u hu
        rw [← hσ1, put_ne_tensor _ _ _ hu]; simp [clear, hu]
      have h2 : σ1 n [] = ∑ v ∈ Finset.range (dim i), eval dim σ (ρ.set i v) b := by
        rw [← hσ1, put_same]; simp [clear]
      have hv : eval dim σ1 ρ e' = eval dim σ ρ e := q4 dim σ σ1 ρ (fun u hu => h1 u (by
        have := hn u hu; omega)) h2
      rw [hv, h1 t (by omega)]
      funext u c
      by_cases hu : u = n
      · subst hu
        have : u ≠ t := by omega
        simp [restore, put, this]
      · simp only [restore, List.mem_singleton, hu, if_false, put]
        rw [h1 u hu]

/-- Loops over the left-hand side around loops of a sum. -/
theorem exec_nest {dim : Nat → Nat} {σ : Store R} {ρ : Env} {a : Nat} {lhs tv : List Nat}
    {plus : Bool} {b : Expr R} (hn : lhs.Nodup) (ha : a ∉ b.tensors) (hd : ∀ i ∈ tv, i ∉ lhs)
    (hz : plus = false → ∀ x, σ a x = 0) :
    let σ' := exec dim (loops lhs (loops tv (.assign a lhs (plus || !tv.isEmpty) b))) ρ σ
    (∀ x, InBox dim lhs x →
      σ' a x = σ a x + sumOver dim tv (fun ρ => eval dim σ ρ b) (bind lhs x ρ)) ∧
    (∀ x, ¬ InBox dim lhs x → σ' a x = σ a x) ∧ (∀ u, u ≠ a → σ' u = σ u) := by
  -- one round of the outer loops
  let g : Env → R → R := fun ρ r =>
    (if plus || !tv.isEmpty then r else 0) + sumOver dim tv (fun ρ => eval dim σ ρ b) ρ
  have key : ∀ (τ : Store R) (ρ' : Env), (∀ u, u ≠ a → τ u = σ u) →
      exec dim (loops tv (.assign a lhs (plus || !tv.isEmpty) b)) ρ' τ =
        put τ a (lhs.map ρ') (g ρ' (τ a (lhs.map ρ'))) := by
    intro τ ρ' hτ
    have hev : ∀ ρ, eval dim τ ρ b = eval dim σ ρ b := fun ρ =>
      eval_store b ρ fun u hu => hτ u (fun h => ha (h ▸ hu))
    cases htv : tv with
    | nil =>
      simp only [loops, List.foldr_nil, exec, g, htv, sumOver, hev, List.isEmpty_nil]
      congr 1
      cases plus <;> simp
    | cons i tv' =>
      have hp : (plus || !(i :: tv').isEmpty) = true := by simp
      rw [hp, exec_loops, foldl_env_add ha (lhs.map ρ')]
      · rw [sum_envs]
        simp only [g, htv, hp, if_true, hev]
      · intro ρ'' h''
        refine List.map_congr_left fun j hj => ?_
        refine (mem_envs h'').1 j ?_
        rw [← htv]
        exact fun hjt => hd j hjt hj
  have hfold : ∀ (l : List Env) (τ : Store R), (∀ u, u ≠ a → τ u = σ u) →
      l.foldl (fun τ ρ => exec dim (loops tv (.assign a lhs (plus || !tv.isEmpty) b)) ρ τ) τ =
      l.foldl (fun τ ρ => put τ a (lhs.map ρ) (g ρ (τ a (lhs.map ρ)))) τ := by
    intro l
    induction l with
    | nil => intro τ _; rfl
    | cons ρ' l ih =>
      intro τ hτ
      rw [List.foldl_cons, List.foldl_cons, key τ ρ' hτ]
      refine ih _ fun u hu => ?_
      rw [put_ne_tensor _ _ _ hu]; exact hτ u hu
  intro σ'
  have hσ' : σ' = _ := (exec_loops lhs ρ σ).trans (hfold _ σ (fun _ _ => rfl))
  obtain ⟨h1, h2, h3⟩ := foldl_put_keys a (fun ρ => lhs.map ρ) g (envs dim lhs ρ) σ (nodup_keys hn)
  rw [hσ']
  refine ⟨?_, ?_, h1⟩
  · intro x hx
    have := h3 _ (bind_mem_envs ρ hx)
    rw [bind_key hn ρ hx] at this
    rw [this]
    cases hpl : plus with
    | true => simp [g, hpl]
    | false =>
      rw [hz hpl x]
      simp [g]
  · intro x hx
    refine h2 x fun hm => hx ?_
    obtain ⟨ρ', h', rfl⟩ := List.mem_map.mp hm
    exact key_inBox h'

theorem eval_top {dim : Nat → Nat} {σ : Store R} : ∀ (e : Expr R) (ρ : Env),
    eval dim σ ρ e = sumOver dim (topVars e) (fun ρ => eval dim σ ρ (topBody e)) ρ
  | .red i a, ρ => by
    simp only [eval, topVars, topBody, sumOver]
    exact Finset.sum_congr rfl fun v _ => eval_top a _
  | .lit _, _ => rfl
  | .acc _ _, _ => rfl
  | .neg _, _ => rfl
  | .add _ _, _ => rfl
  | .sub _ _, _ => rfl
  | .mul _ _, _ => rfl

theorem tensors_top : ∀ (e : Expr R), (topBody e).tensors = e.tensors
  | .red _ a => tensors_top a
  | .lit _ => rfl
  | .acc _ _ => rfl
  | .neg _ => rfl
  | .add _ _ => rfl
  | .sub _ _ => rfl
  | .mul _ _ => rfl

theorem reds_top : ∀ (e : Expr R), reds (topBody e) ≤ reds e
  | .red _ a => Nat.le_succ_of_le (reds_top a)
  | .lit _ => Nat.le_refl _
  | .acc _ _ => Nat.le_refl _
  | .neg _ => Nat.le_refl _
  | .add _ _ => Nat.le_refl _
  | .sub _ _ => Nat.le_refl _
  | .mul _ _ => Nat.le_refl _

theorem exec_loops_congr {dim : Nat → Nat} {s s' : Stmt R}
    (h : ∀ ρ σ, exec dim s ρ σ = exec dim s' ρ σ) (is : List Nat) (ρ : Env) (σ : Store R) :
    exec dim (loops is s) ρ σ = exec dim (loops is s') ρ σ := by
  rw [exec_loops, exec_loops]
  exact foldl_congr_mem _ _ fun σ ρ _ => h ρ σ

theorem exec_makeConcrete {dim : Nat → Nat} {n a : Nat} {lhs : List Nat} {plus : Bool}
    {e : Expr R} (ha : a < n) (he : ∀ u ∈ e.tensors, u < n) (ρ : Env) (σ : Store R) :
    exec dim (makeConcrete n a lhs plus e) ρ σ =
      exec dim (loops lhs (loops (topVars e)
        (.assign a lhs (plus || !(topVars e).isEmpty) (topBody e)))) ρ σ := by
  refine exec_loops_congr (exec_loops_congr ?_ _) _ _ _
  exact (wheres_ok dim _ _ _ _ _ _ (reds_top e) ha (tensors_top e ▸ he)).2.2.2

theorem tensors_foldr_red (e : Expr R) : ∀ (is : List Nat), (is.foldr .red e).tensors = e.tensors
  | [] => rfl
  | _ :: is => tensors_foldr_red e is

theorem tensors_einsumRewrite (free : List Nat) : ∀ (e : Expr R),
    (einsumRewrite free e).1.tensors = e.tensors
  | .lit _ => rfl
  | .acc _ _ => rfl
  | .neg a => tensors_einsumRewrite free a
  | .add a b => by simp [einsumRewrite, Expr.tensors, addReductions, tensors_foldr_red]
  | .sub a b => by simp [einsumRewrite, Expr.tensors, addReductions, tensors_foldr_red]
  | .mul a b => by
    simp [einsumRewrite, Expr.tensors, tensors_einsumRewrite free a, tensors_einsumRewrite free b]
  | .red _ a => tensors_einsumRewrite free a

theorem tensors_makeReduction (free : List Nat) (e : Expr R) :
    (makeReduction free e).tensors = e.tensors := by
  unfold makeReduction
  split
  · split
    · unfold addReductions; rw [tensors_foldr_red, tensors_einsumRewrite]
    · exact tensors_einsumRewrite free e
  · rfl

theorem topVars_einsum {mul : Bool} : ∀ {e : Expr R}, isEinsum mul e = true → topVars e = [] := by
  intro e h
  cases e <;> first | rfl | simp [isEinsum] at h

theorem topVars_foldr_red {e : Expr R} (h : topVars e = []) : ∀ (is : List Nat),
    topVars (is.foldr .red e) = is
  | [] => h
  | i :: is => by simp [topVars, topVars_foldr_red h is]

theorem topVars_rewrite {free : List Nat} : ∀ {e : Expr R}, isEinsum false e = true →
    topVars (einsumRewrite free e).1 = [] := by
  intro e h
  cases e <;> first | rfl | simp [isEinsum] at h

theorem topVars_makeReduction {free : List Nat} {e : Expr R} (h : isEinsum false e = true) :
    ∀ i ∈ topVars (makeReduction free e), i ∉ free := by
  intro i hi
  unfold makeReduction at hi
  rw [if_pos h] at hi
  split at hi
  · unfold addReductions at hi
    rw [topVars_foldr_red (topVars_rewrite h)] at hi
    simpa using (List.mem_filter.mp hi).2
  · rw [topVars_rewrite h] at hi
    simp at hi

end Verif.Concrete
