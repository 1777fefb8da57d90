import Verif.Notation.Model
import Verif.Notation.Spec
import Verif.Recover.Lemmas

/-! # Facts about the notation checks -/

namespace Verif.Notation

open Verif.Recover

/-! ### Parts of expressions -/

theorem inside_iff {d f : Expr} : Inside d f ↔ d = f ∨ ∃ e, Part e f ∧ Inside d e := by
  constructor
  · intro h
    cases h with
    | refl => exact .inl rfl
    | part h1 h2 => exact .inr ⟨_, h2, h1⟩
  · rintro (rfl | ⟨e, h1, h2⟩)
    · exact .refl
    · exact .part h2 h1

theorem inside_lit {d} : Inside d .lit ↔ d = .lit := by
  rw [inside_iff]
  exact ⟨fun h => h.elim id (fun ⟨_, h, _⟩ => nomatch h), .inl⟩

theorem inside_args {d} : Inside d .args ↔ d = .args := by
  rw [inside_iff]
  exact ⟨fun h => h.elim id (fun ⟨_, h, _⟩ => nomatch h), .inl⟩

theorem inside_access {d vars} : Inside d (.access vars) ↔ d = .access vars := by
  rw [inside_iff]
  exact ⟨fun h => h.elim id (fun ⟨_, h, _⟩ => nomatch h), .inl⟩

theorem inside_ivar {d v} : Inside d (.ivar v) ↔ d = .ivar v := by
  rw [inside_iff]
  exact ⟨fun h => h.elim id (fun ⟨_, h, _⟩ => nomatch h), .inl⟩

theorem inside_unary {d a} : Inside d (.unary a) ↔ d = .unary a ∨ Inside d a := by
  rw [inside_iff]
  refine or_congr Iff.rfl ⟨?_, fun h => ⟨a, .unary, h⟩⟩
  rintro ⟨e, he, h⟩
  cases he
  exact h

theorem inside_call {d a} : Inside d (.call a) ↔ d = .call a ∨ Inside d a := by
  rw [inside_iff]
  refine or_congr Iff.rfl ⟨?_, fun h => ⟨a, .call, h⟩⟩
  rintro ⟨e, he, h⟩
  cases he
  exact h

theorem inside_reduction {d v a} : Inside d (.reduction v a) ↔ d = .reduction v a ∨ Inside d a := by
  rw [inside_iff]
  refine or_congr Iff.rfl ⟨?_, fun h => ⟨a, .reduction, h⟩⟩
  rintro ⟨e, he, h⟩
  cases he
  exact h

theorem inside_add {d a b} : Inside d (.add a b) ↔ d = .add a b ∨ Inside d a ∨ Inside d b := by
  rw [inside_iff]
  refine or_congr Iff.rfl ⟨?_, fun h => h.elim (fun h => ⟨a, .addL, h⟩) (fun h => ⟨b, .addR, h⟩)⟩
  rintro ⟨e, he, h⟩
  cases he
  · exact .inl h
  · exact .inr h

theorem inside_sub {d a b} : Inside d (.sub a b) ↔ d = .sub a b ∨ Inside d a ∨ Inside d b := by
  rw [inside_iff]
  refine or_congr Iff.rfl ⟨?_, fun h => h.elim (fun h => ⟨a, .subL, h⟩) (fun h => ⟨b, .subR, h⟩)⟩
  rintro ⟨e, he, h⟩
  cases he
  · exact .inl h
  · exact .inr h

theorem inside_mul {d a b} : Inside d (.mul a b) ↔ d = .mul a b ∨ Inside d a ∨ Inside d b := by
  rw [inside_iff]
  refine or_congr Iff.rfl ⟨?_, fun h => h.elim (fun h => ⟨a, .mulL, h⟩) (fun h => ⟨b, .mulR, h⟩)⟩
  rintro ⟨e, he, h⟩
  cases he
  · exact .inl h
  · exact .inr h

theorem inside_div {d a b} : Inside d (.div a b) ↔ d = .div a b ∨ Inside d a ∨ Inside d b := by
  rw [inside_iff]
  refine or_congr Iff.rfl ⟨?_, fun h => h.elim (fun h => ⟨a, .divL, h⟩) (fun h => ⟨b, .divR, h⟩)⟩
  rintro ⟨e, he, h⟩
  cases he
  · exact .inl h
  · exact .inr h

theorem inside_arg {d a b} : Inside d (.arg a b) ↔ d = .arg a b ∨ Inside d a ∨ Inside d b := by
  rw [inside_iff]
  refine or_congr Iff.rfl ⟨?_, fun h => h.elim (fun h => ⟨a, .arg, h⟩) (fun h => ⟨b, .argRest, h⟩)⟩
  rintro ⟨e, he, h⟩
  cases he
  · exact .inl h
  · exact .inr h

theorem Inside.trans {a b c : Expr} (h : Inside a b) (h' : Inside b c) : Inside a c := by
  induction h' with
  | refl => exact h
  | part _ hp ih => exact .part ih hp

/-! ### Einsum notation -/

/-- No sums, differences, quotients and reductions at all. -/
def ProductExpr (e : Expr) : Prop :=
  (∀ a b, ¬Inside (.div a b) e) ∧ (∀ v a, ¬Inside (.reduction v a) e) ∧
    ∀ a b, ¬Inside (.add a b) e ∧ ¬Inside (.sub a b) e

theorem einsum_true (e : Expr) : einsumExpr true e = true ↔ ProductExpr e := by
  induction e with
  | lit => simp [einsumExpr, ProductExpr, inside_lit]
  | access vars => simp [einsumExpr, ProductExpr, inside_access]
  | ivar v => simp [einsumExpr, ProductExpr, inside_ivar]
  | args => simp [einsumExpr, ProductExpr, inside_args]
  | unary a ih => simp [einsumExpr, ProductExpr, inside_unary, ih]
  | call a ih => simp [einsumExpr, ProductExpr, inside_call, ih]
  | add a b _ _ =>
    simp only [einsumExpr, if_true, Bool.false_eq_true, false_iff]
    exact fun h => (h.2.2 a b).1 .refl
  | sub a b _ _ =>
    simp only [einsumExpr, if_true, Bool.false_eq_true, false_iff]
    exact fun h => (h.2.2 a b).2 .refl
  | div a b _ _ =>
    simp only [einsumExpr, Bool.false_eq_true, false_iff]
    exact fun h => h.1 a b .refl
  | reduction v a _ =>
    simp only [einsumExpr, Bool.false_eq_true, false_iff]
    exact fun h => h.2.1 v a .refl
  | mul a b iha ihb =>
    simp only [einsumExpr, Bool.and_eq_true, iha, ihb, ProductExpr, inside_mul]
    constructor
    · rintro ⟨h, h'⟩
      refine ⟨?_, ?_, ?_⟩
      · rintro x y (h1 | h1 | h1)
        · exact nomatch h1
        · exact h.1 x y h1
        · exact h'.1 x y h1
      · rintro x y (h1 | h1 | h1)
        · exact nomatch h1
        · exact h.2.1 x y h1
        · exact h'.2.1 x y h1
      · intro x y
        refine ⟨?_, ?_⟩
        · rintro (h1 | h1 | h1)
          · exact nomatch h1
          · exact (h.2.2 x y).1 h1
          · exact (h'.2.2 x y).1 h1
        · rintro (h1 | h1 | h1)
          · exact nomatch h1
          · exact (h.2.2 x y).2 h1
          · exact (h'.2.2 x y).2 h1
    · rintro ⟨h1, h2, h3⟩
      exact ⟨⟨fun x y h => h1 x y (.inr (.inl h)), fun x y h => h2 x y (.inr (.inl h)),
          fun x y => ⟨fun h => (h3 x y).1 (.inr (.inl h)), fun h => (h3 x y).2 (.inr (.inl h))⟩⟩,
        fun x y h => h1 x y (.inr (.inr h)), fun x y h => h2 x y (.inr (.inr h)),
          fun x y => ⟨fun h => (h3 x y).1 (.inr (.inr h)), fun h => (h3 x y).2 (.inr (.inr h))⟩⟩
  | arg a b iha ihb =>
    simp only [einsumExpr, Bool.and_eq_true, iha, ihb, ProductExpr, inside_arg]
    constructor
    · rintro ⟨h, h'⟩
      refine ⟨?_, ?_, ?_⟩
      · rintro x y (h1 | h1 | h1)
        · exact nomatch h1
        · exact h.1 x y h1
        · exact h'.1 x y h1
      · rintro x y (h1 | h1 | h1)
        · exact nomatch h1
        · exact h.2.1 x y h1
        · exact h'.2.1 x y h1
      · intro x y
        refine ⟨?_, ?_⟩
        · rintro (h1 | h1 | h1)
          · exact nomatch h1
          · exact (h.2.2 x y).1 h1
          · exact (h'.2.2 x y).1 h1
        · rintro (h1 | h1 | h1)
          · exact nomatch h1
          · exact (h.2.2 x y).2 h1
          · exact (h'.2.2 x y).2 h1
    · rintro ⟨h1, h2, h3⟩
      exact ⟨⟨fun x y h => h1 x y (.inr (.inl h)), fun x y h => h2 x y (.inr (.inl h)),
          fun x y => ⟨fun h => (h3 x y).1 (.inr (.inl h)), fun h => (h3 x y).2 (.inr (.inl h))⟩⟩,
        fun x y h => h1 x y (.inr (.inr h)), fun x y h => h2 x y (.inr (.inr h)),
          fun x y => ⟨fun h => (h3 x y).1 (.inr (.inr h)), fun h => (h3 x y).2 (.inr (.inr h))⟩⟩

/-- `EinsumExpr` of a node that is not a product, division or reduction itself. -/
theorem einsumExpr_parts {e : Expr} (hm : ∀ a b, e ≠ .mul a b) (hd : ∀ a b, e ≠ .div a b)
    (hr : ∀ v a, e ≠ .reduction v a) : EinsumExpr e ↔ ∀ d, Part d e → EinsumExpr d := by
  constructor
  · intro h d hd'
    have up : ∀ {x}, Inside x d → Inside x e := fun hx => .part hx hd'
    exact ⟨fun a b hx => h.1 a b (up hx), fun v a hx => h.2.1 v a (up hx), fun m n hx => h.2.2 m n (up hx)⟩
  · intro h
    refine ⟨fun a b hx => ?_, fun v a hx => ?_, fun m n hx => ?_⟩
    · rcases inside_iff.1 hx with hx | ⟨d, h1, h2⟩
      · exact hd a b hx.symm
      · exact (h d h1).1 a b h2
    · rcases inside_iff.1 hx with hx | ⟨d, h1, h2⟩
      · exact hr v a hx.symm
      · exact (h d h1).2.1 v a h2
    · rcases inside_iff.1 hx with hx | ⟨d, h1, h2⟩
      · exact absurd hx.symm (hm m n)
      · exact (h d h1).2.2 m n h2

theorem einsum_false (e : Expr) : einsumExpr false e = true ↔ EinsumExpr e := by
  induction e with
  | lit =>
    rw [einsumExpr_parts (by simp) (by simp) (by simp)]
    exact ⟨(fun _ d h => nomatch h), fun _ => rfl⟩
  | access vars =>
    rw [einsumExpr_parts (by simp) (by simp) (by simp)]
    exact ⟨(fun _ d h => nomatch h), fun _ => rfl⟩
  | ivar v =>
    rw [einsumExpr_parts (by simp) (by simp) (by simp)]
    exact ⟨(fun _ d h => nomatch h), fun _ => rfl⟩
  | args =>
    rw [einsumExpr_parts (by simp) (by simp) (by simp)]
    exact ⟨(fun _ d h => nomatch h), fun _ => rfl⟩
  | unary a ih =>
    rw [einsumExpr_parts (by simp) (by simp) (by simp)]
    show einsumExpr false a = true ↔ _
    rw [ih]
    exact ⟨fun h d hd => by cases hd; exact h, fun h => h a .unary⟩
  | call a ih =>
    rw [einsumExpr_parts (by simp) (by simp) (by simp)]
    show einsumExpr false a = true ↔ _
    rw [ih]
    exact ⟨fun h d hd => by cases hd; exact h, fun h => h a .call⟩
  | add a b iha ihb =>
    rw [einsumExpr_parts (by simp) (by simp) (by simp)]
    simp only [einsumExpr, Bool.false_eq_true, if_false, Bool.and_eq_true, iha, ihb]
    refine ⟨fun h d hd => ?_, fun h => ⟨h a .addL, h b .addR⟩⟩
    cases hd
    · exact h.1
    · exact h.2
  | sub a b iha ihb =>
    rw [einsumExpr_parts (by simp) (by simp) (by simp)]
    simp only [einsumExpr, Bool.false_eq_true, if_false, Bool.and_eq_true, iha, ihb]
    refine ⟨fun h d hd => ?_, fun h => ⟨h a .subL, h b .subR⟩⟩
    cases hd
    · exact h.1
    · exact h.2
  | arg a b iha ihb =>
    rw [einsumExpr_parts (by simp) (by simp) (by simp)]
    simp only [einsumExpr, Bool.and_eq_true, iha, ihb]
    refine ⟨fun h d hd => ?_, fun h => ⟨h a .arg, h b .argRest⟩⟩
    cases hd
    · exact h.1
    · exact h.2
  | div a b _ _ =>
    simp only [einsumExpr, Bool.false_eq_true, false_iff]
    exact fun h => h.1 a b .refl
  | reduction v a _ =>
    simp only [einsumExpr, Bool.false_eq_true, false_iff]
    exact fun h => h.2.1 v a .refl
  | mul a b _ _ =>
    have h0 : einsumExpr false (.mul a b) = einsumExpr true (.mul a b) := rfl
    rw [h0, einsum_true]
    constructor
    · rintro ⟨h1, h2, h3⟩
      refine ⟨h1, h2, fun m n hmn x y => ?_⟩
      exact ⟨fun h => (h3 x y).1 (h.trans hmn), fun h => (h3 x y).2 (h.trans hmn)⟩
    · rintro ⟨h1, h2, h3⟩
      exact ⟨h1, h2, h3 a b .refl⟩

/-! ### Reduction notation -/

theorem accessAt_access {vars bound v} : AccessAt (.access vars) bound v ↔ bound = [] ∧ v ∈ vars := by
  constructor
  · intro h
    cases h with
    | here h => exact ⟨rfl, h⟩
    | part h => exact nomatch h
  · rintro ⟨rfl, h⟩
    exact .here h

theorem accessAt_reduction {w a bound v} : AccessAt (.reduction w a) bound v ↔
    ∃ b, bound = w :: b ∧ AccessAt a b v := by
  constructor
  · intro h
    cases h with
    | reduction h => exact ⟨_, rfl, h⟩
    | part h hne => exact absurd rfl (hne w a)
  · rintro ⟨b, rfl, h⟩
    exact .reduction h

theorem accessAt_other {e bound v} (hr : ∀ w a, e ≠ .reduction w a) (ha : ∀ vars, e ≠ .access vars) :
    AccessAt e bound v ↔ ∃ d, Part d e ∧ AccessAt d bound v := by
  constructor
  · intro h
    cases h with
    | here _ => exact absurd rfl (ha _)
    | reduction _ => exact absurd rfl (hr _ _)
    | part h1 _ h2 => exact ⟨_, h1, h2⟩
  · rintro ⟨d, h1, h2⟩
    exact .part h1 hr h2

/-- A predicate on all accesses of a node with these parts. -/
theorem reductionExpr_iff (e : Expr) : ∀ (bound : List Var), reductionExpr bound e = true ↔
    ∀ b v, AccessAt e b v → v ∈ bound ∨ v ∈ b := by
  have two : ∀ {a b c : Expr} (bound : List Var), (∀ w x, c ≠ .reduction w x) → (∀ vs, c ≠ .access vs) →
      Part a c → Part b c → (∀ d, Part d c → d = a ∨ d = b) →
      (((∀ bs v, AccessAt a bs v → v ∈ bound ∨ v ∈ bs) ∧ ∀ bs v, AccessAt b bs v → v ∈ bound ∨ v ∈ bs) ↔
        ∀ bs v, AccessAt c bs v → v ∈ bound ∨ v ∈ bs) := by
    intro a b c bound hr ha h1 h2 h3
    constructor
    · rintro ⟨h, h'⟩ bs v hv
      obtain ⟨d, hd, hv⟩ := (accessAt_other hr ha).1 hv
      rcases h3 d hd with rfl | rfl
      · exact h bs v hv
      · exact h' bs v hv
    · intro h
      exact ⟨fun bs v hv => h bs v ((accessAt_other hr ha).2 ⟨a, h1, hv⟩),
        fun bs v hv => h bs v ((accessAt_other hr ha).2 ⟨b, h2, hv⟩)⟩
  induction e with
  | lit =>
    intro bound
    refine ⟨fun _ b v h => ?_, fun _ => rfl⟩
    obtain ⟨d, hd, _⟩ := (accessAt_other (by simp) (by simp)).1 h
    exact nomatch hd
  | args =>
    intro bound
    refine ⟨fun _ b v h => ?_, fun _ => rfl⟩
    obtain ⟨d, hd, _⟩ := (accessAt_other (by simp) (by simp)).1 h
    exact nomatch hd
  | ivar w =>
    intro bound
    refine ⟨fun _ b v h => ?_, fun _ => rfl⟩
    obtain ⟨d, hd, _⟩ := (accessAt_other (by simp) (by simp)).1 h
    exact nomatch hd
  | access vars =>
    intro bound
    simp only [reductionExpr, List.all_eq_true, List.contains_iff_mem, accessAt_access]
    constructor
    · rintro h b v ⟨_, hv⟩
      exact .inl (h v hv)
    · intro h v hv
      rcases h [] v ⟨rfl, hv⟩ with h | h
      · exact h
      · exact nomatch h
  | unary a ih =>
    intro bound
    show reductionExpr bound a = true ↔ _
    rw [ih, ← two bound (c := .unary a) (a := a) (b := a) (by simp) (by simp) .unary .unary
      (fun d hd => by cases hd; exact .inl rfl)]
    exact ⟨fun h => ⟨h, h⟩, fun h => h.1⟩
  | call a ih =>
    intro bound
    show reductionExpr bound a = true ↔ _
    rw [ih, ← two bound (c := .call a) (a := a) (b := a) (by simp) (by simp) .call .call
      (fun d hd => by cases hd; exact .inl rfl)]
    exact ⟨fun h => ⟨h, h⟩, fun h => h.1⟩
  | add a b iha ihb =>
    intro bound
    simp only [reductionExpr, Bool.and_eq_true, iha, ihb]
    exact two bound (by simp) (by simp) .addL .addR (fun d hd => by cases hd <;> simp)
  | sub a b iha ihb =>
    intro bound
    simp only [reductionExpr, Bool.and_eq_true, iha, ihb]
    exact two bound (by simp) (by simp) .subL .subR (fun d hd => by cases hd <;> simp)
  | mul a b iha ihb =>
    intro bound
    simp only [reductionExpr, Bool.and_eq_true, iha, ihb]
    exact two bound (by simp) (by simp) .mulL .mulR (fun d hd => by cases hd <;> simp)
  | div a b iha ihb =>
    intro bound
    simp only [reductionExpr, Bool.and_eq_true, iha, ihb]
    exact two bound (by simp) (by simp) .divL .divR (fun d hd => by cases hd <;> simp)
  | arg a b iha ihb =>
    intro bound
    simp only [reductionExpr, Bool.and_eq_true, iha, ihb]
    exact two bound (by simp) (by simp) .arg .argRest (fun d hd => by cases hd <;> simp)
  | reduction w a ih =>
    intro bound
    simp only [reductionExpr, ih, accessAt_reduction]
    constructor
    · rintro h b v ⟨b', rfl, hv⟩
      rcases h b' v hv with h | h
      · rcases List.mem_cons.1 h with rfl | h
        · exact .inr List.mem_cons_self
        · exact .inl h
      · exact .inr (List.mem_cons_of_mem _ h)
    · intro h b v hv
      rcases h (w :: b) v ⟨b, rfl, hv⟩ with h | h
      · exact .inl (List.mem_cons_of_mem _ h)
      · rcases List.mem_cons.1 h with rfl | h
        · exact .inl List.mem_cons_self
        · exact .inr h

theorem scheduledVar_eq (rels : List Rel) (bound : List Var) (flag : Bool) (v : Var) :
    scheduledVar rels bound flag v = (flag && bound.contains v) := by
  unfold scheduledVar
  cases bound.contains v <;> simp

theorem scheduled_foldl (rels : List Rel) (bound : List Var) : ∀ (vars : List Var) (flag : Bool),
    vars.foldl (scheduledVar rels bound) flag = (flag && vars.all bound.contains)
  | [], flag => by simp
  | v :: vars, flag => by
    rw [List.foldl_cons, scheduled_foldl rels bound vars, scheduledVar_eq, List.all_cons, Bool.and_assoc]

theorem scheduledExpr_eq (rels : List Rel) (e : Expr) : ∀ (bound : List Var) (flag : Bool),
    scheduledExpr rels bound flag e = (flag && reductionExpr bound e) := by
  induction e with
  | lit => intro bound flag; simp [scheduledExpr, reductionExpr]
  | args => intro bound flag; simp [scheduledExpr, reductionExpr]
  | ivar v => intro bound flag; simp [scheduledExpr, reductionExpr]
  | access vars => intro bound flag; exact scheduled_foldl rels bound vars flag
  | unary a ih => intro bound flag; exact ih bound flag
  | call a ih => intro bound flag; exact ih bound flag
  | reduction v a ih => intro bound flag; exact ih (v :: bound) flag
  | add a b iha ihb => intro bound flag; simp only [scheduledExpr, reductionExpr, iha, ihb, Bool.and_assoc]
  | sub a b iha ihb => intro bound flag; simp only [scheduledExpr, reductionExpr, iha, ihb, Bool.and_assoc]
  | mul a b iha ihb => intro bound flag; simp only [scheduledExpr, reductionExpr, iha, ihb, Bool.and_assoc]
  | div a b iha ihb => intro bound flag; simp only [scheduledExpr, reductionExpr, iha, ihb, Bool.and_assoc]
  | arg a b iha ihb => intro bound flag; simp only [scheduledExpr, reductionExpr, iha, ihb, Bool.and_assoc]

/-! ### Concrete notation: expressions -/

theorem mem_accessVars (e : Expr) (v : Var) :
    v ∈ accessVars e ↔ ∃ vars, Inside (.access vars) e ∧ v ∈ vars := by
  have two : ∀ {a b c : Expr}, (v ∈ accessVars a ↔ ∃ vars, Inside (.access vars) a ∧ v ∈ vars) →
      (v ∈ accessVars b ↔ ∃ vars, Inside (.access vars) b ∧ v ∈ vars) →
      (∀ vars, Inside (.access vars) c ↔ Inside (.access vars) a ∨ Inside (.access vars) b) →
      (v ∈ accessVars a ++ accessVars b ↔ ∃ vars, Inside (.access vars) c ∧ v ∈ vars) := by
    intro a b c ha hb hc
    rw [List.mem_append, ha, hb]
    constructor
    · rintro (⟨vs, h1, h2⟩ | ⟨vs, h1, h2⟩)
      · exact ⟨vs, (hc vs).2 (.inl h1), h2⟩
      · exact ⟨vs, (hc vs).2 (.inr h1), h2⟩
    · rintro ⟨vs, h1, h2⟩
      rcases (hc vs).1 h1 with h1 | h1
      · exact .inl ⟨vs, h1, h2⟩
      · exact .inr ⟨vs, h1, h2⟩
  induction e with
  | lit => simp [accessVars, inside_lit]
  | args => simp [accessVars, inside_args]
  | ivar w => simp [accessVars, inside_ivar]
  | access vars => simp [accessVars, inside_access]
  | unary a ih => simp [accessVars, inside_unary, ih]
  | call a ih => simp [accessVars, inside_call, ih]
  | reduction w a ih => simp [accessVars, inside_reduction, ih]
  | add a b iha ihb => exact two iha ihb (by simp [inside_add])
  | sub a b iha ihb => exact two iha ihb (by simp [inside_sub])
  | mul a b iha ihb => exact two iha ihb (by simp [inside_mul])
  | div a b iha ihb => exact two iha ihb (by simp [inside_div])
  | arg a b iha ihb => exact two iha ihb (by simp [inside_arg])

/-- What the check asks of an expression. -/
def ExprOK (K : Var → Prop) (e : Expr) : Prop :=
  (∀ v, UsedInExpr e v → K v) ∧ ∀ v a, ¬Inside (.reduction v a) e

theorem exprOK_parts {K : Var → Prop} {e : Expr} (ha : ∀ vars, e ≠ .access vars) (hv : ∀ v, e ≠ .ivar v)
    (hr : ∀ v a, e ≠ .reduction v a) : ExprOK K e ↔ ∀ d, Part d e → ExprOK K d := by
  constructor
  · intro h d hd
    have up : ∀ {x}, Inside x d → Inside x e := fun hx => .part hx hd
    refine ⟨fun v hu => h.1 v ?_, fun v a hx => h.2 v a (up hx)⟩
    rcases hu with ⟨vs, h1, h2⟩ | h1
    · exact .inl ⟨vs, up h1, h2⟩
    · exact .inr (up h1)
  · intro h
    refine ⟨fun v hu => ?_, fun v a hx => ?_⟩
    · rcases hu with ⟨vs, h1, h2⟩ | h1
      · rcases inside_iff.1 h1 with h1 | ⟨d, hd, h1⟩
        · exact absurd h1.symm (ha vs)
        · exact (h d hd).1 v (.inl ⟨vs, h1, h2⟩)
      · rcases inside_iff.1 h1 with h1 | ⟨d, hd, h1⟩
        · exact absurd h1.symm (hv v)
        · exact (h d hd).1 v (.inr h1)
    · rcases inside_iff.1 hx with hx | ⟨d, hd, hx⟩
      · exact hr v a hx.symm
      · exact (h d hd).2 v a hx

theorem concreteExpr_iff (rels : List Rel) (bound defined : List Var) (e : Expr) :
    concreteExpr rels bound defined e = true ↔ ExprOK (fun v => usable rels bound defined v = true) e := by
  induction e with
  | lit =>
    rw [exprOK_parts (by simp) (by simp) (by simp)]
    exact ⟨(fun _ d h => nomatch h), fun _ => rfl⟩
  | args =>
    rw [exprOK_parts (by simp) (by simp) (by simp)]
    exact ⟨(fun _ d h => nomatch h), fun _ => rfl⟩
  | access vars =>
    simp [concreteExpr, ExprOK, UsedInExpr, inside_access]
  | ivar w =>
    simp [concreteExpr, ExprOK, UsedInExpr, inside_ivar]
  | unary a ih =>
    rw [exprOK_parts (by simp) (by simp) (by simp)]
    show concreteExpr rels bound defined a = true ↔ _
    rw [ih]
    exact ⟨fun h d hd => by cases hd; exact h, fun h => h a .unary⟩
  | call a ih =>
    rw [exprOK_parts (by simp) (by simp) (by simp)]
    show concreteExpr rels bound defined a = true ↔ _
    rw [ih]
    exact ⟨fun h d hd => by cases hd; exact h, fun h => h a .call⟩
  | reduction v a _ =>
    simp only [concreteExpr, Bool.false_eq_true, false_iff]
    exact fun h => h.2 v a .refl
  | add a b iha ihb =>
    rw [exprOK_parts (by simp) (by simp) (by simp)]
    simp only [concreteExpr, Bool.and_eq_true, iha, ihb]
    refine ⟨fun h d hd => ?_, fun h => ⟨h a .addL, h b .addR⟩⟩
    cases hd
    · exact h.1
    · exact h.2
  | sub a b iha ihb =>
    rw [exprOK_parts (by simp) (by simp) (by simp)]
    simp only [concreteExpr, Bool.and_eq_true, iha, ihb]
    refine ⟨fun h d hd => ?_, fun h => ⟨h a .subL, h b .subR⟩⟩
    cases hd
    · exact h.1
    · exact h.2
  | mul a b iha ihb =>
    rw [exprOK_parts (by simp) (by simp) (by simp)]
    simp only [concreteExpr, Bool.and_eq_true, iha, ihb]
    refine ⟨fun h d hd => ?_, fun h => ⟨h a .mulL, h b .mulR⟩⟩
    cases hd
    · exact h.1
    · exact h.2
  | div a b iha ihb =>
    rw [exprOK_parts (by simp) (by simp) (by simp)]
    simp only [concreteExpr, Bool.and_eq_true, iha, ihb]
    refine ⟨fun h d hd => ?_, fun h => ⟨h a .divL, h b .divR⟩⟩
    cases hd
    · exact h.1
    · exact h.2
  | arg a b iha ihb =>
    rw [exprOK_parts (by simp) (by simp) (by simp)]
    simp only [concreteExpr, Bool.and_eq_true, iha, ihb]
    refine ⟨fun h d hd => ?_, fun h => ⟨h a .arg, h b .argRest⟩⟩
    cases hd
    · exact h.1
    · exact h.2

/-! ### Concrete notation: variables -/

section
variable {rels : List Rel}

theorem getParents_original {v : Var} (h : Original rels v) : getParents rels v = [] := by
  unfold getParents
  cases ho : parentRel rels v with
  | none => rfl
  | some r =>
    have h1 := List.mem_of_find?_eq_some ho
    have h2 := List.find?_some ho
    exact absurd (by simpa using h2) (h r (List.mem_reverse.1 h1))

theorem ancestors_original {v : Var} (h : Original rels v) (n : Nat) :
    underivedAncestors rels (n + 1) v = [v] := by
  unfold underivedAncestors
  rw [getParents_original h]
  rfl

theorem known_congr {B B' : List Var} (h : ∀ x, x ∈ B ↔ x ∈ B') (v : Var) :
    Known rels B v ↔ Known rels B' v :=
  ⟨fun k => k.mono fun d hd => .loop ((h d).1 hd), fun k => k.mono fun d hd => .loop ((h d).2 hd)⟩

theorem usable_iff (g : Good rels) (hp : Plain rels) {bound defined B : List Var}
    (hB : ∀ x, x ∈ B ↔ x ∈ bound) (hd : rels = [] ∨ ∀ x, x ∈ defined ↔ x ∈ bound) {v : Var}
    (hv : Original rels v) : usable rels bound defined v = true ↔ Known rels B v := by
  rw [known_congr hB, known_iff g]
  unfold usable
  have hu : isUnderived rels v = true := by
    unfold isUnderived
    rw [getParents_original hv]
    rfl
  rw [hu]
  have hf := fullyDerived_iff g (v := v)
  have hr := isRecoverable_iff g hp v defined
  have hready : ¬Leaf rels v → (Ready rels defined v ↔ Ready rels bound v) := by
    intro hl
    rcases hd with rfl | hd
    · exact absurd (fun r hr => nomatch hr) hl
    · exact ⟨fun h r h1 h2 c h3 => (known_congr hd c).1 (h r h1 h2 c h3),
        fun h r h1 h2 c h3 => (known_congr hd c).2 (h r h1 h2 c h3)⟩
  by_cases hb : v ∈ bound
  · have : bound.contains v = true := List.contains_iff_mem.2 hb
    rw [this]
    simp [hb]
  · have : bound.contains v = false := by
      cases hc : bound.contains v with
      | false => rfl
      | true => exact absurd (List.contains_iff_mem.1 hc) hb
    rw [this]
    by_cases hl : Leaf rels v
    · rw [hf.2 hl]
      simp [hb, hl]
    · have hf' : isFullyDerived rels v = false := by
        cases hc : isFullyDerived rels v with
        | false => rfl
        | true => exact absurd (hf.1 hc) hl
      rw [hf']
      simp only [Bool.not_false, Bool.true_and, Bool.false_or, Bool.not_not, hb, false_or, hl, not_false_eq_true,
        true_and]
      rw [hr, hready hl]

theorem sums_iff {lhs : List Var} {rhs : Expr} (hv : ∀ v, UsedInExpr rhs v → Original rels v) :
    sums rels lhs rhs = true ↔ ∃ vars, Inside (.access vars) rhs ∧ ∃ v ∈ vars, v ∉ lhs := by
  unfold sums reductionVars
  rw [List.any_eq_true]
  constructor
  · rintro ⟨v, h, _⟩
    rw [List.mem_filter, mem_accessVars] at h
    obtain ⟨⟨vs, h1, h2⟩, h3⟩ := h
    refine ⟨vs, h1, v, h2, ?_⟩
    simpa using h3
  · rintro ⟨vs, h1, v, h2, h3⟩
    refine ⟨v, List.mem_filter.2 ⟨(mem_accessVars rhs v).2 ⟨vs, h1, h2⟩, by simpa using h3⟩, ?_⟩
    rw [ancestors_original (hv v (.inl ⟨vs, h1, h2⟩))]
    simpa using h3

/-! ### Concrete notation: statements -/

/-- What concrete notation asks of one statement node. -/
def NodeOK (rels : List Rel) (t : Stmt) (producer inWhere : Bool) (loops : List Var) : Prop :=
  (∀ v, Uses t v → Known rels loops v) ∧ (∀ e, HasExpr t e → ∀ v a, ¬Inside (.reduction v a) e) ∧
    (∀ s rels', t ≠ .suchThat s rels') ∧
    (∀ lhs compound rhs valid, t = .assign lhs compound rhs valid → (inWhere = false → valid = true) ∧
      (producer = false → (∃ vars, Inside (.access vars) rhs ∧ ∃ v ∈ vars, v ∉ lhs) → compound = true))

/-- All nodes of a statement, inside of what is around it. -/
def AllOK (rels : List Rel) (producer inWhere : Bool) (B : List Var) (s : Stmt) : Prop :=
  ∀ t p w L, At t p w L s → NodeOK rels t (producer || p) (inWhere || w) (B ++ L)

theorem concrete_iff_all (s : Stmt) : Concrete rels s ↔ AllOK rels false false [] s := by
  constructor
  · rintro ⟨h1, h2, h3, h4⟩ t p w L h
    refine ⟨h1 t p w L h, h2 t p w L h, ?_, ?_⟩
    · rintro s' rels' rfl
      exact h3 _ _ _ _ _ h
    · rintro lhs c rhs v rfl
      exact h4 _ _ _ _ _ _ _ h
  · intro h
    refine ⟨fun t p w L ht => (h t p w L ht).1, fun t p w L ht => (h t p w L ht).2.1, ?_, ?_⟩
    · intro t rels' p w L ht
      exact (h _ p w L ht).2.2.1 _ _ rfl
    · intro lhs c rhs v p w L ht
      exact (h _ p w L ht).2.2.2 _ _ _ _ rfl

theorem at_iff {t p w L u} : At t p w L u ↔ (t = u ∧ p = false ∧ w = false ∧ L = []) ∨
    ∃ s p1 w1 L1 p2 w2 L2, Below s p2 w2 L2 u ∧ At t p1 w1 L1 s ∧ p = (p2 || p1) ∧ w = (w2 || w1) ∧ L = L2 ++ L1 := by
  constructor
  · intro h
    cases h with
    | here => exact .inl ⟨rfl, rfl, rfl, rfl⟩
    | step h1 h2 => exact .inr ⟨_, _, _, _, _, _, _, h2, h1, rfl, rfl, rfl⟩
  · rintro (⟨rfl, rfl, rfl, rfl⟩ | ⟨s, p1, w1, L1, p2, w2, L2, h1, h2, rfl, rfl, rfl⟩)
    · exact .here
    · exact .step h2 h1

theorem allOK_iff {p w : Bool} {B : List Var} {u : Stmt} : AllOK rels p w B u ↔
    NodeOK rels u p w B ∧ ∀ s p2 w2 L2, Below s p2 w2 L2 u → AllOK rels (p || p2) (w || w2) (B ++ L2) s := by
  constructor
  · intro h
    refine ⟨?_, fun s p2 w2 L2 hb t p1 w1 L1 ht => ?_⟩
    · have := h u false false [] .here
      simpa using this
    · have := h t _ _ _ (.step ht hb)
      rw [Bool.or_assoc, Bool.or_assoc, List.append_assoc]
      exact this
  · rintro ⟨h1, h2⟩ t p' w' L' ht
    rcases at_iff.1 ht with ⟨rfl, rfl, rfl, rfl⟩ | ⟨s, p1, w1, L1, p2, w2, L2, hb, ha, rfl, rfl, rfl⟩
    · simpa using h1
    · have := h2 s p2 w2 L2 hb t p1 w1 L1 ha
      rw [Bool.or_assoc, Bool.or_assoc, List.append_assoc] at this
      exact this

/-- The conditions pass down to parts. -/
theorem NoYield.below {s u p w L} (h : NoYield u) (hb : Below s p w L u) : NoYield s :=
  fun vars e _ _ _ ht => h vars e _ _ _ (.step ht hb)

theorem NoLoops.below {s u p w L} (h : NoLoops u) (hb : Below s p w L u) : NoLoops s :=
  fun t v _ _ _ ht => h t v _ _ _ (.step ht hb)

/-- All used variables are original. -/
def AllOriginal (rels : List Rel) (s : Stmt) : Prop := ∀ t p w L, At t p w L s → ∀ v, Uses t v → Original rels v

theorem AllOriginal.below {s u p w L} (h : AllOriginal rels u) (hb : Below s p w L u) : AllOriginal rels s :=
  fun t _ _ _ ht => h t _ _ _ (.step ht hb)

theorem node_trivial {t : Stmt} {p w : Bool} {B : List Var} (h1 : ∀ v, ¬Uses t v) (h2 : ∀ e, ¬HasExpr t e)
    (h3 : ∀ s r, t ≠ .suchThat s r) (h4 : ∀ l c r v, t ≠ .assign l c r v) : NodeOK rels t p w B :=
  ⟨fun v h => absurd h (h1 v), fun e h => absurd h (h2 e), h3, fun l c r v h => absurd h (h4 l c r v)⟩

theorem defined_noLoops : ∀ (s : Stmt) (p c : Bool) (bd df : List Var), NoLoops s →
    (concreteStmt rels p c bd df s).2 = df := by
  intro s
  induction s with
  | assign => intros; rfl
  | yield => intros; rfl
  | forall_ v s _ => intro p c bd df h; exact absurd .here (h s v false false [])
  | where_ c p ihc ihp =>
    intro pr co bd df h
    show (concreteStmt rels pr true bd (concreteStmt rels true co bd df p).2 c).2 = df
    rw [ihp _ _ _ _ (h.below .producer), ihc _ _ _ _ (h.below .consumer)]
  | sequence d m ihd ihm =>
    intro pr co bd df h
    show (concreteStmt rels pr co bd (concreteStmt rels pr co bd df d).2 m).2 = df
    rw [ihd _ _ _ _ (h.below .definition), ihm _ _ _ _ (h.below .mutation)]
  | multi s t ihs iht =>
    intro pr co bd df h
    show (concreteStmt rels pr co bd (concreteStmt rels pr co bd df s).2 t).2 = df
    rw [ihs _ _ _ _ (h.below .left), iht _ _ _ _ (h.below .right)]
  | assemble q c ihq ihc =>
    intro pr co bd df h
    show (concreteStmt rels pr co bd (concreteStmt rels pr co bd df q).2 c).2 = df
    rw [ihq _ _ _ _ (h.below .queries), ihc _ _ _ _ (h.below .compute)]
  | assembleOnly c ih =>
    intro pr co bd df h
    exact ih _ _ _ _ (h.below .computeOnly)
  | suchThat s r ih =>
    intro pr co bd df h
    exact ih _ _ _ _ (h.below .suchThat)

theorem concreteStmt_iff (g : Good rels) (hp : Plain rels) : ∀ (s : Stmt) (p c : Bool) (bd df B : List Var),
    (∀ x, x ∈ B ↔ x ∈ bd) → (rels = [] ∨ ((∀ x, x ∈ df ↔ x ∈ bd) ∧ NoLoops s)) → AllOriginal rels s → NoYield s →
    ((concreteStmt rels p c bd df s).1 = true ↔ AllOK rels p (c || p) B s) := by
  intro s
  induction s with
  | assign lhs compound rhs valid =>
    intro p c bd df B hB hd ho _
    have hd' : rels = [] ∨ ∀ x, x ∈ df ↔ x ∈ bd := hd.imp_right (·.1)
    have horig : ∀ v, Uses (.assign lhs compound rhs valid) v → Original rels v := ho _ _ _ _ .here
    have hu : ∀ v, Uses (.assign lhs compound rhs valid) v → (usable rels bd df v = true ↔ Known rels B v) :=
      fun v hv => usable_iff g hp hB hd' (horig v hv)
    have hs := sums_iff (rels := rels) (lhs := lhs) (rhs := rhs) (fun v hv => horig v (.rhs hv))
    have hnode : AllOK rels p (c || p) B (.assign lhs compound rhs valid) ↔
        NodeOK rels (.assign lhs compound rhs valid) p (c || p) B := by
      rw [allOK_iff]
      exact ⟨fun h => h.1, fun h => ⟨h, fun _ _ _ _ hb => nomatch hb⟩⟩
    rw [hnode]
    show concreteAssign rels p c bd df lhs compound rhs valid = true ↔ _
    unfold concreteAssign
    constructor
    · intro h
      split at h
      · exact nomatch h
      · rename_i h1
        split at h
        · exact nomatch h
        · rename_i h2
          rw [Bool.and_eq_true, List.all_eq_true, concreteExpr_iff] at h
          refine ⟨fun v hv => ?_, ?_, by simp, ?_⟩
          · rw [← hu v hv]
            cases hv with
            | lhs hv => exact h.1 v hv
            | rhs hv => exact h.2.1 v hv
          · intro e he
            cases he
            exact h.2.2
          · rintro l co r va heq
            cases heq
            refine ⟨fun hw => ?_, fun hpr hsum => ?_⟩
            · rw [Bool.or_eq_false_iff] at hw
              rw [hw.1, hw.2] at h1
              cases valid
              · exact absurd rfl h1
              · rfl
            · rw [hpr, hs.2 hsum] at h2
              cases compound
              · exact absurd rfl h2
              · rfl
    · rintro ⟨h1, h2, _, h4⟩
      obtain ⟨h5, h6⟩ := h4 _ _ _ _ rfl
      rw [if_neg, if_neg]
      · rw [Bool.and_eq_true, List.all_eq_true, concreteExpr_iff]
        exact ⟨fun v hv => (hu v (.lhs hv)).2 (h1 v (.lhs hv)),
          fun v hv => (hu v (.rhs hv)).2 (h1 v (.rhs hv)), h2 _ .assign⟩
      · intro hc
        simp only [Bool.and_eq_true, Bool.not_eq_true'] at hc
        obtain ⟨⟨hc1, hc2⟩, hc3⟩ := hc
        rw [h6 hc3 (hs.1 hc1)] at hc2
        exact nomatch hc2
      · intro hc
        simp only [Bool.and_eq_true, Bool.not_eq_true'] at hc
        obtain ⟨⟨hc1, hc2⟩, hc3⟩ := hc
        rw [h5 (by rw [hc1, hc2]; rfl)] at hc3
        exact nomatch hc3
  | yield vars e =>
    intro p c bd df B _ _ _ hy
    exact absurd .here (hy vars e false false [])
  | forall_ v s ih =>
    intro p c bd df B hB hd ho hy
    have hnil : rels = [] := hd.elim id fun h => absurd .here (h.2 s v false false [])
    have hstep := ih p c (v :: bd) (v :: df) (B ++ [v]) (by
      intro x
      simp only [List.mem_append, List.mem_cons, List.not_mem_nil, or_false, hB x]
      exact or_comm) (.inl hnil) (ho.below .forall_) (hy.below .forall_)
    show (concreteStmt rels p c (v :: bd) (v :: df) s).1 = true ↔ _
    rw [hstep, allOK_iff (u := .forall_ v s)]
    constructor
    · intro h
      refine ⟨node_trivial (by intro v h; exact nomatch h) (by intro v h; exact nomatch h)
        (by simp) (by simp), ?_⟩
      intro s' p2 w2 L2 hb
      cases hb
      rw [Bool.or_false, Bool.or_false]
      exact h
    · intro h
      have := h.2 s _ _ _ .forall_
      rwa [Bool.or_false, Bool.or_false] at this
  | where_ c p ihc ihp =>
    intro pr co bd df B hB hd ho hy
    have hcond : ∀ {x}, (∃ a b L, Below x a b L (.where_ c p)) → rels = [] ∨ ((∀ x, x ∈ df ↔ x ∈ bd) ∧ NoLoops x) := by
      rintro x ⟨a, b, L, hb⟩
      exact hd.imp_right fun h => ⟨h.1, h.2.below hb⟩
    have h1 := ihp true co bd df B hB (hcond ⟨_, _, _, .producer⟩) (ho.below .producer) (hy.below .producer)
    have h2 := ihc pr true bd (concreteStmt rels true co bd df p).2 B hB (by
      rcases hd with hd | hd
      · exact .inl hd
      · rw [defined_noLoops _ _ _ _ _ (hd.2.below .producer)]
        exact .inr ⟨hd.1, hd.2.below .consumer⟩) (ho.below .consumer) (hy.below .consumer)
    show ((concreteStmt rels true co bd df p).1 &&
      (concreteStmt rels pr true bd (concreteStmt rels true co bd df p).2 c).1) = true ↔ _
    rw [Bool.and_eq_true, h1, h2, allOK_iff (u := .where_ c p)]
    rw [Bool.or_true, Bool.true_or]
    constructor
    · intro h
      refine ⟨node_trivial (by intro v h; exact nomatch h) (by intro v h; exact nomatch h)
        (by simp) (by simp), ?_⟩
      intro s' p2 w2 L2 hb
      cases hb
      · rw [Bool.or_false, Bool.or_true, List.append_nil]
        exact h.2
      · rw [Bool.or_true, Bool.or_true, List.append_nil]
        exact h.1
    · intro h
      have h3 := h.2 p _ _ _ .producer
      have h4 := h.2 c _ _ _ .consumer
      rw [Bool.or_true, Bool.or_true, List.append_nil] at h3
      rw [Bool.or_false, Bool.or_true, List.append_nil] at h4
      exact ⟨h3, h4⟩
  | sequence d m ihd ihm =>
    intro pr co bd df B hB hd ho hy
    have h1 := ihd pr co bd df B hB (hd.imp_right fun h => ⟨h.1, h.2.below .definition⟩) (ho.below .definition)
      (hy.below .definition)
    have h2 := ihm pr co bd (concreteStmt rels pr co bd df d).2 B hB (by
      rcases hd with hd | hd
      · exact .inl hd
      · rw [defined_noLoops _ _ _ _ _ (hd.2.below .definition)]
        exact .inr ⟨hd.1, hd.2.below .mutation⟩) (ho.below .mutation) (hy.below .mutation)
    show ((concreteStmt rels pr co bd df d).1 &&
      (concreteStmt rels pr co bd (concreteStmt rels pr co bd df d).2 m).1) = true ↔ _
    rw [Bool.and_eq_true, h1, h2, allOK_iff (u := .sequence d m)]
    constructor
    · intro h
      refine ⟨node_trivial (by intro v h; exact nomatch h) (by intro v h; exact nomatch h)
        (by simp) (by simp), ?_⟩
      intro s' p2 w2 L2 hb
      cases hb
      · rw [Bool.or_false, Bool.or_false, List.append_nil]
        exact h.1
      · rw [Bool.or_false, Bool.or_false, List.append_nil]
        exact h.2
    · intro h
      have h3 := h.2 d _ _ _ .definition
      have h4 := h.2 m _ _ _ .mutation
      rw [Bool.or_false, Bool.or_false, List.append_nil] at h3 h4
      exact ⟨h3, h4⟩
  | multi s t ihs iht =>
    intro pr co bd df B hB hd ho hy
    have h1 := ihs pr co bd df B hB (hd.imp_right fun h => ⟨h.1, h.2.below .left⟩) (ho.below .left)
      (hy.below .left)
    have h2 := iht pr co bd (concreteStmt rels pr co bd df s).2 B hB (by
      rcases hd with hd | hd
      · exact .inl hd
      · rw [defined_noLoops _ _ _ _ _ (hd.2.below .left)]
        exact .inr ⟨hd.1, hd.2.below .right⟩) (ho.below .right) (hy.below .right)
    show ((concreteStmt rels pr co bd df s).1 &&
      (concreteStmt rels pr co bd (concreteStmt rels pr co bd df s).2 t).1) = true ↔ _
    rw [Bool.and_eq_true, h1, h2, allOK_iff (u := .multi s t)]
    constructor
    · intro h
      refine ⟨node_trivial (by intro v h; exact nomatch h) (by intro v h; exact nomatch h)
        (by simp) (by simp), ?_⟩
      intro s' p2 w2 L2 hb
      cases hb
      · rw [Bool.or_false, Bool.or_false, List.append_nil]
        exact h.1
      · rw [Bool.or_false, Bool.or_false, List.append_nil]
        exact h.2
    · intro h
      have h3 := h.2 s _ _ _ .left
      have h4 := h.2 t _ _ _ .right
      rw [Bool.or_false, Bool.or_false, List.append_nil] at h3 h4
      exact ⟨h3, h4⟩
  | assemble q c ihq ihc =>
    intro pr co bd df B hB hd ho hy
    have h1 := ihq pr co bd df B hB (hd.imp_right fun h => ⟨h.1, h.2.below .queries⟩) (ho.below .queries)
      (hy.below .queries)
    have h2 := ihc pr co bd (concreteStmt rels pr co bd df q).2 B hB (by
      rcases hd with hd | hd
      · exact .inl hd
      · rw [defined_noLoops _ _ _ _ _ (hd.2.below .queries)]
        exact .inr ⟨hd.1, hd.2.below .compute⟩) (ho.below .compute) (hy.below .compute)
    show ((concreteStmt rels pr co bd df q).1 &&
      (concreteStmt rels pr co bd (concreteStmt rels pr co bd df q).2 c).1) = true ↔ _
    rw [Bool.and_eq_true, h1, h2, allOK_iff (u := .assemble q c)]
    constructor
    · intro h
      refine ⟨node_trivial (by intro v h; exact nomatch h) (by intro v h; exact nomatch h)
        (by simp) (by simp), ?_⟩
      intro s' p2 w2 L2 hb
      cases hb
      · rw [Bool.or_false, Bool.or_false, List.append_nil]
        exact h.1
      · rw [Bool.or_false, Bool.or_false, List.append_nil]
        exact h.2
    · intro h
      have h3 := h.2 q _ _ _ .queries
      have h4 := h.2 c _ _ _ .compute
      rw [Bool.or_false, Bool.or_false, List.append_nil] at h3 h4
      exact ⟨h3, h4⟩
  | assembleOnly c ih =>
    intro pr co bd df B hB hd ho hy
    have h1 := ih pr co bd df B hB (hd.imp_right fun h => ⟨h.1, h.2.below .computeOnly⟩) (ho.below .computeOnly)
      (hy.below .computeOnly)
    show (concreteStmt rels pr co bd df c).1 = true ↔ _
    rw [h1, allOK_iff (u := .assembleOnly c)]
    constructor
    · intro h
      refine ⟨node_trivial (by intro v h; exact nomatch h) (by intro v h; exact nomatch h)
        (by simp) (by simp), ?_⟩
      intro s' p2 w2 L2 hb
      cases hb
      rw [Bool.or_false, Bool.or_false, List.append_nil]
      exact h
    · intro h
      have h3 := h.2 c _ _ _ .computeOnly
      rwa [Bool.or_false, Bool.or_false, List.append_nil] at h3
  | suchThat s r _ =>
    intro pr co bd df B hB hd ho hy
    show false = true ↔ _
    simp only [Bool.false_eq_true, false_iff]
    intro h
    exact (allOK_iff.1 h).1.2.2.1 s r rfl

theorem concrete_nest_iff (g : Good rels) (hp : Plain rels) {b : Stmt} (hn : NoLoops b) :
    ∀ (L : List Var) (bd df B : List Var), (∀ x, x ∈ B ↔ x ∈ bd) → (∀ x, x ∈ df ↔ x ∈ bd) →
      AllOriginal rels (nest L b) → NoYield (nest L b) →
      ((concreteStmt rels false false bd df (nest L b)).1 = true ↔ AllOK rels false false B (nest L b)) := by
  intro L
  induction L with
  | nil =>
    intro bd df B hB hd ho hy
    exact concreteStmt_iff g hp b false false bd df B hB (.inr ⟨hd, hn⟩) ho hy
  | cons v L ih =>
    intro bd df B hB hd ho hy
    have hstep := ih (v :: bd) (v :: df) (B ++ [v]) (by
      intro x
      simp only [List.mem_append, List.mem_cons, List.not_mem_nil, or_false, hB x]
      exact or_comm) (by
      intro x
      simp only [List.mem_cons, hd x]) (AllOriginal.below ho .forall_) (NoYield.below hy .forall_)
    show (concreteStmt rels false false (v :: bd) (v :: df) (nest L b)).1 = true ↔ _
    rw [hstep]
    show _ ↔ AllOK rels false false B (.forall_ v (nest L b))
    rw [allOK_iff (u := .forall_ v (nest L b))]
    constructor
    · intro h
      refine ⟨node_trivial (by intro v h; exact nomatch h) (by intro v h; exact nomatch h)
        (by simp) (by simp), ?_⟩
      intro s' p2 w2 L2 hb
      cases hb
      exact h
    · intro h
      exact h.2 _ _ _ _ .forall_

end

end Verif.Notation
