import Mathlib.Algebra.BigOperators.Group.Finset.Basic
import Mathlib.Tactic.LinearCombination
import Verif.Concrete.Promote.Theorems
import Verif.Parallel.Model
/-
Lemmas about parallel loops.
-/
namespace Verif.Parallel

open Concrete

set_option linter.unusedSectionVars false

variable {R : Type} [CommRing R]

/-! ### An iteration by itself -/

/-- A sequence of steps. -/
def runSteps (dim : Nat → Nat) (l : List (Step R)) (x : Local R × Store R) : Local R × Store R :=
  l.foldl (fun x st => step dim st x) x

theorem runSteps_append {dim : Nat → Nat} (l m : List (Step R)) (x : Local R × Store R) :
    runSteps dim (l ++ m) x = runSteps dim m (runSteps dim l x) := List.foldl_append ..

theorem runSteps_cons {dim : Nat → Nat} (st : Step R) (l : List (Step R)) (x : Local R × Store R) :
    runSteps dim (st :: l) x = runSteps dim l (step dim st x) := rfl

theorem runSteps_nil {dim : Nat → Nat} (x : Local R × Store R) : runSteps dim [] x = x := rfl

theorem view_write {priv : List Nat} {t : Nat} {c : List Nat} {r : R} {L : Local R} {σ : Store R} :
    view priv (write priv t c r L σ).1 (write priv t c r L σ).2 = put (view priv L σ) t c r := by
  funext u d
  by_cases ht : t ∈ priv
  · simp only [write, ht, if_true, view, put]
    by_cases hu : u ∈ priv
    · simp only [hu, if_true]; rfl
    · have hne : u ≠ t := fun e => hu (e ▸ ht)
      simp [hu, hne]
  · simp only [write, ht, if_false, view, put]
    by_cases hu : u ∈ priv
    · have hne : u ≠ t := fun e => ht (e ▸ hu)
      simp [hu, hne]
    · simp only [hu, if_false]; rfl

theorem write_other {priv : List Nat} {t : Nat} {c : List Nat} {r : R} {L : Local R} {σ : Store R} :
    (write priv t c r L σ).1.saved = L.saved ∧
    (∀ u, u ∉ priv → (write priv t c r L σ).1.mem u = L.mem u) ∧
    (∀ u, u ∈ priv → (write priv t c r L σ).2 u = σ u) := by
  by_cases ht : t ∈ priv
  · simp only [write, ht, if_true]
    refine ⟨trivial, fun u hu => put_ne_tensor _ _ _ (fun e => hu (e ▸ ht)), fun _ _ => trivial⟩
  · simp only [write, ht, if_false]
    refine ⟨trivial, fun _ _ => trivial, fun u hu => put_ne_tensor _ _ _ (fun e => ht (e ▸ hu))⟩

/-- By itself, an iteration does what the statement does. -/
theorem run_steps {dim : Nat → Nat} : ∀ (s : Code R) (priv : List Nat) (ρ : Env) (L : Local R)
    (σ : Store R),
    view priv (runSteps dim (steps dim priv s ρ) (L, σ)).1 (runSteps dim (steps dim priv s ρ) (L, σ)).2 =
      exec dim s.erase ρ (view priv L σ) ∧
    (runSteps dim (steps dim priv s ρ) (L, σ)).1.saved = L.saved ∧
    (∀ u, u ∉ priv → (runSteps dim (steps dim priv s ρ) (L, σ)).1.mem u = L.mem u) ∧
    (∀ u, u ∈ priv → (runSteps dim (steps dim priv s ρ) (L, σ)).2 u = σ u) := by
  intro s
  induction s with
  | assign t is plus atomic e =>
    intro priv ρ L σ
    have key : ∀ (L' : Local R) (r : R), L'.mem = L.mem → L'.saved = L.saved →
        view priv (write priv t (is.map ρ) r L' σ).1 (write priv t (is.map ρ) r L' σ).2 =
          put (view priv L σ) t (is.map ρ) r ∧
        (write priv t (is.map ρ) r L' σ).1.saved = L.saved ∧
        (∀ u, u ∉ priv → (write priv t (is.map ρ) r L' σ).1.mem u = L.mem u) ∧
        (∀ u, u ∈ priv → (write priv t (is.map ρ) r L' σ).2 u = σ u) := by
      intro L' r hm hs
      obtain ⟨h1, h2, h3⟩ := write_other (priv := priv) (t := t) (c := is.map ρ) (r := r) (L := L')
        (σ := σ)
      refine ⟨?_, by rw [h1, hs], fun u hu => by rw [h2 u hu, hm], h3⟩
      rw [view_write]
      congr 1
      unfold view; rw [hm]
    have hst : steps dim priv (.assign t is plus atomic e) ρ =
      if plus then
        if atomic then [.eval priv ρ e, .add priv t (is.map ρ)]
        else [.eval priv ρ e, .load priv t (is.map ρ), .store priv t (is.map ρ) true]
      else [.eval priv ρ e, .store priv t (is.map ρ) false] := rfl
    rw [hst]
    simp only [Code.erase, exec_assign_eq]
    cases atomic <;> cases plus <;> exact key _ _ rfl rfl
  | loop i par s ih =>
    intro priv ρ L σ
    simp only [steps, Code.erase, exec]
    generalize List.range (dim i) = l
    induction l generalizing L σ with
    | nil => exact ⟨rfl, rfl, fun _ _ => rfl, fun _ _ => rfl⟩
    | cons v l ihl =>
      simp only [List.flatMap_cons, runSteps_append, List.foldl_cons]
      obtain ⟨h1, h2, h3, h4⟩ := ih priv (ρ.set i v) L σ
      generalize runSteps dim (steps dim priv s (ρ.set i v)) (L, σ) = x at *
      obtain ⟨L', σ'⟩ := x
      obtain ⟨g1, g2, g3, g4⟩ := ihl L' σ'
      simp only at h1 h2 h3 h4
      refine ⟨by rw [g1, h1], by rw [g2, h2], fun u hu => by rw [g3 u hu, h3 u hu],
        fun u hu => by rw [g4 u hu, h4 u hu]⟩
  | wher c p ihc ihp =>
    intro priv ρ L σ
    simp only [steps, Code.erase, exec, runSteps_cons, runSteps_append, step]
    obtain ⟨h1, h2, h3, h4⟩ := ihp (p.erase.target :: priv) ρ
      { L with mem := clear [p.erase.target] L.mem, saved := L.mem :: L.saved } σ
    generalize runSteps dim (steps dim (p.erase.target :: priv) p ρ)
      ({ L with mem := clear [p.erase.target] L.mem, saved := L.mem :: L.saved }, σ) = x at *
    obtain ⟨L1, σ1⟩ := x
    obtain ⟨g1, g2, g3, g4⟩ := ihc (p.erase.target :: priv) ρ L1 σ1
    generalize runSteps dim (steps dim (p.erase.target :: priv) c ρ) (L1, σ1) = y at *
    obtain ⟨L2, σ2⟩ := y
    simp only at h1 h2 h3 h4 g1 g2 g3 g4
    have hpop : L2.pop p.erase.target =
        { L2 with mem := restore [p.erase.target] L.mem L2.mem, saved := L.saved } := by
      unfold Local.pop
      rw [show L2.saved = L.mem :: L.saved by rw [g2, h2]]
    have hview : view (p.erase.target :: priv)
        { L with mem := clear [p.erase.target] L.mem, saved := L.mem :: L.saved } σ =
        clear [p.erase.target] (view priv L σ) := by
      funext u
      by_cases hu : u = p.erase.target
      · simp [view, clear, hu]
      · simp [view, clear, hu]
    rw [hview] at h1
    have hrun : ∀ x : Local R × Store R, runSteps dim [Step.leave p.erase.target] x =
        (x.1.pop p.erase.target, x.2) := fun _ => rfl
    simp only [hrun, hpop, results_target, runSteps_nil]
    refine ⟨?_, trivial, ?_, ?_⟩
    · rw [← h1, ← g1]
      funext u
      by_cases hu : u = p.erase.target
      · subst hu
        by_cases hp : p.erase.target ∈ priv
        · simp [view, restore, hp]
        · simp only [view, restore, hp, if_false, List.mem_singleton, if_true]
          rw [g4 _ (by simp), h4 _ (by simp)]
      · by_cases hp : u ∈ priv
        · simp [view, restore, hp, hu]
        · simp [view, restore, hp, hu]
    · intro u hu
      simp only [restore, List.mem_singleton]
      split
      · rfl
      · rename_i hne
        rw [g3 u (by simp [hne, hu]), h3 u (by simp [hne, hu])]
        simp [clear, hne]
    · intro u hu
      rw [g4 u (by simp [hu]), h4 u (by simp [hu])]

/-! ### Iterations at the same time -/

/-- Steps of iteration `v` that do not get in the way of others: `T` is the only shared tensor
that is written, and at components that belong to the iteration or, atomically, at components
that are only accumulated into. -/
def Harmless (T : Nat) (own : Nat → List Nat → Prop) (acc : List Nat → Prop) (v : Nat) : Step R → Prop
  | .eval priv _ e => ∀ u ∈ e.tensors, u ∉ priv → u ≠ T
  | .load priv t c => t ∈ priv ∨ (t = T ∧ own v c)
  | .store priv t c _ => t ∈ priv ∨ (t = T ∧ own v c)
  | .add priv t c => t ∈ priv ∨ (t = T ∧ (own v c ∨ acc c))
  | .enter _ => True
  | .leave _ => True

theorem view_congr {priv : List Nat} {L : Local R} {σ σ' : Store R} {u : Nat}
    (h : u ∉ priv → σ u = σ' u) : view priv L σ u = view priv L σ' u := by
  unfold view; split
  · rfl
  · rename_i hu; exact h hu

/-- A harmless step does the same whatever other iterations have done. -/
theorem step_harmless {dim : Nat → Nat} {T v : Nat} {own : Nat → List Nat → Prop}
    {acc : List Nat → Prop} {st : Step R} (h : Harmless T own acc v st) (L : Local R) {σ A : Store R}
    (hne : ∀ u, u ≠ T → σ u = A u) (hown : ∀ c, own v c → σ T c = A T c) :
    (step dim st (L, σ)).1 = (step dim st (L, A)).1 ∧
    (∀ u, u ≠ T → (step dim st (L, σ)).2 u = σ u ∧ (step dim st (L, A)).2 u = A u) ∧
    (∀ c, (step dim st (L, σ)).2 T c - σ T c = (step dim st (L, A)).2 T c - A T c) ∧
    (∀ c, (step dim st (L, A)).2 T c ≠ A T c → own v c ∨ acc c) := by
  cases st with
  | eval priv ρ e =>
    refine ⟨?_, fun _ _ => ⟨rfl, rfl⟩, fun _ => by simp [step], fun c hc => absurd rfl hc⟩
    simp only [step]
    rw [eval_store e ρ (fun u hu => view_congr fun hp => hne u (h u hu hp))]
  | load priv t c =>
    refine ⟨?_, fun _ _ => ⟨rfl, rfl⟩, fun _ => by simp [step], fun c hc => absurd rfl hc⟩
    simp only [step]
    have : view priv L σ t c = view priv L A t c := by
      rcases h with h | ⟨rfl, h⟩
      · simp [view, h]
      · unfold view; split
        · rfl
        · exact hown c h
    rw [this]
  | store priv t c plus =>
    simp only [step]
    by_cases hp : t ∈ priv
    · simp only [write, hp, if_true]
      exact ⟨trivial, fun _ _ => ⟨trivial, trivial⟩, fun _ => by simp, fun c hc => absurd rfl hc⟩
    · rcases h with h | ⟨rfl, h⟩
      · exact absurd h hp
      · simp only [write, hp, if_false]
        refine ⟨trivial, fun u hu => ⟨put_ne_tensor _ _ _ hu, put_ne_tensor _ _ _ hu⟩, fun d => ?_,
          fun d hd => ?_⟩
        · by_cases hd : d = c
          · subst hd; rw [put_same, put_same, hown d h]
          · simp [put, hd]
        · by_cases hdc : d = c
          · exact Or.inl (hdc ▸ h)
          · simp [put, hdc] at hd
  | add priv t c =>
    simp only [step]
    by_cases hp : t ∈ priv
    · simp only [write, hp, if_true, view]
      exact ⟨trivial, fun _ _ => ⟨trivial, trivial⟩, fun _ => by simp, fun c hc => absurd rfl hc⟩
    · rcases h with h | ⟨rfl, h⟩
      · exact absurd h hp
      · simp only [write, hp, if_false, view]
        refine ⟨trivial, fun u hu => ⟨put_ne_tensor _ _ _ hu, put_ne_tensor _ _ _ hu⟩, fun d => ?_,
          fun d hd => ?_⟩
        · by_cases hd : d = c
          · subst hd; rw [put_same, put_same]; ring
          · simp [put, hd]
        · by_cases hdc : d = c
          · exact hdc ▸ h
          · simp [put, hdc] at hd
  | enter t => exact ⟨rfl, fun _ _ => ⟨rfl, rfl⟩, fun _ => by simp [step], fun c hc => absurd rfl hc⟩
  | leave t => exact ⟨rfl, fun _ _ => ⟨rfl, rfl⟩, fun _ => by simp [step], fun c hc => absurd rfl hc⟩

/-- Whatever the order of the steps, the changes by the iterations add up.  `A v` is what the
shared tensors would be like if only iteration `v` had run. -/
theorem par_sum {dim : Nat → Nat} {n T : Nat} {own : Nat → List Nat → Prop} {acc : List Nat → Prop}
    (hdis : ∀ v w c, own v c → own w c → v = w) (hacc : ∀ v c, own v c → ¬ acc c) (σ0 : Store R)
    {P : Nat → List (Step R)} {L : Nat → Local R} {σ σ' : Store R} (h : Par dim n P L σ σ') :
    ∀ (A : Nat → Store R), (∀ v, ∀ st ∈ P v, Harmless T own acc v st) → (∀ u, u ≠ T → σ u = σ0 u) →
    (∀ v u, u ≠ T → A v u = σ0 u) →
    (∀ c, σ T c = σ0 T c + ∑ v ∈ Finset.range n, (A v T c - σ0 T c)) →
    (∀ v c, A v T c ≠ σ0 T c → own v c ∨ acc c) →
    (∀ u, u ≠ T → σ' u = σ0 u) ∧
    ∀ c, σ' T c = σ0 T c +
      ∑ v ∈ Finset.range n, ((runSteps dim (P v) (L v, A v)).2 T c - σ0 T c) := by
  induction h with
  | @done P L σ hP =>
    intro A _ h1 h2 h3 _
    refine ⟨h1, fun c => ?_⟩
    rw [h3 c]
    congr 1
    refine Finset.sum_congr rfl fun v hv => ?_
    rw [hP v (Finset.mem_range.mp hv)]; rfl
  | @next P L σ σ' v st rest hv hP _ ih =>
    intro A h0 h1 h2 h3 h4
    have hst : Harmless T own acc v st := h0 v st (by rw [hP]; exact List.mem_cons_self)
    have hown : ∀ c, own v c → σ T c = A v T c := by
      intro c hc
      rw [h3 c, Finset.sum_eq_single v]
      · ring
      · intro w _ hw
        by_contra hne
        rcases h4 w c (fun e => hne (by rw [e]; ring)) with hw' | ha
        · exact hw (hdis w v c hw' hc)
        · exact hacc v c hc ha
      · intro hn; exact absurd (Finset.mem_range.mpr hv) hn
    obtain ⟨e1, e2, e3, e4⟩ := step_harmless (dim := dim) hst (L v)
      (fun u hu => (h1 u hu).trans (h2 v u hu).symm) hown
    have hA : ∀ w, (upd A v (step dim st (L v, A v)).2) w =
        if w = v then (step dim st (L v, A v)).2 else A w := fun _ => rfl
    have := ih (upd A v (step dim st (L v, A v)).2) ?_ ?_ ?_ ?_ ?_
    · refine ⟨this.1, fun c => ?_⟩
      rw [this.2 c]
      congr 1
      refine Finset.sum_congr rfl fun w _ => ?_
      by_cases hw : w = v
      · subst hw
        simp only [upd, if_true, hP, runSteps_cons]
        rw [e1]
      · simp [upd, hw]
    · intro w s hs
      by_cases hw : w = v
      · subst hw
        simp only [upd, if_true] at hs
        exact h0 w s (by rw [hP]; exact List.mem_cons_of_mem _ hs)
      · simp only [upd, hw, if_false] at hs
        exact h0 w s hs
    · intro u hu; rw [(e2 u hu).1]; exact h1 u hu
    · intro w u hu
      rw [hA]; split
      · rw [(e2 u hu).2]; exact h2 v u hu
      · exact h2 w u hu
    · intro c
      have e := e3 c
      have hsum : ∑ w ∈ Finset.range n, ((upd A v (step dim st (L v, A v)).2) w T c - σ0 T c) =
          ∑ w ∈ Finset.range n, (A w T c - σ0 T c) + ((step dim st (L v, A v)).2 T c - A v T c) := by
        rw [← Finset.add_sum_erase _ _ (Finset.mem_range.mpr hv),
          ← Finset.add_sum_erase _ (fun w => A w T c - σ0 T c) (Finset.mem_range.mpr hv)]
        have : ∑ w ∈ (Finset.range n).erase v, ((upd A v (step dim st (L v, A v)).2) w T c - σ0 T c) =
            ∑ w ∈ (Finset.range n).erase v, (A w T c - σ0 T c) := by
          refine Finset.sum_congr rfl fun w hw => ?_
          have : w ≠ v := (Finset.mem_erase.mp hw).1
          rw [hA]; simp [this]
        rw [this, hA]
        simp only [if_true]
        ring
      rw [hsum]
      have := h3 c
      linear_combination e + this
    · intro w c hc
      rw [hA] at hc
      split at hc
      · rename_i hw
        subst hw
        by_cases h : (step dim st (L w, A w)).2 T c = A w T c
        · exact h4 w c (h ▸ hc)
        · exact e4 c h
      · exact h4 w c hc

/-- Some order is always possible. -/
theorem par_exists {dim : Nat → Nat} {n : Nat} : ∀ (k : Nat) (P : Nat → List (Step R))
    (L : Nat → Local R) (σ : Store R), ∑ v ∈ Finset.range n, (P v).length = k → ∃ σ', Par dim n P L σ σ' := by
  intro k
  induction k with
  | zero =>
    intro P L σ h
    refine ⟨σ, .done fun v hv => ?_⟩
    have := Finset.sum_eq_zero_iff.mp h v (Finset.mem_range.mpr hv)
    exact List.eq_nil_of_length_eq_zero this
  | succ k ih =>
    intro P L σ h
    have : ∃ v ∈ Finset.range n, (P v).length ≠ 0 := by
      by_contra hc
      push Not at hc
      rw [Finset.sum_eq_zero hc] at h; omega
    obtain ⟨v, hv, hne⟩ := this
    obtain ⟨st, rest, hP⟩ := List.exists_cons_of_ne_nil (fun e => hne (by rw [e]; rfl) : P v ≠ [])
    obtain ⟨σ', h'⟩ := ih (upd P v rest) (upd L v (step dim st (L v, σ)).1) (step dim st (L v, σ)).2 (by
      rw [← Finset.add_sum_erase _ _ hv] at h ⊢
      have : ∑ w ∈ (Finset.range n).erase v, (upd P v rest w).length =
          ∑ w ∈ (Finset.range n).erase v, (P w).length := by
        refine Finset.sum_congr rfl fun w hw => ?_
        have : w ≠ v := (Finset.mem_erase.mp hw).1
        simp [upd, this]
      rw [this]
      rw [hP] at h
      simp only [upd, if_true, List.length_cons] at h ⊢
      omega)
    exact ⟨σ', .next v st rest (Finset.mem_range.mp hv) hP h'⟩

/-! ### A parallel loop -/

/-- Is the result accumulated into atomically? -/
def Code.targetAtomic : Code R → Bool
  | .assign _ _ plus atomic _ => plus && atomic
  | .loop _ _ s => s.targetAtomic
  | .wher c _ => c.targetAtomic

theorem targetAtomic_accumulates : ∀ (s : Code R), s.targetAtomic = true → s.erase.accumulates = true
  | .assign _ _ plus atomic _, h => by
    simp only [Code.targetAtomic, Bool.and_eq_true] at h; exact h.1
  | .loop _ _ s, h => targetAtomic_accumulates s h
  | .wher c _, h => targetAtomic_accumulates c h

theorem steps_harmless {dim : Nat → Nat} {T v i : Nat} {own : Nat → List Nat → Prop}
    {acc : List Nat → Prop} : ∀ (s : Code R) (priv above : List Nat) (ρ : Env), s.erase.wellFormed →
    s.erase.noShadow above → i ∈ above → ρ i = v → (∀ u ∈ s.erase.reads, u ∉ priv → u ≠ T) →
    (s.erase.target ∈ priv ∨ (s.erase.target = T ∧
      ((∀ ρ' : Env, ρ' i = v → own v (s.erase.targetVars.map ρ')) ∨
        (s.targetAtomic = true ∧ ∀ c, acc c)))) →
    ∀ st ∈ steps dim priv s ρ, Harmless T own acc v st := by
  intro s
  induction s with
  | assign t is plus atomic e =>
    intro priv above ρ _ _ _ hρ hr ht st hst
    simp only [Code.erase, Stmt.target, Stmt.targetVars, Stmt.reads, Code.targetAtomic] at hr ht
    have hev : Harmless T own acc v (.eval priv ρ e) := hr
    simp only [steps] at hst
    split at hst
    · rename_i hp
      subst hp
      split at hst
      · rename_i ha
        subst ha
        simp only [List.mem_cons, List.not_mem_nil, or_false] at hst
        rcases hst with rfl | rfl
        · exact hev
        · exact ht.imp_right fun h => ⟨h.1, h.2.imp (fun h => h ρ hρ) (fun h => h.2 _)⟩
      · rename_i ha
        have hx : t ∈ priv ∨ (t = T ∧ own v (is.map ρ)) := by
          refine ht.imp_right fun h => ⟨h.1, ?_⟩
          rcases h.2 with h | h
          · exact h ρ hρ
          · simp [ha] at h
        simp only [List.mem_cons, List.not_mem_nil, or_false] at hst
        rcases hst with rfl | rfl | rfl
        · exact hev
        · exact hx
        · exact hx
    · rename_i hp
      have hx : t ∈ priv ∨ (t = T ∧ own v (is.map ρ)) := by
        refine ht.imp_right fun h => ⟨h.1, ?_⟩
        rcases h.2 with h | h
        · exact h ρ hρ
        · simp [hp] at h
      simp only [List.mem_cons, List.not_mem_nil, or_false] at hst
      rcases hst with rfl | rfl
      · exact hev
      · exact hx
  | loop j par s ih =>
    intro priv above ρ hw hn hi hρ hr ht st hst
    simp only [steps, List.mem_flatMap] at hst
    obtain ⟨x, _, hst⟩ := hst
    have hij : i ≠ j := fun e => hn.1 (e ▸ hi)
    exact ih priv (j :: above) (ρ.set j x) hw hn.2 (List.mem_cons_of_mem _ hi)
      (by rw [Env.set_ne _ _ hij]; exact hρ) hr ht st hst
  | wher c p ihc ihp =>
    intro priv above ρ hw hn hi hρ hr ht st hst
    simp only [steps, List.mem_cons, List.mem_append, List.not_mem_nil, or_false] at hst
    simp only [Code.erase, Stmt.reads, List.mem_append, List.mem_filter] at hr
    rcases hst with rfl | (hst | hst) | rfl
    · trivial
    · refine ihp (p.erase.target :: priv) above ρ hw.2.1 hn.2 hi hρ ?_ (Or.inl List.mem_cons_self) st hst
      intro u hu hp
      exact hr u (Or.inr hu) (fun h => hp (List.mem_cons_of_mem _ h))
    · refine ihc (p.erase.target :: priv) above ρ hw.1 hn.1 hi hρ ?_
        (ht.imp_left (List.mem_cons_of_mem _)) st hst
      intro u hu hp
      simp only [List.mem_cons, not_or] at hp
      exact hr u (Or.inl ⟨hu, by simpa using hp.1⟩) hp.2
    · trivial

/-- Serially, the changes by the iterations add up. -/
theorem loop_sum {dim : Nat → Nat} {i : Nat} {s : Stmt R} {above : List Nat} (hw : s.wellFormed)
    (hn : s.noShadow (i :: above)) (hs : s.accumulates = true ∨ i ∈ s.targetVars) (ρ : Env)
    (σ : Store R) (c : List Nat) :
    exec dim (.loop i s) ρ σ s.target c = σ s.target c +
      ∑ v ∈ Finset.range (dim i), (exec dim s (ρ.set i v) σ s.target c - σ s.target c) := by
  have hnr := target_notMem_reads hw
  have key : ∀ (l : List Nat) (σ : Store R), l.Nodup →
      l.foldl (fun σ v => exec dim s (ρ.set i v) σ) σ s.target c = σ s.target c +
        (l.map fun v => exec dim s (ρ.set i v) σ s.target c - σ s.target c).sum := by
    intro l
    induction l with
    | nil => intro σ _; simp
    | cons v l ih =>
      intro σ hl
      obtain ⟨hv, hl⟩ := List.nodup_cons.mp hl
      rw [List.foldl_cons, ih _ hl]
      have : (l.map fun w => exec dim s (ρ.set i w) (exec dim s (ρ.set i v) σ) s.target c -
          exec dim s (ρ.set i v) σ s.target c) =
          l.map fun w => exec dim s (ρ.set i w) σ s.target c - σ s.target c := by
        apply List.map_congr_left
        intro w hwl
        have hr : ∀ u ∈ s.reads, exec dim s (ρ.set i v) σ u = σ u := fun u hu =>
          exec_other _ _ _ _ (fun e => hnr (e ▸ hu))
        obtain ⟨a1, a2⟩ := exec_local (dim := dim) s hw (ρ.set i w) _ σ c hr
        rcases hs with hs | hs
        · exact a2 hs
        · by_cases he : exec dim s (ρ.set i v) σ s.target c = σ s.target c
          · rw [a1 he, he]
          · obtain ⟨ρ1, b1, b2⟩ := exec_footprint s (ρ.set i v) σ c [i] (i :: above) hw hn (by simp) he
            have hid : ∀ τ : Store R, exec dim s (ρ.set i w) τ s.target c = τ s.target c := by
              intro τ
              by_contra hne
              obtain ⟨ρ2, c1, c2⟩ := exec_footprint s (ρ.set i w) τ c [i] (i :: above) hw hn (by simp) hne
              have e1 := b1 i (by simp)
              have e2 := c1 i (by simp)
              rw [Env.set_same] at e1 e2
              have e3 : ρ1 i = ρ2 i := List.map_inj_left.mp (b2.trans c2.symm) i hs
              exact hv (by rw [← e1, e3, e2]; exact hwl)
            rw [hid, hid]; ring
      rw [this, List.map_cons, List.sum_cons]
      ring
  simp only [exec]
  rw [key _ _ List.nodup_range]
  congr 1

/-- A parallel loop does what the serial loop does, if iterations write different components
or accumulate atomically. -/
theorem par_loop {dim : Nat → Nat} {i : Nat} {s : Code R} {above : List Nat} (hw : s.erase.wellFormed)
    (hn : s.erase.noShadow (i :: above)) (hs : s.targetAtomic = true ∨ i ∈ s.erase.targetVars) (ρ : Env)
    (σ σ' : Store R) :
    Runs dim (.loop i true s) ρ σ σ' ↔ σ' = exec dim (.loop i s.erase) ρ σ := by
  have hnr := target_notMem_reads hw
  have hs' : s.erase.accumulates = true ∨ i ∈ s.erase.targetVars :=
    hs.imp_left (targetAtomic_accumulates s)
  have hhs : Stmt.target (.loop i s.erase) = s.erase.target := rfl
  -- any result is the right one
  have det : ∀ L σ', Par dim (dim i) (fun v => steps dim [] s (ρ.set i v)) L σ σ' →
      σ' = exec dim (.loop i s.erase) ρ σ := by
    intro L σ' h
    let own : Nat → List Nat → Prop := fun v c => i ∈ s.erase.targetVars ∧
      ∃ ρ' : Env, ρ' i = v ∧ s.erase.targetVars.map ρ' = c
    let acc : List Nat → Prop := fun _ => i ∉ s.erase.targetVars
    have hsum := par_sum (T := s.erase.target) (own := own) (acc := acc) (by
        rintro v w c ⟨hi, ρ1, e1, e2⟩ ⟨_, ρ2, f1, f2⟩
        rw [← e1, ← f1]
        exact List.map_inj_left.mp (e2.trans f2.symm) i hi)
      (by rintro v c ⟨hi, _⟩ ha; exact ha hi) σ h (fun _ => σ) (by
        intro v st hst
        refine steps_harmless (T := s.erase.target) s [] (i :: above) (ρ.set i v) hw hn List.mem_cons_self (Env.set_same ..)
          (fun u hu _ e => hnr (e ▸ hu)) (Or.inr ⟨rfl, ?_⟩) st hst
        by_cases hi : i ∈ s.erase.targetVars
        · exact Or.inl fun ρ' h' => ⟨hi, ρ', h', rfl⟩
        · exact Or.inr ⟨hs.resolve_right hi, fun _ => hi⟩)
      (fun _ _ => rfl) (fun _ _ _ => rfl) (by intro c; simp) (fun v c hc => absurd rfl hc)
    funext u
    by_cases hu : u = s.erase.target
    · subst hu
      funext c
      rw [hsum.2 c, loop_sum hw hn hs' ρ σ c]
      congr 1
      refine Finset.sum_congr rfl fun v _ => ?_
      obtain ⟨h1, _, _, _⟩ := run_steps (dim := dim) s [] (ρ.set i v) (L v) σ
      have hv : ∀ (L : Local R) (σ : Store R), view [] L σ = σ := by
        intro L σ; funext u; simp [view]
      rw [hv, hv] at h1
      rw [h1]
    · rw [hsum.1 u hu, exec_other (.loop i s.erase) _ _ _ hu]
  constructor
  · intro h
    simp only [Runs, if_true] at h
    obtain ⟨L, h⟩ := h
    exact det L σ' h
  · rintro rfl
    simp only [Runs, if_true]
    obtain ⟨σ', h⟩ := par_exists (dim := dim) (n := dim i) _
      (fun v => steps dim [] s (ρ.set i v)) (fun _ => ⟨0, 0, σ, []⟩) σ rfl
    exact ⟨_, det _ _ h ▸ h⟩

theorem chain_fun {α : Type} {r : Nat → α → α → Prop} {f : α → Nat → α}
    (h : ∀ v a b, r v a b ↔ b = f a v) : ∀ (l : List Nat) (a b : α),
    Chain r l a b ↔ b = l.foldl f a
  | [], _, _ => Iff.rfl
  | v :: l, a, b => by
    simp only [Chain, List.foldl_cons]
    constructor
    · rintro ⟨a', h1, h2⟩
      rw [(h v a a').mp h1] at h2
      exact (chain_fun h l _ _).mp h2
    · intro hb
      exact ⟨f a v, (h v a _).mpr rfl, (chain_fun h l _ _).mpr hb⟩

/-! ### Lowering -/

theorem lower_erase {strat : Strategy} {i : Nat} : ∀ (s : Stmt R) (depth : Nat) (temps : List Nat),
    (lower strat i depth temps s).erase = s
  | .assign _ _ _ _, _, _ => rfl
  | .loop j s, depth, temps => by
    simp only [lower]
    split
    · simp only [Code.erase, lower_erase s]
    · simp only [Code.erase, lower_erase s]
  | .wher c p, depth, temps => by simp only [lower, Code.erase, lower_erase c, lower_erase p]

theorem lower_atomic {strat : Strategy} {i : Nat} : ∀ (s : Stmt R) (depth : Nat) (temps : List Nat),
    0 < depth → s.accumulates = true → (s.targetVars ≠ [] ∨ s.target ∉ temps) →
    (lower strat i depth temps s).targetAtomic = true
  | .assign t is plus e, depth, temps, hd, ha, h => by
    simp only [Stmt.accumulates] at ha
    simp only [lower, Code.targetAtomic, isAtomic, ha, Bool.true_and, hd, decide_true]
    simpa [Stmt.targetVars, Stmt.target] using h
  | .loop j s, depth, temps, hd, ha, h => by
    simp only [lower]
    split
    · exact lower_atomic s _ temps (by split <;> omega) ha h
    · exact lower_atomic s _ temps hd ha h
  | .wher c p, depth, temps, hd, ha, h => lower_atomic c depth temps hd ha h

/-- Loops over `i` write different components in different iterations, or accumulate into
something that is updated atomically. -/
def raceFree (strat : Strategy) (i : Nat) : List Nat → Stmt R → Prop
  | _, .assign _ _ _ _ => True
  | temps, .loop j s =>
    if j = i then i ∈ s.targetVars ∨
      (strat = .atomics ∧ s.accumulates = true ∧ (s.targetVars ≠ [] ∨ s.target ∉ temps))
    else raceFree strat i temps s
  | temps, .wher c p => raceFree strat i temps c ∧ raceFree strat i (p.target :: temps) p

theorem runs_lower {dim : Nat → Nat} {strat : Strategy} {i : Nat} : ∀ (s : Stmt R)
    (above temps : List Nat), s.wellFormed → s.noShadow above → raceFree strat i temps s →
    ∀ (ρ : Env) (σ σ' : Store R),
    Runs dim (lower strat i 0 temps s) ρ σ σ' ↔ σ' = exec dim s ρ σ := by
  intro s
  induction s with
  | assign t is plus e => intro _ _ _ _ _ ρ σ σ'; exact Iff.rfl
  | loop j s ih =>
    intro above temps hw hn hr ρ σ σ'
    by_cases hj : j = i
    · subst hj
      simp only [raceFree, if_true] at hr
      have hl : lower strat j 0 temps (.loop j s) = .loop j true
          (lower strat j (if strat = .atomics then 0 + 1 else 0) temps s) := by simp [lower]
      rw [hl, par_loop (above := above) (by rw [lower_erase]; exact hw)
        (by rw [lower_erase]; exact hn.2) ?_, lower_erase]
      rw [lower_erase]
      rcases hr with hr | ⟨hst, ha, ht⟩
      · exact Or.inr hr
      · left
        simp only [hst, if_true]
        exact lower_atomic s _ _ (by omega) ha ht
    · simp only [raceFree, hj, if_false] at hr
      simp only [lower, hj, if_false, Runs, Bool.false_eq_true, exec]
      exact chain_fun (fun v a b => ih (j :: above) temps hw hn.2 hr (ρ.set j v) a b) _ _ _
  | wher c p ihc ihp =>
    intro above temps hw hn hr ρ σ σ'
    simp only [lower, Runs, exec, lower_erase, Nat.zero_sub]
    constructor
    · rintro ⟨σ1, σ2, h1, h2, h3⟩
      rw [(ihp above _ hw.2.1 hn.2 hr.2 ρ _ _).mp h1] at h2
      rw [h3, (ihc above _ hw.1 hn.1 hr.1 ρ _ _).mp h2]
    · intro h
      exact ⟨_, _, (ihp above _ hw.2.1 hn.2 hr.2 ρ _ _).mpr rfl, (ihc above _ hw.1 hn.1 hr.1 ρ _ _).mpr rfl, h⟩

end Verif.Parallel
