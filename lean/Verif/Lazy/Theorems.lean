import Verif.Lazy.Lemmas
/-
Properties of delayed evaluation (C39).
-/
namespace Verif.Lazy

/-- Sums of the operands, used by the examples. -/
def demo : Nat → List Val → Val := fun _ vs c => (vs.map fun v => v c).sum

/-- What the reads of a history show at one coordinate. -/
def shows (fuel : Nat) (ops : List Op) (c : List Nat) : Option (List Int) :=
  (run demo fuel initial ops).map fun r => (reads r.2).map fun v => v c

/-- What they should show. -/
def wants (ops : List Op) (c : List Nat) : List Int :=
  (eagerReads demo (fun _ _ => 0) ops).map fun v => v c

/-- **C39.** Delayed evaluation cannot be observed: for any meaning of the expressions and
any history in which tensors are not inserted into after they were assigned (and which is
otherwise plain), every call returns, and every read shows what it would show if each
insertion and assignment had been carried out at once.  Not covered: histories that insert
into assigned tensors, mention a tensor in its own definition, call `compute` directly,
destroy tensors, or replace storage; see the theorems below. -/
theorem lazy_reads_partial (sem : Nat → List Val → Val) (ops : List Op) (h : Plain [] ops)
    (fuel : Nat) (hf : ops.length + 1 ≤ fuel) :
    ∃ s outs, run sem fuel initial ops = some (s, outs) ∧
      reads outs = eagerReads sem (fun _ _ => 0) ops :=
  run_ok ops _ _ 0 initial (by omega) Inv.start
    (plain_fine ops _ _ 0 initial [] (by omega) Inv.start (by intro u hu; exact absurd rfl hu) h)

/-- **C39.** The same under a condition on the states in which the calls are made: in
particular components may be inserted into an assigned tensor that is up to date and was
packed before it was assigned, and `compute` may be called after `assemble`. -/
theorem lazy_reads_states_partial (sem : Nat → List Val → Val) (ops : List Op) (fuel : Nat)
    (hf : ops.length + 1 ≤ fuel) (h : AllFine sem fuel initial ops) :
    ∃ s outs, run sem fuel initial ops = some (s, outs) ∧
      reads outs = eagerReads sem (fun _ _ => 0) ops :=
  run_ok ops _ _ 0 initial (by omega) Inv.start h

/-- The hypotheses are met: a chain of assignments, an operand changed after it was used,
a redefinition, and reads in between. -/
example : Plain [] [.insert 0 [0] 1, .assign 1 (0, [0]), .assign 2 (0, [1, 0]), .insert 0 [0] 5,
    .read 2, .assign 1 (0, [0, 0]), .assignScalar 3 (0, [1, 2]), .evaluate 3, .read 3, .read 1] := by
  simp [Plain]

example : shows 12 [.insert 0 [0] 1, .assign 1 (0, [0]), .assign 2 (0, [1, 0]), .insert 0 [0] 5,
    .read 2, .assign 1 (0, [0, 0]), .assignScalar 3 (0, [1, 2]), .evaluate 3, .read 3, .read 1] [0]
    = some [2, 14, 12] := by
  rfl

/-- Inserting into an evaluated tensor that was packed before it was assigned, and calling
the three stages one by one. -/
example : shows 12 [.insert 0 [0] 1, .pack 1, .assign 1 (0, [0]), .compile 1, .assemble 1, .compute 1,
    .insert 1 [0] 3, .read 1] [0] = some (wants [.insert 0 [0] 1, .pack 1, .assign 1 (0, [0]),
      .compile 1, .assemble 1, .compute 1, .insert 1 [0] 3, .read 1] [0]) := by
  rfl

example : AllFine demo 12 initial [.pack 1, .assign 1 (0, [0]), .compile 1, .assemble 1, .compute 1,
    .insert 1 [0] 3] := by
  refine ⟨trivial, ?_⟩
  rintro s o h; injection h with h; injection h with h _; subst h
  refine ⟨by simp [Fine], ?_⟩
  rintro s o h; injection h with h; injection h with h _; subst h
  refine ⟨trivial, ?_⟩
  rintro s o h; injection h with h; injection h with h _; subst h
  refine ⟨trivial, ?_⟩
  rintro s o h; injection h with h; injection h with h _; subst h
  refine ⟨Or.inr (Or.inr rfl), ?_⟩
  rintro s o h; injection h with h; injection h with h _; subst h
  exact ⟨Or.inr ⟨rfl, Or.inr ⟨rfl, rfl⟩⟩, fun _ _ _ => trivial⟩

/-- A read is repeatable: reading twice in a row shows the same. -/
theorem read_twice_partial (sem : Nat → List Val → Val) (ops : List Op) (h : Plain [] ops) (t : Nat)
    (fuel : Nat) (hf : ops.length + 3 ≤ fuel) :
    ∃ s outs, run sem fuel initial (ops ++ [.read t, .read t]) = some (s, outs) ∧
      ∃ before v, reads outs = before ++ [v, v] := by
  have happ : ∀ (ops : List Op) (as : List Nat), Plain as ops →
      Plain as (ops ++ [.read t, .read t]) := by
    intro ops
    induction ops with
    | nil => intro _ _; simp [Plain]
    | cons op ops ih =>
      intro as hp
      cases op <;> first
        | exact ⟨hp.1, ih _ hp.2⟩
        | exact ih _ hp
        | exact hp.elim
  have hread : ∀ (ops : List Op) (σ : Nat → Val), ∃ before v,
      eagerReads sem σ (ops ++ [.read t, .read t]) = before ++ [v, v] := by
    intro ops
    induction ops with
    | nil => intro σ; exact ⟨[], σ t, rfl⟩
    | cons op ops ih =>
      intro σ
      obtain ⟨b, v, h⟩ := ih (eagerStep sem σ op)
      cases op <;> first
        | exact ⟨b, v, h⟩
        | exact ⟨_ :: b, v, by simp only [List.cons_append, eagerReads]; rw [← h]; rfl⟩
  obtain ⟨s, outs, e, r⟩ := lazy_reads_partial sem (ops ++ [.read t, .read t]) (happ ops [] h) fuel
    (by simp; omega)
  obtain ⟨b, v, hb⟩ := hread ops (fun _ _ => 0)
  exact ⟨s, outs, e, b, v, r.trans hb⟩

example : Plain [] [.insert 0 [0] 1, .assign 1 (0, [0])] := by simp [Plain]

/-! ### Where delayed evaluation shows -/

/-- Inserting into a tensor whose assignment has not been computed yet: the first read
shows only the insertion and the second only the assignment. -/
theorem insert_pending_fails :
    ∃ ops, shows 12 ops [0] = some [5, 1] ∧ wants ops [0] = [6, 6] :=
  ⟨[.insert 0 [0] 1, .assign 1 (0, [0]), .insert 1 [0] 5, .read 1, .read 1], rfl, rfl⟩

/-- Inserting into a computed tensor that was never packed: the computed components are
lost. -/
theorem insert_computed_fails :
    ∃ ops, shows 12 ops [0] = some [1, 0] ∧ wants ops [0] = [1, 1] :=
  ⟨[.insert 0 [0] 1, .assign 1 (0, [0]), .read 1, .insert 1 [1] 5, .read 1], rfl, rfl⟩

/-- Components inserted before an assignment and never packed come back when something is
inserted afterwards. -/
theorem insert_stale_fails :
    ∃ ops, shows 12 ops [0] = some [1, 8] ∧ wants ops [0] = [1, 1] :=
  ⟨[.insert 0 [0] 1, .pack 1, .insert 1 [0] 7, .assign 1 (0, [0]), .read 1, .insert 1 [1] 5, .read 1],
    rfl, rfl⟩

/-- A tensor that is defined by itself and not yet computed is never read: syncing it
recurses without end. -/
theorem self_assignment_fails (sem : Nat → List Val → Val) (fuel : Nat) :
    run sem fuel initial [.assign 0 (0, [0]), .read 0] = none := by
  have key : ∀ n (s : State), (s 0).alive = true → (s 0).needsPack = false →
      (s 0).needsCompute = true → (s 0).needsAssemble = true →
      (s 0).assign = some (0, [0]) → syncN sem n s 0 = none := by
    intro n
    induction n with
    | zero => intros; rfl
    | succ n ih =>
      intro s h1 h2 h3 h4 h5
      obtain ⟨f1, f2, f3, _, f5⟩ := compile_fields s 0 0
      have f6 : (compile s 0 0).needsAssemble = true := by
        unfold compile; split
        · rw [set_same]; exact h4
        · exact h4
      have f7 : (compile s 0 0).alive = true := by
        unfold compile; split
        · rw [set_same]; exact h1
        · exact h1
      have := ih (compile s 0) f7 (by rw [f2]; exact h2) (by rw [f1]; exact h3) f6
        (by rw [f3]; exact h5)
      show syncWith sem (syncN sem n) s 0 = none
      unfold syncWith assemble
      simp only [h1, h2, h3, f5, f6, f3, h5, operands]
      simp [show ([0] : List Nat).eraseDups = [0] from rfl, syncAll, this]
  have h : step sem fuel initial (.assign 0 (0, [0])) = some (assignTo
      (set initial 0 { initial 0 with deps := [] }) 0 (0, [0]), .done) := rfl
  simp only [run, h]
  have hk := key fuel (assignTo (set initial 0 { initial 0 with deps := [] }) 0 (0, [0]))
    rfl rfl rfl rfl rfl
  simp [step, hk]

/-- A tensor that is destroyed while its assignment waits: the next insertion into an
operand crashes. -/
theorem destroyed_pending_fails (sem : Nat → List Val → Val) (fuel : Nat) :
    run sem fuel initial [.insert 0 [0] 1, .assign 1 (0, [0]), .destroy 1, .insert 0 [1] 2] = none := by
  cases fuel <;> rfl

/-- A tensor that is assigned the same expression twice, computed and destroyed: it is
still on the operand's list and the next insertion crashes. -/
theorem destroyed_computed_fails (sem : Nat → List Val → Val) (fuel : Nat) :
    run sem fuel initial [.insert 0 [0] 1, .assign 1 (0, [0]), .assign 1 (0, [0]), .evaluate 1,
      .destroy 1, .insert 0 [1] 2] = none := by
  match fuel with
  | 0 => rfl
  | 1 => rfl
  | _ + 2 => rfl

/-- A scalar that is given a new expression stays on the old operands' lists: once it is
computed and destroyed, inserting into the old operand crashes. -/
theorem destroyed_scalar_fails (sem : Nat → List Val → Val) (fuel : Nat) :
    run sem fuel initial [.insert 0 [] 1, .insert 1 [] 1, .assignScalar 2 (0, [0]),
      .assignScalar 2 (0, [1]), .evaluate 2, .destroy 2, .insert 0 [] 2] = none := by
  match fuel with
  | 0 => rfl
  | 1 => rfl
  | _ + 2 => rfl

/-- Replacing the storage of an operand: a tensor assigned before shows the new contents. -/
theorem set_storage_fails :
    ∃ v : Val, v [0] = 5 ∧ shows 12 [.insert 0 [0] 1, .pack 0, .assign 1 (0, [0]), .setStorage 0 v,
      .read 1] [0] = some [5] ∧
    shows 12 [.insert 0 [0] 1, .pack 0, .assign 1 (0, [0]), .read 1] [0] = some [1] :=
  ⟨fun _ => 5, rfl, rfl, rfl⟩

/-- `compute` does not check that `assemble` was called. -/
theorem compute_unassembled_fails (sem : Nat → List Val → Val) (fuel : Nat) :
    run sem fuel initial [.assign 1 (0, [0]), .compile 1, .compute 1] = none := by
  match fuel with
  | 0 => rfl
  | _ + 1 => rfl

end Verif.Lazy
