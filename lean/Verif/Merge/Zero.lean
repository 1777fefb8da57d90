import Verif.Merge.Expr
/-! Lemmas about the zero rewriter. -/
namespace Verif.Merge
namespace Expr
variable {V : Type}

/-- Replacing zero accesses by the undefined expression does not change the value. -/
theorem evalOpt_zeroOut (o : Ops V) (ho : ZeroLaws o) (val : Nat → V) (z : Nat → Bool) (e : Expr V)
    (hz : ∀ k ∈ e.leaves, z k = true → val k = o.zero) :
    evalOpt o val (e.zeroOut z) = e.eval o val := by
  induction e with
  | acc k =>
    simp only [zeroOut]
    split
    · rename_i h; simp [evalOpt, eval, hz k (by simp [leaves]) h]
    · rfl
  | lit v => rfl
  | un u a ih =>
    have ih := ih (fun k hk => hz k (by simpa [leaves] using hk))
    simp only [zeroOut]
    cases h : a.zeroOut z with
    | none => rw [h] at ih; simp only [evalOpt] at ih; simp [evalOpt, eval, ← ih, ho.un_zero]
    | some a' => rw [h] at ih; simp only [evalOpt] at ih; simp [evalOpt, eval, ← ih]
  | bin b l r ihl ihr =>
    have ihl := ihl (fun k hk => hz k (by simp [leaves, hk]))
    have ihr := ihr (fun k hk => hz k (by simp [leaves, hk]))
    cases b <;> simp only [zeroOut] <;> cases hl : l.zeroOut z <;> cases hr : r.zeroOut z <;>
      rw [hl] at ihl <;> rw [hr] at ihr <;> simp only [evalOpt] at ihl ihr <;>
      simp [evalOpt, eval, ← ihl, ← ihr, ho.zero_add, ho.add_zero, ho.zero_sub, ho.sub_zero,
        ho.zero_mul, ho.mul_zero, ho.zero_div, ho.div_zero, ho.un_zero]

/-- The rewriter only looks at the accesses of the expression. -/
theorem zeroOut_congr {z z' : Nat → Bool} {e : Expr V} (h : ∀ k ∈ e.leaves, z k = z' k) :
    e.zeroOut z = e.zeroOut z' := by
  induction e with
  | acc k => simp only [zeroOut]; rw [h k (by simp [leaves])]
  | lit v => rfl
  | un u a ih => simp only [zeroOut]; rw [ih (fun k hk => h k (by simpa [leaves] using hk))]
  | bin b l r ihl ihr =>
    have e1 := ihl (fun k hk => h k (by simp [leaves, hk]))
    have e2 := ihr (fun k hk => h k (by simp [leaves, hk]))
    cases b <;> simp only [zeroOut] <;> rw [e1, e2]

/-- Nothing zeroed: the expression is returned unchanged. -/
theorem zeroOut_none {z : Nat → Bool} {e : Expr V} (h : ∀ k ∈ e.leaves, z k = false) :
    e.zeroOut z = some e := by
  induction e with
  | acc k => simp [zeroOut, h k (by simp [leaves])]
  | lit v => rfl
  | un u a ih => simp only [zeroOut]; rw [ih (fun k hk => h k (by simpa [leaves] using hk))]
  | bin b l r ihl ihr =>
    have e1 := ihl (fun k hk => h k (by simp [leaves, hk]))
    have e2 := ihr (fun k hk => h k (by simp [leaves, hk]))
    cases b <;> simp only [zeroOut] <;> rw [e1, e2]

/-- Zeroing in two steps is zeroing the union. -/
theorem zeroOutOpt_zeroOut (z z' : Nat → Bool) (e : Expr V) :
    zeroOutOpt z' (e.zeroOut z) = e.zeroOut (fun k => z k || z' k) := by
  induction e with
  | acc k =>
    simp only [zeroOut]
    by_cases h : z k = true <;> simp [h, zeroOutOpt, zeroOut]
  | lit v => rfl
  | un u a ih =>
    simp only [zeroOut]
    rw [← ih]
    cases a.zeroOut z <;> simp [zeroOutOpt, zeroOut]
  | bin b l r ihl ihr =>
    cases b <;> simp only [zeroOut] <;> rw [← ihl, ← ihr] <;>
      cases l.zeroOut z <;> cases r.zeroOut z <;> simp only [zeroOutOpt, zeroOut]
    all_goals
      first
        | rfl
        | (split <;> simp_all)

/-- The accesses of the rewritten expression are accesses of the original that are not zeroed. -/
theorem leaves_zeroOut {z : Nat → Bool} {e e' : Expr V} (h : e.zeroOut z = some e') :
    ∀ k ∈ e'.leaves, k ∈ e.leaves ∧ z k = false := by
  induction e generalizing e' with
  | acc k =>
    simp only [zeroOut] at h
    split at h
    · cases h
    · rename_i hz
      cases h
      intro j hj
      simp only [leaves, List.mem_singleton] at hj ⊢
      subst hj; exact ⟨rfl, by simpa using hz⟩
  | lit v => simp only [zeroOut, Option.some.injEq] at h; subst h; simp [leaves]
  | un u a ih =>
    simp only [zeroOut] at h
    cases ha : a.zeroOut z with
    | none => rw [ha] at h; cases h
    | some a' => rw [ha] at h; cases h; simpa [leaves] using ih ha
  | bin b l r ihl ihr =>
    intro k hk
    simp only [leaves, List.mem_append]
    cases b <;> simp only [zeroOut] at h <;> cases hl : l.zeroOut z <;> cases hr : r.zeroOut z <;>
      rw [hl, hr] at h <;> simp only [Option.some.injEq, reduceCtorEq] at h <;> subst h <;>
      try simp only [leaves, List.mem_append] at hk
    all_goals
      first
        | (rcases hk with hk | hk
           · exact ⟨Or.inl (ihl hl k hk).1, (ihl hl k hk).2⟩
           · exact ⟨Or.inr (ihr hr k hk).1, (ihr hr k hk).2⟩)
        | exact ⟨Or.inl (ihl hl k hk).1, (ihl hl k hk).2⟩
        | exact ⟨Or.inr (ihr hr k hk).1, (ihr hr k hk).2⟩

end Expr
end Verif.Merge
