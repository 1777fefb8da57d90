import Verif.IR.StmtSound
/-! Removing redundant declarations. -/
namespace Verif.IR
open Verif.Types
open Verif.Scoped (SMap get remove insertScope eraseScope Scope)

variable {F : Type} {vk ak : Nat → Kind} {A : Flt F}

/-! ### Variables of simplified expressions -/

theorem fold_vars {op : AOp} {a b e' : Expr F}
    (h : ((lits a b).bind fun l => foldArith op l.1 l.2.1 l.2.2.1 l.2.2.2) = some e') : e'.vars = [] := by
  obtain ⟨l, _, h⟩ := bind_some_iff h
  unfold foldArith at h
  split at h
  · split at h
    · split at h <;> first | (cases h; rfl) | cases h
    · cases h
  · cases h

theorem reassoc_vars {op : AOp} {a b c : Expr F} {k : Kind} {d x : Int} (h : reassoc op a b = some (c, k, d, x)) :
    ∀ y ∈ c.vars, y ∈ a.vars := by
  unfold reassoc at h
  split at h
  · split at h
    · cases h
      intro y hy
      exact List.mem_append_left _ hy
    · cases h
  · cases h

theorem rules_vars {again : Expr F → Option (Expr F)}
    (hagain : ∀ x y, again x = some y → ∀ v ∈ y.vars, v ∈ x.vars) {op : AOp} {a b e' : Expr F}
    (h : (match op with
      | .add => addRules A again a b
      | .sub => subRules A a b
      | .mul => mulRules A again a b
      | .div => divRules A a b
      | op => some (.arith op a b)) = some e') : ∀ v ∈ e'.vars, v ∈ a.vars ++ b.vars := by
  have hr : ∀ {op op' : AOp} {c : Expr F} {k : Kind} {d x : Int} {l : Expr F}, reassoc op a b = some (c, k, d, x) → l.vars = [] →
      again (.arith op' c l) = some e' → ∀ v ∈ e'.vars, v ∈ a.vars ++ b.vars := by
    intro op op' c k d x l h1 h2 h3 v hv
    have := hagain _ _ h3 v hv
    simp only [Expr.vars, h2, List.append_nil] at this
    exact List.mem_append_left _ (reassoc_vars h1 v this)
  split at h
  · unfold addRules at h
    split at h
    · rename_i hf; cases h; rw [fold_vars hf]; intro v hv; cases hv
    · split at h
      · rename_i h1; exact hr h1 rfl h
      · split at h
        · rename_i h1; exact hr h1 rfl h
        · repeat' split at h
          all_goals (clear hr hagain; cases h <;> intro v hv <;> simp_all [Expr.vars])
  · unfold subRules at h
    split at h
    · rename_i hf; cases h; rw [fold_vars hf]; intro v hv; cases hv
    · repeat' split at h
      all_goals (clear hr hagain; cases h <;> intro v hv <;> simp_all [Expr.vars])
  · unfold mulRules at h
    split at h
    · rename_i hf; cases h; rw [fold_vars hf]; intro v hv; cases hv
    · split at h
      · rename_i h1; exact hr h1 rfl h
      · repeat' split at h
        all_goals (clear hr hagain; cases h <;> intro v hv <;> simp_all [Expr.vars])
  · unfold divRules at h
    repeat' split at h
    all_goals (clear hr hagain; cases h <;> intro v hv <;> simp_all [Expr.vars])
  · cases h; exact fun v hv => hv

/-- Simplification adds no variables. -/
theorem simp_vars (n : Nat) : ∀ (e e' : Expr F), simp A n e = some e' → ∀ v ∈ e'.vars, v ∈ e.vars := by
  induction n with
  | zero => intro e e' h; cases h
  | succ n ih =>
    intro e e' h
    cases e with
    | lit => cases h; exact fun v hv => hv
    | var => cases h; exact fun v hv => hv
    | arith op a b =>
      obtain ⟨a', ha', h⟩ := bind_some_iff h
      obtain ⟨b', hb', h⟩ := bind_some_iff h
      intro v hv
      rcases List.mem_append.1 (rules_vars (fun x y => ih x y) h v hv) with hv | hv
      · exact List.mem_append_left _ (ih _ _ ha' v hv)
      · exact List.mem_append_right _ (ih _ _ hb' v hv)
    | cmp op a b =>
      obtain ⟨a', ha', h⟩ := bind_some_iff h
      obtain ⟨b', hb', h⟩ := bind_some_iff h
      cases h
      intro v hv
      rcases List.mem_append.1 hv with hv | hv
      · exact List.mem_append_left _ (ih _ _ ha' v hv)
      · exact List.mem_append_right _ (ih _ _ hb' v hv)
    | neg a => obtain ⟨a', ha', rfl⟩ := Option.map_eq_some_iff.1 h; exact ih a a' ha'
    | not a => obtain ⟨a', ha', rfl⟩ := Option.map_eq_some_iff.1 h; exact ih a a' ha'
    | load k arr a => obtain ⟨a', ha', rfl⟩ := Option.map_eq_some_iff.1 h; exact ih a a' ha'
    | and a b =>
      obtain ⟨a', ha', h⟩ := bind_some_iff h
      obtain ⟨b', hb', h⟩ := bind_some_iff h
      intro v hv
      have : v ∈ a'.vars ++ b'.vars := by
        unfold andRules at h
        repeat' split at h
        all_goals (clear ih ha' hb'; cases h <;> simp_all [Expr.vars])
      rcases List.mem_append.1 this with hv | hv
      · exact List.mem_append_left _ (ih _ _ ha' v hv)
      · exact List.mem_append_right _ (ih _ _ hb' v hv)
    | or a b =>
      obtain ⟨a', ha', h⟩ := bind_some_iff h
      obtain ⟨b', hb', h⟩ := bind_some_iff h
      intro v hv
      have : v ∈ a'.vars ++ b'.vars := by
        unfold orRules at h
        repeat' split at h
        all_goals (clear ih ha' hb'; cases h <;> simp_all [Expr.vars])
      rcases List.mem_append.1 this with hv | hv
      · exact List.mem_append_left _ (ih _ _ ha' v hv)
      · exact List.mem_append_right _ (ih _ _ hb' v hv)
    | cast a k =>
      obtain ⟨a', ha', h⟩ := bind_some_iff h
      unfold castRules at h
      split at h
      · obtain ⟨r, _, rfl⟩ := Option.map_eq_some_iff.1 h
        intro v hv; cases hv
      · cases h; exact ih a a' ha'

/-- The value depends only on memory and the variables of the expression. -/
theorem eval_congr {σ τ : Env F} (hm : σ.mem = τ.mem) (e : Expr F) (h : ∀ x ∈ e.vars, σ.var x = τ.var x) : eval A σ e = eval A τ e := by
  induction e with
  | lit => rfl
  | var k x => exact h x List.mem_cons_self
  | arith op a b iha ihb =>
    simp only [eval, iha fun x hx => h x (List.mem_append_left _ hx), ihb fun x hx => h x (List.mem_append_right _ hx)]
  | cmp op a b iha ihb =>
    simp only [eval, iha fun x hx => h x (List.mem_append_left _ hx), ihb fun x hx => h x (List.mem_append_right _ hx)]
  | neg a ih => simp only [eval, ih h]
  | not a ih => simp only [eval, ih h]
  | and a b iha ihb =>
    simp only [eval, iha fun x hx => h x (List.mem_append_left _ hx), ihb fun x hx => h x (List.mem_append_right _ hx)]
  | or a b iha ihb =>
    simp only [eval, iha fun x hx => h x (List.mem_append_left _ hx), ihb fun x hx => h x (List.mem_append_right _ hx)]
  | cast a k ih => simp only [eval, ih h]
  | load k arr a ih => simp only [eval, ih h, hm]

/-! ### Simulation of loops -/

/-- Two loops whose conditions and bodies agree under a relation of states; the second may go `j` deeper. -/
theorem while_sim {R : Env F → Env F → Prop} (j : Nat) {c c' : Expr F} {b b' : Stmt F}
    (hc : ∀ σ τ v, R σ τ → eval A σ c = some v → eval A τ c' = some v)
    (hb : ∀ n σ τ σ', R σ τ → run A n b σ = some σ' → ∃ τ', run A (n + j) b' τ = some τ' ∧ R σ' τ') (n : Nat) :
    ∀ σ τ σ', R σ τ → run A n (.while c b) σ = some σ' → ∃ τ', run A (n + j) (.while c' b') τ = some τ' ∧ R σ' τ' := by
  induction n with
  | zero => intro σ τ σ' _ h; cases h
  | succ n ih =>
    intro σ τ σ' hp h
    have hrun : ∀ v, eval A τ c' = some v → run A (n + 1 + j) (.while c' b') τ = (match some v with
        | some (.b true) => (run A (n + j) b' τ).bind (run A (n + j) (.while c' b'))
        | some (.b false) => some τ
        | _ => none) := by
      intro v hv
      rw [show n + 1 + j = n + j + 1 by omega]
      show (match eval A τ c' with
        | some (.b true) => (run A (n + j) b' τ).bind (run A (n + j) (.while c' b'))
        | some (.b false) => some τ
        | _ => none) = _
      rw [hv]
    rcases run_while h with ⟨h1, σ1, h2, h3⟩ | ⟨h1, rfl⟩
    · obtain ⟨τ1, h4, h5⟩ := hb n σ τ σ1 hp h2
      obtain ⟨τ', h6, h7⟩ := ih σ1 τ1 σ' h5 h3
      refine ⟨τ', ?_, h7⟩
      rw [hrun _ (hc σ τ _ hp h1)]
      show (run A (n + j) b' τ).bind (run A (n + j) (.while c' b')) = some τ'
      rw [h4]
      exact h6
    · refine ⟨τ, ?_, hp⟩
      rw [hrun _ (hc σ' τ _ hp h1)]

/-! ### Declarations and their uses -/

/-- The declarations along copy propagation: outer scopes are unchanged, the innermost gains the declared
variables. -/
structure Decls (t : Stmt F) (s s' : CP) : Prop where
  shape : ∃ m m' ms, s.decls = m :: ms ∧ s'.decls = m' :: ms ∧ ∀ x, x ∉ t.declares → m' x = m x
  nec : ∀ id ∈ s.nec, id ∈ s'.nec

theorem Decls.get {t : Stmt F} {s s' : CP} (h : Decls t s s') {x : Nat} (hx : x ∉ t.declares) : get s'.decls x = get s.decls x := by
  obtain ⟨m, m', ms, h1, h2, h3⟩ := h.shape
  rw [h1, h2]
  simp only [Scoped.get, h3 x hx]

theorem Decls.ne {t : Stmt F} {s s' : CP} (h : Decls t s s') : s'.decls ≠ [] := by
  obtain ⟨m, m', ms, h1, h2, h3⟩ := h.shape
  rw [h2]; simp

theorem Decls.same {t : Stmt F} {s s' : CP} (hne : s.decls ≠ []) (h : s'.decls = s.decls) (hn : ∀ id ∈ s.nec, id ∈ s'.nec) : Decls t s s' := by
  obtain ⟨m, ms, hm⟩ := List.exists_cons_of_ne_nil hne
  exact ⟨⟨m, m, ms, hm, h ▸ hm, fun _ _ => rfl⟩, hn⟩

theorem Decls.pop {t : Stmt F} {s s' : CP} (h : Decls t s.push s') : s'.pop.decls = s.decls ∧ ∀ id ∈ s.nec, id ∈ s'.pop.nec := by
  obtain ⟨m, m', ms, h1, h2, h3⟩ := h.shape
  refine ⟨?_, h.nec⟩
  simp only [CP.push, List.cons.injEq] at h1
  simp [CP.pop, h2, h1.2]

theorem rewrite_decls {e e' : Expr F} {s s' : CP} (h : s.rewrite A e = some (e', s')) : s'.decls = s.decls ∧ ∀ id ∈ s.nec, id ∈ s'.nec := by
  rw [(rewrite_inv h).2]
  exact ⟨rfl, fun id hid => List.mem_append_right _ hid⟩

/-- The variables of a rewritten expression are marked as used. -/
theorem rewrite_used {e e' : Expr F} {s s' : CP} (h : s.rewrite A e = some (e', s')) :
    ∀ x ∈ e'.vars, x ∈ (e.subst s.vars).vars ∧ ∀ id, get s.decls x = some id → id ∈ s'.nec := by
  obtain ⟨h1, h2⟩ := rewrite_inv h
  intro x hx
  have hx' := simp_vars _ _ _ h1 x hx
  refine ⟨hx', fun id hid => ?_⟩
  rw [h2]
  exact List.mem_append_left _ (List.mem_filterMap.2 ⟨x, hx', hid⟩)

theorem kill_same (s : CP) (k : Kind) (x : Nat) : (s.kill k x).decls = s.decls ∧ (s.kill k x).nec = s.nec := by
  unfold CP.kill; split <;> exact ⟨rfl, rfl⟩

theorem declare_same (s : CP) (L : List Nat) (id : Nat) (k : Kind) (x : Nat) (e : Expr F) :
    (s.declare L id k x e).decls = insertTop s.decls x id ∧ (s.declare L id k x e).nec = s.nec := by
  unfold CP.declare
  simp only
  split
  · split <;> exact ⟨rfl, rfl⟩
  · exact ⟨rfl, rfl⟩

theorem cp_decls {L : List Nat} (t : Stmt F) : ∀ {t' : Stmt F} {s s' : CP}, cp A L t s = some (t', s') → s.decls ≠ [] → Decls t s s' := by
  have hpush : ∀ s : CP, s.push.decls ≠ [] := fun s => by simp [CP.push]
  induction t with
  | skip => intro t' s s' h hne; cases h; exact Decls.same hne rfl (fun _ h => h)
  | seq a b iha ihb =>
    intro t' s s' h hne
    obtain ⟨⟨a', s1⟩, h1, h⟩ := bind_some_iff h
    obtain ⟨⟨b', s2⟩, h2, h⟩ := Option.map_eq_some_iff.1 h
    cases h
    have i1 := iha h1 hne
    have i2 := ihb h2 i1.ne
    obtain ⟨m, m', ms, e1, e2, e3⟩ := i1.shape
    obtain ⟨n, n', ns, f1, f2, f3⟩ := i2.shape
    have f1' : s1.decls = n :: ns := f1
    have e2' : s1.decls = m' :: ms := e2
    rw [e2'] at f1'
    obtain ⟨rfl, rfl⟩ := List.cons.inj f1'
    refine ⟨⟨m, n', ms, e1, f2, fun x hx => ?_⟩, fun id h => i2.nec id (i1.nec id h)⟩
    rw [f3 x fun h => hx (List.mem_append_right _ h), e3 x fun h => hx (List.mem_append_left _ h)]
  | scope a ih =>
    intro t' s s' h hne
    obtain ⟨⟨a', s1⟩, h1, h⟩ := Option.map_eq_some_iff.1 h
    cases h
    have hp := (ih h1 (hpush s)).pop
    exact Decls.same hne hp.1 hp.2
  | decl id k x e =>
    intro t' s s' h hne
    obtain ⟨⟨e', s1⟩, h1, h⟩ := Option.map_eq_some_iff.1 h
    cases h
    obtain ⟨g1, g2⟩ := rewrite_decls h1
    obtain ⟨d1, d2⟩ := declare_same s1 L id k x e'
    obtain ⟨m, ms, hm⟩ := List.exists_cons_of_ne_nil hne
    refine ⟨⟨m, insertScope m x id, ms, hm, ?_, fun z hz => ?_⟩, fun i hi => ?_⟩
    · show (s1.declare L id k x e').decls = _
      rw [d1, g1, hm]; rfl
    · simp only [Stmt.declares, List.mem_singleton] at hz
      unfold insertScope
      rw [if_neg hz]
    · show i ∈ (s1.declare L id k x e').nec
      rw [d2]; exact g2 i hi
  | assign k x e =>
    intro t' s s' h hne
    obtain ⟨⟨e', s1⟩, h1, h⟩ := Option.map_eq_some_iff.1 h
    cases h
    obtain ⟨g1, g2⟩ := rewrite_decls h1
    obtain ⟨d1, d2⟩ := kill_same (s1.use [x]) k x
    refine Decls.same hne ?_ fun i hi => ?_
    · show ((s1.use [x]).kill k x).decls = _
      rw [d1]; exact g1
    · show i ∈ ((s1.use [x]).kill k x).nec
      rw [d2]; exact List.mem_append_right _ (g2 i hi)
  | store k arr loc e =>
    intro t' s s' h hne
    obtain ⟨⟨l', s1⟩, h1, h⟩ := bind_some_iff h
    obtain ⟨⟨e', s2⟩, h2, h⟩ := Option.map_eq_some_iff.1 h
    cases h
    obtain ⟨g1, g2⟩ := rewrite_decls h1
    obtain ⟨g3, g4⟩ := rewrite_decls h2
    exact Decls.same hne (g3.trans g1) fun i hi => g4 i (g2 i hi)
  | ite c a b iha ihb =>
    intro t' s s' h hne
    obtain ⟨⟨c', s1⟩, h1, h⟩ := bind_some_iff h
    obtain ⟨⟨a', s2⟩, h2, h⟩ := bind_some_iff h
    obtain ⟨⟨b', s3⟩, h3, h⟩ := Option.map_eq_some_iff.1 h
    cases h
    obtain ⟨g1, g2⟩ := rewrite_decls h1
    have p1 := (iha h2 (hpush s1)).pop
    have p2 := (ihb h3 (hpush s2.pop)).pop
    exact Decls.same hne (p2.1.trans (p1.1.trans g1)) fun i hi => p2.2 i (p1.2 i (g2 i hi))
  | loop k x st e i b ih =>
    intro t' s s' h hne
    obtain ⟨⟨e1, s1⟩, h1, h⟩ := bind_some_iff h
    obtain ⟨⟨e2, s2⟩, h2, h⟩ := bind_some_iff h
    obtain ⟨⟨e3, s3⟩, h3, h⟩ := bind_some_iff h
    obtain ⟨⟨b', s4⟩, h4, h⟩ := Option.map_eq_some_iff.1 h
    cases h
    obtain ⟨g1, k1⟩ := rewrite_decls h1
    obtain ⟨g2, k2⟩ := rewrite_decls h2
    obtain ⟨g3, k3⟩ := rewrite_decls h3
    have p1 := (ih h4 (hpush s3)).pop
    exact Decls.same hne (p1.1.trans (g3.trans (g2.trans g1))) fun i hi => p1.2 i (k3 i (k2 i (k1 i hi)))
  | «while» c b ih =>
    intro t' s s' h hne
    obtain ⟨⟨e1, s1⟩, h1, h⟩ := bind_some_iff h
    obtain ⟨⟨b', s4⟩, h4, h⟩ := Option.map_eq_some_iff.1 h
    cases h
    obtain ⟨g1, k1⟩ := rewrite_decls h1
    have p1 := (ih h4 (hpush s1)).pop
    exact Decls.same hne (p1.1.trans g1) fun i hi => p1.2 i (k1 i hi)

/-! ### Pruning -/

/-- The declaration of `x` is kept. -/
def Kept (s : CP) (N : List Nat) (x : Nat) : Prop := ∀ id, get s.decls x = some id → id ∈ N

/-- The states agree on memory and the kept variables in `V`. -/
structure Agree (s : CP) (N V : List Nat) (σ τ : Env F) : Prop where
  mem : σ.mem = τ.mem
  var : ∀ x ∈ V, Kept s N x → σ.var x = τ.var x

section
variable {L : List Nat} {V N : List Nat} {C : List (Nat × Nat)} {lvl : Nat} {d : Nat → Option Nat} {s s' : CP}

theorem Agree.congr {σ τ : Env F} (h : Agree s N V σ τ) (hd : s'.decls = s.decls) : Agree s' N V σ τ :=
  ⟨h.mem, fun x hx hk => h.var x hx (fun id hid => hk id (hd ▸ hid))⟩

/-- Leaving a scope. -/
theorem Agree.leave {t : Stmt F} {V' : List Nat} {σ τ : Env F} (h : Agree s' N (t.declares ++ V') σ τ) (hd : Decls t s.push s')
    (hV : ∀ x ∈ V, x ∈ V') (hf : ∀ x ∈ V, x ∉ t.declares) : Agree s'.pop N V σ τ :=
  ⟨h.mem, fun x hx hk => h.var x (List.mem_append_right _ (hV x hx)) fun id hid => hk id (by
    rw [hd.pop.1]
    rw [hd.get (hf x hx)] at hid
    exact hid)⟩

/-- A rewritten expression reads only visible, kept variables. -/
theorem rewrite_reads {e e' : Expr F} (hs : Static vk L V C lvl d s) (h : s.rewrite A e = some (e', s')) (hw : ∀ x ∈ e.vars, x ∈ V)
    (hN : ∀ id ∈ s'.nec, id ∈ N) : ∀ x ∈ e'.vars, x ∈ V ∧ Kept s N x := by
  intro x hx
  obtain ⟨h1, h2⟩ := rewrite_used h x hx
  refine ⟨?_, fun id hid => hN id (h2 id hid)⟩
  have : ∀ (e : Expr F), (∀ x ∈ e.vars, x ∈ V) → ∀ x ∈ (e.subst s.vars).vars, x ∈ V := by
    intro e
    induction e with
    | lit => intro _ x hx; cases hx
    | var k y =>
      intro hw x hx
      simp only [Expr.subst] at hx
      cases hg : get s.vars y with
      | none =>
        rw [hg] at hx
        exact hw x hx
      | some p =>
        obtain ⟨k', z⟩ := p
        rw [hg] at hx
        simp only [Expr.vars, List.mem_singleton] at hx
        exact hx ▸ (hs.entry y k' z hg).2.1
    | arith _ a b iha ihb =>
      intro hw x hx
      rcases List.mem_append.1 hx with hx | hx
      · exact iha (fun x hx => hw x (List.mem_append_left _ hx)) x hx
      · exact ihb (fun x hx => hw x (List.mem_append_right _ hx)) x hx
    | cmp _ a b iha ihb =>
      intro hw x hx
      rcases List.mem_append.1 hx with hx | hx
      · exact iha (fun x hx => hw x (List.mem_append_left _ hx)) x hx
      · exact ihb (fun x hx => hw x (List.mem_append_right _ hx)) x hx
    | and a b iha ihb =>
      intro hw x hx
      rcases List.mem_append.1 hx with hx | hx
      · exact iha (fun x hx => hw x (List.mem_append_left _ hx)) x hx
      · exact ihb (fun x hx => hw x (List.mem_append_right _ hx)) x hx
    | or a b iha ihb =>
      intro hw x hx
      rcases List.mem_append.1 hx with hx | hx
      · exact iha (fun x hx => hw x (List.mem_append_left _ hx)) x hx
      · exact ihb (fun x hx => hw x (List.mem_append_right _ hx)) x hx
    | neg a ih => exact ih
    | not a ih => exact ih
    | cast a k ih => exact ih
    | load k arr a ih => exact ih
  exact this e hw x h1

theorem Agree.eval {e : Expr F} {σ τ : Env F} (h : Agree s N V σ τ) (hr : ∀ x ∈ e.vars, x ∈ V ∧ Kept s N x) : eval A σ e = eval A τ e :=
  eval_congr h.mem e fun x hx => h.var x (hr x hx).1 (hr x hx).2

theorem Agree.evalTo {e : Expr F} {k : Kind} {σ τ : Env F} (h : Agree s N V σ τ) (hr : ∀ x ∈ e.vars, x ∈ V ∧ Kept s N x) :
    evalTo A σ e k = evalTo A τ e k :=
  eval_congr h.mem (.cast e k) fun x hx => h.var x (hr x hx).1 (hr x hx).2

theorem Agree.set {σ τ : Env F} (h : Agree s N V σ τ) (x : Nat) (v : Val F) : Agree s N V (σ.set x v) (τ.set x v) :=
  ⟨h.mem, fun y hy hk => by
    simp only [Env.set]
    split
    · rfl
    · exact h.var y hy hk⟩

/-- After a declaration that is kept or removed. -/
theorem Agree.declare {id x : Nat} {k : Kind} {e : Expr F} {σ τ : Env F} {v : Val F} (h : Agree s N V σ τ) (hx : x ∉ V)
    (hne : s.decls ≠ []) (hD : ∀ y id, get s.decls y = some id → y ∈ V) :
    Agree (s.declare L id k x e) N (x :: V) (σ.set x v) (if id ∈ N then τ.set x v else τ) := by
  obtain ⟨d1, _⟩ := declare_same s L id k x e
  have hxn : get s.decls x = none := by
    cases hg : get s.decls x with
    | none => rfl
    | some i => exact absurd (hD x i hg) hx
  obtain ⟨m, ms, hm⟩ := List.exists_cons_of_ne_nil hne
  have hmx : m x = none := by
    rw [hm] at hxn
    simp only [Scoped.get] at hxn
    cases hg : m x with
    | none => rfl
    | some i => rw [hg] at hxn; cases hxn
  have hnew : get (s.declare L id k x e).decls x = some id := by
    rw [d1, hm]
    simp only [insertTop, Scoped.get, insertScope, hmx, if_true]
  have hold : ∀ y, y ≠ x → get (s.declare L id k x e).decls y = get s.decls y := by
    intro y hy
    rw [d1, hm]
    simp only [insertTop, Scoped.get, insertScope, hmx, if_neg hy]
  constructor
  · show σ.mem = _
    split <;> exact h.mem
  · intro y hy hk
    by_cases hyx : y = x
    · subst hyx
      rw [if_pos (hk id hnew)]
      simp [Env.set]
    · have hyV : y ∈ V := (List.mem_cons.1 hy).resolve_left hyx
      have := h.var y hyV fun i hi => hk i (by rw [hold y hyx]; exact hi)
      simp only [Env.set, if_neg hyx, this]
      split
      · simp only [Env.set, if_neg hyx]
      · rfl

/-- What is known of the declarations: they are of visible variables. -/
structure DeclOK (V : List Nat) (s : CP) : Prop where
  ne : s.decls ≠ []
  vis : ∀ x id, get s.decls x = some id → x ∈ V

theorem DeclOK.push (h : DeclOK V s) : DeclOK V s.push := ⟨by simp [CP.push], h.vis⟩

theorem DeclOK.congr (h : DeclOK V s) (hd : s'.decls = s.decls) : DeclOK V s' := ⟨hd ▸ h.ne, hd ▸ h.vis⟩

theorem DeclOK.mono {V' : List Nat} (h : DeclOK V s) (hV : ∀ x ∈ V, x ∈ V') : DeclOK V' s := ⟨h.ne, fun x id hx => hV x (h.vis x id hx)⟩

theorem DeclOK.step {t : Stmt F} (h : DeclOK V s) (hd : Decls t s s') : DeclOK (t.declares ++ V) s' := by
  refine ⟨hd.ne, fun x id hx => ?_⟩
  by_cases hxt : x ∈ t.declares
  · exact List.mem_append_left _ hxt
  · rw [hd.get hxt] at hx
    exact List.mem_append_right _ (h.vis x id hx)

/-- Removing the declarations that are not used. -/
theorem prune_sound {lv : Nat → Nat} (hA : FltLaws A) (t : Stmt F) : ∀ {t' : Stmt F} {s s' : CP} {V : List Nat} {C : List (Nat × Nat)} {lvl : Nat}
    (r : (Nat → Option Nat) × List Nat) (n : Nat) (σ τ σ' : Env F),
    cp A L t s = some (t', s') → WS V t → WTS vk ak t → Static vk L V C lvl r.1 s → Levels lv lvl t →
    (∀ x l, r.1 x = some l → l = lv x) → DeclOK V s → (∀ id ∈ s'.nec, id ∈ N) → Agree s N V σ τ →
    run A n t' σ = some σ' → ∃ τ', run A n (prune N t') τ = some τ' ∧ Agree s' N (t.declares ++ V) σ' τ' := by
  induction t with
  | skip =>
    intro t' s s' V C lvl r n σ τ σ' h hw ht hs hl hd hD hN ha hrun
    cases h
    cases n with
    | zero => cases hrun
    | succ n => cases hrun; exact ⟨τ, rfl, ha⟩
  | seq a b iha ihb =>
    intro t' s s' V C lvl r n σ τ σ' h hw ht hs hl hd hD hN ha hrun
    obtain ⟨⟨a', s1⟩, h1, h⟩ := bind_some_iff h
    obtain ⟨⟨b', s2⟩, h2, h⟩ := Option.map_eq_some_iff.1 h
    cases h
    cases n with
    | zero => cases hrun
    | succ n =>
      obtain ⟨σ1, r1, r2⟩ := bind_some_iff hrun
      obtain ⟨i1, i2⟩ := cp_static hA a r h1 hw.1 ht.1 hs hl.1 hd
      have d1 := cp_decls a h1 hD.ne
      have d2 := cp_decls b h2 d1.ne
      obtain ⟨τ1, q1, q2⟩ := iha r n σ τ σ1 h1 hw.1 ht.1 hs hl.1 hd hD (fun id hid => hN id (d2.nec id hid)) ha r1
      obtain ⟨τ', q3, q4⟩ := ihb (ana lvl a r) n σ1 τ1 σ' h2 hw.2 ht.2 i1 hl.2 (ana_levels lvl a r hl.1 hd) (hD.step d1) hN q2 r2
      refine ⟨τ', ?_, q4.mem, fun x hx hk => q4.var x ?_ hk⟩
      · show (run A n (prune N a') τ).bind _ = _
        rw [q1]; exact q3
      · simp only [Stmt.declares, List.mem_append] at hx ⊢
        rcases hx with (h | h) | h
        · exact Or.inr (Or.inl h)
        · exact Or.inl h
        · exact Or.inr (Or.inr h)
  | scope a ih =>
    intro t' s s' V C lvl r n σ τ σ' h hw ht hs hl hd hD hN ha hrun
    obtain ⟨⟨a', s1⟩, h1, h⟩ := Option.map_eq_some_iff.1 h
    cases h
    cases n with
    | zero => cases hrun
    | succ n =>
      have d1 := cp_decls a h1 hD.push.ne
      obtain ⟨τ', q1, q2⟩ := ih r n σ τ σ' h1 hw ht hs.push hl hd hD.push hN ⟨ha.mem, ha.var⟩ hrun
      exact ⟨τ', q1, q2.leave d1 (fun _ h => h) (fun x hx h => hw.fresh x hx (declares_decls a x h))⟩
  | decl id k x e =>
    intro t' s s' V C lvl r n σ τ σ' h hw ht hs hl hd hD hN ha hrun
    obtain ⟨⟨e', s1⟩, h1, h⟩ := Option.map_eq_some_iff.1 h
    cases h
    cases n with
    | zero => cases hrun
    | succ n =>
      obtain ⟨v, hv, rfl⟩ := Option.map_eq_some_iff.1 hrun
      obtain ⟨g1, g2⟩ := rewrite_decls h1
      have hreads := rewrite_reads (N := N) hs h1 hw.2 (fun i hi => hN i (by
        show i ∈ (s1.declare L id k x e').nec
        rw [(declare_same s1 L id k x e').2]; exact hi))
      have ha1 : Agree s1 N V σ τ := ha.congr g1
      refine ⟨if id ∈ N then τ.set x v else τ, ?_, ?_⟩
      · show run A (n + 1) (if id ∈ N then .decl id k x e' else .skip) τ = _
        split
        · show (evalTo A τ e' k).map (τ.set x) = _
          rw [← ha.evalTo hreads]
          replace hv : evalTo A σ e' k = some v := hv
          rw [hv]; rfl
        · rfl
      · exact ha1.declare hw.1 (g1 ▸ hD.ne) (g1 ▸ hD.vis)
  | assign k x e =>
    intro t' s s' V C lvl r n σ τ σ' h hw ht hs hl hd hD hN ha hrun
    obtain ⟨⟨e', s1⟩, h1, h⟩ := Option.map_eq_some_iff.1 h
    cases h
    cases n with
    | zero => cases hrun
    | succ n =>
      obtain ⟨v, hv, rfl⟩ := Option.map_eq_some_iff.1 hrun
      replace hv : evalTo A σ e' k = some v := hv
      obtain ⟨g1, g2⟩ := rewrite_decls h1
      obtain ⟨d1, d2⟩ := kill_same (s1.use [x]) k x
      have hreads := rewrite_reads (N := N) hs h1 hw.2 (fun i hi => hN i (by
        show i ∈ ((s1.use [x]).kill k x).nec
        rw [d2]; exact List.mem_append_right _ hi))
      refine ⟨τ.set x v, ?_, ?_⟩
      · show (evalTo A τ e' k).map (τ.set x) = _
        rw [← ha.evalTo hreads, hv]; rfl
      · exact (ha.set x v).congr (by
          show ((s1.use [x]).kill k x).decls = _
          rw [d1]; exact g1)
  | store k arr loc e =>
    intro t' s s' V C lvl r n σ τ σ' h hw ht hs hl hd hD hN ha hrun
    obtain ⟨⟨l', s1⟩, h1, h⟩ := bind_some_iff h
    obtain ⟨⟨e', s2⟩, h2, h⟩ := Option.map_eq_some_iff.1 h
    cases h
    cases n with
    | zero => cases hrun
    | succ n =>
      obtain ⟨p, v, hp, hv, rfl⟩ := run_store hrun
      obtain ⟨g1, k1⟩ := rewrite_decls h1
      obtain ⟨g2, k2⟩ := rewrite_decls h2
      have hr1 := rewrite_reads (N := N) hs h1 hw.1 (fun i hi => hN i (k2 i hi))
      have hr2 := rewrite_reads (N := N) (hs.rewrite h1) h2 hw.2 hN
      have ha1 : Agree s1 N V σ τ := ha.congr g1
      have ha2 : Agree s2 N V σ τ := ha1.congr g2
      refine ⟨τ.write arr p v, ?_, ?_⟩
      · show (match eval A τ l' with
          | some (.i p) => (evalTo A τ e' k).map (τ.write arr p)
          | _ => none) = _
        rw [← ha.eval hr1, hp]
        show (evalTo A τ e' k).map (τ.write arr p) = _
        rw [← ha1.evalTo hr2, hv]; rfl
      · refine ⟨?_, fun x hx hk => ha2.var x hx hk⟩
        simp only [Env.write, ha.mem]
  | ite c a b iha ihb =>
    intro t' s s' V C lvl r n σ τ σ' h hw ht hs hl hd hD hN ha hrun
    obtain ⟨⟨c', s1⟩, h1, h⟩ := bind_some_iff h
    obtain ⟨⟨a', s2⟩, h2, h⟩ := bind_some_iff h
    obtain ⟨⟨b', s3⟩, h3, h⟩ := Option.map_eq_some_iff.1 h
    cases h
    cases n with
    | zero => cases hrun
    | succ n =>
      obtain ⟨g1, k1⟩ := rewrite_decls h1
      have hs1 := hs.rewrite h1
      have hD1 : DeclOK V s1 := hD.congr g1
      have d2 := cp_decls a h2 hD1.push.ne
      obtain ⟨i1, i2⟩ := cp_static hA a r h2 hw.2.1 ht.2.1 hs1.push hl.1 hd
      have hp := Step.pop hs1 i1 i2 (fun x hx hd => hw.2.1.fresh x hx (declares_decls a x hd))
      have hs2 := (hs1.mono (fun _ h => h) (fun _ h => h) (Nat.le_refl _) (ana_mono lvl a r).1).sub hp.1 hp.2.1
      have hD2 : DeclOK V s2.pop := hD1.congr d2.pop.1
      have d3 := cp_decls b h3 hD2.push.ne
      have hN2 : ∀ id ∈ s2.nec, id ∈ N := fun id hid => hN id (d3.pop.2 id hid)
      have hr1 := rewrite_reads (N := N) hs h1 hw.1 (fun i hi => hN2 i (d2.pop.2 i hi))
      have ha1 : Agree s1 N V σ τ := ha.congr g1
      have hdd : s3.pop.decls = s2.pop.decls := d3.pop.1
      rcases run_ite hrun with ⟨hc, hr⟩ | ⟨hc, hr⟩
      · obtain ⟨τ', q1, q2⟩ := iha r n σ τ σ' h2 hw.2.1 ht.2.1 hs1.push hl.1 hd hD1.push hN2 ⟨ha1.mem, ha1.var⟩ hr
        refine ⟨τ', ?_, ?_⟩
        · show (match eval A τ c' with
            | some (.b true) => run A n (prune N a') τ
            | some (.b false) => run A n (prune N b') τ
            | _ => none) = _
          rw [← ha.eval hr1, hc]; exact q1
        · exact (q2.leave d2 (fun _ h => h) (fun x hx h => hw.2.1.fresh x hx (declares_decls a x h))).congr hdd
      · have ha2 : Agree s2.pop N V σ τ := ha1.congr d2.pop.1
        obtain ⟨τ', q1, q2⟩ := ihb (ana lvl a r) n σ τ σ' h3 hw.2.2 ht.2.2 hs2.push hl.2 (ana_levels lvl a r hl.1 hd) hD2.push hN
          ⟨ha2.mem, ha2.var⟩ hr
        refine ⟨τ', ?_, ?_⟩
        · show (match eval A τ c' with
            | some (.b true) => run A n (prune N a') τ
            | some (.b false) => run A n (prune N b') τ
            | _ => none) = _
          rw [← ha.eval hr1, hc]; exact q1
        · exact q2.leave d3 (fun _ h => h) (fun x hx h => hw.2.2.fresh x hx (declares_decls b x h))
  | «while» c b ih =>
    intro t' s s' V C lvl r n σ τ σ' h hw ht hs hl hd hD hN ha hrun
    obtain ⟨⟨c', s1⟩, h1, h⟩ := bind_some_iff h
    obtain ⟨⟨b', s4⟩, h4, h⟩ := Option.map_eq_some_iff.1 h
    cases h
    obtain ⟨g1, k1⟩ := rewrite_decls h1
    have hs1 := hs.rewrite h1
    have hD1 : DeclOK V s1 := hD.congr g1
    have d2 := cp_decls b h4 hD1.push.ne
    have hs1' := hs1.mono (fun _ h => h) (fun _ h => h) (Nat.le_succ lvl) (fun _ _ h => h)
    have hr1 := rewrite_reads (N := N) hs h1 hw.1 (fun i hi => hN i (d2.pop.2 i hi))
    obtain ⟨τ', q1, q2⟩ := while_sim (A := A) (R := Agree s1 N V) 0 (c := c') (c' := c') (b := b') (b' := prune N b')
      (by
        intro σ τ v ha hv
        have ha' : Agree s N V σ τ := ha.congr g1.symm
        rw [← ha'.eval hr1]; exact hv)
      (by
        intro n σ τ σ' ha hr
        obtain ⟨τ', q1, q2⟩ := ih r n σ τ σ' h4 hw.2 ht.2 hs1'.push hl hd hD1.push hN ⟨ha.mem, ha.var⟩ hr
        exact ⟨τ', q1, (q2.leave d2 (fun _ h => h) (fun x hx h => hw.2.fresh x hx (declares_decls b x h))).congr d2.pop.1.symm⟩)
      n σ τ σ' (ha.congr g1) hrun
    exact ⟨τ', q1, q2.congr d2.pop.1⟩
  | loop k x st e i b ih =>
    intro t' s s' V C lvl r n σ τ σ' h hw ht hs hl hd hD hN ha hrun
    obtain ⟨⟨e1, s1⟩, h1, h⟩ := bind_some_iff h
    obtain ⟨⟨e2, s2⟩, h2, h⟩ := bind_some_iff h
    obtain ⟨⟨e3, s3⟩, h3, h⟩ := bind_some_iff h
    obtain ⟨⟨b', s4⟩, h4, h⟩ := Option.map_eq_some_iff.1 h
    cases h
    obtain ⟨hk, hki, ht1, ht2, ht3, ht4⟩ := ht
    obtain ⟨g1, k1⟩ := rewrite_decls h1
    obtain ⟨g2, k2⟩ := rewrite_decls h2
    obtain ⟨g3, k3⟩ := rewrite_decls h3
    have hs1 := hs.rewrite h1
    have hs2 := hs1.rewrite h2
    have hs3 := hs2.rewrite h3
    have hdd : s3.decls = s.decls := g3.trans (g2.trans g1)
    have hD3 : DeclOK V s3 := hD.congr hdd
    have d4 := cp_decls b h4 hD3.push.ne
    have hN3 : ∀ id ∈ s3.nec, id ∈ N := fun id hid => hN id (d4.pop.2 id hid)
    have hs3' := hs3.mono (V' := x :: V) (fun _ h => List.mem_cons_of_mem _ h) (fun _ h => h) (Nat.le_succ lvl) (fun _ _ h => h)
    have hkept : ∀ {s'' : CP}, s''.decls = s.decls → ∀ {e' : Expr F}, (∀ z ∈ e'.vars, z ∈ V ∧ Kept s'' N z) →
        ∀ z ∈ e'.vars, z ∈ x :: V ∧ Kept s3 N z := fun hh _ h z hz =>
      ⟨List.mem_cons_of_mem _ (h z hz).1, fun id hid => (h z hz).2 id (by rw [hh, ← hdd]; exact hid)⟩
    have hr1 := rewrite_reads (N := N) hs h1 (fun z hz => hw.2.1 z (List.mem_append_left _ hz)) (fun i hi => hN3 i (k3 i (k2 i hi)))
    have hr2 := hkept g1 (rewrite_reads (N := N) hs1 h2
      (fun z hz => hw.2.1 z (List.mem_append_right _ (List.mem_append_left _ hz))) (fun i hi => hN3 i (k3 i hi)))
    have hr3 := hkept (g2.trans g1) (rewrite_reads (N := N) hs2 h3
      (fun z hz => hw.2.1 z (List.mem_append_right _ (List.mem_append_right _ hz))) hN3)
    have hxk : Kept s3 N x := fun id hid => absurd (hD3.vis x id hid) hw.1
    cases n with
    | zero => cases hrun
    | succ n =>
    cases n with
    | zero => cases hrun
    | succ n =>
      obtain ⟨σ0, r0, r1⟩ := bind_some_iff hrun
      cases n with
      | zero => cases r0
      | succ n =>
      obtain ⟨v0, hv0, rfl⟩ := Option.map_eq_some_iff.1 r0
      have r0' : run A (n + 1) (.assign k x e1) τ = some (τ.set x v0) := by
        show (evalTo A τ e1 k).map (τ.set x) = _
        rw [← ha.evalTo hr1, hv0]; rfl
      have ha0 : Agree s3 N (x :: V) (σ.set x v0) (τ.set x v0) := by
        refine ⟨ha.mem, fun y hy hkp => ?_⟩
        simp only [Env.set]
        split
        · rfl
        · rename_i hne
          exact ha.var y ((List.mem_cons.1 hy).resolve_left hne) fun id hid => hkp id (hdd ▸ hid)
      have hxv : ∀ z ∈ (Expr.var (F := F) k x).vars, z ∈ x :: V ∧ Kept s3 N z := by
        intro z hz
        simp only [Expr.vars, List.mem_singleton] at hz
        subst hz
        exact ⟨List.mem_cons_self, hxk⟩
      obtain ⟨τ', q1, q2⟩ := while_sim (A := A) (R := Agree s3 N (x :: V)) 0
        (c := .cmp .lt (.var k x) e2) (c' := .cmp .lt (.var k x) e2) (b := .seq b' (.assign k x (.arith .add (.var k x) e3)))
        (b' := .seq (prune N b') (.assign k x (.arith .add (.var k x) e3)))
        (by
          intro σ τ v ha hv
          rw [← ha.eval (fun z hz => (List.mem_append.1 hz).elim (hxv z) (hr2 z))]
          exact hv)
        (by
          intro n σ τ σ' ha hr
          cases n with
          | zero => cases hr
          | succ n =>
          obtain ⟨σ1, hr1, hr2⟩ := bind_some_iff hr
          obtain ⟨τ1, q1, q2⟩ := ih (r.1, x :: r.2) n σ τ σ1 h4 hw.2.2 ht4 hs3'.push hl hd
            (hD3.push.mono fun _ h => List.mem_cons_of_mem _ h) hN ⟨ha.mem, ha.var⟩ hr1
          have ha1 : Agree s3 N (x :: V) σ1 τ1 :=
            (q2.leave (V := x :: V) d4 (fun _ h => h) (fun x hx h => hw.2.2.fresh x hx (declares_decls b x h))).congr d4.pop.1.symm
          cases n with
          | zero => cases hr2
          | succ n =>
          obtain ⟨v, hv, rfl⟩ := Option.map_eq_some_iff.1 hr2
          refine ⟨τ1.set x v, ?_, ha1.set x v⟩
          show (run A (n + 1) (prune N b') τ).bind _ = _
          rw [q1]
          show (evalTo A τ1 _ k).map (τ1.set x) = _
          rw [← ha1.evalTo (fun z hz => (List.mem_append.1 hz).elim (hxv z) (hr3 z)), hv]; rfl)
        (n + 1) (σ.set x v0) (τ.set x v0) σ' ha0 r1
      refine ⟨τ', ?_, ?_⟩
      · show (run A (n + 1) (.assign k x e1) τ).bind _ = _
        rw [r0']; exact q1
      · exact ⟨q2.mem, fun y hy hkp => q2.var y (List.mem_cons_of_mem _ hy) fun id hid => hkp id (by
          show get s4.pop.decls y = _
          rw [d4.pop.1]; exact hid)⟩

end

end Verif.IR
