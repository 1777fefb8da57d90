import Verif.IR.StmtStatic
import Verif.IR.Progress
/-! Copy propagation: the map of copies along a program. -/
namespace Verif.IR
open Verif.Types
open Verif.Scoped (SMap get remove insertScope eraseScope Scope)

variable {F : Type}

/-! ### Which variable a simplified expression can be -/

theorem fold_copy {op : AOp} {a b e' : Expr F}
    (h : ((lits a b).bind fun l => foldArith op l.1 l.2.1 l.2.2.1 l.2.2.2) = some e') : e'.mayCopy = [] := by
  obtain ⟨l, _, h⟩ := bind_some_iff h
  unfold foldArith at h
  split at h
  · split at h
    · split at h <;> first | (cases h; rfl) | cases h
    · cases h
  · cases h

theorem reassoc_copy {op : AOp} {a b c : Expr F} {k : Kind} {d x : Int} (h : reassoc op a b = some (c, k, d, x)) :
    ∀ y ∈ c.mayCopy, y ∈ a.mayCopy := by
  unfold reassoc at h
  split at h
  · split at h
    · cases h
      intro y hy
      exact List.mem_append_left _ hy
    · cases h
  · cases h

theorem rules_copy {A : Flt F} {again : Expr F → Option (Expr F)}
    (hagain : ∀ x y, again x = some y → ∀ v ∈ y.mayCopy, v ∈ x.mayCopy) {op : AOp} {a b e' : Expr F}
    (h : (match op with
      | .add => addRules A again a b
      | .sub => subRules A a b
      | .mul => mulRules A again a b
      | .div => divRules A a b
      | op => some (.arith op a b)) = some e') : ∀ v ∈ e'.mayCopy, v ∈ a.mayCopy ++ b.mayCopy := by
  have hr : ∀ {op op' : AOp} {c : Expr F} {k : Kind} {d x : Int} {l : Expr F}, reassoc op a b = some (c, k, d, x) → l.mayCopy = [] →
      again (.arith op' c l) = some e' → ∀ v ∈ e'.mayCopy, v ∈ a.mayCopy ++ b.mayCopy := by
    intro op op' c k d x l h1 h2 h3 v hv
    have := hagain _ _ h3 v hv
    simp only [Expr.mayCopy, h2, List.append_nil] at this
    exact List.mem_append_left _ (reassoc_copy h1 v this)
  split at h
  · unfold addRules at h
    split at h
    · rename_i hf; cases h; rw [fold_copy hf]; intro v hv; cases hv
    · split at h
      · rename_i h1; exact hr h1 rfl h
      · split at h
        · rename_i h1; exact hr h1 rfl h
        · repeat' split at h
          all_goals (clear hr hagain; cases h <;> intro v hv <;> simp_all [Expr.mayCopy])
  · unfold subRules at h
    split at h
    · rename_i hf; cases h; rw [fold_copy hf]; intro v hv; cases hv
    · repeat' split at h
      all_goals (clear hr hagain; cases h <;> intro v hv <;> simp_all [Expr.mayCopy])
  · unfold mulRules at h
    split at h
    · rename_i hf; cases h; rw [fold_copy hf]; intro v hv; cases hv
    · split at h
      · rename_i h1; exact hr h1 rfl h
      · repeat' split at h
        all_goals (clear hr hagain; cases h <;> intro v hv <;> simp_all [Expr.mayCopy])
  · unfold divRules at h
    repeat' split at h
    all_goals (clear hr hagain; cases h <;> intro v hv <;> simp_all [Expr.mayCopy])
  · cases h; exact fun v hv => hv

theorem simp_copy {A : Flt F} (n : Nat) : ∀ (e e' : Expr F), simp A n e = some e' → ∀ v ∈ e'.mayCopy, v ∈ e.mayCopy := by
  induction n with
  | zero => intro e e' h; cases h
  | succ n ih =>
    intro e e' h
    cases e with
    | lit => cases h; exact fun v hv => hv
    | var => cases h; exact fun v hv => hv
    | arith op a b =>
      obtain ⟨a', ha', h⟩ := bind_some_iff h
      obtain ⟨b', hb', h⟩ := bind_some_iff h
      intro v hv
      rcases List.mem_append.1 (rules_copy (fun x y => ih x y) h v hv) with hv | hv
      · exact List.mem_append_left _ (ih _ _ ha' v hv)
      · exact List.mem_append_right _ (ih _ _ hb' v hv)
    | cmp op a b =>
      obtain ⟨a', ha', h⟩ := bind_some_iff h
      obtain ⟨b', hb', h⟩ := bind_some_iff h
      cases h
      intro v hv; cases hv
    | neg a => obtain ⟨a', ha', rfl⟩ := Option.map_eq_some_iff.1 h; intro v hv; cases hv
    | not a => obtain ⟨a', ha', rfl⟩ := Option.map_eq_some_iff.1 h; intro v hv; cases hv
    | load k arr a => obtain ⟨a', ha', rfl⟩ := Option.map_eq_some_iff.1 h; intro v hv; cases hv
    | and a b =>
      obtain ⟨a', ha', h⟩ := bind_some_iff h
      obtain ⟨b', hb', h⟩ := bind_some_iff h
      intro v hv
      have : v ∈ a'.mayCopy ++ b'.mayCopy := by
        unfold andRules at h
        repeat' split at h
        all_goals (clear ih ha' hb'; cases h <;> simp_all [Expr.mayCopy])
      rcases List.mem_append.1 this with hv | hv
      · exact List.mem_append_left _ (ih _ _ ha' v hv)
      · exact List.mem_append_right _ (ih _ _ hb' v hv)
    | or a b =>
      obtain ⟨a', ha', h⟩ := bind_some_iff h
      obtain ⟨b', hb', h⟩ := bind_some_iff h
      intro v hv
      have : v ∈ a'.mayCopy ++ b'.mayCopy := by
        unfold orRules at h
        repeat' split at h
        all_goals (clear ih ha' hb'; cases h <;> simp_all [Expr.mayCopy])
      rcases List.mem_append.1 this with hv | hv
      · exact List.mem_append_left _ (ih _ _ ha' v hv)
      · exact List.mem_append_right _ (ih _ _ hb' v hv)
    | cast a k =>
      obtain ⟨a', ha', h⟩ := bind_some_iff h
      unfold castRules at h
      split at h
      · obtain ⟨r, _, rfl⟩ := Option.map_eq_some_iff.1 h
        intro v hv; cases hv
      · cases h; intro v hv; cases hv

theorem subst_copy {M : SMap Nat (Kind × Nat)} (e : Expr F) : ∀ y ∈ (e.subst M).mayCopy,
    y ∈ e.mayCopy ∨ ∃ v ∈ e.mayCopy, ∃ k, get M v = some (k, y) := by
  have h2 : ∀ (a b : Expr F), (∀ y ∈ (a.subst M).mayCopy, y ∈ a.mayCopy ∨ ∃ v ∈ a.mayCopy, ∃ k, get M v = some (k, y)) →
      (∀ y ∈ (b.subst M).mayCopy, y ∈ b.mayCopy ∨ ∃ v ∈ b.mayCopy, ∃ k, get M v = some (k, y)) →
      ∀ y ∈ (a.subst M).mayCopy ++ (b.subst M).mayCopy, y ∈ a.mayCopy ++ b.mayCopy ∨
        ∃ v ∈ a.mayCopy ++ b.mayCopy, ∃ k, get M v = some (k, y) := by
    intro a b ha hb y hy
    rcases List.mem_append.1 hy with hy | hy
    · rcases ha y hy with h | ⟨v, hv, h⟩
      · exact Or.inl (List.mem_append_left _ h)
      · exact Or.inr ⟨v, List.mem_append_left _ hv, h⟩
    · rcases hb y hy with h | ⟨v, hv, h⟩
      · exact Or.inl (List.mem_append_right _ h)
      · exact Or.inr ⟨v, List.mem_append_right _ hv, h⟩
  induction e with
  | var k x =>
    intro y hy
    simp only [Expr.subst] at hy
    cases hg : get M x with
    | none => rw [hg] at hy; exact Or.inl hy
    | some p =>
      obtain ⟨k', z⟩ := p
      rw [hg] at hy
      simp only [Expr.mayCopy, List.mem_singleton] at hy
      subst hy
      exact Or.inr ⟨x, by simp [Expr.mayCopy], k', hg⟩
  | arith op a b iha ihb => exact h2 a b iha ihb
  | and a b iha ihb => exact h2 a b iha ihb
  | or a b iha ihb => exact h2 a b iha ihb
  | _ => intro y hy; cases hy

theorem mayCopy_vars (e : Expr F) : ∀ y ∈ e.mayCopy, y ∈ e.vars := by
  have h2 : ∀ (a b : Expr F), (∀ y ∈ a.mayCopy, y ∈ a.vars) → (∀ y ∈ b.mayCopy, y ∈ b.vars) →
      ∀ y ∈ a.mayCopy ++ b.mayCopy, y ∈ a.vars ++ b.vars := by
    intro a b ha hb y hy
    rcases List.mem_append.1 hy with h | h
    · exact List.mem_append_left _ (ha y h)
    · exact List.mem_append_right _ (hb y h)
  induction e with
  | var => exact fun _ h => h
  | arith op a b iha ihb => exact h2 a b iha ihb
  | and a b iha ihb => exact h2 a b iha ihb
  | or a b iha ihb => exact h2 a b iha ihb
  | _ => intro y hy; cases hy

theorem simp_refines' {vk ak : Nat → Kind} {A : Flt F} (hA : FltLaws A) {e e' : Expr F} {k : Kind} (h : simplify A e = some e')
    (ht : WT vk ak e k) : WT vk ak e' k := (simp_refines hA _ e e' k h ht).1

/-! ### The invariant on the map -/

section Static
variable (vk : Nat → Kind) (lv : Nat → Nat) (L : List Nat)

/-- What is known of the map of copies where the variables `V` are visible, inside `lvl` loops, with the pairs of
copies `C` and the levels of declarations `d`. -/
structure Static (V : List Nat) (C : List (Nat × Nat)) (lvl : Nat) (d : Nat → Option Nat) (s : CP) : Prop where
  uniq : Uniq s.vars
  ne : s.vars ≠ []
  entry : ∀ x k y, get s.vars x = some (k, y) → x ∈ V ∧ y ∈ V ∧ k = vk y ∧ vk x = vk y ∧ isInt (vk x) = true ∧
    (y, x) ∈ s.deps ∧ x ∉ L ∧ (∃ l, d x = some l ∧ l ≤ lvl) ∧ (x, y) ∈ C

/-- From the state `s` before a statement to the state `s'` after it: outer scopes only lose bindings, the
innermost scope gains only declared variables, and what was there and survives was not assigned. -/
structure Step (t : Stmt F) (s s' : CP) : Prop where
  shape : ∃ m ms m' ms', s.vars = m :: ms ∧ s'.vars = m' :: ms' ∧ Sub ms' ms ∧
    ∀ x v, m' x = some v → x ∈ t.declares ∨ m x = some v
  deps : ∀ p ∈ s.deps, p ∈ s'.deps
  keep : ∀ x k y, get s'.vars x = some (k, y) → x ∉ t.declares → x ∉ t.assigned ∧ y ∉ t.assigned

variable {vk lv L}
variable {V : List Nat} {C : List (Nat × Nat)} {lvl : Nat} {d : Nat → Option Nat} {s s' : CP}

theorem Static.mono {V' : List Nat} {C' : List (Nat × Nat)} {lvl' : Nat} {d' : Nat → Option Nat} (h : Static vk L V C lvl d s)
    (hV : ∀ x ∈ V, x ∈ V') (hC : ∀ p ∈ C, p ∈ C') (hl : lvl ≤ lvl') (hd : ∀ x l, d x = some l → d' x = some l) :
    Static vk L V' C' lvl' d' s :=
  ⟨h.uniq, h.ne, fun x k y hx => by
    obtain ⟨h1, h2, h3, h4, h5, h6, h7, ⟨l, h8, h9⟩, h10⟩ := h.entry x k y hx
    exact ⟨hV _ h1, hV _ h2, h3, h4, h5, h6, h7, ⟨l, hd x l h8, Nat.le_trans h9 hl⟩, hC _ h10⟩⟩

theorem Sub.ne {W : Type} {M M' : SMap Nat W} (h : Sub M' M) (hne : M ≠ []) : M' ≠ [] := by
  rintro rfl
  cases M with
  | nil => exact hne rfl
  | cons => exact h

theorem Static.sub (h : Static vk L V C lvl d s) (hs : Sub s'.vars s.vars) (hdeps : ∀ p ∈ s.deps, p ∈ s'.deps) :
    Static vk L V C lvl d s' :=
  ⟨hs.uniq h.uniq, hs.ne h.ne, fun x k y hx => by
    obtain ⟨h1, h2, h3, h4, h5, h6, h7, h8, h10⟩ := h.entry x k y (hs.get h.uniq hx)
    exact ⟨h1, h2, h3, h4, h5, hdeps _ h6, h7, h8, h10⟩⟩

theorem Static.push (h : Static vk L V C lvl d s) : Static vk L V C lvl d s.push :=
  ⟨⟨fun _ _ h' => (nomatch h'), h.uniq⟩, by simp [CP.push], fun x k y hx => h.entry x k y hx⟩

theorem Step.ofSub {t : Stmt F} (hne : s.vars ≠ []) (h : Sub s'.vars s.vars) (hdeps : ∀ p ∈ s.deps, p ∈ s'.deps)
    (hk : ∀ x k y, get s'.vars x = some (k, y) → x ∉ t.assigned ∧ y ∉ t.assigned) : Step t s s' := by
  refine ⟨?_, hdeps, fun x k y hx _ => hk x k y hx⟩
  have hne' := h.ne hne
  obtain ⟨m, ms, hm⟩ := List.exists_cons_of_ne_nil hne
  obtain ⟨m', ms', hm'⟩ := List.exists_cons_of_ne_nil hne'
  rw [hm, hm'] at h
  exact ⟨m, ms, m', ms', hm, hm', h.2, fun x v hx => Or.inr (h.1 x v hx)⟩

/-- Leaving a scope. -/
theorem Step.pop {t : Stmt F} {V' : List Nat} {C' : List (Nat × Nat)} {lvl' : Nat} {d' : Nat → Option Nat}
    (hs : Static vk L V C lvl d s) (h1 : Static vk L V' C' lvl' d' s') (hstep : Step t s.push s') (hw : ∀ x ∈ V, x ∉ t.declares) :
    Sub s'.pop.vars s.vars ∧ (∀ p ∈ s.deps, p ∈ s'.pop.deps) ∧
      ∀ x k y, get s'.pop.vars x = some (k, y) → x ∉ t.assigned ∧ y ∉ t.assigned := by
  obtain ⟨m, ms, m', ms', hm, hm', hsub, _⟩ := hstep.shape
  have hms : ms = s.vars := by
    simp only [CP.push, List.cons.injEq] at hm
    exact hm.2.symm
  subst hms
  have hp : s'.pop.vars = ms' := by simp [CP.pop, hm']
  refine ⟨hp ▸ hsub, hstep.deps, fun x k y hx => ?_⟩
  rw [hp] at hx
  have hxV := (hs.entry x k y (hsub.get hs.uniq hx)).1
  refine hstep.keep x k y ?_ (hw x hxV)
  have hu := h1.uniq
  rw [hm'] at hu ⊢
  exact get_tail hu hx

theorem Step.get {t : Stmt F} (h : Step t s s') (hu : Uniq s.vars) {x : Nat} {p : Kind × Nat} (hx : get s'.vars x = some p) :
    x ∈ t.declares ∨ get s.vars x = some p := by
  obtain ⟨m, ms, m', ms', hm, hm', hsub, hh⟩ := h.shape
  rw [hm'] at hx
  rw [hm] at hu ⊢
  simp only [Scoped.get] at hx
  cases hx' : m' x with
  | some v =>
    rw [hx'] at hx
    cases hx
    rcases hh x _ hx' with h | h
    · exact Or.inl h
    · right
      simp only [Scoped.get, h]
  | none =>
    rw [hx'] at hx
    exact Or.inr (get_tail hu (hsub.get hu.2 hx))

theorem Step.seq {a b : Stmt F} {s₁ s₂ s₃ : CP} (hu : Uniq s₂.vars) (h1 : Step a s₁ s₂) (h2 : Step b s₂ s₃) : Step (.seq a b) s₁ s₃ := by
  obtain ⟨m1, ms1, m2, ms2, e1, e2, hs1, hh1⟩ := h1.shape
  obtain ⟨m2', ms2', m3, ms3, e2', e3, hs2, hh2⟩ := h2.shape
  rw [e2] at e2'
  obtain ⟨rfl, rfl⟩ := List.cons.inj e2'
  refine ⟨⟨m1, ms1, m3, ms3, e1, e3, hs2.trans hs1, fun x v hx => ?_⟩, fun p hp => h2.deps p (h1.deps p hp), fun x k y hx hn => ?_⟩
  · rcases hh2 x v hx with h | h
    · exact Or.inl (List.mem_append_right _ h)
    · rcases hh1 x v h with h | h
      · exact Or.inl (List.mem_append_left _ h)
      · exact Or.inr h
  · have hna : x ∉ a.declares := fun h => hn (List.mem_append_left _ h)
    have hnb : x ∉ b.declares := fun h => hn (List.mem_append_right _ h)
    have k2 := h2.keep x k y hx hnb
    rcases h2.get hu hx with h | h
    · exact absurd h hnb
    · have k1 := h1.keep x k y h hna
      exact ⟨fun h => (List.mem_append.1 h).elim k1.1 k2.1, fun h => (List.mem_append.1 h).elim k1.2 k2.2⟩

theorem rewrite_inv {A : Flt F} {e e' : Expr F} (h : s.rewrite A e = some (e', s')) :
    simplify A (e.subst s.vars) = some e' ∧ s' = s.use (e.subst s.vars).vars := by
  unfold CP.rewrite at h
  obtain ⟨r, hr, h⟩ := Option.map_eq_some_iff.1 h
  cases h
  exact ⟨hr, rfl⟩

theorem rewrite_vars {A : Flt F} {e e' : Expr F} (h : s.rewrite A e = some (e', s')) : s'.vars = s.vars ∧ s'.deps = s.deps := by
  rw [(rewrite_inv h).2]; exact ⟨rfl, rfl⟩

theorem Static.rewrite {A : Flt F} {e e' : Expr F} (hs : Static vk L V C lvl d s) (h : s.rewrite A e = some (e', s')) :
    Static vk L V C lvl d s' := by
  obtain ⟨h1, h2⟩ := rewrite_vars h
  exact hs.sub (h1 ▸ Sub.refl _) (h2 ▸ fun p hp => hp)

theorem Step.before {A : Flt F} {t : Stmt F} {e e' : Expr F} {s₀ : CP} (h : s₀.rewrite A e = some (e', s)) (hs : Step t s s') : Step t s₀ s' := by
  obtain ⟨h1, h2⟩ := rewrite_vars h
  exact ⟨h1 ▸ hs.shape, h2 ▸ hs.deps, hs.keep⟩

variable {ak : Nat → Kind}

theorem decl_static {A : Flt F} {id x : Nat} {k : Kind} {e e' : Expr F} {L0 : List Nat} (hs : Static vk L V C lvl d s)
    (hr : s.rewrite A e = some (e', s')) (hw : WS V (.decl id k x e)) (ht : WTS vk ak (.decl id k x e)) (hA : FltLaws A)
    (hl : lv x = lvl) (hd : ∀ x l, d x = some l → l = lv x) :
    Static vk L (x :: V) ((Stmt.decl id k x e).copies C ++ C) lvl (ana lvl (.decl id k x e) (d, L0)).1 (s'.declare L id k x e') ∧
    Step (.decl id k x e) s (s'.declare L id k x e') := by
  obtain ⟨hsimp, _⟩ := rewrite_inv hr
  obtain ⟨hv, hdeps⟩ := rewrite_vars hr
  have hs' := hs.rewrite hr
  have hmono := (ana_mono lvl (Stmt.decl id k x e) (d, L0)).1
  have hs2 : Static vk L (x :: V) ((Stmt.decl id k x e).copies C ++ C) lvl (ana lvl (.decl id k x e) (d, L0)).1 s' :=
    hs'.mono (fun _ h => List.mem_cons_of_mem _ h) (fun _ h => List.mem_append_right _ h) (Nat.le_refl _) hmono
  obtain ⟨m, ms, hm⟩ := List.exists_cons_of_ne_nil hs'.ne
  have hm0 : s.vars = m :: ms := hv ▸ hm
  have hM : ∀ z k y, get s.vars z = some (k, y) → k = vk y ∧ vk z = vk y :=
    fun z k y hz => let h := hs.entry z k y hz; ⟨h.2.2.1, h.2.2.2.1⟩
  have hxn : get s.vars x = none := by
    cases hg : get s.vars x with
    | none => rfl
    | some p => obtain ⟨k', y⟩ := p; exact absurd (hs.entry x k' y hg).1 hw.1
  have hmx : m x = none := by
    rw [hm0] at hxn
    simp only [Scoped.get] at hxn
    cases h : m x with
    | none => rfl
    | some v => rw [h] at hxn; cases hxn
  have hmsx : get ms x = none := by
    rw [hm0] at hxn
    simp only [Scoped.get, hmx] at hxn
    exact hxn
  by_cases hcopy : ∃ k' y, e' = .var k' y ∧ isInt k = true ∧ x ∉ L
  · obtain ⟨k', y, rfl, hki, hxL⟩ := hcopy
    have hdecl : s'.declare L id k x (Expr.var (F := F) k' y) =
        ⟨insertScope m x (k', y) :: ms, insertTop s'.decls x id, s'.nec, (y, x) :: s'.deps⟩ := by
      simp only [CP.declare]
      rw [if_pos ⟨hki, hxL⟩, hm]
      rfl
    have hrefine := simp_refines' hA hsimp (ht.2.subst hM)
    have hk' : k' = vk y ∧ k = vk y := by
      cases hrefine with
      | var => exact ⟨rfl, rfl⟩
    have hcop := simp_copy _ _ _ hsimp y (by simp [Expr.mayCopy])
    have hsrc : y ∈ V ∧ (x, y) ∈ (Stmt.decl id k x e).copies C := by
      rcases subst_copy e y hcop with h | ⟨v, hv, kk, hg⟩
      · exact ⟨hw.2 y (mayCopy_vars e y h), List.mem_flatMap.2 ⟨y, h, List.mem_cons_self⟩⟩
      · have he := hs.entry v kk y hg
        refine ⟨he.2.1, List.mem_flatMap.2 ⟨v, hv, List.mem_cons_of_mem _ (List.mem_map.2 ⟨(v, y), ?_, rfl⟩)⟩⟩
        rw [List.mem_filter]
        exact ⟨he.2.2.2.2.2.2.2.2, by simp⟩
    have hins : ∀ z v, insertScope m x (k', y) z = some v → (z = x ∧ v = (k', y)) ∨ m z = some v := by
      intro z v hz
      unfold insertScope at hz
      rw [hmx] at hz
      split at hz
      · rename_i h; cases hz; exact Or.inl ⟨h, rfl⟩
      · exact Or.inr hz
    rw [hdecl]
    have hu : Uniq (insertScope m x (k', y) :: ms) := by
      have hu0 := hs'.uniq
      rw [hm] at hu0
      refine ⟨fun z v hz => ?_, hu0.2⟩
      rcases hins z v hz with ⟨rfl, _⟩ | h
      · exact hmsx
      · exact hu0.1 z v h
    have hget : ∀ z kk w, get (insertScope m x (k', y) :: ms) z = some (kk, w) → (z = x ∧ kk = k' ∧ w = y) ∨ get s'.vars z = some (kk, w) := by
      intro z kk w hz
      simp only [Scoped.get] at hz
      rw [hm]
      cases hi : insertScope m x (k', y) z with
      | some v =>
        rw [hi] at hz
        cases hz
        rcases hins z _ hi with ⟨h1, h2⟩ | h
        · cases h2; exact Or.inl ⟨h1, rfl, rfl⟩
        · right; simp only [Scoped.get, h]
      | none =>
        rw [hi] at hz
        right
        have hu0 := hs'.uniq
        rw [hm] at hu0
        exact get_tail hu0 hz
    refine ⟨⟨hu, by simp, fun z kk w hz => ?_⟩, ⟨⟨m, ms, insertScope m x (k', y), ms, hm0, rfl, Sub.refl _, fun z v hz => ?_⟩, ?_, ?_⟩⟩
    · rcases hget z kk w hz with ⟨rfl, rfl, rfl⟩ | h
      · refine ⟨List.mem_cons_self, List.mem_cons_of_mem _ hsrc.1, hk'.1, ?_, ?_, List.mem_cons_self, hxL, ?_, List.mem_append_left _ hsrc.2⟩
        · rw [← ht.1, hk'.2]
        · rw [← ht.1]; exact hki
        · simp only [ana, if_true]
          cases hdx : d z with
          | none => exact ⟨lvl, rfl, Nat.le_refl _⟩
          | some l => exact ⟨l, rfl, by rw [hd z l hdx, hl]; exact Nat.le_refl _⟩
      · obtain ⟨h1, h2, h3, h4, h5, h6, h7, h8, h10⟩ := hs2.entry z kk w h
        exact ⟨h1, h2, h3, h4, h5, List.mem_cons_of_mem _ h6, h7, h8, h10⟩
    · rcases hins z v hz with ⟨rfl, _⟩ | h
      · exact Or.inl (by simp [Stmt.declares])
      · exact Or.inr h
    · intro p hp; exact List.mem_cons_of_mem _ (hdeps ▸ hp)
    · intro z kk w _ _; exact ⟨by simp [Stmt.assigned], by simp [Stmt.assigned]⟩
  · have hdecl : (s'.declare L id k x e').vars = s'.vars ∧ (s'.declare L id k x e').deps = s'.deps := by
      unfold CP.declare
      split
      · rename_i k' y
        rw [if_neg fun h => hcopy ⟨k', y, rfl, h.1, h.2⟩]
        exact ⟨rfl, rfl⟩
      · exact ⟨rfl, rfl⟩
    refine ⟨hs2.sub (hdecl.1 ▸ Sub.refl _) (hdecl.2 ▸ fun p hp => hp), ?_⟩
    exact Step.ofSub hs.ne (by rw [hdecl.1, hv]; exact Sub.refl _) (by rw [hdecl.2, hdeps]; exact fun p hp => hp)
      (fun z kk w _ => ⟨by simp [Stmt.assigned], by simp [Stmt.assigned]⟩)

/-- Copy propagation keeps the invariant. -/
theorem cp_static {A : Flt F} (hA : FltLaws A) (t : Stmt F) : ∀ {t' : Stmt F} {s s' : CP} {V : List Nat} {C : List (Nat × Nat)} {lvl : Nat}
    (r : (Nat → Option Nat) × List Nat), cp A L t s = some (t', s') → WS V t → WTS vk ak t → Static vk L V C lvl r.1 s → Levels lv lvl t →
    (∀ x l, r.1 x = some l → l = lv x) →
    Static vk L (t.declares ++ V) (t.copies C ++ C) lvl (ana lvl t r).1 s' ∧ Step t s s' := by
  induction t with
  | skip =>
    intro t' s s' V C lvl r h hw ht hs hl hd
    cases h
    exact ⟨hs, Step.ofSub hs.ne (Sub.refl _) (fun p hp => hp) (fun _ _ _ _ => ⟨List.not_mem_nil, List.not_mem_nil⟩)⟩
  | seq a b iha ihb =>
    intro t' s s' V C lvl r h hw ht hs hl hd
    obtain ⟨⟨a', s1⟩, h1, h⟩ := bind_some_iff h
    obtain ⟨⟨b', s2⟩, h2, h⟩ := Option.map_eq_some_iff.1 h
    cases h
    obtain ⟨i1, i2⟩ := iha r h1 hw.1 ht.1 hs hl.1 hd
    obtain ⟨i3, i4⟩ := ihb (ana lvl a r) h2 hw.2 ht.2 i1 hl.2 (ana_levels lvl a r hl.1 hd)
    refine ⟨i3.mono ?_ ?_ (Nat.le_refl _) (fun _ _ h => h), Step.seq i1.uniq i2 i4⟩
    · intro x hx
      simp only [Stmt.declares, List.mem_append] at hx ⊢
      rcases hx with h | h | h
      · exact Or.inl (Or.inr h)
      · exact Or.inl (Or.inl h)
      · exact Or.inr h
    · intro x hx
      simp only [Stmt.copies, List.mem_append] at hx ⊢
      rcases hx with h | h | h
      · exact Or.inl (Or.inr h)
      · exact Or.inl (Or.inl h)
      · exact Or.inr h
  | scope a ih =>
    intro t' s s' V C lvl r h hw ht hs hl hd
    obtain ⟨⟨a', s1⟩, h1, h⟩ := Option.map_eq_some_iff.1 h
    cases h
    obtain ⟨i1, i2⟩ := ih r h1 hw ht hs.push hl hd
    have hp := Step.pop hs i1 i2 (fun x hx hd => hw.fresh x hx (declares_decls a x hd))
    have hm := hs.mono (fun _ h => h) (fun _ h => h) (Nat.le_refl _) (ana_mono lvl a r).1
    exact ⟨hm.sub hp.1 hp.2.1, Step.ofSub hs.ne hp.1 hp.2.1 hp.2.2⟩
  | decl id k x e =>
    intro t' s s' V C lvl r h hw ht hs hl hd
    obtain ⟨⟨e', s1⟩, h1, h⟩ := Option.map_eq_some_iff.1 h
    cases h
    exact decl_static (L0 := r.2) hs h1 hw ht hA hl hd
  | assign k x e =>
    intro t' s s' V C lvl r h hw ht hs hl hd
    obtain ⟨⟨e', s1⟩, h1, h⟩ := Option.map_eq_some_iff.1 h
    cases h
    have hs1 := hs.rewrite h1
    obtain ⟨hv, hdeps⟩ := rewrite_vars h1
    have hsub : Sub ((s1.use [x]).kill k x).vars s.vars := hv ▸ kill_sub (s1.use [x]) k x
    have hde : ((s1.use [x]).kill k x).deps = s.deps := by
      rw [← hdeps]; unfold CP.kill; split <;> rfl
    have hm := hs.mono (fun _ h => h) (fun _ h => h) (Nat.le_refl _) (ana_mono lvl (.assign k x e) r).1
    refine ⟨hm.sub hsub (hde ▸ fun p hp => hp), Step.ofSub hs.ne hsub (hde ▸ fun p hp => hp) ?_⟩
    intro z kk y hz
    have hent := hs.entry z kk y (hsub.get hs.uniq hz)
    simp only [Stmt.assigned, List.mem_singleton]
    by_cases hk : isInt k = true
    · exact kill_get (s := s1.use [x]) hs1.uniq hk (fun z k y hz => (hs1.entry z k y hz).2.2.2.2.2.1) hz
    · constructor
      · rintro rfl
        exact hk (ht.1 ▸ hent.2.2.2.2.1)
      · rintro rfl
        exact hk (ht.1 ▸ hent.2.2.2.1 ▸ hent.2.2.2.2.1)
  | store k arr loc e =>
    intro t' s s' V C lvl r h hw ht hs hl hd
    obtain ⟨⟨l', s1⟩, h1, h⟩ := bind_some_iff h
    obtain ⟨⟨e', s2⟩, h2, h⟩ := Option.map_eq_some_iff.1 h
    cases h
    obtain ⟨hv1, hd1⟩ := rewrite_vars h1
    obtain ⟨hv2, hd2⟩ := rewrite_vars h2
    refine ⟨(hs.rewrite h1).rewrite h2, Step.ofSub hs.ne ?_ ?_ (fun _ _ _ _ => ⟨List.not_mem_nil, List.not_mem_nil⟩)⟩
    · rw [hv2, hv1]; exact Sub.refl _
    · rw [hd2, hd1]; exact fun p hp => hp
  | ite c a b iha ihb =>
    intro t' s s' V C lvl r h hw ht hs hl hd
    obtain ⟨⟨c', s1⟩, h1, h⟩ := bind_some_iff h
    obtain ⟨⟨a', s2⟩, h2, h⟩ := bind_some_iff h
    obtain ⟨⟨b', s3⟩, h3, h⟩ := Option.map_eq_some_iff.1 h
    cases h
    have hs1 := hs.rewrite h1
    obtain ⟨i1, i2⟩ := iha r h2 hw.2.1 ht.2.1 hs1.push hl.1 hd
    have hp := Step.pop hs1 i1 i2 (fun x hx hd => hw.2.1.fresh x hx (declares_decls a x hd))
    have hs2 := (hs1.mono (fun _ h => h) (fun _ h => h) (Nat.le_refl _) (ana_mono lvl a r).1).sub hp.1 hp.2.1
    obtain ⟨i3, i4⟩ := ihb (ana lvl a r) h3 hw.2.2 ht.2.2 hs2.push hl.2 (ana_levels lvl a r hl.1 hd)
    have hp2 := Step.pop hs2 i3 i4 (fun x hx hd => hw.2.2.fresh x hx (declares_decls b x hd))
    have hs3 := (hs2.mono (fun _ h => h) (fun _ h => h) (Nat.le_refl _) (ana_mono lvl b (ana lvl a r)).1).sub hp2.1 hp2.2.1
    refine ⟨hs3, Step.before h1 (Step.ofSub hs1.ne (hp2.1.trans hp.1) (fun p h => hp2.2.1 p (hp.2.1 p h)) ?_)⟩
    intro x k y hx
    have k2 := hp2.2.2 x k y hx
    have k1 := hp.2.2 x k y (hp2.1.get hs2.uniq hx)
    exact ⟨fun h => (List.mem_append.1 h).elim k1.1 k2.1, fun h => (List.mem_append.1 h).elim k1.2 k2.2⟩
  | loop k x st e i b ih =>
    intro t' s s' V C lvl r h hw ht hs hl hd
    obtain ⟨⟨e1, s1⟩, h1, h⟩ := bind_some_iff h
    obtain ⟨⟨e2, s2⟩, h2, h⟩ := bind_some_iff h
    obtain ⟨⟨e3, s3⟩, h3, h⟩ := bind_some_iff h
    obtain ⟨⟨b', s4⟩, h4, h⟩ := Option.map_eq_some_iff.1 h
    cases h
    have hs3 := ((hs.rewrite h1).rewrite h2).rewrite h3
    have hs3' := hs3.mono (V' := x :: V) (fun _ h => List.mem_cons_of_mem _ h) (fun _ h => h) (Nat.le_succ lvl) (fun _ _ h => h)
    obtain ⟨i1, i2⟩ := ih (r.1, x :: r.2) h4 hw.2.2 ht.2.2.2.2.2 hs3'.push hl hd
    have hp := Step.pop hs3' i1 i2 (fun x hx hd => hw.2.2.fresh x hx (declares_decls b x hd))
    have hm := (hs3.mono (fun _ h => h) (fun _ h => h) (Nat.le_refl _) (ana_mono (lvl + 1) b (r.1, x :: r.2)).1).sub hp.1 hp.2.1
    exact ⟨hm, Step.before h1 (Step.before h2 (Step.before h3 (Step.ofSub hs3.ne hp.1 hp.2.1 hp.2.2)))⟩
  | «while» c b ih =>
    intro t' s s' V C lvl r h hw ht hs hl hd
    obtain ⟨⟨e1, s1⟩, h1, h⟩ := bind_some_iff h
    obtain ⟨⟨b', s4⟩, h4, h⟩ := Option.map_eq_some_iff.1 h
    cases h
    have hs1 := hs.rewrite h1
    have hs1' := hs1.mono (fun _ h => h) (fun _ h => h) (Nat.le_succ lvl) (fun _ _ h => h)
    obtain ⟨i1, i2⟩ := ih r h4 hw.2 ht.2 hs1'.push hl hd
    have hp := Step.pop hs1' i1 i2 (fun x hx hd => hw.2.fresh x hx (declares_decls b x hd))
    have hm := (hs1.mono (fun _ h => h) (fun _ h => h) (Nat.le_refl _) (ana_mono (lvl + 1) b r).1).sub hp.1 hp.2.1
    exact ⟨hm, Step.before h1 (Step.ofSub hs1.ne hp.1 hp.2.1 hp.2.2)⟩

end Static

end Verif.IR
