import Verif.IR.StmtSpec
import Verif.IR.Simplify
/-! Copy propagation: what the map of copies contains. -/
namespace Verif.IR
open Verif.Types
open Verif.Scoped (SMap get remove insertScope eraseScope Scope)

variable {F : Type}

/-! ### Scoped maps -/

section Maps
variable {V : Type}

/-- A key is bound in at most one scope. -/
def Uniq : SMap Nat V → Prop
  | [] => True
  | m :: ms => (∀ x v, m x = some v → get ms x = none) ∧ Uniq ms

/-- Scope by scope, fewer bindings. -/
def Sub : SMap Nat V → SMap Nat V → Prop
  | [], [] => True
  | a :: as, b :: bs => (∀ x v, a x = some v → b x = some v) ∧ Sub as bs
  | _, _ => False

theorem Sub.refl (M : SMap Nat V) : Sub M M := by
  induction M with
  | nil => trivial
  | cons m ms ih => exact ⟨fun _ _ h => h, ih⟩

theorem Sub.trans : ∀ {M₁ M₂ M₃ : SMap Nat V}, Sub M₁ M₂ → Sub M₂ M₃ → Sub M₁ M₃
  | [], [], [], _, _ => trivial
  | _ :: _, _ :: _, _ :: _, h1, h2 => ⟨fun x v h => h2.1 x v (h1.1 x v h), Sub.trans h1.2 h2.2⟩
  | _ :: _, [], _, h, _ => h.elim
  | [], _ :: _, _, h, _ => h.elim
  | [], [], _ :: _, _, h => h.elim
  | _ :: _, _ :: _, [], _, h => h.elim

theorem Sub.get : ∀ {M' M : SMap Nat V}, Sub M' M → Uniq M → ∀ {x v}, get M' x = some v → get M x = some v
  | [], [], _, _, _, _, h => h
  | a :: as, b :: bs, hs, hu, x, v, h => by
    simp only [Scoped.get] at h ⊢
    cases ha : a x with
    | some w =>
      rw [ha] at h
      cases h
      rw [hs.1 x _ ha]
    | none =>
      rw [ha] at h
      have := Sub.get hs.2 hu.2 h
      cases hb : b x with
      | none => exact this
      | some w => rw [hu.1 x w hb] at this; cases this
  | _ :: _, [], h, _, _, _, _ => h.elim
  | [], _ :: _, h, _, _, _, _ => h.elim

theorem Sub.uniq : ∀ {M' M : SMap Nat V}, Sub M' M → Uniq M → Uniq M'
  | [], [], _, _ => trivial
  | a :: as, b :: bs, hs, hu => by
    refine ⟨fun x v h => ?_, Sub.uniq hs.2 hu.2⟩
    cases hg : Scoped.get as x with
    | none => rfl
    | some w =>
      have h1 := Sub.get hs.2 hu.2 hg
      rw [hu.1 x v (hs.1 x v h)] at h1
      cases h1
  | _ :: _, [], h, _ => h.elim
  | [], _ :: _, h, _ => h.elim

theorem get_tail {m : Scope Nat V} {ms : SMap Nat V} (hu : Uniq (m :: ms)) {x : Nat} {v : V} (h : get ms x = some v) :
    get (m :: ms) x = some v := by
  simp only [Scoped.get]
  cases hm : m x with
  | none => exact h
  | some w => rw [hu.1 x w hm] at h; cases h

theorem remove_sub : ∀ {M M' : SMap Nat V} {x : Nat}, remove M x = some M' → Sub M' M
  | [], _, _, h => by cases h
  | m :: ms, M', x, h => by
    simp only [remove] at h
    cases hm : m x with
    | some v =>
      rw [hm] at h
      cases h
      refine ⟨fun y w hy => ?_, Sub.refl ms⟩
      unfold eraseScope at hy
      split at hy
      · cases hy
      · exact hy
    | none =>
      rw [hm] at h
      obtain ⟨r, hr, rfl⟩ := Option.map_eq_some_iff.1 h
      exact ⟨fun _ _ h => h, remove_sub hr⟩

theorem remove_none : ∀ {M : SMap Nat V} {x : Nat}, remove M x = none → get M x = none
  | [], _, _ => rfl
  | m :: ms, x, h => by
    simp only [remove] at h
    simp only [Scoped.get]
    cases hm : m x with
    | some v => rw [hm] at h; cases h
    | none =>
      rw [hm] at h
      exact remove_none (Option.map_eq_none_iff.1 h)

theorem remove_get : ∀ {M M' : SMap Nat V} {x : Nat}, Uniq M → remove M x = some M' → get M' x = none
  | [], _, _, _, h => by cases h
  | m :: ms, M', x, hu, h => by
    simp only [remove] at h
    cases hm : m x with
    | some v =>
      rw [hm] at h
      cases h
      simp only [Scoped.get, eraseScope, if_true]
      exact hu.1 x v hm
    | none =>
      rw [hm] at h
      obtain ⟨r, hr, rfl⟩ := Option.map_eq_some_iff.1 h
      simp only [Scoped.get, hm]
      exact remove_get hu.2 hr

end Maps

theorem rm_sub (M : SMap Nat (Kind × Nat)) (x : Nat) : Sub (rm M x) M := by
  unfold rm
  cases h : remove M x with
  | none => exact Sub.refl M
  | some M' => exact remove_sub h

theorem rm_get {M : SMap Nat (Kind × Nat)} (hu : Uniq M) (x : Nat) : get (rm M x) x = none := by
  unfold rm
  cases h : remove M x with
  | none => exact remove_none h
  | some M' => exact remove_get hu h

theorem rms_sub (xs : List Nat) : ∀ M : SMap Nat (Kind × Nat), Sub (xs.foldl rm M) M := by
  induction xs with
  | nil => exact fun M => Sub.refl M
  | cons x xs ih => exact fun M => (ih (rm M x)).trans (rm_sub M x)

theorem rms_get (xs : List Nat) : ∀ (M : SMap Nat (Kind × Nat)), Uniq M → ∀ x ∈ xs, get (xs.foldl rm M) x = none := by
  induction xs with
  | nil => intro M _ x h; cases h
  | cons y ys ih =>
    intro M hu x hx
    rcases List.mem_cons.1 hx with rfl | hx
    · cases hg : get (ys.foldl rm (rm M x)) x with
      | none => exact hg
      | some v =>
        have := (rms_sub ys (rm M x)).get ((rm_sub M x).uniq hu) hg
        rw [rm_get hu] at this
        cases this
    · exact ih (rm M y) ((rm_sub M y).uniq hu) x hx

theorem kill_sub (s : CP) (k : Kind) (x : Nat) : Sub (s.kill k x).vars s.vars := by
  unfold CP.kill
  split
  · exact rms_sub _ _
  · exact Sub.refl _

theorem reach_self (deps : List (Nat × Nat)) (n : Nat) (q : List Nat) : ∀ x ∈ q, x ∈ reach deps n q := by
  intro x hx
  cases n with
  | zero => exact hx
  | succ n => exact List.mem_append_left _ hx

theorem reach_step (deps : List (Nat × Nat)) (n : Nat) (x y : Nat) (h : (x, y) ∈ deps) : y ∈ reach deps (n + 1) [x] := by
  refine List.mem_append_right _ (reach_self _ _ _ y ?_)
  simp only [List.flatMap_cons, List.flatMap_nil, List.append_nil, List.mem_map, List.mem_filter, beq_iff_eq]
  exact ⟨(x, y), ⟨h, rfl⟩, rfl⟩

/-- After an assignment to `x` the map mentions neither `x` nor copies of `x`. -/
theorem kill_get {s : CP} {k : Kind} {x : Nat} (hu : Uniq s.vars) (hk : isInt k = true)
    (hd : ∀ z k' y, get s.vars z = some (k', y) → (y, z) ∈ s.deps) {z : Nat} {k' : Kind} {y : Nat}
    (h : get (s.kill k x).vars z = some (k', y)) : z ≠ x ∧ y ≠ x := by
  have h0 := (kill_sub s k x).get hu h
  unfold CP.kill at h
  rw [if_pos hk] at h
  constructor
  · rintro rfl
    rw [rms_get _ _ hu z (reach_self _ _ _ z (by simp))] at h
    cases h
  · rintro rfl
    rw [rms_get _ _ hu z (reach_step _ _ y z (hd z k' y h0))] at h
    cases h

/-! ### The analysis of loops -/

theorem ana_mono (lvl : Nat) (s : Stmt F) : ∀ r : (Nat → Option Nat) × List Nat,
    (∀ x l, r.1 x = some l → (ana lvl s r).1 x = some l) ∧ (∀ x ∈ r.2, x ∈ (ana lvl s r).2) := by
  induction s generalizing lvl with
  | skip => exact fun r => ⟨fun _ _ h => h, fun _ h => h⟩
  | store => exact fun r => ⟨fun _ _ h => h, fun _ h => h⟩
  | seq a b iha ihb =>
    intro r
    have h1 := iha lvl r
    have h2 := ihb lvl (ana lvl a r)
    exact ⟨fun x l h => h2.1 x l (h1.1 x l h), fun x h => h2.2 x (h1.2 x h)⟩
  | ite c a b iha ihb =>
    intro r
    have h1 := iha lvl r
    have h2 := ihb lvl (ana lvl a r)
    exact ⟨fun x l h => h2.1 x l (h1.1 x l h), fun x h => h2.2 x (h1.2 x h)⟩
  | scope s ih => exact ih lvl
  | decl id k x e =>
    intro r
    refine ⟨fun y l h => ?_, fun _ h => h⟩
    simp only [ana]
    split
    · rename_i h'; subst h'; rw [h]
    · exact h
  | assign k x e =>
    intro r
    simp only [ana]
    split
    · split
      · exact ⟨fun _ _ h => h, fun _ h => List.mem_cons_of_mem _ h⟩
      · exact ⟨fun _ _ h => h, fun _ h => h⟩
    · exact ⟨fun _ _ h => h, fun _ h => h⟩
  | loop k x st e i b ih =>
    intro r
    have := ih (lvl + 1) (r.1, x :: r.2)
    exact ⟨this.1, fun y h => this.2 y (List.mem_cons_of_mem _ h)⟩
  | «while» c b ih => exact ih (lvl + 1)

/-- Variables of an outer level that are assigned in a statement are loop dependent. -/
theorem ana_assigned (lvl : Nat) (s : Stmt F) : ∀ (r : (Nat → Option Nat) × List Nat) (x l : Nat), r.1 x = some l → l < lvl →
    x ∈ s.assigned → x ∈ (ana lvl s r).2 := by
  induction s generalizing lvl with
  | skip => intro r x l _ _ h; cases h
  | decl => intro r x l _ _ h; cases h
  | store => intro r x l _ _ h; cases h
  | seq a b iha ihb =>
    intro r x l h1 h2 h3
    rcases List.mem_append.1 h3 with h | h
    · exact (ana_mono lvl b _).2 x (iha lvl r x l h1 h2 h)
    · exact ihb lvl _ x l ((ana_mono lvl a r).1 x l h1) h2 h
  | ite c a b iha ihb =>
    intro r x l h1 h2 h3
    rcases List.mem_append.1 h3 with h | h
    · exact (ana_mono lvl b _).2 x (iha lvl r x l h1 h2 h)
    · exact ihb lvl _ x l ((ana_mono lvl a r).1 x l h1) h2 h
  | scope s ih => exact ih lvl
  | assign k x e =>
    intro r y l h1 h2 h3
    obtain rfl : y = x := by simpa [Stmt.assigned] using h3
    simp only [ana, h1, if_pos h2]
    exact List.mem_cons_self
  | loop k x st e i b ih =>
    intro r y l h1 h2 h3
    exact ih (lvl + 1) _ y l h1 (Nat.lt_succ_of_lt h2) h3
  | «while» c b ih =>
    intro r y l h1 h2 h3
    exact ih (lvl + 1) _ y l h1 (Nat.lt_succ_of_lt h2) h3

theorem ana_levels {lv : Nat → Nat} (lvl : Nat) (s : Stmt F) : ∀ (r : (Nat → Option Nat) × List Nat),
    Levels lv lvl s → (∀ x l, r.1 x = some l → l = lv x) → ∀ x l, (ana lvl s r).1 x = some l → l = lv x := by
  induction s generalizing lvl with
  | skip => exact fun r _ h => h
  | store => exact fun r _ h => h
  | seq a b iha ihb => exact fun r hl h => ihb lvl _ hl.2 (iha lvl r hl.1 h)
  | ite c a b iha ihb => exact fun r hl h => ihb lvl _ hl.2 (iha lvl r hl.1 h)
  | scope s ih => exact fun r hl h => ih lvl r hl h
  | decl id k x e =>
    intro r hl h y l hy
    simp only [ana] at hy
    split at hy
    · rename_i h'
      subst h'
      cases hr : r.1 y with
      | some l' => rw [hr] at hy; cases hy; exact h y _ hr
      | none => rw [hr] at hy; cases hy; exact hl.symm
    · exact h y l hy
  | assign k x e =>
    intro r hl h y l hy
    simp only [ana] at hy
    split at hy
    · split at hy
      · exact h y l hy
      · exact h y l hy
    · exact h y l hy
  | loop k x st e i b ih => exact fun r hl h => ih (lvl + 1) _ hl h
  | «while» c b ih => exact fun r hl h => ih (lvl + 1) _ hl h

/-! ### Declared variables -/

/-- Every variable declared anywhere in a statement. -/
def Stmt.decls : Stmt F → List Nat
  | .decl _ _ x _ => [x]
  | .seq a b | .ite _ a b => a.decls ++ b.decls
  | .scope s | .while _ s => s.decls
  | .loop _ x _ _ _ s => x :: s.decls
  | _ => []

theorem declares_decls (s : Stmt F) : ∀ x ∈ s.declares, x ∈ s.decls := by
  induction s with
  | seq a b iha ihb =>
    intro x hx
    rcases List.mem_append.1 hx with h | h
    · exact List.mem_append_left _ (iha x h)
    · exact List.mem_append_right _ (ihb x h)
  | decl => exact fun _ h => h
  | _ => intro x h; cases h

theorem WS.fresh {s : Stmt F} : ∀ {V : List Nat}, WS V s → ∀ x ∈ V, x ∉ s.decls := by
  induction s with
  | skip => intro V _ x _ h; cases h
  | assign => intro V _ x _ h; cases h
  | store => intro V _ x _ h; cases h
  | decl id k y e =>
    intro V hw x hx h
    obtain rfl : x = y := by simpa [Stmt.decls] using h
    exact hw.1 hx
  | seq a b iha ihb =>
    intro V hw x hx h
    rcases List.mem_append.1 h with h | h
    · exact iha hw.1 x hx h
    · exact ihb hw.2 x (List.mem_append_right _ hx) h
  | ite c a b iha ihb =>
    intro V hw x hx h
    rcases List.mem_append.1 h with h | h
    · exact iha hw.2.1 x hx h
    · exact ihb hw.2.2 x hx h
  | scope s ih => exact fun hw => ih hw
  | loop k y st e i b ih =>
    intro V hw x hx h
    rcases List.mem_cons.1 h with rfl | h
    · exact hw.1 hx
    · exact ih hw.2.2 x (List.mem_cons_of_mem _ hx) h
  | «while» c b ih => exact fun hw => ih hw.2

/-! ### Expressions -/

theorem WT.subst {vk ak : Nat → Kind} {M : SMap Nat (Kind × Nat)} (hM : ∀ x k y, get M x = some (k, y) → k = vk y ∧ vk x = vk y)
    {e : Expr F} {k : Kind} (h : WT vk ak e k) : WT vk ak (e.subst M) k := by
  induction h with
  | lit hv => exact .lit hv
  | @var x =>
    simp only [Expr.subst]
    cases hg : get M x with
    | none => exact .var
    | some p =>
      obtain ⟨k', y⟩ := p
      obtain ⟨rfl, h2⟩ := hM x k' y hg
      rw [h2]
      exact .var
  | arith hk _ _ iha ihb => exact .arith hk iha ihb
  | cmp _ _ iha ihb => exact .cmp iha ihb
  | neg hk _ ih => exact .neg hk ih
  | not _ ih => exact .not ih
  | and _ _ iha ihb => exact .and iha ihb
  | or _ _ iha ihb => exact .or iha ihb
  | cast hk _ ih => exact .cast hk ih
  | load hi _ ih => exact .load hi ih

theorem subst_type {vk ak : Nat → Kind} {M : SMap Nat (Kind × Nat)} (hM : ∀ x k y, get M x = some (k, y) → k = vk y ∧ vk x = vk y)
    {e : Expr F} {k : Kind} (h : WT vk ak e k) : (e.subst M).type = e.type := by
  rw [(h.subst hM).type, h.type]

theorem eval_subst {vk ak : Nat → Kind} {A : Flt F} {σ : Env F} {M : SMap Nat (Kind × Nat)}
    (hM : ∀ x k y, get M x = some (k, y) → k = vk y ∧ vk x = vk y)
    {e : Expr F} {k : Kind} (h : WT vk ak e k) (he : ∀ x k y, get M x = some (k, y) → x ∈ e.vars → σ.var x = σ.var y) :
    eval A σ (e.subst M) = eval A σ e := by
  induction h with
  | lit hv => rfl
  | @var x =>
    simp only [Expr.subst]
    cases hg : get M x with
    | none => rfl
    | some p =>
      obtain ⟨k', y⟩ := p
      exact (he x k' y hg (by simp [Expr.vars])).symm
  | @arith op a b k hk ha hb iha ihb =>
    simp only [Expr.subst, eval]
    rw [subst_type hM ha, subst_type hM hb, iha fun x k y h hx => he x k y h (List.mem_append_left _ hx),
      ihb fun x k y h hx => he x k y h (List.mem_append_right _ hx)]
  | @cmp op a b k ha hb iha ihb =>
    simp only [Expr.subst, eval]
    rw [subst_type hM ha, subst_type hM hb, iha fun x k y h hx => he x k y h (List.mem_append_left _ hx),
      ihb fun x k y h hx => he x k y h (List.mem_append_right _ hx)]
  | @neg a k hk ha ih =>
    simp only [Expr.subst, eval]
    rw [subst_type hM ha, ih he]
  | @not a ha ih =>
    simp only [Expr.subst, eval]
    rw [ih he]
  | @and a b ha hb iha ihb =>
    simp only [Expr.subst, eval]
    rw [iha fun x k y h hx => he x k y h (List.mem_append_left _ hx),
      ihb fun x k y h hx => he x k y h (List.mem_append_right _ hx)]
  | @or a b ha hb iha ihb =>
    simp only [Expr.subst, eval]
    rw [iha fun x k y h hx => he x k y h (List.mem_append_left _ hx),
      ihb fun x k y h hx => he x k y h (List.mem_append_right _ hx)]
  | @cast a k k' hk ha ih =>
    simp only [Expr.subst, eval]
    rw [subst_type hM ha, ih he]
  | @load arr loc k hi hl ih =>
    simp only [Expr.subst, eval]
    rw [ih he]

end Verif.IR
