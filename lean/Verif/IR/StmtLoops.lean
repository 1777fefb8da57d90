import Verif.IR.StmtPrune
/-! Replacing loops that only increment variables. -/
namespace Verif.IR
open Verif.Types

variable {F : Type} {vk ak : Nat → Kind} {A : Flt F}

theorem run_mono (n : Nat) : ∀ (t : Stmt F) (σ σ' : Env F), run A n t σ = some σ' → run A (n + 1) t σ = some σ' := by
  induction n with
  | zero => intro t σ σ' h; cases h
  | succ n ih =>
    intro t σ σ' h
    cases t with
    | skip => exact h
    | decl => exact h
    | assign => exact h
    | store => exact h
    | scope a => exact ih a σ σ' h
    | loop => exact ih _ σ σ' h
    | seq a b =>
      obtain ⟨σ1, h1, h2⟩ := bind_some_iff h
      rw [run_seq, ih a σ σ1 h1]
      exact ih b σ1 σ' h2
    | ite c a b =>
      show (match eval A σ c with
        | some (.b true) => run A (n + 1) a σ
        | some (.b false) => run A (n + 1) b σ
        | _ => none) = some σ'
      rcases run_ite h with ⟨hc, h⟩ | ⟨hc, h⟩
      · rw [hc]; exact ih a σ σ' h
      · rw [hc]; exact ih b σ σ' h
    | «while» c b =>
      show (match eval A σ c with
        | some (.b true) => (run A (n + 1) b σ).bind (run A (n + 1) (.while c b))
        | some (.b false) => some σ
        | _ => none) = some σ'
      rcases run_while h with ⟨hc, σ1, h1, h2⟩ | ⟨hc, rfl⟩
      · rw [hc]
        show (run A (n + 1) b σ).bind (run A (n + 1) (.while c b)) = some σ'
        rw [ih b σ σ1 h1]
        exact ih _ σ1 σ' h2
      · rw [hc]

/-! ### Effects of straight-line bodies -/

/-- What an assignment does to its variable. -/
inductive Upd (F : Type)
  | const (v : Val F)
  | inc (v : Int)

/-- The assignments of a body. -/
def ups : Stmt F → List (Nat × Upd F)
  | .seq a b => ups a ++ ups b
  | .scope s => ups s
  | .assign _ x (.lit _ v) => [(x, .const v)]
  | .assign _ x (.arith .add (.var _ _) (.lit _ (.i v))) => [(x, .inc v)]
  | _ => []

/-- The effect of `N` executions of an assignment. -/
def eff (k : Kind) (N : Int) (u : Nat × Upd F) (σ σ' : Env F) : Prop :=
  match u.2 with
  | .const v => σ'.var u.1 = some v
  | .inc v => ∃ a, σ.var u.1 = some (.i a) ∧ σ'.var u.1 = some (.i (wrap k (a + N * v)))

structure Upds (k : Kind) (N : Int) (l : List (Nat × Upd F)) (σ σ' : Env F) : Prop where
  mem : σ'.mem = σ.mem
  other : ∀ y, y ∉ l.map (·.1) → σ'.var y = σ.var y
  eff : ∀ u ∈ l, eff k N u σ σ'

theorem eff.congr {k : Kind} {N : Int} {u : Nat × Upd F} {σ σ' τ τ' : Env F} (h : eff k N u σ σ') (h1 : τ.var u.1 = σ.var u.1)
    (h2 : τ'.var u.1 = σ'.var u.1) : eff k N u τ τ' := by
  obtain ⟨y, u⟩ := u
  cases u with
  | const v => exact h2.trans h
  | inc v =>
    obtain ⟨a, ha, hb⟩ := h
    exact ⟨a, h1.trans ha, h2.trans hb⟩

theorem Upds.append {k : Kind} {N : Int} {l₁ l₂ : List (Nat × Upd F)} {σ σ₁ σ₂ : Env F} (h1 : Upds k N l₁ σ σ₁) (h2 : Upds k N l₂ σ₁ σ₂)
    (hd : ((l₁ ++ l₂).map (·.1)).Nodup) : Upds k N (l₁ ++ l₂) σ σ₂ := by
  rw [List.map_append, List.nodup_append] at hd
  refine ⟨h2.mem.trans h1.mem, fun y hy => ?_, fun u hu => ?_⟩
  · rw [List.map_append, List.mem_append, not_or] at hy
    rw [h2.other y hy.2, h1.other y hy.1]
  · rcases List.mem_append.1 hu with hu | hu
    · exact (h1.eff u hu).congr rfl (h2.other u.1 fun h => hd.2.2 u.1 (List.mem_map_of_mem hu) u.1 h rfl)
    · exact (h2.eff u hu).congr (h1.other u.1 fun h => hd.2.2 u.1 h u.1 (List.mem_map_of_mem hu) rfl).symm rfl

theorem Upds.add {k : Kind} {N M : Int} {l : List (Nat × Upd F)} {σ σ₁ σ₂ : Env F} (h1 : Upds k N l σ σ₁) (h2 : Upds k M l σ₁ σ₂) :
    Upds k (N + M) l σ σ₂ := by
  refine ⟨h2.mem.trans h1.mem, fun y hy => (h2.other y hy).trans (h1.other y hy), fun u hu => ?_⟩
  have e1 := h1.eff u hu
  have e2 := h2.eff u hu
  obtain ⟨y, u⟩ := u
  cases u with
  | const v => exact e2
  | inc v =>
    obtain ⟨a, ha, hb⟩ := e1
    obtain ⟨a', ha', hb'⟩ := e2
    dsimp only at ha hb ha' hb'
    rw [hb] at ha'
    cases ha'
    refine ⟨a, ha, ?_⟩
    dsimp only
    rw [hb', wrap_add_left, Int.add_mul, Int.add_assoc]

theorem dup_assign {count e : Expr F} {k : Kind} {x : Nat} {b' : Stmt F} (h : dup A count (.assign k x e) = some (some b')) :
    (∃ k' v, e = .lit k' v ∧ b' = .assign k x e) ∨
    ∃ ka k' v inc, e = .arith .add (.var ka x) (.lit k' v) ∧ simplify A (.arith .mul count (.lit k' v)) = some inc ∧
      b' = .assign k x (.arith .add (.var ka x) inc) := by
  unfold dup at h
  split at h <;> try (cases h; done)
  · rename_i heq; cases heq
  · rename_i heq; cases heq
  · rename_i heq; cases heq
  · rename_i heq; cases heq; cases h; exact Or.inl ⟨_, _, rfl, rfl⟩
  · rename_i heq
    cases heq
    split at h
    · rename_i hx
      obtain ⟨inc, hi, h⟩ := Option.map_eq_some_iff.1 h
      cases h
      subst hx
      exact Or.inr ⟨_, _, _, inc, rfl, hi, rfl⟩
    · cases h
  

/-- The cases of a body that can be replaced. -/
theorem dup_cases {count : Expr F} {b b' : Stmt F} (h : dup A count b = some (some b')) :
    (b = .skip ∧ b' = .skip) ∨ (∃ a1 a2 b1 b2, b = .seq a1 a2 ∧ b' = .seq b1 b2 ∧ dup A count a1 = some (some b1) ∧ dup A count a2 = some (some b2)) ∨
    (∃ a1 b1, b = .scope a1 ∧ b' = .scope b1 ∧ dup A count a1 = some (some b1)) ∨ ∃ k x e, b = .assign k x e := by
  cases b with
  | skip => cases h; exact Or.inl ⟨rfl, rfl⟩
  | seq a1 a2 =>
    obtain ⟨r, h1, h⟩ := bind_some_iff h
    cases r with
    | none => cases h
    | some b1 =>
      obtain ⟨r, h2, h⟩ := Option.map_eq_some_iff.1 h
      obtain ⟨b2, rfl, rfl⟩ := Option.map_eq_some_iff.1 h
      exact Or.inr (Or.inl ⟨a1, a2, b1, b2, rfl, rfl, h1, h2⟩)
  | scope a =>
    obtain ⟨r, h1, h⟩ := Option.map_eq_some_iff.1 h
    obtain ⟨b1, rfl, rfl⟩ := Option.map_eq_some_iff.1 h
    exact Or.inr (Or.inr (Or.inl ⟨a, b1, rfl, rfl, h1⟩))
  | assign k x e => exact Or.inr (Or.inr (Or.inr ⟨k, x, e, rfl⟩))
  | decl => cases h
  | store => cases h
  | ite => cases h
  | loop => cases h
  | «while» => cases h

theorem dup_straight {count : Expr F} (b : Stmt F) : ∀ {b' : Stmt F}, dup A count b = some (some b') → b.straight := by
  induction b with
  | seq a b iha ihb =>
    intro b' h
    rcases dup_cases h with ⟨h1, _⟩ | ⟨_, _, _, _, h1, _, h2, h3⟩ | ⟨_, _, h1, _⟩ | ⟨_, _, _, h1⟩ <;> cases h1
    exact ⟨iha h2, ihb h3⟩
  | scope a ih =>
    intro b' h
    rcases dup_cases h with ⟨h1, _⟩ | ⟨_, _, _, _, h1, _, h2, h3⟩ | ⟨_, _, h1, _, h2⟩ | ⟨_, _, _, h1⟩ <;> cases h1
    exact ih h2
  | skip => intro _ _; trivial
  | assign => intro _ _; trivial
  | decl => intro _ _; trivial
  | _ => intro b' h; cases h

theorem int_val {k : Kind} (hk : (isInt k || isUInt k) = true) {v : Val F} (h : valOK k v) : ∃ a, v = .i a := by
  cases v with
  | b x => exact absurd hk (by rw [show k = Kind.bool from h]; decide)
  | i a => exact ⟨a, rfl⟩
  | f x =>
    have : ∀ k : Kind, (isInt k || isUInt k) = true → (isFloat k || isComplex k) = true → False := by
      intro k; cases k <;> decide
    exact (this _ hk h).elim

theorem WT.intLit {k : Kind} (hk : (isInt k || isUInt k) = true) {a : Int} (h : wrap k a = a) : WT (F := F) vk ak (.lit k (.i a)) k :=
  .lit (show valOK k (.i a) from ⟨hk, h⟩)

/-- The literal of an increment of an integer variable is an integer. -/
theorem inc_typed {k ka k' : Kind} {x : Nat} {v : Val F} (hk : (isInt k || isUInt k) = true)
    (h : WT vk ak (.arith .add (.var ka x) (.lit k' v)) k) : ka = vk x ∧ k = vk x ∧ k' = k ∧ ∃ a, v = .i a ∧ wrap k a = a := by
  cases h with
  | arith _ h1 h2 =>
    cases h1 with
    | var =>
      cases h2 with
      | lit hv =>
        obtain ⟨a, rfl⟩ := int_val hk hv
        exact ⟨rfl, rfl, rfl, a, rfl, hv.2⟩

theorem ups_assigned {count : Expr F} {k : Kind} (hk : (isInt k || isUInt k) = true) (b : Stmt F) : ∀ {b' : Stmt F},
    dup A count b = some (some b') → WTS vk ak b → (∀ y ∈ b.assigned, vk y = k) → (ups b).map (·.1) = b.assigned := by
  induction b with
  | seq a b iha ihb =>
    intro b' h ht hy
    rcases dup_cases h with ⟨h1, _⟩ | ⟨_, _, _, _, h1, _, h2, h3⟩ | ⟨_, _, h1, _⟩ | ⟨_, _, _, h1⟩ <;> cases h1
    simp only [ups, Stmt.assigned, List.map_append, iha h2 ht.1 fun y h => hy y (List.mem_append_left _ h),
      ihb h3 ht.2 fun y h => hy y (List.mem_append_right _ h)]
  | scope a ih =>
    intro b' h ht hy
    rcases dup_cases h with ⟨h1, _⟩ | ⟨_, _, _, _, h1, _, h2, h3⟩ | ⟨_, _, h1, _, h2⟩ | ⟨_, _, _, h1⟩ <;> cases h1
    exact ih h2 ht hy
  | skip => intro _ _ _ _; rfl
  | assign k0 x e =>
    intro b' h ht hy
    obtain rfl : vk x = k := hy x List.mem_cons_self
    obtain ⟨rfl, ht⟩ := ht
    rcases dup_assign h with ⟨k', v, rfl, _⟩ | ⟨ka, k', v, inc, rfl, _, _⟩
    · rfl
    · obtain ⟨_, _, _, a, rfl, _⟩ := inc_typed hk ht
      rfl
  | _ => intro b' h; cases h

theorem set_var (σ : Env F) (x : Nat) (v : Val F) : (σ.set x v).var x = some v := by simp [Env.set]

theorem set_other (σ : Env F) {x y : Nat} (v : Val F) (h : y ≠ x) : (σ.set x v).var y = σ.var y := by simp [Env.set, h]

theorem Upds.const {k : Kind} {N : Int} (σ : Env F) (x : Nat) (v : Val F) : Upds k N [(x, .const v)] σ (σ.set x v) :=
  ⟨rfl, fun y hy => set_other σ v (by simpa using hy), fun u hu => by
    rw [List.mem_singleton] at hu; subst hu; exact set_var σ x v⟩

theorem Upds.inc {k : Kind} {N : Int} {σ : Env F} {x : Nat} {a v : Int} (h : σ.var x = some (.i a)) :
    Upds k N [(x, .inc v)] σ (σ.set x (.i (wrap k (a + N * v)))) :=
  ⟨rfl, fun y hy => set_other σ _ (by simpa using hy), fun u hu => by
    rw [List.mem_singleton] at hu; subst hu; exact ⟨a, h, set_var σ x _⟩⟩

theorem numeric_int {k : Kind} (hk : (isInt k || isUInt k) = true) : numeric k := by
  revert hk; cases k <;> simp [numeric, isInt, isUInt]

/-- One execution of the body. -/
theorem ups_run {count : Expr F} {k : Kind} (hk : (isInt k || isUInt k) = true) (b : Stmt F) : ∀ {b' : Stmt F} (n : Nat) (σ σ' : Env F),
    dup A count b = some (some b') → WTS vk ak b → (∀ y ∈ b.assigned, vk y = k) → b.assigned.Nodup → EnvOK vk ak σ →
    run A n b σ = some σ' → Upds k 1 (ups b) σ σ' := by
  induction b with
  | seq a b iha ihb =>
    intro b' n σ σ' h ht hy hd he hr
    rcases dup_cases h with ⟨h1, _⟩ | ⟨_, _, _, _, h1, _, h2, h3⟩ | ⟨_, _, h1, _⟩ | ⟨_, _, _, h1⟩ <;> cases h1
    cases n with
    | zero => cases hr
    | succ n =>
    obtain ⟨σ1, r1, r2⟩ := bind_some_iff hr
    have hd' := List.nodup_append.1 hd
    have ha := fun y h => hy y (List.mem_append_left _ h)
    have hb := fun y h => hy y (List.mem_append_right _ h)
    refine (iha n σ σ1 h2 ht.1 ha hd'.1 he r1).append (ihb n σ1 σ' h3 ht.2 hb hd'.2.1 (run_ok n a σ σ1 ht.1 he r1) r2) ?_
    rw [List.map_append, ups_assigned hk a h2 ht.1 ha, ups_assigned hk b h3 ht.2 hb]
    exact hd
  | scope a ih =>
    intro b' n σ σ' h ht hy hd he hr
    rcases dup_cases h with ⟨h1, _⟩ | ⟨_, _, _, _, h1, _, h2, h3⟩ | ⟨_, _, h1, _, h2⟩ | ⟨_, _, _, h1⟩ <;> cases h1
    cases n with
    | zero => cases hr
    | succ n => exact ih n σ σ' h2 ht hy hd he hr
  | skip =>
    intro b' n σ σ' h ht hy hd he hr
    cases n with
    | zero => cases hr
    | succ n => cases hr; exact ⟨rfl, fun _ _ => rfl, fun u hu => by cases hu⟩
  | assign k0 x e =>
    intro b' n σ σ' h ht hy hd he hr
    obtain rfl : vk x = k := hy x List.mem_cons_self
    obtain ⟨rfl, ht⟩ := ht
    cases n with
    | zero => cases hr
    | succ n =>
    obtain ⟨v, hv, rfl⟩ := Option.map_eq_some_iff.1 hr
    rw [evalTo_same ht] at hv
    rcases dup_assign h with ⟨k', w, rfl, _⟩ | ⟨ka, k', w, inc, rfl, _, _⟩
    · obtain rfl : w = v := by injection hv
      exact Upds.const σ x w
    · obtain ⟨rfl, _, rfl, a, rfl, ha⟩ := inc_typed hk ht
      rw [eval_arith (ak := ak) .var (WT.intLit hk ha)] at hv
      obtain ⟨u, hu, hv⟩ := bind_some_iff hv
      obtain ⟨u', hu', hv⟩ := bind_some_iff hv
      cases hu'
      obtain ⟨c, rfl⟩ := int_val hk (he.var x u hu)
      cases hv
      have := Upds.inc (k := vk x) (N := 1) (v := a) (show σ.var x = some (.i c) from hu)
      rw [Int.one_mul] at this
      exact this
  | _ => intro b' n σ σ' h; cases h

/-- The replaced body: as many executions as the count says. -/
theorem dup_run (hA : FltLaws A) {count : Expr F} {k : Kind} (hk : (isInt k || isUInt k) = true) {σ₀ : Env F} (h0 : EnvOK vk ak σ₀) {c : Int}
    (hct : WT vk ak count k) (hc : eval A σ₀ count = some (.i c)) (b : Stmt F) : ∀ {b' : Stmt F} (n : Nat) (σ σ' τ : Env F),
    dup A count b = some (some b') → WTS vk ak b → (∀ y ∈ b.assigned, vk y = k) → b.assigned.Nodup → (∀ y ∈ b.assigned, y ∉ count.vars) →
    (∀ z ∈ count.vars, τ.var z = σ₀.var z) → τ.mem = σ₀.mem → (∀ y ∈ b.assigned, τ.var y = σ.var y) → EnvOK vk ak σ →
    run A n b σ = some σ' → ∃ τ', run A n b' τ = some τ' ∧ Upds k c (ups b) τ τ' := by
  induction b with
  | seq a b iha ihb =>
    intro b' n σ σ' τ h ht hy hd hcv hz hm hs he hr
    rcases dup_cases h with ⟨h1, _⟩ | ⟨_, _, b1, b2, h1, rfl, h2, h3⟩ | ⟨_, _, h1, _⟩ | ⟨_, _, _, h1⟩ <;> cases h1
    cases n with
    | zero => cases hr
    | succ n =>
    obtain ⟨σ1, r1, r2⟩ := bind_some_iff hr
    have hd' := List.nodup_append.1 hd
    have ha := fun y h => hy y (List.mem_append_left _ h)
    have hb := fun y h => hy y (List.mem_append_right _ h)
    have ua := ups_assigned hk a h2 ht.1 ha
    have ub := ups_assigned hk b h3 ht.2 hb
    obtain ⟨τ1, q1, q2⟩ := iha n σ σ1 τ h2 ht.1 ha hd'.1 (fun y h => hcv y (List.mem_append_left _ h)) hz hm
      (fun y h => hs y (List.mem_append_left _ h)) he r1
    have u1 := ups_run hk a n σ σ1 h2 ht.1 ha hd'.1 he r1
    have hnot : ∀ y ∈ b.assigned, y ∉ (ups a).map (·.1) := fun y hyb hya => hd'.2.2 y (ua ▸ hya) y hyb rfl
    obtain ⟨τ2, q3, q4⟩ := ihb n σ1 σ' τ1 h3 ht.2 hb hd'.2.1 (fun y h => hcv y (List.mem_append_right _ h))
      (fun z hzc => (q2.other z (fun h => hcv z (List.mem_append_left _ (ua ▸ h)) hzc)).trans (hz z hzc)) (q2.mem.trans hm)
      (fun y hyb => by rw [q2.other y (hnot y hyb), u1.other y (hnot y hyb)]; exact hs y (List.mem_append_right _ hyb))
      (run_ok n a σ σ1 ht.1 he r1) r2
    refine ⟨τ2, ?_, q2.append q4 ?_⟩
    · rw [run_seq, q1]; exact q3
    · rw [List.map_append, ua, ub]; exact hd
  | scope a ih =>
    intro b' n σ σ' τ h ht hy hd hcv hz hm hs he hr
    rcases dup_cases h with ⟨h1, _⟩ | ⟨_, _, _, _, h1, _, h2, h3⟩ | ⟨_, _, h1, rfl, h2⟩ | ⟨_, _, _, h1⟩ <;> cases h1
    cases n with
    | zero => cases hr
    | succ n => exact ih n σ σ' τ h2 ht hy hd hcv hz hm hs he hr
  | skip =>
    intro b' n σ σ' τ h ht hy hd hcv hz hm hs he hr
    cases h
    cases n with
    | zero => cases hr
    | succ n => exact ⟨τ, rfl, rfl, fun _ _ => rfl, fun u hu => by cases hu⟩
  | assign k0 x e =>
    intro b' n σ σ' τ h ht hy hd hcv hz hm hs he hr
    obtain rfl : vk x = k := hy x List.mem_cons_self
    obtain ⟨rfl, ht⟩ := ht
    cases n with
    | zero => cases hr
    | succ n =>
    obtain ⟨v, hv, rfl⟩ := Option.map_eq_some_iff.1 hr
    rw [evalTo_same ht] at hv
    rcases dup_assign h with ⟨k', w, rfl, rfl⟩ | ⟨ka, k', w, inc, rfl, hinc, rfl⟩
    · refine ⟨τ.set x w, ?_, Upds.const τ x w⟩
      show (evalTo A τ _ _).map _ = _
      rw [evalTo_same ht]; rfl
    · obtain ⟨rfl, _, rfl, a, rfl, ha⟩ := inc_typed hk ht
      rw [eval_arith (ak := ak) .var (WT.intLit hk ha)] at hv
      obtain ⟨u, hu, _⟩ := bind_some_iff hv
      obtain ⟨d, rfl⟩ := int_val hk (he.var x u hu)
      have hτ : τ.var x = some (.i d) := (hs x List.mem_cons_self).trans hu
      have hmul : WT vk ak (Expr.arith .mul count (.lit (vk x) (.i a))) (vk x) := .arith (numeric_int hk) hct (WT.intLit hk ha)
      have href := simp_refines hA _ _ _ _ hinc hmul
      have hev : eval A σ₀ inc = some (.i (wrap (vk x) (c * a))) := href.2 σ₀ h0 _ (by
        rw [eval_arith (ak := ak) hct (WT.intLit hk ha), hc]; rfl)
      have hev' : eval A τ inc = some (.i (wrap (vk x) (c * a))) := by
        rw [eval_congr hm inc fun z hzi => hz z ?_, hev]
        have := simp_vars _ _ _ hinc z hzi
        simp only [Expr.vars, List.append_nil] at this
        exact this
      refine ⟨τ.set x (.i (wrap (vk x) (d + c * a))), ?_, Upds.inc hτ⟩
      have hwt : WT vk ak (Expr.arith .add (.var (vk x) x) inc) (vk x) := .arith (numeric_int hk) .var href.1
      show (evalTo A τ _ _).map _ = _
      rw [evalTo_same hwt, eval_arith (ak := ak) .var href.1, hev']
      show Option.map (τ.set x) ((τ.var x).bind _) = _
      rw [hτ]
      show some (τ.set x (.i (wrap (vk x) (d + wrap (vk x) (c * a))))) = _
      rw [wrap_add_right]
  | _ => intro b' n σ σ' τ h; cases h

/-! ### Counting loops -/

/-- An integer below another one of the same type has a successor. -/
theorem wrap_succ {k : Kind} {u s : Int} (hu : wrap k u = u) (hs : wrap k s = s) (h : u < s) : wrap k (u + 1) = u + 1 := by
  unfold wrap at *
  cases hw : numBits k with
  | none => rfl
  | some w =>
    rw [hw] at hu hs
    dsimp only at hu hs ⊢
    have hpos : (0 : Int) < 2 ^ w := Int.pow_pos (by decide)
    split
    · rename_i hi
      rw [if_pos hi] at hu hs
      have a1 := Int.emod_nonneg (u + 2 ^ (w - 1)) (Int.ne_of_gt hpos)
      have a2 := Int.emod_lt_of_pos (s + 2 ^ (w - 1)) hpos
      rw [Int.emod_eq_of_lt (by omega) (by omega)]
      omega
    · rename_i hi
      rw [if_neg hi] at hu hs
      have a1 := Int.emod_nonneg u (Int.ne_of_gt hpos)
      have a2 := Int.emod_lt_of_pos s hpos
      exact Int.emod_eq_of_lt (by omega) (by omega)

/-- A loop `while (x < stop) { b; x = x + 1 }` whose body can be replaced. -/
theorem count_loop {count stop : Expr F} {k : Kind} (hk : (isInt k || isUInt k) = true) {b b' : Stmt F} {x : Nat}
    (hdup : dup A count b = some (some b')) (ht : WTS vk ak b) (hy : ∀ y ∈ b.assigned, vk y = k) (hd : b.assigned.Nodup)
    (hx : vk x = k) (hxb : x ∉ b.assigned) (hst : WT vk ak stop k) (hsx : x ∉ stop.vars) (hsb : ∀ y ∈ b.assigned, y ∉ stop.vars) (n : Nat) :
    ∀ (σ σ' : Env F) (u s : Int), EnvOK vk ak σ → σ.var x = some (.i u) → eval A σ stop = some (.i s) →
    run A n (.while (.cmp .lt (.var k x) stop) (.seq b (.assign k x (.arith .add (.var k x) (.lit k (.i 1)))))) σ = some σ' →
    (u < s ∧ (∃ m σ1, n = m + 2 ∧ run A m b σ = some σ1) ∧ Upds k (s - u) (ups b ++ [(x, .inc 1)]) σ σ') ∨ (¬ u < s ∧ σ' = σ ∧ 0 < n) := by
  subst hx
  have hcond : ∀ (σ : Env F) (u s : Int), σ.var x = some (.i u) → eval A σ stop = some (.i s) →
      eval A σ (.cmp .lt (.var (vk x) x) stop) = some (.b (decide (u < s))) := by
    intro σ u s h1 h2
    rw [eval_cmp (ak := ak) .var hst]
    show (σ.var x).bind _ = _
    rw [h1, h2]; rfl
  have hua := ups_assigned hk b hdup ht hy
  induction n with
  | zero => intro σ σ' u s _ _ _ h; cases h
  | succ n ih =>
    intro σ σ' u s he hu hs h
    rcases run_while h with ⟨hc, σ1, h1, h2⟩ | ⟨hc, rfl⟩
    · left
      rw [hcond σ u s hu hs] at hc
      have hlt : u < s := by simpa using hc
      cases n with
      | zero => cases h1
      | succ m =>
      obtain ⟨σb, r1, r2⟩ := bind_some_iff h1
      have e1 := run_ok m b σ σb ht he r1
      have u1 := ups_run hk b m σ σb hdup ht hy hd he r1
      cases m with
      | zero => cases r1
      | succ m =>
      have hub : σb.var x = some (.i u) := by rw [u1.other x (hua ▸ hxb)]; exact hu
      have hok : wrap (vk x) u = u := (he.var x _ hu).2
      have hsok : wrap (vk x) s = s := (eval_ok he hst _ hs).2
      have hsucc := wrap_succ hok hsok hlt
      have hadd : WT (F := F) vk ak (Expr.arith .add (.var (vk x) x) (.lit (vk x) (.i 1))) (vk x) :=
        .arith (numeric_int hk) .var (WT.intLit hk (wrap_one hk))
      obtain ⟨v, hv, rfl⟩ := Option.map_eq_some_iff.1 r2
      rw [evalTo_same hadd, eval_arith (ak := ak) .var (WT.intLit hk (wrap_one hk))] at hv
      obtain ⟨w, hw, hv⟩ := bind_some_iff hv
      obtain ⟨w', hw', hv⟩ := bind_some_iff hv
      cases hw'
      replace hw : σb.var x = some w := hw
      rw [hub] at hw
      cases hw
      cases hv
      have uinc := Upds.inc (k := vk x) (N := 1) (v := 1) hub
      rw [Int.one_mul] at uinc
      have hnd : ((ups b ++ [(x, Upd.inc (F := F) 1)]).map (·.1)).Nodup := by
        rw [List.map_append, hua, List.nodup_append]
        refine ⟨hd, by simp, ?_⟩
        intro y hy z hz hyz
        simp only [List.map_cons, List.map_nil, List.mem_singleton] at hz
        exact hxb (hz ▸ hyz ▸ hy)
      have u2 := u1.append uinc hnd
      have he2 : EnvOK vk ak (σb.set x (.i (wrap (vk x) (u + 1)))) := e1.set ⟨hk, wrap_wrap _ _⟩
      have hu2 : (σb.set x (.i (wrap (vk x) (u + 1)))).var x = some (.i (u + 1)) := by rw [set_var, hsucc]
      have hs2 : eval A (σb.set x (.i (wrap (vk x) (u + 1)))) stop = some (.i s) := by
        rw [← hs]
        refine eval_congr u2.mem stop fun z hz => u2.other z ?_
        rw [List.map_append, hua, List.mem_append, not_or]
        refine ⟨fun h => hsb z h hz, ?_⟩
        simp only [List.map_cons, List.map_nil, List.mem_singleton]
        exact fun h => hsx (h ▸ hz)
      refine ⟨hlt, ⟨m + 1, σb, rfl, r1⟩, ?_⟩
      rcases ih _ σ' (u + 1) s he2 hu2 hs2 h2 with ⟨_, _, u3⟩ | ⟨hge, rfl, _⟩
      · have := u2.add u3
        rw [show (1 : Int) + (s - (u + 1)) = s - u by omega] at this
        exact this
      · rw [show s - u = 1 by omega]
        exact u2
    · right
      rw [hcond σ' u s hu hs] at hc
      refine ⟨by simpa using hc, rfl, Nat.succ_pos _⟩

/-- Equal start, wrapped and exact count: equal end. -/
theorem Upds.agree {k : Kind} {N M : Int} {l : List (Nat × Upd F)} {σ σ' τ τ' : Env F} (h1 : Upds k N l σ σ') (h2 : Upds k M l τ τ')
    (hNM : wrap k N = wrap k M) {y : Nat} (h : σ.var y = τ.var y) : σ'.var y = τ'.var y := by
  by_cases hy : y ∈ l.map (·.1)
  · obtain ⟨⟨y', u⟩, hu, rfl⟩ := List.mem_map.1 hy
    have e1 := h1.eff _ hu
    have e2 := h2.eff _ hu
    cases u with
    | const v => exact Eq.trans e1 (Eq.symm e2)
    | inc v =>
      obtain ⟨a, ha, hb⟩ := e1
      obtain ⟨a', ha', hb'⟩ := e2
      dsimp only at ha hb ha' hb' h ⊢
      rw [h, ha'] at ha
      cases ha
      rw [hb, hb']
      rw [← wrap_add_right k a (N * v), ← wrap_mul_left k N v, hNM, wrap_mul_left, wrap_add_right]
  · rw [h1.other y hy, h2.other y hy, h]

end Verif.IR
