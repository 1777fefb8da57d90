import Mathlib.Data.List.Forall2
import Verif.Kernel.Model
import Verif.Kernel.Spec
namespace Verif.Kernel

/-! ### Pairs -/

theorem lookup_none {m : List (Nat × Nat)} {a : Nat} (h : m.lookup a = none) : ∀ p ∈ m, p.1 ≠ a := by
  induction m with
  | nil => simp
  | cons q m ih =>
    obtain ⟨x, y⟩ := q
    rw [List.lookup_cons] at h
    by_cases hx : a = x
    · simp [hx] at h
    · have : (a == x) = false := by simpa using hx
      rw [this] at h
      intro p hp
      rcases List.mem_cons.mp hp with rfl | hp
      · exact fun e => hx e.symm
      · exact ih h p hp

theorem lookup_some {m : List (Nat × Nat)} {a b : Nat} (h : m.lookup a = some b) : (a, b) ∈ m := by
  induction m with
  | nil => simp at h
  | cons q m ih =>
    obtain ⟨x, y⟩ := q
    rw [List.lookup_cons] at h
    by_cases hx : a = x
    · subst hx
      simp at h
      simp [h]
    · have : (a == x) = false := by simpa using hx
      rw [this] at h
      exact List.mem_cons_of_mem _ (ih h)

theorem lookup_of_mem {m : List (Nat × Nat)} {a b : Nat} (hm : OneToOne m) (h : (a, b) ∈ m) :
    m.lookup a = some b := by
  cases hl : m.lookup a with
  | none => exact absurd rfl (lookup_none hl _ h)
  | some c =>
    have := (hm _ (lookup_some hl) _ h).mp rfl
    simp only at this
    rw [this]

theorem oneToOne_swap {m : List (Nat × Nat)} (hm : OneToOne m) : OneToOne (m.map Prod.swap) := by
  intro p hp q hq
  obtain ⟨p', hp', rfl⟩ := List.mem_map.mp hp
  obtain ⟨q', hq', rfl⟩ := List.mem_map.mp hq
  exact (hm p' hp' q' hq').symm

theorem mem_swap {m : List (Nat × Nat)} {a b : Nat} : (a, b) ∈ m.map Prod.swap ↔ (b, a) ∈ m := by
  constructor
  · intro h
    obtain ⟨q, hq, he⟩ := List.mem_map.mp h
    obtain ⟨x, y⟩ := q
    simp only [Prod.swap, Prod.mk.injEq] at he
    rwa [← he.1, ← he.2]
  · intro h
    exact List.mem_map.mpr ⟨(b, a), h, rfl⟩

/-- What a successful check of two variables means. -/
theorem checkPair_spec {m m' : List (Nat × Nat)} {ok : Bool} {a b : Nat} (hm : OneToOne m)
    (h : checkPair m ok a b = some m') :
    OneToOne m' ∧ (a, b) ∈ m' ∧ (∀ p ∈ m, p ∈ m') ∧ (∀ p ∈ m', p ∈ m ∨ (p = (a, b) ∧ ok = true)) := by
  unfold checkPair at h
  split at h
  · rename_i h1 h2
    split at h
    · rename_i hok
      cases h
      refine ⟨?_, by simp, fun p hp => List.mem_cons_of_mem _ hp, ?_⟩
      · have ha := lookup_none h1
        have hb : ∀ p ∈ m, p.2 ≠ b := by
          intro p hp e
          exact lookup_none h2 (p.2, p.1) (mem_swap.mpr hp) e
        intro p hp q hq
        rcases List.mem_cons.mp hp with rfl | hp <;> rcases List.mem_cons.mp hq with rfl | hq
        · simp
        · constructor
          · intro e; exact absurd e.symm (ha q hq)
          · intro e; exact absurd e.symm (hb q hq)
        · constructor
          · intro e; exact absurd e (ha p hp)
          · intro e; exact absurd e (hb p hp)
        · exact hm p hp q hq
      · intro p hp
        rcases List.mem_cons.mp hp with rfl | hp
        · exact Or.inr ⟨rfl, hok⟩
        · exact Or.inl hp
    · cases h
  · rename_i h1 h2
    split at h
    · rename_i he
      cases h
      obtain ⟨rfl, rfl⟩ := he
      exact ⟨hm, lookup_some h1, fun _ h => h, fun _ h => Or.inl h⟩
    · cases h
  · cases h

/-! ### Corresponding expressions and statements -/

/-- Corresponding index variables. -/
def RelV (V : List (Nat × Nat)) (is js : List Nat) : Prop := List.Forall₂ (fun i j => (i, j) ∈ V) is js

inductive RelE (T V : List (Nat × Nat)) : Expr → Expr → Prop
  | lit (c : Nat) : RelE T V (.lit c) (.lit c)
  | idx (i : Nat) : RelE T V (.idx i) (.idx i)
  | acc {a b : Nat} {s : Bool} {is js : List Nat} {ms : List Mode} (h : (a, b) ∈ T) (h' : RelV V is js) :
    RelE T V (.acc a s is ms) (.acc b s js ms)
  | un {o : Nat} {a b : Expr} (h : RelE T V a b) : RelE T V (.un o a) (.un o b)
  | bin {o : Nat} {a b a' b' : Expr} (h : RelE T V a b) (h' : RelE T V a' b') :
    RelE T V (.bin o a a') (.bin o b b')
  | red {o i j : Nat} {a b : Expr} (h : (i, j) ∈ V) (h' : RelE T V a b) :
    RelE T V (.red o i a) (.red o j b)

inductive RelS (T V : List (Nat × Nat)) : Stmt → Stmt → Prop
  | assign {a b : Nat} {s : Bool} {is js : List Nat} {ms : List Mode} {o : Option Nat} {e f : Expr}
    (h : (a, b) ∈ T) (h' : RelV V is js) (he : RelE T V e f) :
    RelS T V (.assign a s is ms o e) (.assign b s js ms o f)
  | loop {i j : Nat} {x y : Attrs} {s r : Stmt} (h : (i, j) ∈ V) (h' : RelS T V s r) :
    RelS T V (.loop i x s) (.loop j y r)
  | wher {a b a' b' : Stmt} (h : RelS T V a b) (h' : RelS T V a' b') :
    RelS T V (.wher a a') (.wher b b')
  | seq {a b a' b' : Stmt} (h : RelS T V a b) (h' : RelS T V a' b') : RelS T V (.seq a a') (.seq b b')
  | multi {a b a' b' : Stmt} (h : RelS T V a b) (h' : RelS T V a' b') :
    RelS T V (.multi a a') (.multi b b')

theorem RelV.mono {V V' : List (Nat × Nat)} (hV : ∀ p ∈ V, p ∈ V') {is js : List Nat} (h : RelV V is js) :
    RelV V' is js := List.Forall₂.imp (fun _ _ h => hV _ h) h

theorem RelE.mono {T T' V V' : List (Nat × Nat)} (hT : ∀ p ∈ T, p ∈ T') (hV : ∀ p ∈ V, p ∈ V') {a b : Expr}
    (h : RelE T V a b) : RelE T' V' a b := by
  induction h with
  | lit c => exact .lit c
  | idx i => exact .idx i
  | acc h h' => exact .acc (hT _ h) (h'.mono hV)
  | un _ ih => exact .un ih
  | bin _ _ ih ih' => exact .bin ih ih'
  | red h _ ih => exact .red (hV _ h) ih

theorem RelS.mono {T T' V V' : List (Nat × Nat)} (hT : ∀ p ∈ T, p ∈ T') (hV : ∀ p ∈ V, p ∈ V') {a b : Stmt}
    (h : RelS T V a b) : RelS T' V' a b := by
  induction h with
  | assign h h' he => exact .assign (hT _ h) (h'.mono hV) (he.mono hT hV)
  | loop h _ ih => exact .loop (hV _ h) ih
  | wher _ _ ih ih' => exact .wher ih ih'
  | seq _ _ ih ih' => exact .seq ih ih'
  | multi _ _ ih ih' => exact .multi ih ih'

/-- The state is a correspondence of variables, and of tensors of the same type and format. -/
def Good (info : Nat → Info) (m : St) : Prop :=
  OneToOne m.ts ∧ OneToOne m.vs ∧ ∀ p ∈ m.ts, sameInfo (info p.1) (info p.2) = true

/-- The state only grows. -/
def St.le (m m' : St) : Prop := (∀ p ∈ m.ts, p ∈ m'.ts) ∧ (∀ p ∈ m.vs, p ∈ m'.vs)

theorem St.le_refl (m : St) : m.le m := ⟨fun _ h => h, fun _ h => h⟩

theorem St.le_trans {a b c : St} (h : a.le b) (h' : b.le c) : a.le c :=
  ⟨fun p hp => h'.1 p (h.1 p hp), fun p hp => h'.2 p (h.2 p hp)⟩

theorem checkTensor_spec {info : Nat → Info} {a b : Nat} {m m' : St} (hm : Good info m)
    (h : checkTensor info a b m = some m') : Good info m' ∧ m.le m' ∧ (a, b) ∈ m'.ts := by
  unfold checkTensor at h
  obtain ⟨ts, h1, rfl⟩ := Option.map_eq_some_iff.mp h
  obtain ⟨h2, h3, h4, h5⟩ := checkPair_spec hm.1 h1
  refine ⟨⟨h2, hm.2.1, ?_⟩, ⟨h4, fun _ h => h⟩, h3⟩
  intro p hp
  rcases h5 p hp with hp | ⟨rfl, hok⟩
  · exact hm.2.2 p hp
  · exact hok

theorem checkVar_spec {info : Nat → Info} {a b : Nat} {m m' : St} (hm : Good info m)
    (h : checkVar a b m = some m') : Good info m' ∧ m.le m' ∧ (a, b) ∈ m'.vs := by
  unfold checkVar at h
  obtain ⟨vs, h1, rfl⟩ := Option.map_eq_some_iff.mp h
  obtain ⟨h2, h3, h4, _⟩ := checkPair_spec hm.2.1 h1
  exact ⟨⟨hm.1, h2, hm.2.2⟩, ⟨fun _ h => h, h4⟩, h3⟩

theorem checkVars_spec {info : Nat → Info} : ∀ {is js : List Nat} {m m' : St}, Good info m →
    checkVars is js m = some m' → Good info m' ∧ m.le m' ∧ RelV m'.vs is js
  | [], [], m, m', hm, h => by
    simp only [checkVars, Option.some.injEq] at h
    subst h
    exact ⟨hm, m.le_refl, List.Forall₂.nil⟩
  | a :: as, b :: bs, m, m', hm, h => by
    simp only [checkVars] at h
    obtain ⟨m1, h1, h2⟩ := Option.bind_eq_some_iff.mp h
    obtain ⟨g1, l1, p1⟩ := checkVar_spec hm h1
    obtain ⟨g2, l2, p2⟩ := checkVars_spec g1 h2
    exact ⟨g2, St.le_trans l1 l2, List.Forall₂.cons (l2.2 _ p1) p2⟩
  | [], _ :: _, _, _, _, h => by simp [checkVars] at h
  | _ :: _, [], _, _, _, h => by simp [checkVars] at h

theorem checkAccess_spec {info : Nat → Info} {a b : Nat} {sa sb : Bool} {is js : List Nat}
    {ma mb : List Mode} {m m' : St} (hm : Good info m)
    (h : checkAccess info a b sa sb is js ma mb m = some m') :
    Good info m' ∧ m.le m' ∧ (a, b) ∈ m'.ts ∧ RelV m'.vs is js ∧ sa = sb ∧ ma = mb := by
  unfold checkAccess at h
  obtain ⟨m1, h1, h⟩ := Option.bind_eq_some_iff.mp h
  obtain ⟨m2, h2, h⟩ := Option.bind_eq_some_iff.mp h
  obtain ⟨g1, l1, p1⟩ := checkTensor_spec hm h1
  obtain ⟨g2, l2, p2⟩ := checkVars_spec g1 h2
  split at h
  · rename_i he
    cases h
    exact ⟨g2, St.le_trans l1 l2, l2.1 _ p1, p2, he⟩
  · cases h

theorem checkExpr_spec {info : Nat → Info} (a : Expr) : ∀ {b : Expr} {m m' : St}, Good info m →
    checkExpr info a b m = some m' → Good info m' ∧ m.le m' ∧ RelE m'.ts m'.vs a b := by
  induction a with
  | lit c =>
    intro b m m' hm h
    cases b <;> simp only [checkExpr, reduceCtorEq] at h
    split at h
    · rename_i he; cases h; subst he; exact ⟨hm, m.le_refl, .lit _⟩
    · cases h
  | idx c =>
    intro b m m' hm h
    cases b <;> simp only [checkExpr, reduceCtorEq] at h
    split at h
    · rename_i he; cases h; subst he; exact ⟨hm, m.le_refl, .idx _⟩
    · cases h
  | acc t s is ms =>
    intro b m m' hm h
    cases b <;> simp only [checkExpr, reduceCtorEq] at h
    obtain ⟨g, l, p, q, rfl, rfl⟩ := checkAccess_spec hm h
    exact ⟨g, l, .acc p q⟩
  | un o a ih =>
    intro b m m' hm h
    cases b <;> simp only [checkExpr, reduceCtorEq] at h
    split at h
    · rename_i he; subst he
      obtain ⟨g, l, r⟩ := ih hm h
      exact ⟨g, l, .un r⟩
    · cases h
  | bin o a a' ih ih' =>
    intro b m m' hm h
    cases b <;> simp only [checkExpr, reduceCtorEq] at h
    split at h
    · rename_i he; subst he
      obtain ⟨m1, h1, h2⟩ := Option.bind_eq_some_iff.mp h
      obtain ⟨g1, l1, r1⟩ := ih hm h1
      obtain ⟨g2, l2, r2⟩ := ih' g1 h2
      exact ⟨g2, St.le_trans l1 l2, .bin (r1.mono l2.1 l2.2) r2⟩
    · cases h
  | red o i a ih =>
    intro b m m' hm h
    cases b <;> simp only [checkExpr, reduceCtorEq] at h
    split at h
    · rename_i he; subst he
      obtain ⟨m1, h1, h2⟩ := Option.bind_eq_some_iff.mp h
      obtain ⟨g1, l1, r1⟩ := checkVar_spec hm h1
      obtain ⟨g2, l2, r2⟩ := ih g1 h2
      exact ⟨g2, St.le_trans l1 l2, .red (l2.2 _ r1) r2⟩
    · cases h

theorem checkStmt_spec {info : Nat → Info} (a : Stmt) : ∀ {b : Stmt} {m m' : St}, Good info m →
    checkStmt info a b m = some m' → Good info m' ∧ m.le m' ∧ RelS m'.ts m'.vs a b := by
  induction a with
  | assign t s is ms o e =>
    intro b m m' hm h
    cases b <;> simp only [checkStmt, reduceCtorEq] at h
    obtain ⟨m1, h1, h3⟩ := Option.bind_eq_some_iff.mp h
    obtain ⟨m2, h2, h4⟩ := Option.bind_eq_some_iff.mp h3
    clear h h3
    split at h4
    · rename_i he; subst he
      simp only [Option.some.injEq] at h4
      subst h4
      obtain ⟨g1, l1, p, q, rfl, rfl⟩ := checkAccess_spec hm h1
      obtain ⟨g2, l2, r⟩ := checkExpr_spec e g1 h2
      exact ⟨g2, St.le_trans l1 l2, .assign (l2.1 _ p) (q.mono l2.2) r⟩
    · cases h4
  | loop i x s ih =>
    intro b m m' hm h
    cases b <;> simp only [checkStmt, reduceCtorEq] at h
    obtain ⟨m1, h1, h⟩ := Option.bind_eq_some_iff.mp h
    obtain ⟨m2, h2, h⟩ := Option.bind_eq_some_iff.mp h
    split at h
    · cases h
      obtain ⟨g1, l1, p⟩ := checkVar_spec hm h1
      obtain ⟨g2, l2, r⟩ := ih g1 h2
      exact ⟨g2, St.le_trans l1 l2, .loop (l2.2 _ p) r⟩
    · cases h
  | wher c p ih ih' =>
    intro b m m' hm h
    cases b <;> simp only [checkStmt, reduceCtorEq] at h
    obtain ⟨m1, h1, h2⟩ := Option.bind_eq_some_iff.mp h
    obtain ⟨g1, l1, r1⟩ := ih hm h1
    obtain ⟨g2, l2, r2⟩ := ih' g1 h2
    exact ⟨g2, St.le_trans l1 l2, .wher (r1.mono l2.1 l2.2) r2⟩
  | seq c p ih ih' =>
    intro b m m' hm h
    cases b <;> simp only [checkStmt, reduceCtorEq] at h
    obtain ⟨m1, h1, h2⟩ := Option.bind_eq_some_iff.mp h
    obtain ⟨g1, l1, r1⟩ := ih hm h1
    obtain ⟨g2, l2, r2⟩ := ih' g1 h2
    exact ⟨g2, St.le_trans l1 l2, .seq (r1.mono l2.1 l2.2) r2⟩
  | multi c p ih ih' =>
    intro b m m' hm h
    cases b <;> simp only [checkStmt, reduceCtorEq] at h
    obtain ⟨m1, h1, h2⟩ := Option.bind_eq_some_iff.mp h
    obtain ⟨g1, l1, r1⟩ := ih hm h1
    obtain ⟨g2, l2, r2⟩ := ih' g1 h2
    exact ⟨g2, St.le_trans l1 l2, .multi (r1.mono l2.1 l2.2) r2⟩

theorem isomorphic_spec {info : Nat → Info} {a b : Stmt} (h : isomorphic info a b = true) :
    ∃ m, Good info m ∧ RelS m.ts m.vs a b := by
  unfold isomorphic at h
  obtain ⟨m, hm⟩ := Option.isSome_iff_exists.mp h
  have g : Good info ⟨[], []⟩ :=
    ⟨fun p hp => absurd hp (by simp), fun p hp => absurd hp (by simp), fun p hp => absurd hp (by simp)⟩
  obtain ⟨g, _, r⟩ := checkStmt_spec a g hm
  exact ⟨m, g, r⟩

/-! ### Corresponding statements compute the same -/

/-- Environments that correspond. -/
def SameEnv (V : List (Nat × Nat)) (ρ ρ' : Env) : Prop := ∀ p ∈ V, ρ p.1 = ρ' p.2

/-- Functions of tensors that correspond. -/
def SameOn {A : Type} (T : List (Nat × Nat)) (σ σ' : Nat → A) : Prop := ∀ p ∈ T, σ p.1 = σ' p.2

theorem SameEnv.set {V : List (Nat × Nat)} (hV : OneToOne V) {ρ ρ' : Env} (h : SameEnv V ρ ρ') {i j : Nat}
    (hij : (i, j) ∈ V) (v : Nat) : SameEnv V (ρ.set i v) (ρ'.set j v) := by
  intro p hp
  unfold Env.set
  by_cases he : p.1 = i
  · have := (hV p hp _ hij).mp he
    simp only at this
    simp [he, this]
  · have : p.2 ≠ j := fun e => he ((hV p hp _ hij).mpr e)
    simp [he, this, h p hp]

theorem coords_same {V : List (Nat × Nat)} {ρ ρ' : Env} (h : SameEnv V ρ ρ') {is js : List Nat}
    (hv : RelV V is js) : ∀ ms : List Mode, coords ρ is ms = coords ρ' js ms := by
  induction hv with
  | nil => intro ms; rfl
  | cons hij _ ih =>
    intro ms
    cases ms with
    | nil => rfl
    | cons m ms =>
      have := ih ms
      unfold coords at this ⊢
      simp only [List.zipWith_cons_cons, this]
      rw [h _ hij]

theorem eval_same {A : Type} (S : Sem A) {T V : List (Nat × Nat)} (hV : OneToOne V) {dim dim' : Nat → Nat}
    (hd : SameOn V dim dim') {σ σ' : Store A} (hσ : SameOn T σ σ') {a b : Expr} (h : RelE T V a b)
    (hi : a.usesIdx = false) : ∀ {ρ ρ' : Env}, SameEnv V ρ ρ' → eval S dim σ ρ a = eval S dim' σ' ρ' b := by
  induction h with
  | lit c => intros; rfl
  | idx i => simp [Expr.usesIdx] at hi
  | acc h h' => intro ρ ρ' hρ; simp only [eval, hσ _ h, coords_same hρ h']
  | un _ ih => intro ρ ρ' hρ; simp only [eval, ih hi hρ]
  | bin _ _ ih ih' =>
    intro ρ ρ' hρ
    simp only [Expr.usesIdx, Bool.or_eq_false_iff] at hi
    simp only [eval, ih hi.1 hρ, ih' hi.2 hρ]
  | red h _ ih =>
    intro ρ ρ' hρ
    simp only [eval]
    rw [hd _ h]
    congr 1
    refine List.map_congr_left fun v _ => ?_
    exact ih hi (hρ.set hV h v)

theorem put_same {A : Type} {T : List (Nat × Nat)} (hT : OneToOne T) {σ σ' : Store A} (h : SameOn T σ σ')
    {t u : Nat} (htu : (t, u) ∈ T) (c : List Nat) (r : A) : SameOn T (put σ t c r) (put σ' u c r) := by
  intro p hp
  funext c'
  unfold put
  have := hT p hp _ htu
  simp only at this
  by_cases he : p.1 = t
  · simp [he, this.mp he, h _ htu]
  · have h2 : p.2 ≠ u := fun e => he (this.mpr e)
    simp [he, h2, h p hp]

theorem results_same {T V : List (Nat × Nat)} {a b : Stmt} (h : RelS T V a b) :
    List.Forall₂ (fun t u => (t, u) ∈ T) a.results b.results := by
  induction h with
  | assign h _ _ => exact .cons h .nil
  | loop _ _ ih => exact ih
  | wher _ _ ih _ => exact ih
  | seq _ _ ih ih' => exact List.rel_append ih ih'
  | multi _ _ ih ih' => exact List.rel_append ih ih'

theorem mem_same {T : List (Nat × Nat)} (hT : OneToOne T) {ts us : List Nat}
    (h : List.Forall₂ (fun t u => (t, u) ∈ T) ts us) {p : Nat × Nat} (hp : p ∈ T) :
    p.1 ∈ ts ↔ p.2 ∈ us := by
  induction h with
  | nil => simp
  | cons htu _ ih =>
    have := hT p hp _ htu
    simp only at this
    simp [ih, this]

theorem clear_same {A : Type} (S : Sem A) {info : Nat → Info} {T : List (Nat × Nat)} (hT : OneToOne T)
    (hf : ∀ p ∈ T, (info p.1).fill = (info p.2).fill) {ts us : List Nat}
    (h : List.Forall₂ (fun t u => (t, u) ∈ T) ts us) {σ σ' : Store A} (hσ : SameOn T σ σ') :
    SameOn T (clear S info ts σ) (clear S info us σ') := by
  intro p hp
  unfold clear
  by_cases he : p.1 ∈ ts
  · simp [he, (mem_same hT h hp).mp he, hf p hp]
  · have h2 : p.2 ∉ us := fun e => he ((mem_same hT h hp).mpr e)
    simp [he, h2, hσ p hp]

theorem restore_same {A : Type} {T : List (Nat × Nat)} (hT : OneToOne T) {ts us : List Nat}
    (h : List.Forall₂ (fun t u => (t, u) ∈ T) ts us) {σ σ' τ τ' : Store A} (hσ : SameOn T σ σ')
    (hτ : SameOn T τ τ') : SameOn T (restore ts σ τ) (restore us σ' τ') := by
  intro p hp
  unfold restore
  by_cases he : p.1 ∈ ts
  · simp [he, (mem_same hT h hp).mp he, hσ p hp]
  · have h2 : p.2 ∉ us := fun e => he ((mem_same hT h hp).mpr e)
    simp [he, h2, hτ p hp]

theorem foldl_same {A B : Type} {P : A → A → Prop} (f g : A → B → A) (l : List B)
    (h : ∀ x y v, P x y → P (f x v) (g y v)) : ∀ x y, P x y → P (l.foldl f x) (l.foldl g y) := by
  induction l with
  | nil => intro x y hxy; exact hxy
  | cons v l ih => intro x y hxy; exact ih _ _ (h _ _ v hxy)

theorem exec_same {A : Type} (S : Sem A) {info : Nat → Info} {T V : List (Nat × Nat)} (hT : OneToOne T)
    (hV : OneToOne V) (hf : ∀ p ∈ T, (info p.1).fill = (info p.2).fill) {dim dim' : Nat → Nat}
    (hd : SameOn V dim dim') {a b : Stmt} (h : RelS T V a b) (hi : a.usesIdx = false) :
    ∀ {ρ ρ' : Env} {σ σ' : Store A}, SameEnv V ρ ρ' → SameOn T σ σ' →
      SameOn T (exec S info dim a ρ σ) (exec S info dim' b ρ' σ') := by
  induction h with
  | assign h h' he =>
    intro ρ ρ' σ σ' hρ hσ
    simp only [exec]
    rw [eval_same S hV hd hσ he hi hρ, coords_same hρ h', hσ _ h]
    exact put_same hT hσ h _ _
  | loop h _ ih =>
    intro ρ ρ' σ σ' hρ hσ
    simp only [exec]
    rw [hd _ h]
    refine foldl_same _ _ _ ?_ _ _ hσ
    intro x y v hxy
    exact ih hi (hρ.set hV h v) hxy
  | wher _ hp ih ih' =>
    intro ρ ρ' σ σ' hρ hσ
    simp only [Stmt.usesIdx, Bool.or_eq_false_iff] at hi
    simp only [exec]
    refine restore_same hT (results_same hp) hσ ?_
    exact ih hi.1 hρ (ih' hi.2 hρ (clear_same S hT hf (results_same hp) hσ))
  | seq _ _ ih ih' =>
    intro ρ ρ' σ σ' hρ hσ
    simp only [Stmt.usesIdx, Bool.or_eq_false_iff] at hi
    exact ih' hi.2 hρ (ih hi.1 hρ hσ)
  | multi _ _ ih ih' =>
    intro ρ ρ' σ σ' hρ hσ
    simp only [Stmt.usesIdx, Bool.or_eq_false_iff] at hi
    exact ih' hi.2 hρ (ih hi.1 hρ hσ)

/-! ### Ranges -/

/-- Accesses that correspond. -/
def RelA (T V : List (Nat × Nat)) (x y : Nat × List Nat × List Mode) : Prop :=
  (x.1, y.1) ∈ T ∧ RelV V x.2.1 y.2.1 ∧ x.2.2 = y.2.2

theorem RelE.accs {T V : List (Nat × Nat)} {a b : Expr} (h : RelE T V a b) :
    List.Forall₂ (RelA T V) a.accs b.accs := by
  induction h with
  | lit c => exact .nil
  | idx i => exact .nil
  | acc h h' => exact .cons ⟨h, h', rfl⟩ .nil
  | un _ ih => exact ih
  | bin _ _ ih ih' => exact List.rel_append ih ih'
  | red _ _ ih => exact ih

theorem RelS.accs {T V : List (Nat × Nat)} {a b : Stmt} (h : RelS T V a b) :
    List.Forall₂ (RelA T V) a.accs b.accs := by
  induction h with
  | assign h h' he => exact .cons ⟨h, h', rfl⟩ he.accs
  | loop _ _ ih => exact ih
  | wher _ _ ih ih' => exact List.rel_append ih ih'
  | seq _ _ ih ih' => exact List.rel_append ih ih'
  | multi _ _ ih ih' => exact List.rel_append ih ih'

theorem extentOf_same {V : List (Nat × Nat)} (hV : OneToOne V) {i j : Nat} (hij : (i, j) ∈ V)
    {is js : List Nat} (h : RelV V is js) : ∀ (ms : List Mode) (ds : List Nat),
    extentOf i is ms ds = extentOf j js ms ds := by
  induction h with
  | nil => intro ms ds; cases ms <;> cases ds <;> rfl
  | cons hab _ ih =>
    intro ms ds
    cases ms with
    | nil => rfl
    | cons m ms =>
      cases ds with
      | nil => rfl
      | cons d ds =>
        have := hV _ hab _ hij
        simp only at this
        simp only [extentOf, ih ms ds, this]

theorem findSome_same {A B : Type} {P : A → A → Prop} {f g : A → Option B}
    (h : ∀ x y, P x y → f x = g y) {l l' : List A} (hl : List.Forall₂ P l l') :
    l.findSome? f = l'.findSome? g := by
  induction hl with
  | nil => rfl
  | cons hxy _ ih => simp only [List.findSome?_cons, h _ _ hxy, ih]

theorem extent_same {T V : List (Nat × Nat)} (hV : OneToOne V) {a b : Stmt} (h : RelS T V a b)
    {shape shape' : Nat → List Nat} (hs : SameOn T shape shape') :
    SameOn V (extent shape a) (extent shape' b) := by
  intro p hp
  unfold extent
  rw [findSome_same (P := RelA T V) (g := fun a => extentOf p.2 a.2.1 a.2.2 (shape' a.1)) _ h.accs]
  intro x y hxy
  obtain ⟨h1, h2, h3⟩ := hxy
  rw [hs _ h1, h3]
  exact extentOf_same hV hp h2 _ _

/-! ### Renamed statements are found isomorphic -/

theorem checkPair_graph {m : List (Nat × Nat)} {f : Nat → Nat} (hf : ∀ x y, f x = f y → x = y)
    (hm : ∀ p ∈ m, p.2 = f p.1) {ok : Bool} {a : Nat} (hok : ok = true) :
    ∃ m', checkPair m ok a (f a) = some m' ∧ ∀ p ∈ m', p.2 = f p.1 := by
  unfold checkPair
  cases h1 : m.lookup a with
  | none =>
    cases h2 : (m.map Prod.swap).lookup (f a) with
    | none =>
      refine ⟨(a, f a) :: m, by simp [hok], ?_⟩
      intro p hp
      rcases List.mem_cons.mp hp with rfl | hp
      · rfl
      · exact hm p hp
    | some x =>
      have := mem_swap.mp (lookup_some h2)
      have e := hm _ this
      simp only at e
      exact absurd (hf _ _ e).symm (lookup_none h1 _ this)
  | some y =>
    have hy := hm _ (lookup_some h1)
    simp only at hy
    subst hy
    cases h2 : (m.map Prod.swap).lookup (f a) with
    | none =>
      exact absurd rfl (lookup_none h2 _ (mem_swap.mpr (lookup_some h1)))
    | some x =>
      have e := hm _ (mem_swap.mp (lookup_some h2))
      simp only at e
      have := hf _ _ e
      subst this
      exact ⟨m, by simp, hm⟩

/-- The state is part of the renaming. -/
def Graph (f g : Nat → Nat) (m : St) : Prop := (∀ p ∈ m.ts, p.2 = f p.1) ∧ (∀ p ∈ m.vs, p.2 = g p.1)

theorem checkTensor_graph {info : Nat → Info} {f g : Nat → Nat} (hf : ∀ x y, f x = f y → x = y) {a : Nat}
    (hi : sameInfo (info a) (info (f a)) = true) {m : St} (hm : Graph f g m) :
    ∃ m', checkTensor info a (f a) m = some m' ∧ Graph f g m' := by
  obtain ⟨ts, h1, h2⟩ := checkPair_graph hf hm.1 (a := a) hi
  exact ⟨⟨ts, m.vs⟩, by simp [checkTensor, h1], h2, hm.2⟩

theorem checkVar_graph {f g : Nat → Nat} (hg : ∀ x y, g x = g y → x = y) (a : Nat) {m : St}
    (hm : Graph f g m) : ∃ m', checkVar a (g a) m = some m' ∧ Graph f g m' := by
  obtain ⟨vs, h1, h2⟩ := checkPair_graph hg hm.2 (a := a) (ok := true) rfl
  exact ⟨⟨m.ts, vs⟩, by simp [checkVar, h1], hm.1, h2⟩

theorem checkVars_graph {f g : Nat → Nat} (hg : ∀ x y, g x = g y → x = y) :
    ∀ (is : List Nat) {m : St}, Graph f g m → ∃ m', checkVars is (is.map g) m = some m' ∧ Graph f g m'
  | [], m, hm => ⟨m, rfl, hm⟩
  | i :: is, m, hm => by
    obtain ⟨m1, h1, g1⟩ := checkVar_graph hg i hm
    obtain ⟨m2, h2, g2⟩ := checkVars_graph hg is g1
    exact ⟨m2, by simp [checkVars, h1, h2], g2⟩

theorem checkAccess_graph {info : Nat → Info} {f g : Nat → Nat} (hf : ∀ x y, f x = f y → x = y)
    (hg : ∀ x y, g x = g y → x = y) {a : Nat} (hi : sameInfo (info a) (info (f a)) = true) (s : Bool)
    (is : List Nat) (ms : List Mode) {m : St} (hm : Graph f g m) :
    ∃ m', checkAccess info a (f a) s s is (is.map g) ms ms m = some m' ∧ Graph f g m' := by
  obtain ⟨m1, h1, g1⟩ := checkTensor_graph hf hi hm
  obtain ⟨m2, h2, g2⟩ := checkVars_graph hg is g1
  exact ⟨m2, by simp [checkAccess, h1, h2], g2⟩

theorem checkExpr_graph {info : Nat → Info} {f g : Nat → Nat} (hf : ∀ x y, f x = f y → x = y)
    (hg : ∀ x y, g x = g y → x = y) (a : Expr) (hx : a.usesIdx = false)
    (hi : ∀ x ∈ a.accs, sameInfo (info x.1) (info (f x.1)) = true) : ∀ {m : St}, Graph f g m →
      ∃ m', checkExpr info a (a.rename f g) m = some m' ∧ Graph f g m' := by
  induction a with
  | lit c => intro m hm; exact ⟨m, by simp [checkExpr, Expr.rename], hm⟩
  | idx i => simp [Expr.usesIdx] at hx
  | acc t s is ms =>
    intro m hm
    simpa [checkExpr, Expr.rename] using
      checkAccess_graph hf hg (hi (t, is, ms) (by simp [Expr.accs])) s is ms hm
  | un o a ih =>
    intro m hm
    simpa [checkExpr, Expr.rename] using ih hx hi hm
  | bin o a b ih ih' =>
    intro m hm
    simp only [Expr.usesIdx, Bool.or_eq_false_iff] at hx
    obtain ⟨m1, h1, g1⟩ := ih hx.1 (fun x h => hi x (by simp [Expr.accs, h])) hm
    obtain ⟨m2, h2, g2⟩ := ih' hx.2 (fun x h => hi x (by simp [Expr.accs, h])) g1
    exact ⟨m2, by simp [checkExpr, Expr.rename, h1, h2], g2⟩
  | red o i a ih =>
    intro m hm
    obtain ⟨m1, h1, g1⟩ := checkVar_graph hg i hm
    obtain ⟨m2, h2, g2⟩ := ih hx hi g1
    exact ⟨m2, by simp [checkExpr, Expr.rename, h1, h2], g2⟩

theorem checkStmt_graph {info : Nat → Info} {f g : Nat → Nat} (hf : ∀ x y, f x = f y → x = y)
    (hg : ∀ x y, g x = g y → x = y) (a : Stmt) (hx : a.usesIdx = false)
    (hi : ∀ x ∈ a.accs, sameInfo (info x.1) (info (f x.1)) = true) : ∀ {m : St}, Graph f g m →
      ∃ m', checkStmt info a (a.rename f g) m = some m' ∧ Graph f g m' := by
  induction a with
  | assign t s is ms o e =>
    intro m hm
    obtain ⟨m1, h1, g1⟩ :=
      checkAccess_graph hf hg (hi (t, is, ms) (by simp [Stmt.accs])) s is ms hm
    obtain ⟨m2, h2, g2⟩ := checkExpr_graph hf hg e hx (fun x h => hi x (by simp [Stmt.accs, h])) g1
    exact ⟨m2, by simp [checkStmt, Stmt.rename, h1, h2], g2⟩
  | loop i x s ih =>
    intro m hm
    obtain ⟨m1, h1, g1⟩ := checkVar_graph hg i hm
    obtain ⟨m2, h2, g2⟩ := ih hx hi g1
    exact ⟨m2, by simp [checkStmt, Stmt.rename, h1, h2, sameAttrs], g2⟩
  | wher c p ih ih' =>
    intro m hm
    simp only [Stmt.usesIdx, Bool.or_eq_false_iff] at hx
    obtain ⟨m1, h1, g1⟩ := ih hx.1 (fun x h => hi x (by simp [Stmt.accs, h])) hm
    obtain ⟨m2, h2, g2⟩ := ih' hx.2 (fun x h => hi x (by simp [Stmt.accs, h])) g1
    exact ⟨m2, by simp [checkStmt, Stmt.rename, h1, h2], g2⟩
  | seq c p ih ih' =>
    intro m hm
    simp only [Stmt.usesIdx, Bool.or_eq_false_iff] at hx
    obtain ⟨m1, h1, g1⟩ := ih hx.1 (fun x h => hi x (by simp [Stmt.accs, h])) hm
    obtain ⟨m2, h2, g2⟩ := ih' hx.2 (fun x h => hi x (by simp [Stmt.accs, h])) g1
    exact ⟨m2, by simp [checkStmt, Stmt.rename, h1, h2], g2⟩
  | multi c p ih ih' =>
    intro m hm
    simp only [Stmt.usesIdx, Bool.or_eq_false_iff] at hx
    obtain ⟨m1, h1, g1⟩ := ih hx.1 (fun x h => hi x (by simp [Stmt.accs, h])) hm
    obtain ⟨m2, h2, g2⟩ := ih' hx.2 (fun x h => hi x (by simp [Stmt.accs, h])) g1
    exact ⟨m2, by simp [checkStmt, Stmt.rename, h1, h2], g2⟩

/-! ### Lists of corresponding elements -/

theorem exists_right {A : Type} {P : A → A → Prop} {l l' : List A} (h : List.Forall₂ P l l') {x : A}
    (hx : x ∈ l) : ∃ y ∈ l', P x y := by
  induction h with
  | nil => simp at hx
  | cons hab _ ih =>
    rcases List.mem_cons.mp hx with rfl | hx
    · exact ⟨_, List.mem_cons_self, hab⟩
    · obtain ⟨y, hy, h⟩ := ih hx
      exact ⟨y, List.mem_cons_of_mem _ hy, h⟩

theorem exists_left {A : Type} {P : A → A → Prop} {l l' : List A} (h : List.Forall₂ P l l') {y : A}
    (hy : y ∈ l') : ∃ x ∈ l, P x y := by
  induction h with
  | nil => simp at hy
  | cons hab _ ih =>
    rcases List.mem_cons.mp hy with rfl | hy
    · exact ⟨_, List.mem_cons_self, hab⟩
    · obtain ⟨x, hx, h⟩ := ih hy
      exact ⟨x, List.mem_cons_of_mem _ hx, h⟩

theorem Expr.rename_id (a : Expr) : a.rename id id = a := by
  induction a with
  | lit c => rfl
  | idx i => rfl
  | acc t s is ms => simp [Expr.rename]
  | un o a ih => simp [Expr.rename, ih]
  | bin o a b ih ih' => simp [Expr.rename, ih, ih']
  | red o i a ih => simp [Expr.rename, ih]

theorem rename_id (a : Stmt) : a.rename id id = a := by
  induction a with
  | assign t s is ms o e => simp [Stmt.rename, Expr.rename_id]
  | loop i x s ih => simp [Stmt.rename, ih]
  | wher a b ih ih' => simp [Stmt.rename, ih, ih']
  | seq a b ih ih' => simp [Stmt.rename, ih, ih']
  | multi a b ih ih' => simp [Stmt.rename, ih, ih']

end Verif.Kernel
