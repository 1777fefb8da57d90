import Verif.IR.StmtCopy
/-! Copy propagation keeps the meaning of programs. -/
namespace Verif.IR
open Verif.Types
open Verif.Scoped (SMap get)

variable {F : Type} {vk ak : Nat → Kind} {A : Flt F}

theorem evalTo_same {σ : Env F} {e : Expr F} {k : Kind} (h : WT vk ak e k) : evalTo A σ e k = eval A σ e := by
  unfold evalTo
  rw [eval_cast h]
  cases eval A σ e with
  | none => rfl
  | some v => simp [promote]

theorem EnvOK.set {σ : Env F} (h : EnvOK vk ak σ) {x : Nat} {v : Val F} (hv : valOK (vk x) v) : EnvOK vk ak (σ.set x v) :=
  ⟨fun y w hw => by
    simp only [Env.set] at hw
    split at hw
    · rename_i hy; subst hy; cases hw; exact hv
    · exact h.var y w hw, h.mem⟩

theorem EnvOK.write {σ : Env F} (h : EnvOK vk ak σ) {arr : Nat} {p : Int} {v : Val F} (hv : valOK (ak arr) v) :
    EnvOK vk ak (σ.write arr p v) :=
  ⟨h.var, fun a q w hw => by
    simp only [Env.write] at hw
    split at hw
    · rename_i hy; obtain ⟨rfl, _⟩ := hy; cases hw; exact hv
    · exact h.mem a q w hw⟩

theorem run_seq (n : Nat) (a b : Stmt F) (σ : Env F) : run A (n + 1) (.seq a b) σ = (run A n a σ).bind (run A n b) := rfl

theorem run_while {n : Nat} {c : Expr F} {b : Stmt F} {σ σ' : Env F} (h : run A (n + 1) (.while c b) σ = some σ') :
    (eval A σ c = some (.b true) ∧ ∃ σ1, run A n b σ = some σ1 ∧ run A n (.while c b) σ1 = some σ') ∨
    (eval A σ c = some (.b false) ∧ σ' = σ) := by
  replace h : (match eval A σ c with
      | some (.b true) => (run A n b σ).bind (run A n (.while c b))
      | some (.b false) => some σ
      | _ => none) = some σ' := h
  split at h
  · rename_i hc
    exact Or.inl ⟨hc, bind_some_iff h⟩
  · rename_i hc
    cases h
    exact Or.inr ⟨hc, rfl⟩
  · cases h

theorem run_ite {n : Nat} {c : Expr F} {a b : Stmt F} {σ σ' : Env F} (h : run A (n + 1) (.ite c a b) σ = some σ') :
    (eval A σ c = some (.b true) ∧ run A n a σ = some σ') ∨ (eval A σ c = some (.b false) ∧ run A n b σ = some σ') := by
  replace h : (match eval A σ c with
      | some (.b true) => run A n a σ
      | some (.b false) => run A n b σ
      | _ => none) = some σ' := h
  split at h
  · rename_i hc; exact Or.inl ⟨hc, h⟩
  · rename_i hc; exact Or.inr ⟨hc, h⟩
  · cases h

theorem run_store {n : Nat} {k : Kind} {arr : Nat} {loc e : Expr F} {σ σ' : Env F} (h : run A (n + 1) (.store k arr loc e) σ = some σ') :
    ∃ p v, eval A σ loc = some (.i p) ∧ evalTo A σ e k = some v ∧ σ' = σ.write arr p v := by
  replace h : (match eval A σ loc with
      | some (.i p) => (evalTo A σ e k).map (σ.write arr p)
      | _ => none) = some σ' := h
  split at h
  · rename_i p hp
    obtain ⟨v, hv, rfl⟩ := Option.map_eq_some_iff.1 h
    exact ⟨p, v, hp, hv, rfl⟩
  · cases h

/-- Well-typed programs keep variables and memory well typed. -/
theorem run_ok (n : Nat) : ∀ (t : Stmt F) (σ σ' : Env F), WTS vk ak t → EnvOK vk ak σ → run A n t σ = some σ' → EnvOK vk ak σ' := by
  induction n with
  | zero => intro t σ σ' _ _ h; cases h
  | succ n ih =>
    intro t σ σ' ht he h
    cases t with
    | skip => cases h; exact he
    | seq a b =>
      obtain ⟨σ1, h1, h2⟩ := bind_some_iff h
      exact ih b σ1 σ' ht.2 (ih a σ σ1 ht.1 he h1) h2
    | scope a => exact ih a σ σ' ht he h
    | decl id k x e =>
      obtain ⟨v, hv, rfl⟩ := Option.map_eq_some_iff.1 h
      rw [evalTo_same ht.2] at hv
      exact he.set (ht.1 ▸ eval_ok he ht.2 v hv)
    | assign k x e =>
      obtain ⟨v, hv, rfl⟩ := Option.map_eq_some_iff.1 h
      rw [evalTo_same ht.2] at hv
      exact he.set (ht.1 ▸ eval_ok he ht.2 v hv)
    | store k arr loc e =>
      obtain ⟨p, v, hp, hv, rfl⟩ := run_store h
      rw [evalTo_same ht.2.2] at hv
      exact he.write (ht.1 ▸ eval_ok he ht.2.2 v hv)
    | ite c a b =>
      rcases run_ite h with ⟨_, h⟩ | ⟨_, h⟩
      · exact ih a σ σ' ht.2.1 he h
      · exact ih b σ σ' ht.2.2 he h
    | loop k x st e i b =>
      obtain ⟨hk, hi, h1, h2, h3, h4⟩ := ht
      have hn : numeric k := by revert hi; cases k <;> simp [numeric, isInt, isUInt]
      have hv : WT (F := F) vk ak (.var k x) k := hk ▸ .var
      exact ih (.seq (.assign k x st) (.while (.cmp .lt (.var k x) e) (.seq b (.assign k x (.arith .add (.var k x) i))))) σ σ'
        ⟨⟨hk, h1⟩, .cmp hv h2, h4, hk, .arith hn hv h3⟩ he h
    | «while» c b =>
      rcases run_while h with ⟨_, σ1, h1, h2⟩ | ⟨_, rfl⟩
      · exact ih _ σ1 σ' ht (ih b σ σ1 ht.2 he h1) h2
      · exact he

/-- A statement changes only variables it assigns or declares. -/
theorem run_frame (n : Nat) : ∀ (t : Stmt F) (σ σ' : Env F) (x : Nat), run A n t σ = some σ' → x ∉ t.assigned → x ∉ t.decls →
    σ'.var x = σ.var x := by
  induction n with
  | zero => intro t σ σ' x h; cases h
  | succ n ih =>
    intro t σ σ' x h h1 h2
    cases t with
    | skip => cases h; rfl
    | seq a b =>
      obtain ⟨σ1, r1, r2⟩ := bind_some_iff h
      simp only [Stmt.assigned, Stmt.decls, List.mem_append, not_or] at h1 h2
      rw [ih b σ1 σ' x r2 h1.2 h2.2, ih a σ σ1 x r1 h1.1 h2.1]
    | scope a => exact ih a σ σ' x h h1 h2
    | decl id k y e =>
      obtain ⟨v, hv, rfl⟩ := Option.map_eq_some_iff.1 h
      simp only [Stmt.decls, List.mem_singleton] at h2
      simp only [Env.set, if_neg h2]
    | assign k y e =>
      obtain ⟨v, hv, rfl⟩ := Option.map_eq_some_iff.1 h
      simp only [Stmt.assigned, List.mem_singleton] at h1
      simp only [Env.set, if_neg h1]
    | store k arr loc e =>
      obtain ⟨p, v, hp, hv, rfl⟩ := run_store h
      rfl
    | ite c a b =>
      simp only [Stmt.assigned, Stmt.decls, List.mem_append, not_or] at h1 h2
      rcases run_ite h with ⟨_, h⟩ | ⟨_, h⟩
      · exact ih a σ σ' x h h1.1 h2.1
      · exact ih b σ σ' x h h1.2 h2.2
    | loop k y st e i b =>
      simp only [Stmt.decls, List.mem_cons, not_or] at h2
      refine ih _ σ σ' x h ?_ ?_
      · simp only [Stmt.assigned, List.mem_append, List.mem_singleton, not_or]
        exact ⟨h2.1, h1, h2.1⟩
      · simp only [Stmt.decls, List.nil_append, List.append_nil]
        exact h2.2
    | «while» c b =>
      rcases run_while h with ⟨_, σ1, r1, r2⟩ | ⟨_, rfl⟩
      · rw [ih _ σ1 σ' x r2 h1 h2, ih b σ σ1 x r1 h1 h2]
      · rfl

/-! ### Soundness -/

/-- The copies outside of `X` have the value of their source. -/
def EqInv (X : Nat → Prop) (M : SMap Nat (Kind × Nat)) (σ : Env F) : Prop :=
  ∀ x k y, get M x = some (k, y) → ¬ X x → σ.var x = σ.var y

theorem EqInv.sub {X : Nat → Prop} {M M' : SMap Nat (Kind × Nat)} {σ : Env F} (h : EqInv X M σ) (hs : Sub M' M) (hu : Uniq M) : EqInv X M' σ :=
  fun x k y hx hn => h x k y (hs.get hu hx) hn

section
variable {L : List Nat} {V : List Nat} {C : List (Nat × Nat)} {lvl : Nat} {d : Nat → Option Nat} {s s' : CP}

/-- A rewritten expression has the value of the original. -/
theorem rewrite_sound (hA : FltLaws A) {e e' : Expr F} {k : Kind} {X : Nat → Prop} {σ : Env F} (hs : Static vk L V C lvl d s)
    (h : s.rewrite A e = some (e', s')) (ht : WT vk ak e k) (hX : ∀ x ∈ e.vars, ¬ X x) (hi : EqInv X s.vars σ) (he : EnvOK vk ak σ) :
    WT vk ak e' k ∧ ∀ v, eval A σ e = some v → eval A σ e' = some v := by
  obtain ⟨hsimp, _⟩ := rewrite_inv h
  have hM : ∀ z k y, get s.vars z = some (k, y) → k = vk y ∧ vk z = vk y :=
    fun z k y hz => let h := hs.entry z k y hz; ⟨h.2.2.1, h.2.2.2.1⟩
  have hr := simp_refines hA _ _ _ _ hsimp (ht.subst hM)
  refine ⟨hr.1, fun v hv => hr.2 σ he v ?_⟩
  rw [eval_subst hM ht fun x k y hx hxe => hi x k y hx (hX x hxe)]
  exact hv

/-- Loops: `P` is an invariant under which condition and body of the two loops agree. -/
theorem while_sound {P : Env F → Prop} {c c' : Expr F} {b b' : Stmt F}
    (hc : ∀ σ v, P σ → eval A σ c = some v → eval A σ c' = some v)
    (hb : ∀ n σ σ', P σ → run A n b σ = some σ' → run A n b' σ = some σ' ∧ P σ') (n : Nat) :
    ∀ σ σ', P σ → run A n (.while c b) σ = some σ' → run A n (.while c' b') σ = some σ' ∧ P σ' := by
  induction n with
  | zero => intro σ σ' _ h; cases h
  | succ n ih =>
    intro σ σ' hp h
    rcases run_while h with ⟨h1, σ1, h2, h3⟩ | ⟨h1, rfl⟩
    · obtain ⟨h4, h5⟩ := hb n σ σ1 hp h2
      obtain ⟨h6, h7⟩ := ih σ1 σ' h5 h3
      refine ⟨?_, h7⟩
      show (match eval A σ c' with
        | some (.b true) => (run A n b' σ).bind (run A n (.while c' b'))
        | some (.b false) => some σ
        | _ => none) = some σ'
      rw [hc σ _ hp h1]
      show (run A n b' σ).bind (run A n (.while c' b')) = some σ'
      rw [h4]
      exact h6
    · refine ⟨?_, hp⟩
      show (match eval A σ' c' with
        | some (.b true) => (run A n b' σ').bind (run A n (.while c' b'))
        | some (.b false) => some σ'
        | _ => none) = some σ'
      rw [hc σ' _ hp h1]

/-- The variables that are stale inside a loop with body `b`. -/
def stale (X : Nat → Prop) (M : SMap Nat (Kind × Nat)) (b : Stmt F) (x : Nat) : Prop :=
  X x ∨ ∃ k y, get M x = some (k, y) ∧ (x ∈ b.assigned ∨ y ∈ b.assigned)

theorem stale_unused {X : Nat → Prop} {b : Stmt F} {us : List Nat} (hs : Static vk L V C lvl d s)
    (hX : ∀ x ∈ us, ¬ X x) (hn : ∀ p ∈ C, p.1 ∈ us → p.2 ∉ b.assigned) {r : (Nat → Option Nat) × List Nat}
    (hr : ∀ x l, d x = some l → r.1 x = some l)
    (hL : ∀ x ∈ (ana (lvl + 1) b r).2, x ∈ L) : ∀ x ∈ us, ¬ stale X s.vars b x := by
  rintro x hx (h | ⟨k, y, hg, h | h⟩)
  · exact hX x hx h
  · obtain ⟨_, _, _, _, _, _, hxL, ⟨l, hl, hle⟩, _⟩ := hs.entry x k y hg
    exact hxL (hL x (ana_assigned (lvl + 1) b r x l (hr x l hl) (Nat.lt_succ_of_le hle) h))
  · exact hn (x, y) (hs.entry x k y hg).2.2.2.2.2.2.2.2 hx h

theorem EqInv.iterate {X : Nat → Prop} {b : Stmt F} {σ σ' : Env F} (hs : Static vk L V C lvl d s)
    (hi : EqInv (stale X s.vars b) s.vars σ) (hf : ∀ x ∈ V, x ∉ b.assigned → σ'.var x = σ.var x) : EqInv (stale X s.vars b) s.vars σ' := by
  intro x k y hx hn
  have he := hs.entry x k y hx
  have hxa : x ∉ b.assigned := fun h => hn (Or.inr ⟨k, y, hx, Or.inl h⟩)
  have hya : y ∉ b.assigned := fun h => hn (Or.inr ⟨k, y, hx, Or.inr h⟩)
  rw [hf x he.1 hxa, hf y he.2.1 hya]
  exact hi x k y hx hn

/-- Copy propagation: every execution of the original is an execution of the result. -/
theorem cp_sound {lv : Nat → Nat} (hA : FltLaws A) (t : Stmt F) : ∀ {t' : Stmt F} {s s' : CP} {V : List Nat} {C : List (Nat × Nat)} {lvl : Nat}
    (r : (Nat → Option Nat) × List Nat) (X : Nat → Prop) (n : Nat) (σ σ' : Env F),
    cp A L t s = some (t', s') → WS V t → WTS vk ak t → NoStale C t → Static vk L V C lvl r.1 s → Levels lv lvl t →
    (∀ x l, r.1 x = some l → l = lv x) → (∀ x ∈ (ana lvl t r).2, x ∈ L) → (∀ x ∈ t.used, ¬ X x) → (∀ x ∈ t.declares, ¬ X x) →
    EqInv X s.vars σ → EnvOK vk ak σ →
    run A n t σ = some σ' → run A n t' σ = some σ' ∧ EqInv X s'.vars σ' := by
  induction t with
  | skip =>
    intro t' s s' V C lvl r X n σ σ' h hw ht hsf hs hl hd hL hX hXd hi he hrun
    cases h
    cases n with
    | zero => cases hrun
    | succ n => cases hrun; exact ⟨rfl, hi⟩
  | seq a b iha ihb =>
    intro t' s s' V C lvl r X n σ σ' h hw ht hsf hs hl hd hL hX hXd hi he hrun
    obtain ⟨⟨a', s1⟩, h1, h⟩ := bind_some_iff h
    obtain ⟨⟨b', s2⟩, h2, h⟩ := Option.map_eq_some_iff.1 h
    cases h
    cases n with
    | zero => cases hrun
    | succ n =>
      obtain ⟨σ1, r1, r2⟩ := bind_some_iff hrun
      obtain ⟨i1, i2⟩ := cp_static hA a r h1 hw.1 ht.1 hs hl.1 hd
      obtain ⟨q1, q2⟩ := iha r X n σ σ1 h1 hw.1 ht.1 hsf.1 hs hl.1 hd (fun x hx => hL x ((ana_mono lvl b _).2 x hx))
        (fun x hx => hX x (List.mem_append_left _ hx)) (fun x hx => hXd x (List.mem_append_left _ hx)) hi he r1
      obtain ⟨q3, q4⟩ := ihb (ana lvl a r) X n σ1 σ' h2 hw.2 ht.2 hsf.2 i1 hl.2 (ana_levels lvl a r hl.1 hd) hL
        (fun x hx => hX x (List.mem_append_right _ hx)) (fun x hx => hXd x (List.mem_append_right _ hx)) q2 (run_ok n a σ σ1 ht.1 he r1) r2
      refine ⟨?_, q4⟩
      rw [run_seq, q1]
      exact q3
  | scope a ih =>
    intro t' s s' V C lvl r X n σ σ' h hw ht hsf hs hl hd hL hX hXd hi he hrun
    obtain ⟨⟨a', s1⟩, h1, h⟩ := Option.map_eq_some_iff.1 h
    cases h
    cases n with
    | zero => cases hrun
    | succ n =>
      obtain ⟨i1, i2⟩ := cp_static hA a r h1 hw ht hs.push hl hd
      have hp := Step.pop hs i1 i2 (fun x hx hd => hw.fresh x hx (declares_decls a x hd))
      -- variables declared in the scope are not in `V`; keep `X` away from them
      have hi' : EqInv (fun x => X x ∧ x ∈ V) s.push.vars σ := by
        intro x k y hx hn
        exact hi x k y hx (fun hxx => hn ⟨hxx, (hs.entry x k y hx).1⟩)
      obtain ⟨q1, q2⟩ := ih r (fun x => X x ∧ x ∈ V) n σ σ' h1 hw ht hsf hs.push hl hd hL (fun x hx h => hX x hx h.1)
        (fun x hx h => hw.fresh x h.2 (declares_decls a x hx)) hi' he hrun
      refine ⟨q1, ?_⟩
      have q3 : EqInv X s1.vars σ' := fun x k y hx hn => q2 x k y hx (fun h => hn h.1)
      obtain ⟨m, ms, m', ms', hm, hm', hsub, _⟩ := i2.shape
      intro x k y hx hn
      have hp' : s1.pop.vars = ms' := by simp [CP.pop, hm']
      rw [hp'] at hx
      have hu := i1.uniq
      rw [hm'] at hu
      exact q3 x k y (by rw [hm']; exact get_tail hu hx) hn
  | decl id k x e =>
    intro t' s s' V C lvl r X n σ σ' h hw ht hsf hs hl hd hL hX hXd hi he hrun
    obtain ⟨⟨e', s1⟩, h1, h⟩ := Option.map_eq_some_iff.1 h
    cases h
    cases n with
    | zero => cases hrun
    | succ n =>
      obtain ⟨v, hv, rfl⟩ := Option.map_eq_some_iff.1 hrun
      rw [evalTo_same ht.2] at hv
      obtain ⟨g1, g2⟩ := rewrite_sound hA hs h1 ht.2 (fun x hx => hX x hx) hi he
      have hv' := g2 v hv
      refine ⟨?_, ?_⟩
      · show (evalTo A σ e' k).map (σ.set x) = _
        rw [evalTo_same g1, hv']; rfl
      · obtain ⟨i1, i2⟩ := decl_static (L0 := r.2) hs h1 hw ht hA hl hd
        intro z kk y hz hn
        rcases i2.get hs.uniq hz with hzx | hold
        · obtain rfl : z = x := by simpa [Stmt.declares] using hzx
          -- the new entry
          have hnew : e' = .var kk y := by
            have hnone : get s1.vars z = none := by
              rw [(rewrite_vars h1).1]
              cases hg : get s.vars z with
              | none => rfl
              | some p => obtain ⟨k', y'⟩ := p; exact absurd (hs.entry z k' y' hg).1 hw.1
            unfold CP.declare at hz
            split at hz
            · rename_i k' y' he'
              replace he' : e' = .var k' y' := he'
              split at hz
              · obtain ⟨m, ms, hm⟩ := List.exists_cons_of_ne_nil (hs.rewrite h1).ne
                have hm' : get (insertTop s1.vars z (k', y')) z = some (k', y') := by
                  rw [hm] at hnone ⊢
                  simp only [insertTop, Scoped.get, Scoped.insertScope, if_true] at hnone ⊢
                  cases hmz : m z with
                  | none => rfl
                  | some w => rw [hmz] at hnone; cases hnone
                have hz' : get (insertTop s1.vars z (k', y')) z = some (kk, y) := hz
                rw [hm'] at hz'
                cases hz'
                exact he'
              · have hz' : get s1.vars z = some (kk, y) := hz
                rw [hnone] at hz'; cases hz'
            · have hz' : get s1.vars z = some (kk, y) := hz
              rw [hnone] at hz'; cases hz'
          subst hnew
          have hy : σ.var y = some v := hv'
          have hyz : y ≠ z := by
            rintro rfl
            have hsrc : ∀ u ∈ (Expr.subst s.vars e).mayCopy, u ∈ V := by
              intro u hu
              rcases subst_copy e u hu with h | ⟨w, _, k0, hg⟩
              · exact hw.2 u (mayCopy_vars e u h)
              · exact (hs.entry w k0 u hg).2.1
            exact hw.1 (hsrc y (simp_copy _ _ _ (rewrite_inv h1).1 y (by simp [Expr.mayCopy])))
          simp only [Env.set, if_true, if_neg hyz, hy]
        · have hent := hs.entry z kk y hold
          have hzx : z ≠ x := fun h => hw.1 (h ▸ hent.1)
          have hyx : y ≠ x := fun h => hw.1 (h ▸ hent.2.1)
          simp only [Env.set, if_neg hzx, if_neg hyx]
          exact hi z kk y hold hn
  | assign k x e =>
    intro t' s s' V C lvl r X n σ σ' h hw ht hsf hs hl hd hL hX hXd hi he hrun
    have hst := cp_static hA (.assign k x e) r h hw ht hs hl hd
    obtain ⟨⟨e', s1⟩, h1, h⟩ := Option.map_eq_some_iff.1 h
    cases h
    cases n with
    | zero => cases hrun
    | succ n =>
      obtain ⟨v, hv, rfl⟩ := Option.map_eq_some_iff.1 hrun
      rw [evalTo_same ht.2] at hv
      obtain ⟨g1, g2⟩ := rewrite_sound hA hs h1 ht.2 (fun x hx => hX x hx) hi he
      refine ⟨?_, ?_⟩
      · show (evalTo A σ e' k).map (σ.set x) = _
        rw [evalTo_same g1, g2 v hv]; rfl
      · intro z kk y hz hn
        have hk := hst.2.keep z kk y hz List.not_mem_nil
        simp only [Stmt.assigned, List.mem_singleton] at hk
        simp only [Env.set, if_neg hk.1, if_neg hk.2]
        rcases hst.2.get hs.uniq hz with h | h
        · cases h
        · exact hi z kk y h hn
  | store k arr loc e =>
    intro t' s s' V C lvl r X n σ σ' h hw ht hsf hs hl hd hL hX hXd hi he hrun
    obtain ⟨⟨l', s1⟩, h1, h⟩ := bind_some_iff h
    obtain ⟨⟨e', s2⟩, h2, h⟩ := Option.map_eq_some_iff.1 h
    cases h
    cases n with
    | zero => cases hrun
    | succ n =>
      obtain ⟨p, v, hp, hv, rfl⟩ := run_store hrun
      obtain ⟨_, ⟨kl, hkl, hlt⟩, hte⟩ := ht
      rw [evalTo_same hte] at hv
      obtain ⟨g1, g2⟩ := rewrite_sound hA hs h1 hlt (fun x hx => hX x (List.mem_append_left _ hx)) hi he
      have hi1 : EqInv X s1.vars σ := (rewrite_vars h1).1 ▸ hi
      obtain ⟨g3, g4⟩ := rewrite_sound hA (hs.rewrite h1) h2 hte (fun x hx => hX x (List.mem_append_right _ hx)) hi1 he
      refine ⟨?_, ?_⟩
      · show (match eval A σ l' with
          | some (.i p) => (evalTo A σ e' k).map (σ.write arr p)
          | _ => none) = _
        rw [g2 _ hp]
        show (evalTo A σ e' k).map (σ.write arr p) = _
        rw [evalTo_same g3, g4 v hv]; rfl
      · intro z kk y hz hn
        exact hi1 z kk y ((rewrite_vars h2).1 ▸ hz) hn
  | ite c a b iha ihb =>
    intro t' s s' V C lvl r X n σ σ' h hw ht hsf hs hl hd hL hX hXd hi he hrun
    obtain ⟨⟨c', s1⟩, h1, h⟩ := bind_some_iff h
    obtain ⟨⟨a', s2⟩, h2, h⟩ := bind_some_iff h
    obtain ⟨⟨b', s3⟩, h3, h⟩ := Option.map_eq_some_iff.1 h
    cases h
    cases n with
    | zero => cases hrun
    | succ n =>
      have hs1 := hs.rewrite h1
      have hi1 : EqInv X s1.vars σ := (rewrite_vars h1).1 ▸ hi
      obtain ⟨g1, g2⟩ := rewrite_sound hA hs h1 ht.1 (fun x hx => hX x (List.mem_append_left _ hx)) hi he
      obtain ⟨i1, i2⟩ := cp_static hA a r h2 hw.2.1 ht.2.1 hs1.push hl.1 hd
      have hp := Step.pop hs1 i1 i2 (fun x hx hd => hw.2.1.fresh x hx (declares_decls a x hd))
      have hs2 := (hs1.mono (fun _ h => h) (fun _ h => h) (Nat.le_refl _) (ana_mono lvl a r).1).sub hp.1 hp.2.1
      obtain ⟨i3, i4⟩ := cp_static hA b (ana lvl a r) h3 hw.2.2 ht.2.2 hs2.push hl.2 (ana_levels lvl a r hl.1 hd)
      have hp2 := Step.pop hs2 i3 i4 (fun x hx hd => hw.2.2.fresh x hx (declares_decls b x hd))
      rcases run_ite hrun with ⟨hc, hr⟩ | ⟨hc, hr⟩
      · have hi' : EqInv (fun x => X x ∧ x ∈ V) s1.push.vars σ := fun x k y hx hn =>
          hi1 x k y hx (fun hxx => hn ⟨hxx, (hs1.entry x k y hx).1⟩)
        obtain ⟨q1, q2⟩ := iha r (fun x => X x ∧ x ∈ V) n σ σ' h2 hw.2.1 ht.2.1 hsf.1 hs1.push hl.1 hd
          (fun x hx => hL x ((ana_mono lvl b _).2 x hx))
          (fun x hx h => hX x (List.mem_append_right _ (List.mem_append_left _ hx)) h.1)
          (fun x hx h => hw.2.1.fresh x h.2 (declares_decls a x hx)) hi' he hr
        refine ⟨?_, ?_⟩
        · show (match eval A σ c' with
            | some (.b true) => run A n a' σ
            | some (.b false) => run A n b' σ
            | _ => none) = some σ'
          rw [g2 _ hc]; exact q1
        · obtain ⟨m, ms, m', ms', hm, hm', hsub, _⟩ := i2.shape
          intro x k y hx hn
          have hx2 := hp2.1.get hs2.uniq hx
          have hp' : s2.pop.vars = ms' := by simp [CP.pop, hm']
          rw [hp'] at hx2
          have hu := i1.uniq
          rw [hm'] at hu
          exact q2 x k y (by rw [hm']; exact get_tail hu hx2) (fun h => hn h.1)
      · have hi2 : EqInv (fun x => X x ∧ x ∈ V) s2.pop.push.vars σ := fun x k y hx hn => by
          have hx' := hp.1.get hs1.uniq hx
          exact hi1 x k y hx' (fun hxx => hn ⟨hxx, (hs1.entry x k y hx').1⟩)
        obtain ⟨q1, q2⟩ := ihb (ana lvl a r) (fun x => X x ∧ x ∈ V) n σ σ' h3 hw.2.2 ht.2.2 hsf.2 hs2.push hl.2 (ana_levels lvl a r hl.1 hd) hL
          (fun x hx h => hX x (List.mem_append_right _ (List.mem_append_right _ hx)) h.1)
          (fun x hx h => hw.2.2.fresh x h.2 (declares_decls b x hx)) hi2 he hr
        refine ⟨?_, ?_⟩
        · show (match eval A σ c' with
            | some (.b true) => run A n a' σ
            | some (.b false) => run A n b' σ
            | _ => none) = some σ'
          rw [g2 _ hc]; exact q1
        · obtain ⟨m, ms, m', ms', hm, hm', hsub, _⟩ := i4.shape
          intro x k y hx hn
          have hp' : s3.pop.vars = ms' := by simp [CP.pop, hm']
          rw [hp'] at hx
          have hu := i3.uniq
          rw [hm'] at hu
          exact q2 x k y (by rw [hm']; exact get_tail hu hx) (fun h => hn h.1)
  | «while» c b ih =>
    intro t' s s' V C lvl r X n σ σ' h hw ht hsf hs hl hd hL hX hXd hi he hrun
    obtain ⟨⟨c', s1⟩, h1, h⟩ := bind_some_iff h
    obtain ⟨⟨b', s4⟩, h4, h⟩ := Option.map_eq_some_iff.1 h
    cases h
    have hs1 := hs.rewrite h1
    have hi1 : EqInv X s1.vars σ := (rewrite_vars h1).1 ▸ hi
    have hs1' := hs1.mono (fun _ h => h) (fun _ h => h) (Nat.le_succ lvl) (fun _ _ h => h)
    obtain ⟨i1, i2⟩ := cp_static hA b r h4 hw.2 ht.2 hs1'.push hl hd
    have hp := Step.pop hs1' i1 i2 (fun x hx hd => hw.2.fresh x hx (declares_decls b x hd))
    have hunused := stale_unused (us := c.vars ++ b.used) hs1 (fun x hx => hX x hx) hsf.1 (fun _ _ h => h) hL
    have hP0 : EqInv (stale X s1.vars b) s1.vars σ := fun x k y hx hn => hi1 x k y hx (fun h => hn (Or.inl h))
    obtain ⟨q1, q2, q3⟩ := while_sound (A := A) (P := fun σ => EqInv (stale X s1.vars b) s1.vars σ ∧ EnvOK vk ak σ) (c := c) (c' := c') (b := b) (b' := b')
      (by
        rintro σ v ⟨p1, p2⟩ hv
        have p1' : EqInv (stale X s1.vars b) s.vars σ := (rewrite_vars h1).1 ▸ p1
        exact (rewrite_sound hA hs h1 ht.1 (fun x hx => hunused x (List.mem_append_left _ hx)) p1' p2).2 v hv)
      (by
        rintro n σ σ' ⟨p1, p2⟩ hr
        have p1' : EqInv (fun x => stale X s1.vars b x ∧ x ∈ V) s1.push.vars σ := fun x k y hx hn =>
          p1 x k y hx (fun hxx => hn ⟨hxx, (hs1.entry x k y hx).1⟩)
        obtain ⟨g1, _⟩ := ih r (fun x => stale X s1.vars b x ∧ x ∈ V) n σ σ' h4 hw.2 ht.2 hsf.2 hs1'.push hl hd hL
          (fun x hx h => hunused x (List.mem_append_right _ hx) h.1)
          (fun x hx h => hw.2.fresh x h.2 (declares_decls b x hx)) p1' p2 hr
        exact ⟨g1, EqInv.iterate hs1 p1 (fun x hx hxa => run_frame n b σ σ' x hr hxa (hw.2.fresh x hx)), run_ok n b σ σ' ht.2 p2 hr⟩)
      n σ σ' ⟨hP0, he⟩ hrun
    refine ⟨q1, fun x k y hx hn => ?_⟩
    have hk := hp.2.2 x k y hx
    have hx1 := hp.1.get hs1.uniq hx
    refine q2 x k y hx1 ?_
    rintro (h | ⟨k', y', hg, h | h⟩)
    · exact hn h
    · exact hk.1 h
    · rw [hx1] at hg; cases hg; exact hk.2 h
  | loop k x st e i b ih =>
    intro t' s s' V C lvl r X n σ σ' h hw ht hsf hs hl hd hL hX hXd hi he hrun
    obtain ⟨⟨e1, s1⟩, h1, h⟩ := bind_some_iff h
    obtain ⟨⟨e2, s2⟩, h2, h⟩ := bind_some_iff h
    obtain ⟨⟨e3, s3⟩, h3, h⟩ := bind_some_iff h
    obtain ⟨⟨b', s4⟩, h4, h⟩ := Option.map_eq_some_iff.1 h
    cases h
    obtain ⟨hk, hki, ht1, ht2, ht3, ht4⟩ := ht
    have hnum : numeric k := by revert hki; cases k <;> simp [numeric, isInt, isUInt]
    have hvar : WT (F := F) vk ak (.var k x) k := hk ▸ .var
    have hs1 := hs.rewrite h1
    have hs2 := hs1.rewrite h2
    have hs3 := hs2.rewrite h3
    have hv3 : s3.vars = s.vars := by rw [(rewrite_vars h3).1, (rewrite_vars h2).1, (rewrite_vars h1).1]
    have hv2 : s2.vars = s.vars := by rw [(rewrite_vars h2).1, (rewrite_vars h1).1]
    have hv1 : s1.vars = s.vars := (rewrite_vars h1).1
    have hs3' := hs3.mono (V' := x :: V) (fun _ h => List.mem_cons_of_mem _ h) (fun _ h => h) (Nat.le_succ lvl) (fun _ _ h => h)
    obtain ⟨i1, i2⟩ := cp_static hA b (r.1, x :: r.2) h4 hw.2.2 ht4 hs3'.push hl hd
    have hp := Step.pop hs3' i1 i2 (fun x hx hd => hw.2.2.fresh x hx (declares_decls b x hd))
    have hunused := stale_unused (us := e.vars ++ (i.vars ++ b.used)) hs3 (fun x hx => hX x (List.mem_append_right _ hx)) hsf.1
      (r := (r.1, x :: r.2)) (fun _ _ h => h) hL
    cases n with
    | zero => cases hrun
    | succ n =>
    cases n with
    | zero => cases hrun
    | succ n =>
      obtain ⟨σ0, r0, r1⟩ := bind_some_iff hrun
      -- the start value
      cases n with
      | zero => cases r0
      | succ n =>
      obtain ⟨v0, hv0, rfl⟩ := Option.map_eq_some_iff.1 r0
      rw [evalTo_same ht1] at hv0
      obtain ⟨g1, g2⟩ := rewrite_sound hA hs h1 ht1 (fun x hx => hX x (List.mem_append_left _ hx)) hi he
      have r0' : run A (n + 1) (.assign k x e1) σ = some (σ.set x v0) := by
        show (evalTo A σ e1 k).map (σ.set x) = _
        rw [evalTo_same g1, g2 v0 hv0]; rfl
      have he0 : EnvOK vk ak (σ.set x v0) := he.set (hk ▸ eval_ok he ht1 v0 hv0)
      have hP0 : EqInv (stale X s3.vars b) s3.vars (σ.set x v0) := by
        intro z kk y hz hn
        have hent := hs3.entry z kk y hz
        have hzx : z ≠ x := fun h => hw.1 (h ▸ hent.1)
        have hyx : y ≠ x := fun h => hw.1 (h ▸ hent.2.1)
        simp only [Env.set, if_neg hzx, if_neg hyx]
        exact hi z kk y (hv3 ▸ hz) (fun h => hn (Or.inl h))
      obtain ⟨q1, q2, q3⟩ := while_sound (A := A) (P := fun σ => EqInv (stale X s3.vars b) s3.vars σ ∧ EnvOK vk ak σ)
        (c := .cmp .lt (.var k x) e) (c' := .cmp .lt (.var k x) e2) (b := .seq b (.assign k x (.arith .add (.var k x) i)))
        (b' := .seq b' (.assign k x (.arith .add (.var k x) e3)))
        (by
          rintro σ v ⟨p1, p2⟩ hv
          have p1' : EqInv (stale X s3.vars b) s1.vars σ := by rw [hv1, ← hv3]; exact p1
          obtain ⟨w1, w2⟩ := rewrite_sound hA hs1 h2 ht2 (fun x hx => hunused x (List.mem_append_left _ hx)) p1' p2
          rw [eval_cmp hvar ht2] at hv
          obtain ⟨u, hu, hv⟩ := bind_some_iff hv
          obtain ⟨u', hu', hv⟩ := bind_some_iff hv
          rw [eval_cmp hvar w1, hu, w2 u' hu']
          exact hv)
        (by
          rintro n σ σ' ⟨p1, p2⟩ hr
          cases n with
          | zero => cases hr
          | succ n =>
          obtain ⟨σ1, hr1, hr2⟩ := bind_some_iff hr
          have p1' : EqInv (fun z => stale X s3.vars b z ∧ z ∈ V) s3.push.vars σ := fun z kk y hz hn =>
            p1 z kk y hz (fun hzz => hn ⟨hzz, (hs3.entry z kk y hz).1⟩)
          obtain ⟨g1, _⟩ := ih (r.1, x :: r.2) (fun z => stale X s3.vars b z ∧ z ∈ V) n σ σ1 h4 hw.2.2 ht4 hsf.2 hs3'.push hl hd hL
            (fun z hz h => hunused z (List.mem_append_right _ (List.mem_append_right _ hz)) h.1)
            (fun z hz h => hw.2.2.fresh z (List.mem_cons_of_mem _ h.2) (declares_decls b z hz)) p1' p2 hr1
          have e1ok := run_ok n b σ σ1 ht4 p2 hr1
          have inv1 : EqInv (stale X s3.vars b) s3.vars σ1 := EqInv.iterate hs3 p1 (fun z hz hza =>
            run_frame n b σ σ1 z hr1 hza (hw.2.2.fresh z (List.mem_cons_of_mem _ hz)))
          cases n with
          | zero => cases hr2
          | succ n =>
          obtain ⟨v, hv, rfl⟩ := Option.map_eq_some_iff.1 hr2
          have hadd : WT vk ak (Expr.arith .add (.var k x) i) k := .arith hnum hvar ht3
          rw [evalTo_same hadd] at hv
          have inv1' : EqInv (stale X s3.vars b) s2.vars σ1 := by rw [hv2, ← hv3]; exact inv1
          obtain ⟨w1, w2⟩ := rewrite_sound hA hs2 h3 ht3
            (fun x hx => hunused x (List.mem_append_right _ (List.mem_append_left _ hx))) inv1' e1ok
          have hvv := hv
          rw [eval_arith hvar ht3] at hv
          obtain ⟨u, hu, hv⟩ := bind_some_iff hv
          obtain ⟨u', hu', hv⟩ := bind_some_iff hv
          have hadd' : WT vk ak (Expr.arith .add (.var k x) e3) k := .arith hnum hvar w1
          refine ⟨?_, ?_, e1ok.set (hk ▸ eval_ok e1ok hadd v hvv)⟩
          · rw [run_seq, g1]
            show (evalTo A σ1 _ k).map (σ1.set x) = _
            rw [evalTo_same hadd', eval_arith hvar w1, hu, w2 u' hu']
            show (arithVal A k .add u u').map (σ1.set x) = _
            rw [hv]; rfl
          · intro z kk y hz hn
            have hent := hs3.entry z kk y hz
            have hzx : z ≠ x := fun h => hw.1 (h ▸ hent.1)
            have hyx : y ≠ x := fun h => hw.1 (h ▸ hent.2.1)
            simp only [Env.set, if_neg hzx, if_neg hyx]
            exact inv1 z kk y hz hn)
        (n + 1) (σ.set x v0) σ' ⟨hP0, he0⟩ r1
      refine ⟨?_, fun z kk y hz hn => ?_⟩
      · show run A (n + 1 + 1) (.seq (.assign k x e1) _) σ = some σ'
        rw [run_seq, r0']
        exact q1
      · have hkeep := hp.2.2 z kk y hz
        have hx1 := hp.1.get hs3.uniq hz
        refine q2 z kk y hx1 ?_
        rintro (h | ⟨k', y', hg, h | h⟩)
        · exact hn h
        · exact hkeep.1 h
        · rw [hx1] at hg; cases hg; exact hkeep.2 h

end

end Verif.IR
