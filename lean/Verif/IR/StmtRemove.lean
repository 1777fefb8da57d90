import Verif.IR.StmtLoops
/-! The last pass, and what the earlier passes keep for it. -/
namespace Verif.IR
open Verif.Types
open Verif.Scoped (SMap get)

variable {F : Type} {vk ak : Nat → Kind} {A : Flt F}

/-- `LoopsOK` without copies. -/
def Flat (vk : Nat → Kind) : Stmt F → Prop
  | .seq a b => Flat vk a ∧ Flat vk b
  | .scope s => Flat vk s
  | .ite _ a b => Flat vk a ∧ Flat vk b
  | .loop k x s e i b => (b.straight → i = .lit k (.i 1) ∧ b.assigned.Nodup ∧
      ∀ y ∈ b.assigned, vk y = k ∧ y ≠ x ∧ y ∉ s.vars ∧ y ∉ e.vars) ∧ Flat vk b
  | .while _ b => (b.straight → b.assigned.Nodup ∧ ∀ y ∈ b.assigned, ∀ z ∈ b.assigned, vk y = vk z) ∧ Flat vk b
  | _ => True

/-- The states agree on memory and the variables in `V`. -/
structure Same (V : List Nat) (σ τ : Env F) : Prop where
  mem : σ.mem = τ.mem
  var : ∀ x ∈ V, σ.var x = τ.var x

section
variable {V : List Nat} {σ τ : Env F}

theorem Same.eval {e : Expr F} (h : Same V σ τ) (hr : ∀ x ∈ e.vars, x ∈ V) : eval A σ e = eval A τ e :=
  eval_congr h.mem e fun x hx => h.var x (hr x hx)

theorem Same.evalTo {e : Expr F} {k : Kind} (h : Same V σ τ) (hr : ∀ x ∈ e.vars, x ∈ V) : evalTo A σ e k = evalTo A τ e k :=
  eval_congr h.mem (.cast e k) fun x hx => h.var x (hr x hx)

theorem Same.set (h : Same V σ τ) (x : Nat) (v : Val F) : Same (x :: V) (σ.set x v) (τ.set x v) :=
  ⟨h.mem, fun y hy => by
    simp only [Env.set]
    split
    · rfl
    · rename_i hne; exact h.var y ((List.mem_cons.1 hy).resolve_left hne)⟩

theorem Same.sub {V' : List Nat} (h : Same V σ τ) (hV : ∀ x ∈ V', x ∈ V) : Same V' σ τ := ⟨h.mem, fun x hx => h.var x (hV x hx)⟩

/-- Inversion of the loops that are counted. -/
theorem counting_inv {c : Expr F} {body pre : Stmt F} {ki ke : Kind} {i e : Nat} (h : counting c body = some (ki, i, ke, e, pre)) :
    ∃ k1 k2 kl, c = .cmp .lt (.var ki i) (.var ke e) ∧ body = .seq pre (.assign k1 i (.arith .add (.var k2 i) (.lit kl (.i 1)))) ∧
      (isInt kl || isUInt kl) = true ∧ e ∉ pre.assigned ∧ e ≠ i := by
  unfold counting at h
  split at h
  · split at h
    · rename_i hh
      obtain ⟨rfl, rfl, hk, rfl, h1, h2⟩ := hh
      cases h
      exact ⟨_, _, _, rfl, rfl, hk, h1, h2⟩
    · cases h
  · cases h

theorem run_ite_true {n : Nat} {c : Expr F} {a b : Stmt F} {σ : Env F} (h : eval A σ c = some (.b true)) :
    run A (n + 1) (.ite c a b) σ = run A n a σ := by
  show (match eval A σ c with
    | some (.b true) => run A n a σ
    | some (.b false) => run A n b σ
    | _ => none) = _
  rw [h]

theorem run_ite_false {n : Nat} {c : Expr F} {a b : Stmt F} {σ : Env F} (h : eval A σ c = some (.b false)) :
    run A (n + 1) (.ite c a b) σ = run A n b σ := by
  show (match eval A σ c with
    | some (.b true) => run A n a σ
    | some (.b false) => run A n b σ
    | _ => none) = _
  rw [h]

theorem eval_lt {k : Kind} {a b : Expr F} {u s : Int} (ha : WT vk ak a k) (hb : WT vk ak b k) (h1 : eval A σ a = some (.i u))
    (h2 : eval A σ b = some (.i s)) : eval A σ (.cmp .lt a b) = some (.b (decide (u < s))) := by
  rw [eval_cmp ha hb, h1, h2]; rfl

end

/-- A body that can be replaced declares nothing and assigns only visible variables. -/
theorem dup_ws {count : Expr F} (b : Stmt F) : ∀ {b' : Stmt F} {V : List Nat}, dup A count b = some (some b') → WS V b →
    b.declares = [] ∧ ∀ y ∈ b.assigned, y ∈ V := by
  induction b with
  | seq a b iha ihb =>
    intro b' V h hw
    rcases dup_cases h with ⟨h1, _⟩ | ⟨_, _, _, _, h1, _, h2, h3⟩ | ⟨_, _, h1, _⟩ | ⟨_, _, _, h1⟩ <;> cases h1
    have i1 := iha h2 hw.1
    have i2 := ihb h3 hw.2
    refine ⟨by simp only [Stmt.declares, i1.1, i2.1, List.append_nil], fun y hy => ?_⟩
    rcases List.mem_append.1 hy with h' | h'
    · exact i1.2 y h'
    · have := i2.2 y h'
      rw [i1.1] at this; exact this
  | scope a ih =>
    intro b' V h hw
    rcases dup_cases h with ⟨h1, _⟩ | ⟨_, _, _, _, h1, _, h2, h3⟩ | ⟨_, _, h1, _, h2⟩ | ⟨_, _, _, h1⟩ <;> cases h1
    exact ⟨rfl, (ih h2 hw).2⟩
  | skip => intro _ _ _ _; exact ⟨rfl, fun y hy => by cases hy⟩
  | assign k x e =>
    intro _ _ _ hw
    exact ⟨rfl, fun y hy => by simp only [Stmt.assigned, List.mem_singleton] at hy; exact hy ▸ hw.1⟩
  | _ => intro b' V h; cases h

/-- Loops that are kept: the same loop with a simplified body. -/
theorem loops_sound (hA : FltLaws A) (t : Stmt F) : ∀ {t' : Stmt F} {V : List Nat} (n : Nat) (σ τ σ' : Env F),
    removeLoops A t = some t' → WS V t → WTS vk ak t → Flat vk t → EnvOK vk ak σ → Same V σ τ →
    run A n t σ = some σ' → ∃ τ', run A (n + 1) t' τ = some τ' ∧ Same (t.declares ++ V) σ' τ' := by
  induction t with
  | skip =>
    intro t' V n σ τ σ' h hw ht hf he hs hrun
    cases h
    cases n with
    | zero => cases hrun
    | succ n => cases hrun; exact ⟨τ, rfl, hs⟩
  | seq a b iha ihb =>
    intro t' V n σ τ σ' h hw ht hf he hs hrun
    obtain ⟨a', h1, h⟩ := bind_some_iff h
    obtain ⟨b', h2, rfl⟩ := Option.map_eq_some_iff.1 h
    cases n with
    | zero => cases hrun
    | succ n =>
    obtain ⟨σ1, r1, r2⟩ := bind_some_iff hrun
    obtain ⟨τ1, q1, q2⟩ := iha n σ τ σ1 h1 hw.1 ht.1 hf.1 he hs r1
    obtain ⟨τ', q3, q4⟩ := ihb n σ1 τ1 σ' h2 hw.2 ht.2 hf.2 (run_ok n a σ σ1 ht.1 he r1) q2 r2
    refine ⟨τ', ?_, q4.sub fun x hx => ?_⟩
    · rw [run_seq, q1]; exact q3
    · simp only [Stmt.declares, List.mem_append] at hx ⊢
      rcases hx with (h | h) | h
      · exact Or.inr (Or.inl h)
      · exact Or.inl h
      · exact Or.inr (Or.inr h)
  | scope a ih =>
    intro t' V n σ τ σ' h hw ht hf he hs hrun
    obtain ⟨a', h1, rfl⟩ := Option.map_eq_some_iff.1 h
    cases n with
    | zero => cases hrun
    | succ n =>
    obtain ⟨τ', q1, q2⟩ := ih n σ τ σ' h1 hw ht hf he hs hrun
    exact ⟨τ', q1, q2.sub fun x hx => List.mem_append_right _ hx⟩
  | decl id k x e =>
    intro t' V n σ τ σ' h hw ht hf he hs hrun
    cases h
    cases n with
    | zero => cases hrun
    | succ n =>
    obtain ⟨v, hv, rfl⟩ := Option.map_eq_some_iff.1 hrun
    refine ⟨τ.set x v, ?_, hs.set x v⟩
    show (evalTo A τ e k).map (τ.set x) = _
    rw [← hs.evalTo hw.2, hv]; rfl
  | assign k x e =>
    intro t' V n σ τ σ' h hw ht hf he hs hrun
    cases h
    cases n with
    | zero => cases hrun
    | succ n =>
    obtain ⟨v, hv, rfl⟩ := Option.map_eq_some_iff.1 hrun
    refine ⟨τ.set x v, ?_, (hs.set x v).sub fun y hy => List.mem_cons_of_mem _ hy⟩
    show (evalTo A τ e k).map (τ.set x) = _
    rw [← hs.evalTo hw.2, hv]; rfl
  | store k arr loc e =>
    intro t' V n σ τ σ' h hw ht hf he hs hrun
    cases h
    cases n with
    | zero => cases hrun
    | succ n =>
    obtain ⟨p, v, hp, hv, rfl⟩ := run_store hrun
    refine ⟨τ.write arr p v, ?_, ?_, hs.var⟩
    · show (match eval A τ loc with
        | some (.i p) => (evalTo A τ e k).map (τ.write arr p)
        | _ => none) = _
      rw [← hs.eval hw.1, hp]
      show (evalTo A τ e k).map (τ.write arr p) = _
      rw [← hs.evalTo hw.2, hv]; rfl
    · simp only [Env.write, hs.mem]
  | ite c a b iha ihb =>
    intro t' V n σ τ σ' h hw ht hf he hs hrun
    obtain ⟨a', h1, h⟩ := bind_some_iff h
    obtain ⟨b', h2, rfl⟩ := Option.map_eq_some_iff.1 h
    cases n with
    | zero => cases hrun
    | succ n =>
    rcases run_ite hrun with ⟨hc, hr⟩ | ⟨hc, hr⟩
    · obtain ⟨τ', q1, q2⟩ := iha n σ τ σ' h1 hw.2.1 ht.2.1 hf.1 he hs hr
      refine ⟨τ', ?_, q2.sub fun x hx => List.mem_append_right _ hx⟩
      rw [run_ite_true (by rw [← hs.eval hw.1]; exact hc)]; exact q1
    · obtain ⟨τ', q1, q2⟩ := ihb n σ τ σ' h2 hw.2.2 ht.2.2 hf.2 he hs hr
      refine ⟨τ', ?_, q2.sub fun x hx => List.mem_append_right _ hx⟩
      rw [run_ite_false (by rw [← hs.eval hw.1]; exact hc)]; exact q1
  | «while» c b ih =>
    intro t' V n σ τ σ' h hw ht hf he hs hrun
    -- the loop is kept
    have keep : ∀ {t' : Stmt F}, ((removeLoops A b).map fun b => Stmt.while c b) = some t' →
        ∃ τ', run A (n + 1) t' τ = some τ' ∧ Same V σ' τ' := by
      intro t' h
      obtain ⟨b', h1, rfl⟩ := Option.map_eq_some_iff.1 h
      obtain ⟨τ', q1, q2⟩ := while_sim (A := A) (R := fun σ τ => EnvOK vk ak σ ∧ Same V σ τ) 1 (c := c) (c' := c) (b := b) (b' := b')
        (fun σ τ v h hv => by rw [← h.2.eval hw.1]; exact hv)
        (fun n σ τ σ' h hr => by
          obtain ⟨τ', q1, q2⟩ := ih n σ τ σ' h1 hw.2 ht.2 hf.2 h.1 h.2 hr
          exact ⟨τ', q1, run_ok n b σ σ' ht.2 h.1 hr, q2.sub fun x hx => List.mem_append_right _ hx⟩)
        n σ τ σ' ⟨he, hs⟩ hrun
      exact ⟨τ', q1, q2.2⟩
    replace h : (match counting c b with
      | some (ki, i, ke, e, pre) =>
        (simplify A (.arith .sub (.var ke e) (.var ki i))).bind fun count => (dup A count pre).bind fun r => match r with
          | some pre' => some (.ite c (.seq pre' (.assign ki i (.var ke e))) .skip)
          | none => (removeLoops A b).map fun b => .while c b
      | none => (removeLoops A b).map fun b => .while c b) = some t' := h
    cases hcnt : counting c b with
    | none => rw [hcnt] at h; exact keep h
    | some p =>
      obtain ⟨ki, i, ke, e, pre⟩ := p
      rw [hcnt] at h
      obtain ⟨count, hcount, h⟩ := bind_some_iff h
      obtain ⟨r, hdup, h⟩ := bind_some_iff h
      cases r with
      | none => exact keep h
      | some pre' =>
        obtain ⟨k1, k2, kl, rfl, rfl, hk, hep, hei⟩ := counting_inv hcnt
        replace h : some (Stmt.ite (.cmp .lt (.var ki i) (.var ke e)) (.seq pre' (.assign ki i (.var ke e))) .skip) = some t' := h
        injection h with h
        subst h
        obtain ⟨htc, htpre, htk, htinc⟩ := ht
        -- the types
        obtain ⟨rfl, rfl, hke⟩ : ki = vk i ∧ ke = vk e ∧ vk e = vk i := by
          cases htc with
          | cmp ha hb =>
            cases ha with
            | var =>
              generalize hkk : vk i = kk at hb
              cases hb with
              | var => exact ⟨rfl, rfl, rfl⟩
        subst htk
        obtain ⟨rfl, rfl⟩ : k2 = vk i ∧ kl = vk i := by
          cases htinc with
          | arith _ ha hb =>
            cases ha with
            | var =>
              generalize hkk : vk i = kk at hb
              cases hb with
              | lit => exact ⟨rfl, rfl⟩
        have hst := dup_straight pre hdup
        obtain ⟨hnd, hty⟩ := hf.1 ⟨hst, trivial⟩
        simp only [Stmt.assigned] at hnd hty
        rw [List.nodup_append] at hnd
        have hy : ∀ y ∈ pre.assigned, vk y = vk i := fun y hy =>
          hty y (List.mem_append_left _ hy) i (List.mem_append_right _ List.mem_cons_self)
        have hip : i ∉ pre.assigned := fun h => hnd.2.2 i h i List.mem_cons_self rfl
        have hwe : WT (F := F) vk ak (.var (vk e) e) (vk i) := hke ▸ .var
        have hwi : WT (F := F) vk ak (.var (vk i) i) (vk i) := .var
        -- values of the variables in the condition
        cases n with
        | zero => cases hrun
        | succ n =>
        have hcd : ∃ w, eval A σ (.cmp .lt (.var (vk i) i) (.var (vk e) e)) = some w := by
          rcases run_while hrun with ⟨h, _⟩ | ⟨h, _⟩ <;> exact ⟨_, h⟩
        obtain ⟨w, hcd⟩ := hcd
        rw [eval_cmp hwi hwe] at hcd
        obtain ⟨u, hu, hcd⟩ := bind_some_iff hcd
        obtain ⟨s, hsv, _⟩ := bind_some_iff hcd
        obtain ⟨u, rfl⟩ := int_val hk (he.var i u hu)
        obtain ⟨s, rfl⟩ := int_val (hke ▸ hk) (he.var e s hsv)
        replace hu : σ.var i = some (.i u) := hu
        replace hsv : σ.var e = some (.i s) := hsv
        have hiV : i ∈ V := hw.1 i (by simp [Expr.vars])
        have heV : e ∈ V := hw.1 e (by simp [Expr.vars])
        have hlt := eval_lt (A := A) (σ := τ) (u := u) (s := s) hwi hwe ((hs.var i hiV).symm.trans hu) ((hs.var e heV).symm.trans hsv)
        rcases count_loop hk hdup htpre hy hnd.1 rfl hip hwe (by simp [Expr.vars]; exact fun h => hei h.symm)
          (by intro y hy; simp only [Expr.vars, List.mem_singleton]; exact fun h => hep (h ▸ hy)) (n + 1) σ σ' u s he hu hsv hrun with
          ⟨hus, ⟨m, σ1, hm, hr1⟩, hup⟩ | ⟨hus, rfl, _⟩
        · rw [decide_eq_true hus] at hlt
          obtain rfl : n = m + 1 := by omega
          have hsubt : WT vk ak (Expr.arith .sub (.var (vk e) e) (.var (vk i) i)) (vk i) := .arith (numeric_int hk) hwe hwi
          have href := simp_refines hA _ _ _ _ hcount hsubt
          have hcv : ∀ z ∈ count.vars, z = e ∨ z = i := by
            intro z hz
            have := simp_vars _ _ _ hcount z hz
            simpa [Expr.vars] using this
          have hceval : eval A σ count = some (.i (wrap (vk i) (s - u))) := href.2 σ he _ (by
            rw [eval_arith hwe hwi]
            show (σ.var e).bind _ = _
            rw [hsv]
            show (σ.var i).bind _ = _
            rw [hu]; rfl)
          have hVa := (dup_ws pre hdup hw.2.1).2
          obtain ⟨τ1, q1, q2⟩ := dup_run hA hk he href.1 hceval pre m σ σ1 τ hdup htpre hy hnd.1
            (fun y hya hyc => by
              rcases hcv y hyc with h | h
              · exact hep (h ▸ hya)
              · exact hip (h ▸ hya))
            (fun z hz => by
              rcases hcv z hz with h | h
              · exact h ▸ (hs.var _ heV).symm
              · exact h ▸ (hs.var _ hiV).symm)
            hs.mem.symm (fun y hy => (hs.var y (hVa y hy)).symm) he hr1
          have hua := ups_assigned hk pre hdup htpre hy
          have he1 : τ1.var e = some (.i s) := by
            rw [q2.other e (hua ▸ hep), ← hs.var e heV]; exact hsv
          refine ⟨τ1.set i (.i s), ?_, ?_, fun y hyV => ?_⟩
          · rw [run_ite_true hlt, run_seq, run_mono m pre' τ τ1 q1]
            show (evalTo A τ1 _ _).map _ = _
            rw [evalTo_same hwe]
            show (τ1.var e).map _ = _
            rw [he1]; rfl
          · show σ'.mem = τ1.mem
            rw [hup.mem, q2.mem, hs.mem]
          · by_cases hyi : y = i
            · subst hyi
              rw [set_var]
              obtain ⟨a, ha, hb⟩ := hup.eff (y, .inc 1) (List.mem_append_right _ List.mem_cons_self)
              dsimp only at ha hb
              rw [hu] at ha
              cases ha
              rw [hb, Int.mul_one, show u + (s - u) = s by omega]
              have := (he.var e _ hsv).2
              rw [hke] at this
              rw [this]
            · rw [set_other _ _ hyi]
              have hup' : Upds (vk i) (s - u) (ups pre) σ (σ'.set i (.i u)) := by
                refine ⟨hup.mem, fun z hz => ?_, fun v hv => ?_⟩
                · by_cases hzi : z = i
                  · subst hzi; rw [set_var, hu]
                  · rw [set_other _ _ hzi]
                    refine hup.other z ?_
                    rw [List.map_append, List.mem_append, not_or]
                    exact ⟨hz, by simpa using hzi⟩
                · have hvi : v.1 ≠ i := fun h => hip (h ▸ hua ▸ List.mem_map_of_mem hv)
                  exact (hup.eff v (List.mem_append_left _ hv)).congr rfl (set_other _ _ hvi)
              have := hup'.agree q2 (wrap_wrap _ _).symm (hs.var y (by simpa [Stmt.declares] using hyV))
              rw [set_other _ _ hyi] at this
              exact this
        · rw [decide_eq_false hus] at hlt
          refine ⟨τ, ?_, hs⟩
          rw [run_ite_false hlt]
          rfl
  | loop k x st e i b ih =>
    intro t' V n σ τ σ' h hw ht hf he hs hrun
    obtain ⟨hk, hki, ht1, ht2, ht3, ht4⟩ := ht
    have hvar : WT (F := F) vk ak (.var k x) k := hk ▸ .var
    have hadd : WT vk ak (Expr.arith .add (.var k x) i) k := .arith (numeric_int hki) hvar ht3
    have hsV : ∀ y ∈ st.vars, y ∈ V := fun y hy => hw.2.1 y (List.mem_append_left _ hy)
    have heV : ∀ y ∈ e.vars, y ∈ V := fun y hy => hw.2.1 y (List.mem_append_right _ (List.mem_append_left _ hy))
    have hiV : ∀ y ∈ i.vars, y ∈ V := fun y hy => hw.2.1 y (List.mem_append_right _ (List.mem_append_right _ hy))
    cases n with
    | zero => cases hrun
    | succ n =>
    cases n with
    | zero => cases hrun
    | succ n =>
    obtain ⟨σ0, r0, r1⟩ := bind_some_iff hrun
    cases n with
    | zero => cases r0
    | succ n =>
    obtain ⟨v0, hv0, rfl⟩ := Option.map_eq_some_iff.1 r0
    have hv0' := hv0
    rw [evalTo_same ht1] at hv0'
    have he0 : EnvOK vk ak (σ.set x v0) := he.set (hk ▸ eval_ok he ht1 v0 hv0')
    -- the loop is kept
    have keep : ∀ {t' : Stmt F}, ((removeLoops A b).map fun b => Stmt.loop k x st e i b) = some t' →
        ∃ τ', run A (n + 1 + 1 + 1 + 1) t' τ = some τ' ∧ Same V σ' τ' := by
      intro t' h
      obtain ⟨b', h1, rfl⟩ := Option.map_eq_some_iff.1 h
      obtain ⟨τ', q1, q2⟩ := while_sim (A := A) (R := fun σ τ => EnvOK vk ak σ ∧ Same (x :: V) σ τ) 1
        (c := .cmp .lt (.var k x) e) (c' := .cmp .lt (.var k x) e) (b := .seq b (.assign k x (.arith .add (.var k x) i)))
        (b' := .seq b' (.assign k x (.arith .add (.var k x) i)))
        (fun σ τ v h hv => by
          rw [← h.2.eval (fun y hy => ?_)]
          · exact hv
          · rcases List.mem_append.1 hy with hy | hy
            · simp only [Expr.vars, List.mem_singleton] at hy; exact hy ▸ List.mem_cons_self
            · exact List.mem_cons_of_mem _ (heV y hy))
        (fun n σ τ σ' h hr => by
          cases n with
          | zero => cases hr
          | succ n =>
          obtain ⟨σ1, hr1, hr2⟩ := bind_some_iff hr
          obtain ⟨τ1, q1, q2⟩ := ih n σ τ σ1 h1 hw.2.2 ht4 hf.2 h.1 h.2 hr1
          have e1 := run_ok n b σ σ1 ht4 h.1 hr1
          have q2' : Same (x :: V) σ1 τ1 := q2.sub fun x hx => List.mem_append_right _ hx
          cases n with
          | zero => cases hr2
          | succ n =>
          obtain ⟨v, hv, rfl⟩ := Option.map_eq_some_iff.1 hr2
          refine ⟨τ1.set x v, ?_, ?_, (q2'.set x v).sub fun y hy => List.mem_cons_of_mem _ hy⟩
          · rw [show n + 1 + 1 + 1 = (n + 1 + 1) + 1 from rfl, run_seq, q1]
            show (evalTo A τ1 _ k).map _ = _
            rw [← q2'.evalTo (fun y hy => ?_), hv]
            · rfl
            · rcases List.mem_append.1 hy with hy | hy
              · simp only [Expr.vars, List.mem_singleton] at hy; exact hy ▸ List.mem_cons_self
              · exact List.mem_cons_of_mem _ (hiV y hy)
          · rw [evalTo_same hadd] at hv
            exact e1.set (hk ▸ eval_ok e1 hadd v hv))
        (n + 1) (σ.set x v0) (τ.set x v0) σ' ⟨he0, hs.set x v0⟩ r1
      refine ⟨τ', ?_, q2.2.sub fun y hy => List.mem_cons_of_mem _ hy⟩
      show (run A (n + 1 + 1) (.assign k x st) τ).bind _ = _
      have : run A (n + 1 + 1) (.assign k x st) τ = some (τ.set x v0) := by
        show (evalTo A τ st k).map _ = _
        rw [← hs.evalTo hsV, hv0]; rfl
      rw [this]; exact q1
    obtain ⟨count, hcount, h⟩ := bind_some_iff h
    obtain ⟨r, hdup, h⟩ := bind_some_iff h
    cases r with
    | none => exact keep h
    | some b' =>
      replace h : some (Stmt.ite (.cmp .lt st e) b' .skip) = some t' := h
      injection h with h
      subst h
      have hst := dup_straight b hdup
      obtain ⟨rfl, hnd, hall⟩ := hf.1 hst
      have hy : ∀ y ∈ b.assigned, vk y = k := fun y hy => (hall y hy).1
      have hxb : x ∉ b.assigned := fun h => (hall x h).2.1 rfl
      -- values of the bounds
      obtain ⟨u, rfl⟩ := int_val hki (eval_ok he ht1 v0 hv0')
      have hcd : ∃ w, eval A (σ.set x (.i u)) (.cmp .lt (.var k x) e) = some w := by
        rcases run_while r1 with ⟨h, _⟩ | ⟨h, _⟩ <;> exact ⟨_, h⟩
      obtain ⟨w, hcd⟩ := hcd
      rw [eval_cmp hvar ht2] at hcd
      obtain ⟨_, _, hcd⟩ := bind_some_iff hcd
      obtain ⟨s, hsv, _⟩ := bind_some_iff hcd
      obtain ⟨s, rfl⟩ := int_val hki (eval_ok he0 ht2 s hsv)
      have hxe : x ∉ e.vars := fun h => hw.1 (heV x h)
      have hxs : x ∉ st.vars := fun h => hw.1 (hsV x h)
      have hsσ : eval A σ e = some (.i s) := by
        refine Eq.trans (eval_congr (σ := σ) (τ := σ.set x (.i u)) rfl e fun z hz => ?_) hsv
        exact (set_other σ _ (show z ≠ x from fun h => hxe (h ▸ hz))).symm
      have hlt := eval_lt (A := A) (σ := τ) (u := u) (s := s) ht1 ht2 ((hs.eval hsV).symm.trans hv0') ((hs.eval heV).symm.trans hsσ)
      rcases count_loop hki hdup ht4 hy hnd hk.symm hxb ht2 hxe (fun y h => (hall y h).2.2.2) (n + 1) (σ.set x (.i u)) σ' u s he0
        (set_var σ x _) hsv r1 with ⟨hus, ⟨m, σ1, hm, hr1⟩, hup⟩ | ⟨hus, rfl, _⟩
      · rw [decide_eq_true hus] at hlt
        have hone : WT (F := F) vk ak (.lit k (.i 1)) k := WT.intLit hki (wrap_one hki)
        have hsub : WT vk ak (Expr.arith .sub e st) k := .arith (numeric_int hki) ht2 ht1
        have hdiv : WT vk ak (Expr.arith .div (.arith .sub e st) (.lit k (.i 1))) k := .arith (numeric_int hki) hsub hone
        have href := simp_refines hA _ _ _ _ hcount hdiv
        have hcv : ∀ z ∈ count.vars, z ∈ e.vars ++ st.vars := by
          intro z hz
          have := simp_vars _ _ _ hcount z hz
          simpa [Expr.vars] using this
        have hcV : ∀ z ∈ count.vars, z ∈ V := fun z hz => (List.mem_append.1 (hcv z hz)).elim (heV z) (hsV z)
        have hceval : eval A σ count = some (.i (wrap k (s - u))) := href.2 σ he _ (by
          rw [eval_arith hsub hone, eval_arith ht2 ht1, hsσ, hv0']
          show (if (1 : Int) = 0 ∨ wrap k ((wrap k (s - u)).tdiv 1) ≠ (wrap k (s - u)).tdiv 1 then none
            else some (Val.i (wrap k ((wrap k (s - u)).tdiv 1)))) = some (Val.i (F := F) (wrap k (s - u)))
          rw [Int.tdiv_one, wrap_wrap, if_neg (by simp)])
        have hVa := (dup_ws b hdup hw.2.2).2
        have hVa' : ∀ y ∈ b.assigned, y ∈ V := fun y hya => (List.mem_cons.1 (hVa y hya)).resolve_left (hall y hya).2.1
        obtain ⟨τ1, q1, q2⟩ := dup_run hA hki he href.1 hceval b m (σ.set x (.i u)) σ1 τ hdup ht4 hy hnd
          (fun y hya hyc => (List.mem_append.1 (hcv y hyc)).elim (hall y hya).2.2.2 (hall y hya).2.2.1)
          (fun z hz => (hs.var z (hcV z hz)).symm) hs.mem.symm
          (fun y hya => by rw [set_other _ _ (hall y hya).2.1]; exact (hs.var y (hVa' y hya)).symm) he0 hr1
        have hup' : Upds k (s - u) (ups b) (σ.set x (.i u)) (σ'.set x (.i u)) := by
          have hua := ups_assigned hki b hdup ht4 hy
          refine ⟨hup.mem, fun z hz => ?_, fun v hv => ?_⟩
          · by_cases hzi : z = x
            · subst hzi; rw [set_var, set_var]
            · rw [set_other _ _ hzi]
              refine hup.other z ?_
              rw [List.map_append, List.mem_append, not_or]
              exact ⟨hz, by simpa using hzi⟩
          · have hvi : v.1 ≠ x := fun h => hxb (h ▸ hua ▸ List.mem_map_of_mem hv)
            exact (hup.eff v (List.mem_append_left _ hv)).congr rfl (set_other _ _ hvi)
        refine ⟨τ1, ?_, ?_, fun y hyV => ?_⟩
        · rw [run_ite_true hlt]
          have := run_mono _ _ _ _ (run_mono _ _ _ _ (run_mono _ _ _ _ (run_mono _ _ _ _ q1)))
          rw [show n + 1 + 1 + 1 = m + 1 + 1 + 1 + 1 by omega]
          exact this
        · rw [q2.mem, ← hs.mem]; exact hup.mem
        · have hyx : y ≠ x := fun h => hw.1 (h ▸ hyV)
          have := hup'.agree q2 (wrap_wrap _ _).symm (y := y) (by rw [set_other _ _ hyx]; exact hs.var y hyV)
          rw [set_other _ _ hyx] at this
          exact this
      · rw [decide_eq_false hus] at hlt
        refine ⟨τ, ?_, hs.mem, fun y hyV => ?_⟩
        · rw [run_ite_false hlt]; rfl
        · rw [set_other _ _ (show y ≠ x from fun h => hw.1 (h ▸ hyV))]; exact hs.var y hyV

/-! ### What copy propagation and pruning keep -/

section
variable {L V N : List Nat} {C : List (Nat × Nat)} {lvl : Nat} {d : Nat → Option Nat} {s s' : CP}

theorem rewrite_wt (hA : FltLaws A) {e e' : Expr F} {k : Kind} (hs : Static vk L V C lvl d s) (h : s.rewrite A e = some (e', s'))
    (ht : WT vk ak e k) : WT vk ak e' k :=
  simp_refines' hA (rewrite_inv h).1 (ht.subst fun z k y hz => let h := hs.entry z k y hz; ⟨h.2.2.1, h.2.2.2.1⟩)

/-- A variable of a rewritten expression is one of the original, or the source of a copy in the original. -/
theorem rewrite_from {e e' : Expr F} (hs : Static vk L V C lvl d s) (h : s.rewrite A e = some (e', s')) :
    ∀ x ∈ e'.vars, x ∈ e.vars ∨ ∃ v ∈ e.vars, (v, x) ∈ C := by
  intro x hx
  have hx' := (rewrite_used h x hx).1
  clear hx h
  have h2 : ∀ (a b : Expr F), (x ∈ (a.subst s.vars).vars → x ∈ a.vars ∨ ∃ v ∈ a.vars, (v, x) ∈ C) →
      (x ∈ (b.subst s.vars).vars → x ∈ b.vars ∨ ∃ v ∈ b.vars, (v, x) ∈ C) →
      x ∈ (a.subst s.vars).vars ++ (b.subst s.vars).vars → x ∈ a.vars ++ b.vars ∨ ∃ v ∈ a.vars ++ b.vars, (v, x) ∈ C := by
    intro a b ha hb hx
    rcases List.mem_append.1 hx with hx | hx
    · rcases ha hx with h | ⟨v, hv, h⟩
      · exact Or.inl (List.mem_append_left _ h)
      · exact Or.inr ⟨v, List.mem_append_left _ hv, h⟩
    · rcases hb hx with h | ⟨v, hv, h⟩
      · exact Or.inl (List.mem_append_right _ h)
      · exact Or.inr ⟨v, List.mem_append_right _ hv, h⟩
  induction e with
  | lit => cases hx'
  | var k y =>
    simp only [Expr.subst] at hx'
    cases hg : get s.vars y with
    | none => rw [hg] at hx'; exact Or.inl hx'
    | some p =>
      obtain ⟨k', z⟩ := p
      rw [hg] at hx'
      simp only [Expr.vars, List.mem_singleton] at hx'
      subst hx'
      exact Or.inr ⟨y, List.mem_cons_self, (hs.entry y k' x hg).2.2.2.2.2.2.2.2⟩
  | arith _ a b iha ihb => exact h2 a b iha ihb hx'
  | cmp _ a b iha ihb => exact h2 a b iha ihb hx'
  | and a b iha ihb => exact h2 a b iha ihb hx'
  | or a b iha ihb => exact h2 a b iha ihb hx'
  | neg a ih => exact ih hx'
  | not a ih => exact ih hx'
  | cast a k ih => exact ih hx'
  | load k arr a ih => exact ih hx'

theorem rewrite_lit {k : Kind} {v : Val F} {e' : Expr F} (h : s.rewrite A (.lit k v) = some (e', s')) : e' = .lit k v := by
  have h1 := (rewrite_inv h).1
  replace h1 : some (Expr.lit k v) = some e' := h1
  injection h1 with h1
  exact h1.symm

theorem cp_assigned (t : Stmt F) : ∀ {t' : Stmt F} {s s' : CP}, cp A L t s = some (t', s') →
    (prune N t').assigned = t.assigned ∧ ((prune N t').straight → t.straight) ∧ ∀ x ∈ (prune N t').declares, x ∈ t.declares := by
  induction t with
  | skip => intro t' s s' h; cases h; exact ⟨rfl, fun h => h, fun _ h => h⟩
  | seq a b iha ihb =>
    intro t' s s' h
    obtain ⟨⟨a', s1⟩, h1, h⟩ := bind_some_iff h
    obtain ⟨⟨b', s2⟩, h2, h⟩ := Option.map_eq_some_iff.1 h
    cases h
    obtain ⟨p1, p2, p3⟩ := iha h1
    obtain ⟨q1, q2, q3⟩ := ihb h2
    refine ⟨?_, fun h => ⟨p2 h.1, q2 h.2⟩, fun x hx => ?_⟩
    · show (prune N a').assigned ++ (prune N b').assigned = _
      rw [p1, q1]; rfl
    · rcases List.mem_append.1 hx with hx | hx
      · exact List.mem_append_left _ (p3 x hx)
      · exact List.mem_append_right _ (q3 x hx)
  | scope a ih =>
    intro t' s s' h
    obtain ⟨⟨a', s1⟩, h1, h⟩ := Option.map_eq_some_iff.1 h
    cases h
    obtain ⟨p1, p2, _⟩ := ih h1
    exact ⟨p1, p2, fun _ h => h⟩
  | decl id k x e =>
    intro t' s s' h
    obtain ⟨⟨e', s1⟩, h1, h⟩ := Option.map_eq_some_iff.1 h
    cases h
    simp only [prune]
    split
    · exact ⟨rfl, fun _ => trivial, fun _ h => h⟩
    · exact ⟨rfl, fun _ => trivial, fun _ h => by cases h⟩
  | assign k x e =>
    intro t' s s' h
    obtain ⟨⟨e', s1⟩, h1, h⟩ := Option.map_eq_some_iff.1 h
    cases h
    exact ⟨rfl, fun _ => trivial, fun _ h => h⟩
  | store k arr loc e =>
    intro t' s s' h
    obtain ⟨⟨l', s1⟩, h1, h⟩ := bind_some_iff h
    obtain ⟨⟨e', s2⟩, h2, h⟩ := Option.map_eq_some_iff.1 h
    cases h
    exact ⟨rfl, fun h => h, fun _ h => h⟩
  | ite c a b iha ihb =>
    intro t' s s' h
    obtain ⟨⟨c', s1⟩, h1, h⟩ := bind_some_iff h
    obtain ⟨⟨a', s2⟩, h2, h⟩ := bind_some_iff h
    obtain ⟨⟨b', s3⟩, h3, h⟩ := Option.map_eq_some_iff.1 h
    cases h
    refine ⟨?_, fun h => h, fun _ h => h⟩
    show (prune N a').assigned ++ (prune N b').assigned = _
    rw [(iha h2).1, (ihb h3).1]; rfl
  | loop k x st e i b ih =>
    intro t' s s' h
    obtain ⟨⟨e1, s1⟩, h1, h⟩ := bind_some_iff h
    obtain ⟨⟨e2, s2⟩, h2, h⟩ := bind_some_iff h
    obtain ⟨⟨e3, s3⟩, h3, h⟩ := bind_some_iff h
    obtain ⟨⟨b', s4⟩, h4, h⟩ := Option.map_eq_some_iff.1 h
    cases h
    exact ⟨(ih h4).1, fun h => h, fun _ h => h⟩
  | «while» c b ih =>
    intro t' s s' h
    obtain ⟨⟨e1, s1⟩, h1, h⟩ := bind_some_iff h
    obtain ⟨⟨b', s4⟩, h4, h⟩ := Option.map_eq_some_iff.1 h
    cases h
    exact ⟨(ih h4).1, fun h => h, fun _ h => h⟩

/-- A declared variable whose declaration is kept is still declared. -/
theorem prune_declares (t : Stmt F) : ∀ {t' : Stmt F} {s s' : CP} {V : List Nat}, cp A L t s = some (t', s') → WS V t → DeclOK V s →
    ∀ x ∈ t.declares, Kept s' N x → x ∈ (prune N t').declares := by
  induction t with
  | seq a b iha ihb =>
    intro t' s s' V h hw hD x hx hk
    obtain ⟨⟨a', s1⟩, h1, h⟩ := bind_some_iff h
    obtain ⟨⟨b', s2⟩, h2, h⟩ := Option.map_eq_some_iff.1 h
    cases h
    have d1 := cp_decls a h1 hD.ne
    have d2 := cp_decls b h2 d1.ne
    show x ∈ (prune N a').declares ++ (prune N b').declares
    by_cases hxb : x ∈ b.declares
    · exact List.mem_append_right _ (ihb h2 hw.2 (hD.step d1) x hxb hk)
    · have hxa := (List.mem_append.1 hx).resolve_right hxb
      refine List.mem_append_left _ (iha h1 hw.1 hD x hxa fun id hid => hk id ?_)
      rw [d2.get hxb]; exact hid
  | decl id k x e =>
    intro t' s s' V h hw hD y hy hk
    obtain ⟨⟨e', s1⟩, h1, h⟩ := Option.map_eq_some_iff.1 h
    cases h
    simp only [Stmt.declares, List.mem_singleton] at hy
    subst hy
    have hin : id ∈ N := by
      refine hk id ?_
      obtain ⟨g1, _⟩ := rewrite_decls h1
      show get (s1.declare L id k y e').decls y = some id
      rw [(declare_same s1 L id k y e').1, g1]
      obtain ⟨m, ms, hm⟩ := List.exists_cons_of_ne_nil hD.ne
      have hn : get s.decls y = none := by
        cases hg : get s.decls y with
        | none => rfl
        | some i => exact absurd (hD.vis y i hg) hw.1
      rw [hm] at hn ⊢
      simp only [Scoped.get] at hn
      cases hmy : m y with
      | some i => rw [hmy] at hn; cases hn
      | none => simp only [insertTop, Scoped.get, Scoped.insertScope, hmy, if_true]
    simp only [prune, if_pos hin]
    exact List.mem_cons_self
  | _ => intro t' s s' V h hw hD x hx; cases hx

/-- Well-scopedness, typing and the conditions on loops are kept. -/
theorem cp_keeps {lv : Nat → Nat} (hA : FltLaws A) (t : Stmt F) : ∀ {t' : Stmt F} {s s' : CP} {V V' : List Nat} {C : List (Nat × Nat)} {lvl : Nat}
    (r : (Nat → Option Nat) × List Nat), cp A L t s = some (t', s') → WS V t → WTS vk ak t → NoStale C t → LoopsOK vk C t →
    Static vk L V C lvl r.1 s → Levels lv lvl t → (∀ x l, r.1 x = some l → l = lv x) → DeclOK V s → (∀ id ∈ s'.nec, id ∈ N) →
    (∀ x ∈ V, Kept s N x → x ∈ V') → (∀ x ∈ V', x ∈ V) →
    WS V' (prune N t') ∧ WTS vk ak (prune N t') ∧ Flat vk (prune N t') := by
  induction t with
  | skip => intro t' s s' V V' C lvl r h hw ht hns hlo hs hl hd hD hN hV hV'; cases h; exact ⟨trivial, trivial, trivial⟩
  | seq a b iha ihb =>
    intro t' s s' V V' C lvl r h hw ht hns hlo hs hl hd hD hN hV hV'
    obtain ⟨⟨a', s1⟩, h1, h⟩ := bind_some_iff h
    obtain ⟨⟨b', s2⟩, h2, h⟩ := Option.map_eq_some_iff.1 h
    cases h
    obtain ⟨i1, i2⟩ := cp_static hA a r h1 hw.1 ht.1 hs hl.1 hd
    have d1 := cp_decls a h1 hD.ne
    have d2 := cp_decls b h2 d1.ne
    obtain ⟨p1, p2, p3⟩ := iha r h1 hw.1 ht.1 hns.1 hlo.1 hs hl.1 hd hD (fun id hid => hN id (d2.nec id hid)) hV hV'
    obtain ⟨q1, q2, q3⟩ := ihb (V' := (prune N a').declares ++ V') (ana lvl a r) h2 hw.2 ht.2 hns.2 hlo.2 i1 hl.2
      (ana_levels lvl a r hl.1 hd) (hD.step d1) hN
      (fun x hx hk => by
        rcases List.mem_append.1 hx with h | h
        · exact List.mem_append_left _ (prune_declares a h1 hw.1 hD x h hk)
        · refine List.mem_append_right _ (hV x h fun id hid => hk id ?_)
          rw [d1.get fun hh => hw.1.fresh x h (declares_decls a x hh)]; exact hid)
      (fun x hx => by
        rcases List.mem_append.1 hx with h | h
        · exact List.mem_append_left _ ((cp_assigned (N := N) a h1).2.2 x h)
        · exact List.mem_append_right _ (hV' x h))
    exact ⟨⟨p1, q1⟩, ⟨p2, q2⟩, ⟨p3, q3⟩⟩
  | scope a ih =>
    intro t' s s' V V' C lvl r h hw ht hns hlo hs hl hd hD hN hV hV'
    obtain ⟨⟨a', s1⟩, h1, h⟩ := Option.map_eq_some_iff.1 h
    cases h
    have := ih r h1 hw ht hns hlo hs.push hl hd hD.push hN hV hV'
    exact this
  | decl id k x e =>
    intro t' s s' V V' C lvl r h hw ht hns hlo hs hl hd hD hN hV hV'
    obtain ⟨⟨e', s1⟩, h1, h⟩ := Option.map_eq_some_iff.1 h
    cases h
    have hreads := rewrite_reads (N := N) hs h1 hw.2 (fun i hi => hN i (by
      show i ∈ (s1.declare L id k x e').nec
      rw [(declare_same s1 L id k x e').2]; exact hi))
    simp only [prune]
    split
    · exact ⟨⟨fun h => hw.1 (hV' x h), fun y hy => hV y (hreads y hy).1 (hreads y hy).2⟩, ⟨ht.1, rewrite_wt hA hs h1 ht.2⟩, trivial⟩
    · exact ⟨trivial, trivial, trivial⟩
  | assign k x e =>
    intro t' s s' V V' C lvl r h hw ht hns hlo hs hl hd hD hN hV hV'
    obtain ⟨⟨e', s1⟩, h1, h⟩ := Option.map_eq_some_iff.1 h
    cases h
    obtain ⟨g1, _⟩ := rewrite_decls h1
    obtain ⟨_, d2⟩ := kill_same (s1.use [x]) k x
    have hN' : ∀ i ∈ (s1.use [x]).nec, i ∈ N := fun i hi => hN i (by
      show i ∈ ((s1.use [x]).kill k x).nec
      rw [d2]; exact hi)
    have hreads := rewrite_reads (N := N) hs h1 hw.2 (fun i hi => hN' i (List.mem_append_right _ hi))
    refine ⟨⟨hV x hw.1 fun id hid => hN' id ?_, fun y hy => hV y (hreads y hy).1 (hreads y hy).2⟩, ⟨ht.1, rewrite_wt hA hs h1 ht.2⟩, trivial⟩
    exact List.mem_append_left _ (List.mem_filterMap.2 ⟨x, List.mem_cons_self, by
      show get s1.decls x = some id
      rw [g1]; exact hid⟩)
  | store k arr loc e =>
    intro t' s s' V V' C lvl r h hw ht hns hlo hs hl hd hD hN hV hV'
    obtain ⟨⟨l', s1⟩, h1, h⟩ := bind_some_iff h
    obtain ⟨⟨e', s2⟩, h2, h⟩ := Option.map_eq_some_iff.1 h
    cases h
    obtain ⟨g1, _⟩ := rewrite_decls h1
    obtain ⟨_, k2⟩ := rewrite_decls h2
    have hr1 := rewrite_reads (N := N) hs h1 hw.1 (fun i hi => hN i (k2 i hi))
    have hr2 := rewrite_reads (N := N) (hs.rewrite h1) h2 hw.2 hN
    obtain ⟨t1, ⟨kl, t2, t3⟩, t4⟩ := ht
    refine ⟨⟨fun y hy => hV y (hr1 y hy).1 (hr1 y hy).2, fun y hy => hV y (hr2 y hy).1 fun id hid => (hr2 y hy).2 id (by rw [g1]; exact hid)⟩,
      ⟨t1, ⟨kl, t2, rewrite_wt hA hs h1 t3⟩, rewrite_wt hA (hs.rewrite h1) h2 t4⟩, trivial⟩
  | ite c a b iha ihb =>
    intro t' s s' V V' C lvl r h hw ht hns hlo hs hl hd hD hN hV hV'
    obtain ⟨⟨c', s1⟩, h1, h⟩ := bind_some_iff h
    obtain ⟨⟨a', s2⟩, h2, h⟩ := bind_some_iff h
    obtain ⟨⟨b', s3⟩, h3, h⟩ := Option.map_eq_some_iff.1 h
    cases h
    obtain ⟨g1, k1⟩ := rewrite_decls h1
    have hs1 := hs.rewrite h1
    have hD1 : DeclOK V s1 := hD.congr g1
    have d2 := cp_decls a h2 hD1.push.ne
    obtain ⟨i1, i2⟩ := cp_static hA a r h2 hw.2.1 ht.2.1 hs1.push hl.1 hd
    have hp := Step.pop hs1 i1 i2 (fun x hx hd => hw.2.1.fresh x hx (declares_decls a x hd))
    have hs2 := (hs1.mono (fun _ h => h) (fun _ h => h) (Nat.le_refl _) (ana_mono lvl a r).1).sub hp.1 hp.2.1
    have hD2 : DeclOK V s2.pop := hD1.congr d2.pop.1
    have d3 := cp_decls b h3 hD2.push.ne
    have hN2 : ∀ id ∈ s2.nec, id ∈ N := fun id hid => hN id (d3.pop.2 id hid)
    have hr1 := rewrite_reads (N := N) hs h1 hw.1 (fun i hi => hN2 i (d2.pop.2 i hi))
    obtain ⟨p1, p2, p3⟩ := iha (V' := V') r h2 hw.2.1 ht.2.1 hns.1 hlo.1 hs1.push hl.1 hd hD1.push hN2
      (fun x hx hk => hV x hx fun id hid => hk id (by
        show get s1.decls x = _
        rw [g1]; exact hid)) hV'
    obtain ⟨q1, q2, q3⟩ := ihb (V' := V') (ana lvl a r) h3 hw.2.2 ht.2.2 hns.2 hlo.2 hs2.push hl.2 (ana_levels lvl a r hl.1 hd) hD2.push hN
      (fun x hx hk => hV x hx fun id hid => hk id (by
        show get s2.pop.decls x = _
        rw [d2.pop.1, g1]; exact hid)) hV'
    exact ⟨⟨fun y hy => hV y (hr1 y hy).1 (hr1 y hy).2, p1, q1⟩, ⟨rewrite_wt hA hs h1 ht.1, p2, q2⟩, ⟨p3, q3⟩⟩
  | «while» c b ih =>
    intro t' s s' V V' C lvl r h hw ht hns hlo hs hl hd hD hN hV hV'
    obtain ⟨⟨c', s1⟩, h1, h⟩ := bind_some_iff h
    obtain ⟨⟨b', s4⟩, h4, h⟩ := Option.map_eq_some_iff.1 h
    cases h
    obtain ⟨g1, k1⟩ := rewrite_decls h1
    have hs1 := hs.rewrite h1
    have hD1 : DeclOK V s1 := hD.congr g1
    have d2 := cp_decls b h4 hD1.push.ne
    have hs1' := hs1.mono (fun _ h => h) (fun _ h => h) (Nat.le_succ lvl) (fun _ _ h => h)
    have hr1 := rewrite_reads (N := N) hs h1 hw.1 (fun i hi => hN i (d2.pop.2 i hi))
    obtain ⟨p1, p2, p3⟩ := ih (V' := V') r h4 hw.2 ht.2 hns.2 hlo.2 hs1'.push hl hd hD1.push hN
      (fun x hx hk => hV x hx fun id hid => hk id (by
        show get s1.decls x = _
        rw [g1]; exact hid)) hV'
    obtain ⟨a1, a2, _⟩ := cp_assigned (N := N) b h4
    refine ⟨⟨fun y hy => hV y (hr1 y hy).1 (hr1 y hy).2, p1⟩, ⟨rewrite_wt hA hs h1 ht.1, p2⟩, fun hst => ?_, p3⟩
    rw [a1]
    exact hlo.1 (a2 hst)
  | loop k x st e i b ih =>
    intro t' s s' V V' C lvl r h hw ht hns hlo hs hl hd hD hN hV hV'
    obtain ⟨⟨e1, s1⟩, h1, h⟩ := bind_some_iff h
    obtain ⟨⟨e2, s2⟩, h2, h⟩ := bind_some_iff h
    obtain ⟨⟨e3, s3⟩, h3, h⟩ := bind_some_iff h
    obtain ⟨⟨b', s4⟩, h4, h⟩ := Option.map_eq_some_iff.1 h
    cases h
    obtain ⟨hk, hki, ht1, ht2, ht3, ht4⟩ := ht
    obtain ⟨g1, k1⟩ := rewrite_decls h1
    obtain ⟨g2, k2⟩ := rewrite_decls h2
    obtain ⟨g3, k3⟩ := rewrite_decls h3
    have hs1 := hs.rewrite h1
    have hs2 := hs1.rewrite h2
    have hs3 := hs2.rewrite h3
    have hdd : s3.decls = s.decls := g3.trans (g2.trans g1)
    have hD3 : DeclOK V s3 := hD.congr hdd
    have d4 := cp_decls b h4 hD3.push.ne
    have hN3 : ∀ id ∈ s3.nec, id ∈ N := fun id hid => hN id (d4.pop.2 id hid)
    have hs3' := hs3.mono (V' := x :: V) (fun _ h => List.mem_cons_of_mem _ h) (fun _ h => h) (Nat.le_succ lvl) (fun _ _ h => h)
    have hr1 := rewrite_reads (N := N) hs h1 (fun z hz => hw.2.1 z (List.mem_append_left _ hz)) (fun i hi => hN3 i (k3 i (k2 i hi)))
    have hr2 := rewrite_reads (N := N) hs1 h2
      (fun z hz => hw.2.1 z (List.mem_append_right _ (List.mem_append_left _ hz))) (fun i hi => hN3 i (k3 i hi))
    have hr3 := rewrite_reads (N := N) hs2 h3
      (fun z hz => hw.2.1 z (List.mem_append_right _ (List.mem_append_right _ hz))) hN3
    obtain ⟨p1, p2, p3⟩ := ih (V' := x :: V') (r.1, x :: r.2) h4 hw.2.2 ht4 hns.2 hlo.2 hs3'.push hl hd
      (hD3.push.mono fun _ h => List.mem_cons_of_mem _ h) hN
      (fun y hy hk => by
        rcases List.mem_cons.1 hy with rfl | hy
        · exact List.mem_cons_self
        · exact List.mem_cons_of_mem _ (hV y hy fun id hid => hk id (by
            show get s3.decls y = _
            rw [hdd]; exact hid)))
      (fun y hy => by
        rcases List.mem_cons.1 hy with rfl | hy
        · exact List.mem_cons_self
        · exact List.mem_cons_of_mem _ (hV' y hy))
    obtain ⟨a1, a2, _⟩ := cp_assigned (N := N) b h4
    refine ⟨⟨fun h => hw.1 (hV' x h), fun y hy => ?_, p1⟩,
      ⟨hk, hki, rewrite_wt hA hs h1 ht1, rewrite_wt hA hs1 h2 ht2, rewrite_wt hA hs2 h3 ht3, p2⟩, fun hst => ?_, p3⟩
    · rcases List.mem_append.1 hy with h | h
      · exact hV y (hr1 y h).1 (hr1 y h).2
      · rcases List.mem_append.1 h with h | h
        · exact hV y (hr2 y h).1 fun id hid => (hr2 y h).2 id (by rw [g1]; exact hid)
        · exact hV y (hr3 y h).1 fun id hid => (hr3 y h).2 id (by rw [g2, g1]; exact hid)
    · obtain ⟨l1, l2, l3⟩ := hlo.1 (a2 hst)
      rw [a1]
      subst l1
      refine ⟨rewrite_lit h3, l2, fun y hy => ?_⟩
      obtain ⟨m1, m2, m3, m4, m5⟩ := l3 y hy
      refine ⟨m1, m2, fun h => ?_, fun h => ?_⟩
      · rcases rewrite_from hs h1 y h with h | ⟨v, hv, hc⟩
        · exact m3 h
        · exact m5 _ hc rfl hv
      · rcases rewrite_from hs1 h2 y h with h | ⟨v, hv, hc⟩
        · exact m4 h
        · exact hns.1 _ hc (List.mem_append_left _ hv) hy

end

end Verif.IR
