import Verif.Cuda.Model
import Verif.Cuda.Conditions
/- Printing a statement without loops for warps, threads or reductions keeps its effects. -/
namespace Verif.Cuda

variable {Ev : Type}

theorem upd_same (s : Env) (x : Var) (v : Int) : upd s x v x = v := if_pos rfl

theorem upd_other {s : Env} {x y : Var} {v : Int} (h : y ≠ x) : upd s x v y = s y := if_neg h

def agree (D : List Var) (s s' : Env) : Prop := ∀ x ∈ D, s x = s' x

theorem agree.map {D rs : List Var} {s s' : Env} (h : agree D s s') (hr : rs ⊆ D) :
    rs.map s = rs.map s' := List.map_congr_left fun x hx => h x (hr hx)

theorem agree.eval {D : List Var} {s s' : Env} (h : agree D s s') {e : Expr} (hr : e.reads ⊆ D) :
    e.eval s = e.eval s' := congrArg e.fn (h.map hr)

theorem agree.upd {D : List Var} {s s' : Env} (h : agree D s s') (x : Var) (v : Int) :
    agree (x :: D) (upd s x v) (upd s' x v) := by
  intro y hy
  by_cases e : y = x
  · subst e; rw [upd_same, upd_same]
  · rw [upd_other e, upd_other e]
    rcases List.mem_cons.1 hy with h' | h'
    · exact absurd h' e
    · exact h y h'

theorem agree.mono {D D' : List Var} {s s' : Env} (h : agree D s s') (hs : D' ⊆ D) : agree D' s s' :=
  fun x hx => h x (hs hx)

theorem agree.trans {D : List Var} {a b c : Env} (h : agree D a b) (h' : agree D b c) : agree D a c :=
  fun x hx => (h x hx).trans (h' x hx)

theorem agree.symm {D : List Var} {a b : Env} (h : agree D a b) : agree D b a := fun x hx => (h x hx).symm

/- What a statement does not assign stays. -/

theorem iterate_frame {f : Env → Out Ev} {x : Var} {P : Var → Prop}
    (hf : ∀ (s : Env) (y : Var), P y → (f s).env y = s y) :
    ∀ (vs : List Int) (s : Env) (y : Var), P y → y ≠ x → (iterate f x vs s).env y = s y := by
  intro vs
  induction vs with
  | nil => intro s y _ _; rfl
  | cons v vs ih =>
    intro s y hy hx
    have h1 : (f (upd s x v)).env y = s y := (hf _ y hy).trans (upd_other hx)
    simp only [iterate]
    split
    · exact (ih _ y hy hx).trans h1
    · exact (ih _ y hy hx).trans h1
    · exact h1
    · exact h1

theorem forLoop_frame {f : Env → Out Ev} {x : Var} {P : Var → Prop}
    (hf : ∀ (s : Env) (y : Var), P y → (f s).env y = s y) (vs : List Int) (s : Env) (y : Var)
    (hy : P y) : (forLoop f x vs s).env y = s y := by
  show upd _ x (s x) y = s y
  by_cases e : y = x
  · subst e; exact upd_same ..
  · exact (upd_other e).trans (iterate_frame hf vs s y hy e)

theorem whileLoop_frame {c : Env → Bool} {f : Env → Out Ev} {P : Var → Prop}
    (hf : ∀ (s : Env) (y : Var), P y → (f s).env y = s y) :
    ∀ (n : Nat) (s : Env) (y : Var), P y → (whileLoop c f n s).env y = s y := by
  intro n
  induction n with
  | zero => intro s y _; rfl
  | succ n ih =>
    intro s y hy
    simp only [whileLoop]
    split
    · split
      · exact (ih _ y hy).trans (hf s y hy)
      · exact (ih _ y hy).trans (hf s y hy)
      · exact hf s y hy
      · exact hf s y hy
    · rfl

theorem run_frame {n : Nat} : ∀ (b : Stmt Ev) (s : Env) (y : Var), y ∉ assigned b →
    (run n b s).env y = s y := by
  intro b
  induction b with
  | skip | cont | brk | ret | emit => intro s y _; rfl
  | set x e => intro s y hy; exact upd_other (fun h => hy (by simp [assigned, h]))
  | seq a b iha ihb =>
    intro s y hy
    have ha : y ∉ assigned a := fun h => hy (List.mem_append_left _ h)
    have hb : y ∉ assigned b := fun h => hy (List.mem_append_right _ h)
    simp only [run, andThen]
    split
    · exact (ihb _ y hb).trans (iha _ y ha)
    · exact iha _ y ha
  | ite c a b iha ihb =>
    intro s y hy
    have ha : y ∉ assigned a := fun h => hy (List.mem_append_left _ h)
    have hb : y ∉ assigned b := fun h => hy (List.mem_append_right _ h)
    simp only [run]
    split
    · exact iha _ y ha
    · exact ihb _ y hb
  | wloop c b ih => intro s y hy; exact whileLoop_frame (P := fun y => y ∉ assigned b) ih n s y hy
  | loop x lo hi step b ih => intro s y hy; exact forLoop_frame (P := fun y => y ∉ assigned b) ih _ s y hy
  | par u x lo hi step b ih => intro s y hy; exact forLoop_frame (P := fun y => y ∉ assigned b) ih _ s y hy
  | red x lo hi step b ih => intro s y hy; exact forLoop_frame (P := fun y => y ∉ assigned b) ih _ s y hy

/- How statements end. -/

theorem iterate_ctl {f : Env → Out Ev} {x : Var} : ∀ (vs : List Int) (s : Env),
    (iterate f x vs s).ctl = .next ∨ (iterate f x vs s).ctl = .ret := by
  intro vs
  induction vs with
  | nil => intro s; exact Or.inl rfl
  | cons v vs ih =>
    intro s
    simp only [iterate]
    split
    · exact ih _
    · exact ih _
    · exact Or.inl rfl
    · rename_i h; exact Or.inr h

theorem iterate_next {f : Env → Out Ev} {x : Var} (hf : ∀ s, (f s).ctl ≠ .ret) (vs : List Int)
    (s : Env) : (iterate f x vs s).ctl = .next := by
  induction vs generalizing s with
  | nil => rfl
  | cons v vs ih =>
    simp only [iterate]
    split
    · exact ih _
    · exact ih _
    · rfl
    · rename_i h; exact absurd h (hf _)

theorem whileLoop_ctl {c : Env → Bool} {f : Env → Out Ev} : ∀ (n : Nat) (s : Env),
    (whileLoop c f n s).ctl = .next ∨ (whileLoop c f n s).ctl = .ret := by
  intro n
  induction n with
  | zero => intro s; exact Or.inl rfl
  | succ n ih =>
    intro s
    simp only [whileLoop]
    split
    · split
      · exact ih _
      · exact ih _
      · exact Or.inl rfl
      · rename_i h; exact Or.inr h
    · exact Or.inl rfl

theorem whileLoop_next {c : Env → Bool} {f : Env → Out Ev} (hf : ∀ s, (f s).ctl ≠ .ret) (n : Nat)
    (s : Env) : (whileLoop c f n s).ctl = .next := by
  induction n generalizing s with
  | zero => rfl
  | succ n ih =>
    simp only [whileLoop]
    split
    · split
      · exact ih _
      · exact ih _
      · rfl
      · rename_i h; exact absurd h (hf _)
    · rfl

theorem ctl_ne_cont_of {c : Ctl} (h : c = .next ∨ c = .ret) : c ≠ .cont := by
  rcases h with h | h <;> rw [h] <;> exact fun h => nomatch h

theorem noCont_ctl {n : Nat} : ∀ (b : Stmt Ev) (s : Env), noCont b → (run n b s).ctl ≠ .cont := by
  intro b
  induction b with
  | skip | brk | ret | emit | set => intro s _ h; exact nomatch h
  | cont => intro s h; exact h.elim
  | seq a b iha ihb =>
    intro s h
    simp only [run, andThen]
    split
    · exact ihb _ h.2
    · exact iha _ h.1
  | ite c a b iha ihb =>
    intro s h
    simp only [run]
    split
    · exact iha _ h.1
    · exact ihb _ h.2
  | wloop c b ih => intro s _; exact ctl_ne_cont_of (whileLoop_ctl n s)
  | loop x lo hi step b ih => intro s _; exact ctl_ne_cont_of (iterate_ctl _ s)
  | par u x lo hi step b ih => intro s _; exact ctl_ne_cont_of (iterate_ctl _ s)
  | red x lo hi step b ih => intro s _; exact ctl_ne_cont_of (iterate_ctl _ s)

theorem plain_ctl {n : Nat} : ∀ (b : Stmt Ev) (l : Bool) (D : List Var) (s : Env), Plain n l D b →
    (run n b s).ctl ≠ .ret ∧ (l = false → (run n b s).ctl ≠ .brk) := by
  intro b
  induction b with
  | skip | emit | set => intro l D s _; exact ⟨(fun h => nomatch h), fun _ h => nomatch h⟩
  | cont => intro l D s _; exact ⟨(fun h => nomatch h), fun _ h => nomatch h⟩
  | brk => intro l D s h; exact ⟨(fun h => nomatch h), fun e => by rw [h] at e; exact nomatch e⟩
  | ret => intro l D s h; exact h.elim
  | seq a b iha ihb =>
    intro l D s h
    simp only [run, andThen]
    split
    · exact ihb l _ _ h.2
    · exact iha l _ _ h.1
  | ite c a b iha ihb =>
    intro l D s h
    simp only [run]
    split
    · exact iha l _ _ h.2.1
    · exact ihb l _ _ h.2.2
  | wloop c b ih =>
    intro l D s h
    have e : (run n (.wloop c b) s).ctl = .next := whileLoop_next (fun s => (ih true D s h.2.1).1) n s
    rw [e]; exact ⟨(fun h => nomatch h), fun _ h => nomatch h⟩
  | loop x lo hi step b ih =>
    intro l D s h
    have e : (run n (.loop x lo hi step b) s).ctl = .next :=
      iterate_next (fun s => (ih true _ s h.2.2.2.1).1) _ s
    rw [e]; exact ⟨(fun h => nomatch h), fun _ h => nomatch h⟩
  | par => intro l D s h; exact h.elim
  | red => intro l D s h; exact h.elim

theorem silent_evs {n : Nat} : ∀ (b : Stmt Ev) (s : Env), silent b → (run n b s).evs = [] := by
  have hit : ∀ (f : Env → Out Ev) (x : Var), (∀ s, (f s).evs = []) →
      ∀ (vs : List Int) (s : Env), (iterate f x vs s).evs = [] := by
    intro f x hf vs
    induction vs with
    | nil => intro s; rfl
    | cons v vs ih =>
      intro s
      simp only [iterate]
      split
      · simp [Out.after, hf, ih]
      · simp [Out.after, hf, ih]
      · exact hf _
      · exact hf _
  intro b
  induction b with
  | skip | cont | brk | ret | set => intro s _; rfl
  | emit => intro s h; exact h.elim
  | seq a b iha ihb =>
    intro s h
    simp only [run, andThen]
    split
    · simp [Out.after, iha _ h.1, ihb _ h.2]
    · exact iha _ h.1
  | ite c a b iha ihb =>
    intro s h
    simp only [run]
    split
    · exact iha _ h.1
    · exact ihb _ h.2
  | wloop c b ih =>
    intro s h
    show (whileLoop _ _ n s).evs = []
    generalize n = m at *
    have : ∀ (k : Nat) (s : Env), (whileLoop (fun s => decide (c.eval s ≠ 0)) (run m b) k s).evs = [] := by
      intro k
      induction k with
      | zero => intro s; rfl
      | succ k ihk =>
        intro s
        simp only [whileLoop]
        split
        · split
          · simp only [Out.after, ih _ h, List.nil_append]; exact ihk _
          · simp only [Out.after, ih _ h, List.nil_append]; exact ihk _
          · exact ih _ h
          · exact ih _ h
        · rfl
    exact this m s
  | loop x lo hi step b ih => intro s h; exact hit _ x (fun s => ih s h) _ s
  | par u x lo hi step b ih => intro s h; exact hit _ x (fun s => ih s h) _ s
  | red x lo hi step b ih => intro s h; exact hit _ x (fun s => ih s h) _ s

theorem andThen_next {o : Out Ev} {f : Env → Out Ev} (h : o.ctl = .next) :
    andThen o f = (f o.env).after o.evs := by unfold andThen; rw [h]

theorem andThen_stop {o : Out Ev} {f : Env → Out Ev} (h : o.ctl ≠ .next) : andThen o f = o := by
  unfold andThen
  split
  · rename_i h'; exact absurd h' h
  · rfl

/- Loops over increasing values. -/

theorem upTo_lt {step hi : Int} (hs : 0 < step) : ∀ (n : Nat) (v : Int),
    (∀ u ∈ upTo step hi n v, v ≤ u) ∧ (upTo step hi n v).Pairwise (· < ·) := by
  intro n
  induction n with
  | zero => intro v; exact ⟨fun u h => (List.not_mem_nil h).elim, List.Pairwise.nil⟩
  | succ n ih =>
    intro v
    simp only [upTo]
    split
    · refine ⟨fun u hu => ?_, List.pairwise_cons.2 ⟨fun u hu => ?_, (ih _).2⟩⟩
      · rcases List.mem_cons.1 hu with h | h
        · omega
        · have := (ih (v + step)).1 u h; omega
      · have := (ih (v + step)).1 u hu; omega
    · exact ⟨fun u h => (List.not_mem_nil h).elim, List.Pairwise.nil⟩

theorem iters_pairwise (lo hi step : Int) : (iters lo hi step).Pairwise (· < ·) := by
  unfold iters
  split
  · rename_i h; exact (upTo_lt h _ _).2
  · exact List.Pairwise.nil

/-- Once skipped, the rest of the loop is silent. -/
theorem sticky_rest {n : Nat} {D : List Var} {x : Var} {b : Stmt Ev} (hk : Sticky n D x b) :
    ∀ (vs : List Int) (s : Env) (v : Int), (run n b (upd s x v)).ctl = .cont →
      (v :: vs).Pairwise (· < ·) →
      let s' := (run n b (upd s x v)).env
      (iterate (run n b) x vs s').evs = [] ∧ (iterate (run n b) x vs s').ctl = .next ∧
        ∀ y ∈ D, y ≠ x → (iterate (run n b) x vs s').env y = s' y := by
  intro vs
  induction vs with
  | nil => intro s v _ _; exact ⟨rfl, rfl, fun _ _ _ => rfl⟩
  | cons v' vs ih =>
    intro s v hc hp
    have hlt : v < v' := (List.pairwise_cons.1 hp).1 v' List.mem_cons_self
    obtain ⟨c1, e1, m1⟩ := hk s v v' hlt hc
    obtain ⟨e2, c2, m2⟩ := ih _ v' c1 (List.pairwise_cons.1 hp).2
    dsimp only
    refine ⟨?_, ?_, fun y hy hx => ?_⟩
    · simp only [iterate, c1, Out.after, e1, e2, List.append_nil]
    · simp only [iterate, c1, Out.after, c2]
    · simp only [iterate, c1, Out.after]
      exact (m2 y hy hx).trans (m1 y hy hx)

def trCtl (dev : Bool) (d : Nat) : Ctl → Ctl
  | .cont => if dev = true ∧ d = 0 then .ret else .brk
  | c => c

theorem trCtl_loop {dev : Bool} {d : Nat} : trCtl dev (d + 1) .cont = .brk := by
  simp [trCtl]

/-- What two runs have in common. -/
structure Same (dev : Bool) (d : Nat) (D D' : List Var) (o o' : Out Ev) : Prop where
  evs : o.evs = o'.evs
  env : agree D o.env o'.env
  more : o.ctl = .next → agree D' o.env o'.env
  ctl : o'.ctl = trCtl dev d o.ctl

theorem iterate_same {n : Nat} {dev : Bool} {d : Nat} {D : List Var} {x : Var} {b b' : Stmt Ev}
    (hsim : ∀ s s', agree (x :: D) s s' →
      Same dev (d + 1) (x :: D) (x :: D) (run n b s) (run n b' s'))
    (hr : ∀ s, (run n b s).ctl ≠ .ret)
    (hc : (∀ s, (run n b s).ctl ≠ .cont) ∨ Sticky n D x b) :
    ∀ (vs : List Int) (s s' : Env), vs.Pairwise (· < ·) →
      (∀ y ∈ D, y ≠ x → s y = s' y) →
      let o := iterate (run n b) x vs s
      let o' := iterate (run n b') x vs s'
      o.evs = o'.evs ∧ (∀ y ∈ D, y ≠ x → o.env y = o'.env y) ∧ o'.ctl = .next := by
  intro vs
  induction vs with
  | nil => intro s s' _ h; exact ⟨rfl, h, rfl⟩
  | cons v vs ih =>
    intro s s' hp h
    have ha : agree (x :: D) (upd s x v) (upd s' x v) := by
      intro y hy
      by_cases e : y = x
      · subst e; rw [upd_same, upd_same]
      · rw [upd_other e, upd_other e]
        rcases List.mem_cons.1 hy with h' | h'
        · exact absurd h' e
        · exact h y h' e
    have hs := hsim _ _ ha
    have henv : ∀ y ∈ D, y ≠ x → (run n b (upd s x v)).env y = (run n b' (upd s' x v)).env y :=
      fun y hy _ => hs.env y (List.mem_cons_of_mem _ hy)
    have hctl := hs.ctl
    dsimp only
    cases e : (run n b (upd s x v)).ctl with
    | next =>
      rw [e] at hctl
      have hctl' : (run n b' (upd s' x v)).ctl = .next := hctl
      obtain ⟨h1, h2, h3⟩ := ih _ _ (List.pairwise_cons.1 hp).2 henv
      refine ⟨?_, ?_, ?_⟩
      · simp only [iterate, e, hctl', Out.after, hs.evs]; rw [h1]
      · simp only [iterate, e, hctl', Out.after]; exact h2
      · simp only [iterate, hctl', Out.after]; exact h3
    | cont =>
      rw [e, trCtl_loop] at hctl
      rcases hc with hc | hc
      · exact absurd e (hc _)
      · obtain ⟨e2, c2, m2⟩ := sticky_rest hc vs s v e hp
        refine ⟨?_, ?_, ?_⟩
        · simp only [iterate, e, hctl, Out.after, e2, List.append_nil]; exact hs.evs
        · simp only [iterate, e, hctl, Out.after]
          exact fun y hy hx => (m2 y hy hx).trans (henv y hy hx)
        · simp only [iterate, hctl]
    | brk =>
      rw [e] at hctl
      have hctl' : (run n b' (upd s' x v)).ctl = .brk := hctl
      refine ⟨?_, ?_, ?_⟩
      · simp only [iterate, e, hctl']; exact hs.evs
      · simp only [iterate, e, hctl']; exact henv
      · simp only [iterate, hctl']
    | ret => exact absurd e (hr _)

theorem whileLoop_same {n : Nat} {dev : Bool} {d : Nat} {D : List Var} {c : Expr} {b b' : Stmt Ev}
    (hcr : c.reads ⊆ D)
    (hsim : ∀ s s', agree D s s' → Same dev d D D (run n b s) (run n b' s'))
    (hr : ∀ s, (run n b s).ctl ≠ .ret) (hc : ∀ s, (run n b s).ctl ≠ .cont) :
    ∀ (m : Nat) (s s' : Env), agree D s s' →
      let o := whileLoop (fun s => decide (c.eval s ≠ 0)) (run n b) m s
      let o' := whileLoop (fun s => decide (c.eval s ≠ 0)) (run n b') m s'
      o.evs = o'.evs ∧ agree D o.env o'.env ∧ o'.ctl = .next := by
  intro m
  induction m with
  | zero => intro s s' h; exact ⟨rfl, h, rfl⟩
  | succ m ih =>
    intro s s' h
    have hs := hsim _ _ h
    have hctl := hs.ctl
    have hev : c.eval s = c.eval s' := h.eval hcr
    dsimp only
    simp only [whileLoop, ← hev]
    by_cases e0 : c.eval s ≠ 0
    · simp only [decide_eq_true e0, if_true]
      cases e : (run n b s).ctl with
      | next =>
        rw [e] at hctl
        have hctl' : (run n b' s').ctl = .next := hctl
        obtain ⟨h1, h2, h3⟩ := ih _ _ hs.env
        simp only [hctl', Out.after]
        refine ⟨?_, h2, h3⟩
        rw [hs.evs, h1]
      | cont => exact absurd e (hc _)
      | brk =>
        rw [e] at hctl
        have hctl' : (run n b' s').ctl = .brk := hctl
        simp only [hctl']
        exact ⟨hs.evs, hs.env, trivial⟩
      | ret => exact absurd e (hr _)
    · simp only [decide_eq_false e0]
      exact ⟨rfl, h, rfl⟩

theorem known_mono : ∀ (b : Stmt Ev) (D : List Var), D ⊆ known D b := by
  intro b
  induction b with
  | set x e => intro D; exact List.subset_cons_self _ _
  | seq a b iha ihb => intro D; exact List.Subset.trans (iha D) (ihb _)
  | _ => intro D; exact List.Subset.refl _

/-- Printing a plain statement keeps its effects. -/
theorem plain_same {n : Nat} {dev : Bool} : ∀ (b : Stmt Ev) (d : Nat) (l : Bool) (D : List Var),
    Plain n l D b → ∀ (s s' : Env), agree D s s' →
      Same dev d D (known D b) (run n b s) (run n (tr dev d b) s') := by
  intro b
  induction b with
  | skip => intro d l D _ s s' h; exact ⟨rfl, h, fun _ => h, rfl⟩
  | cont =>
    intro d l D _ s s' h
    simp only [tr]
    split
    · rename_i e; exact ⟨rfl, h, (fun e => nomatch e), (if_pos e).symm⟩
    · rename_i e; exact ⟨rfl, h, (fun e => nomatch e), (if_neg e).symm⟩
  | brk => intro d l D _ s s' h; exact ⟨rfl, h, (fun e => nomatch e), rfl⟩
  | ret => intro d l D h; exact h.elim
  | emit rs fn =>
    intro d l D hp s s' h
    exact ⟨congrArg (fun l => [fn l]) (h.map hp), h, fun _ => h, rfl⟩
  | set x e =>
    intro d l D hp s s' h
    have : agree (x :: D) (upd s x (e.eval s)) (upd s' x (e.eval s')) := by
      rw [← h.eval hp]; exact h.upd x _
    exact ⟨rfl, this.mono (List.subset_cons_self _ _), fun _ => this, rfl⟩
  | seq a b iha ihb =>
    intro d l D hp s s' h
    have ha := iha d l D hp.1 s s' h
    simp only [tr, run, andThen]
    have hctl := ha.ctl
    cases e : (run n a s).ctl with
    | next =>
      rw [e] at hctl
      have hctl' : (run n (tr dev d a) s').ctl = .next := hctl
      have hb := ihb d l _ hp.2 _ _ (ha.more e)
      simp only [hctl']
      refine ⟨?_, hb.env.mono (known_mono a D), fun hn => hb.more hn, hb.ctl⟩
      show _ ++ _ = _ ++ _
      rw [ha.evs, hb.evs]
    | cont =>
      rw [e] at hctl
      have hne : (run n (tr dev d a) s').ctl ≠ .next := by
        rw [hctl]; simp only [trCtl]; split <;> exact fun h => nomatch h
      have : andThen (run n (tr dev d a) s') (run n (tr dev d b)) = run n (tr dev d a) s' :=
        andThen_stop hne
      unfold andThen at this
      rw [this]
      exact ⟨ha.evs, ha.env, (fun hn => by simp [e] at hn), by rw [hctl]; simp [e]⟩
    | brk =>
      rw [e] at hctl
      have hctl' : (run n (tr dev d a) s').ctl = .brk := hctl
      simp only [hctl']
      exact ⟨ha.evs, ha.env, (fun hn => by simp [e] at hn), by rw [hctl']; simp [e, trCtl]⟩
    | ret => exact absurd e (plain_ctl a l D s hp.1).1
  | ite c a b iha ihb =>
    intro d l D hp s s' h
    simp only [tr, run, ← h.eval hp.1]
    split
    · have ha := iha d l D hp.2.1 s s' h
      exact ⟨ha.evs, ha.env, fun _ => ha.env, ha.ctl⟩
    · have ha := ihb d l D hp.2.2 s s' h
      exact ⟨ha.evs, ha.env, fun _ => ha.env, ha.ctl⟩
  | wloop c b ih =>
    intro d l D hp s s' h
    have hr : ∀ s, (run n b s).ctl ≠ .ret := fun s => (plain_ctl b true D s hp.2.1).1
    obtain ⟨h1, h2, h3⟩ := whileLoop_same (n := n) (dev := dev) (d := d) (b := b) (b' := tr dev d b) hp.1
      (fun s s' h => by
        have := ih d true D hp.2.1 s s' h
        exact ⟨this.evs, this.env, fun _ => this.env, this.ctl⟩)
      hr (fun s => noCont_ctl b s hp.2.2) n s s' h
    refine ⟨h1, h2, fun _ => h2, ?_⟩
    have e : (run n (.wloop c b) s).ctl = .next := whileLoop_next hr n s
    rw [e]; exact h3
  | loop x lo hi step b ih =>
    intro d l D hp s s' h
    obtain ⟨hlo, hhi, hst, hb, hk⟩ := hp
    have hr : ∀ s, (run n b s).ctl ≠ .ret := fun s => (plain_ctl b true _ s hb).1
    obtain ⟨h1, h2, h3⟩ := iterate_same (n := n) (dev := dev) (d := d) (D := D) (x := x) (b := b)
      (b' := tr dev (d + 1) b)
      (fun s s' h => by
        have := ih (d + 1) true _ hb s s' h
        exact ⟨this.evs, this.env, fun _ => this.env, this.ctl⟩)
      hr (hk.imp (fun hn s => noCont_ctl b s hn) id) (iters (lo.eval s) (hi.eval s) (step.eval s)) s s'
      (iters_pairwise _ _ _) (fun y hy _ => h y hy)
    have henv : agree D (run n (.loop x lo hi step b) s).env
        (run n (tr dev d (.loop x lo hi step b)) s').env := by
      intro y hy
      simp only [tr, run, forLoop, ← h.eval hlo, ← h.eval hhi, ← h.eval hst]
      by_cases e : y = x
      · subst e; rw [upd_same, upd_same]; exact h y hy
      · rw [upd_other e, upd_other e]; exact h2 y hy e
    refine ⟨?_, henv, fun _ => henv, ?_⟩
    · simp only [tr, run, forLoop, ← h.eval hlo, ← h.eval hhi, ← h.eval hst]; exact h1
    · have e : (run n (.loop x lo hi step b) s).ctl = .next := iterate_next hr _ s
      rw [e]
      simp only [tr, run, forLoop, ← h.eval hlo, ← h.eval hhi, ← h.eval hst]
      exact h3
  | par => intro d l D h; exact h.elim
  | red => intro d l D h; exact h.elim

end Verif.Cuda
