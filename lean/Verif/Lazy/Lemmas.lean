import Verif.Lazy.Spec
/-
The invariant of delayed evaluation and its preservation by syncing.
-/
namespace Verif.Lazy

theorem set_same (s : State) (t : Nat) (x : T) : set s t x t = x := by simp [set]

theorem set_ne (s : State) {t u : Nat} (x : T) (h : u ≠ t) : set s t x u = s u := by simp [set, h]

/-! ### The list of waiting tensors -/

theorem mem_dropLast_of_ne {l : List Nat} {t u : Nat} (hl : l.getLast? = some t) (hu : u ∈ l)
    (hne : u ≠ t) : u ∈ l.dropLast := by
  have hne' : l ≠ [] := by intro h; simp [h] at hl
  have h := List.dropLast_concat_getLast hne'
  have hlast : l.getLast hne' = t := by
    rw [List.getLast?_eq_some_getLast hne'] at hl
    exact Option.some.inj hl
  rw [← h, hlast] at hu
  rcases List.mem_append.mp hu with h1 | h1
  · exact h1
  · simp at h1; exact absurd h1 hne

theorem mem_removeDep {l : List Nat} {t u : Nat} (hu : u ∈ l) (hne : u ≠ t) :
    u ∈ removeDep l t := by
  unfold removeDep
  split
  · rename_i h; exact mem_dropLast_of_ne h hu hne
  · rename_i hlast
    split
    · exact hu
    · rename_i i hi
      have hl : l ≠ [] := List.ne_nil_of_mem hu
      obtain ⟨hlt, hit, _⟩ := List.findIdx?_eq_some_iff_getElem.mp hi
      have hit' : l[i] = t := by simpa using hit
      have hlen : 0 < l.length := List.length_pos_iff.mpr hl
      have hgl : l.getLastD 0 = l[l.length - 1] := by
        rw [List.getLastD_eq_getLast?, List.getLast?_eq_getElem?,
          List.getElem?_eq_getElem (by omega)]
        rfl
      have hil : i ≠ l.length - 1 := by
        intro h
        apply hlast
        rw [List.getLast?_eq_getElem?, List.getElem?_eq_getElem (by omega)]
        subst h
        rw [hit']
      obtain ⟨j, hj, hju⟩ := List.getElem_of_mem hu
      rw [hgl]
      by_cases hjl : j = l.length - 1
      · subst hjl
        refine List.mem_of_getElem (i := i) (h := ?_) ?_
        · simp; omega
        · rw [List.getElem_dropLast, List.getElem_set_self]; exact hju
      · have hji : j ≠ i := by
          intro h; subst h; exact hne (hju.symm.trans hit')
        refine List.mem_of_getElem (i := j) (h := ?_) ?_
        · simp; omega
        · rw [List.getElem_dropLast, List.getElem_set_ne (Ne.symm hji)]; exact hju

/-! ### The invariant -/

/-- The invariant for one tensor.  `σ` are the values the tensors should have, `τ` when
they were assigned, `clk` the present time, and `X` holds for tensors whose kernel is
about to run. -/
structure Inv1 (sem : Nat → List Val → Val) (σ : Nat → Val) (τ : Nat → Nat) (clk : Nat)
    (s : State) (X : Nat → Prop) (t : Nat) : Prop where
  alive : (s t).alive = true
  pend : (s t).needsCompute = true → (s t).needsPack = false ∧ ∃ a, (s t).assign = some a ∧
    t ∉ a.2 ∧ σ t = sem a.1 (a.2.map σ) ∧
    (∀ o ∈ a.2, t ∈ (s o).deps) ∧
    (∀ o ∈ a.2, ((s o).needsCompute = true ∨ X o) → τ o < τ t) ∧
    ((s t).needsAssemble = false → (s t).asm = some (support (σ t)))
  kern : (s t).needsCompile = false → (s t).assign ≠ none → (s t).kernel = (s t).assign
  packed : ¬ X t → (s t).needsCompute = false → (s t).needsPack = true →
    σ t = if (s t).neverPacked then addAll (fun _ => 0) (s t).buffer
      else addAll (s t).store (s t).buffer
  clean : ¬ X t → (s t).needsCompute = false → (s t).needsPack = false → σ t = (s t).store
  time : (s t).needsCompute = true ∨ X t → τ t < clk
  fresh : (s t).assign = none → Good (s t)
  asmf : (s t).needsAssemble = true → (s t).needsCompute = true

def Inv (sem : Nat → List Val → Val) (σ : Nat → Val) (τ : Nat → Nat) (clk : Nat)
    (s : State) (X : Nat → Prop) : Prop := ∀ t, Inv1 sem σ τ clk s X t

/-- What syncing does not do: it does not raise flags or change assignments, and settled
tensors and those assigned at or after `b` keep everything but the waiting list. -/
structure Le1 (τ : Nat → Nat) (b : Nat) (s' s : State) (u : Nat) : Prop where
  nc : (s' u).needsCompute = true → (s u).needsCompute = true
  np : (s' u).needsPack = true → (s u).needsPack = true
  assign : (s' u).assign = (s u).assign
  same : (s u).needsPack = false → ((s u).needsCompute = true → b ≤ τ u) →
    s' u = { s u with deps := (s' u).deps }
  good : Good (s u) → Good (s' u)

def Le (τ : Nat → Nat) (b : Nat) (s' s : State) : Prop := ∀ u, Le1 τ b s' s u

theorem Le.refl (τ : Nat → Nat) (b : Nat) (s : State) : Le τ b s s := fun _ =>
  ⟨id, id, rfl, fun _ _ => rfl, id⟩

theorem Le.trans {τ : Nat → Nat} {b : Nat} {s1 s2 s3 : State} (h12 : Le τ b s2 s1)
    (h23 : Le τ b s3 s2) : Le τ b s3 s1 := by
  intro u
  have a := h12 u
  have c := h23 u
  refine ⟨fun h => a.nc (c.nc h), fun h => a.np (c.np h), c.assign.trans a.assign, ?_,
    fun h => c.good (a.good h)⟩
  intro h1 h2
  have e := a.same h1 h2
  have e' := c.same (by rw [e]; exact h1) (by rw [e]; exact h2)
  rw [e', e]

theorem Le.mono {τ : Nat → Nat} {b b' : Nat} {s s' : State} (h : Le τ b s' s) (hb : b ≤ b') :
    Le τ b' s' s := by
  intro u
  have a := h u
  exact ⟨a.nc, a.np, a.assign, fun h1 h2 => a.same h1 (fun h3 => Nat.le_trans hb (h2 h3)), a.good⟩

/-- Settled tensors stay settled. -/
theorem Le.settled {τ : Nat → Nat} {b : Nat} {s s' : State} (h : Le τ b s' s) {u : Nat}
    (h1 : (s u).needsCompute = false) (h2 : (s u).needsPack = false) :
    (s' u).needsCompute = false ∧ (s' u).needsPack = false := by
  constructor
  · cases hc : (s' u).needsCompute with
    | false => rfl
    | true => rw [(h u).nc hc] at h1; cases h1
  · cases hc : (s' u).needsPack with
    | false => rfl
    | true => rw [(h u).np hc] at h2; cases h2

section
variable {sem : Nat → List Val → Val} {σ : Nat → Val} {τ : Nat → Nat} {clk : Nat}

/-- Changing only waiting lists keeps the invariant if nobody who waits is lost. -/
theorem Inv.deps {s s' : State} {X : Nat → Prop} (h : Inv sem σ τ clk s X)
    (he : ∀ u, s' u = { s u with deps := (s' u).deps })
    (hd : ∀ u v, (s v).needsCompute = true → v ∈ (s u).deps →
      (∀ a, (s v).assign = some a → u ∈ a.2 → v ∈ (s' u).deps)) :
    Inv sem σ τ clk s' X := by
  intro t
  have i := h t
  have e := he t
  have f : ∀ u, (s' u).needsCompute = (s u).needsCompute := fun u => by rw [he u]
  refine ⟨by rw [e]; exact i.alive, ?_, by rw [e]; exact i.kern, by rw [e]; exact i.packed,
    by rw [e]; exact i.clean, by rw [e]; exact i.time, by rw [e]; exact i.fresh, by rw [e]; exact i.asmf⟩
  intro hc
  rw [f] at hc
  obtain ⟨h1, a, h2, h3, h4, h5, h6, h7⟩ := i.pend hc
  refine ⟨by rw [e]; exact h1, a, by rw [e]; exact h2, h3, h4, ?_, ?_, by rw [e]; exact h7⟩
  · intro o ho
    exact hd o t hc (h5 o ho) a h2 ho
  · intro o ho; rw [f]; exact h6 o ho

theorem Le.deps {s s' : State} {b : Nat} (he : ∀ u, s' u = { s u with deps := (s' u).deps }) :
    Le τ b s' s := fun u =>
  ⟨by rw [he u]; exact id, by rw [he u]; exact id, by rw [he u], fun _ _ => he u,
    by rw [he u]; exact id⟩

/-! ### Single actions -/

theorem pack_ok {s : State} {X : Nat → Prop} {t b : Nat} (h : Inv sem σ τ clk s X) (hX : ¬ X t)
    (hp : (s t).needsPack = true) :
    Inv sem σ τ clk (pack s t) X ∧ Le τ b (pack s t) s ∧
      (pack s t t).needsCompute = false ∧ (pack s t t).needsPack = false := by
  have hnc : (s t).needsCompute = false := by
    cases hc : (s t).needsCompute with
    | false => rfl
    | true => rw [((h t).pend hc).1] at hp; cases hp
  have ht : pack s t = set s t { s t with
      needsPack := false
      neverPacked := false
      store := if (s t).neverPacked then addAll (fun _ => 0) (s t).buffer
        else addAll (s t).store (s t).buffer
      buffer := [] } := by unfold pack; simp only [hp, if_true]
  have hf : ∀ u, (pack s t u).needsCompute = (s u).needsCompute := by
    intro u; rw [ht]; by_cases hu : u = t
    · subst hu; simp [set_same]
    · rw [set_ne _ _ hu]
  have hdeps : ∀ u, (pack s t u).deps = (s u).deps := by
    intro u; rw [ht]; by_cases hu : u = t
    · subst hu; simp [set_same]
    · rw [set_ne _ _ hu]
  refine ⟨?_, ?_, ?_, ?_⟩
  · intro u
    by_cases hu : u = t
    · subst hu
      have i := h u
      have hval := i.packed hX hnc hp
      refine ⟨?_, ?_, ?_, ?_, ?_, ?_, ?_, ?_⟩
      · rw [ht, set_same]; exact i.alive
      · rw [hf, hnc]; intro hc; cases hc
      · rw [ht, set_same]; exact i.kern
      · rw [ht, set_same]; intro _ _ hc; cases hc
      · rw [ht, set_same]; intro _ _ _; exact hval
      · rw [hf]; exact i.time
      · rw [ht, set_same]; intro _; exact ⟨hnc, Or.inr ⟨rfl, rfl⟩⟩
      · rw [ht, set_same]; exact i.asmf
    · have i := h u
      have e : pack s t u = s u := by rw [ht, set_ne _ _ hu]
      refine ⟨by rw [e]; exact i.alive, ?_, by rw [e]; exact i.kern, by rw [e]; exact i.packed,
        by rw [e]; exact i.clean, by rw [e]; exact i.time, by rw [e]; exact i.fresh, by rw [e]; exact i.asmf⟩
      rw [e]
      intro hc
      obtain ⟨h1, a, h2, h3, h4, h5, h6, h7⟩ := i.pend hc
      exact ⟨h1, a, h2, h3, h4, fun o ho => by rw [hdeps]; exact h5 o ho,
        fun o ho => by rw [hf]; exact h6 o ho, h7⟩
  · intro u
    by_cases hu : u = t
    · subst hu
      refine ⟨by rw [hf]; exact id, fun _ => hp, by rw [ht, set_same], ?_,
        fun _ => by rw [ht, set_same]; exact ⟨hnc, Or.inr ⟨rfl, rfl⟩⟩⟩
      intro h1; rw [hp] at h1; cases h1
    · have e : pack s t u = s u := by rw [ht, set_ne _ _ hu]
      refine ⟨by rw [e]; exact id, by rw [e]; exact id, by rw [e], ?_, by rw [e]; exact id⟩
      intro _ _; rw [e]
  · rw [hf]; exact hnc
  · rw [ht, set_same]

/-- Changing the flags and results of compilation and assembly of one tensor. -/
theorem Inv.update {s : State} {X : Nat → Prop} {t : Nat} {x : T} (h : Inv sem σ τ clk s X)
    (hx : x = { s t with needsCompile := x.needsCompile, kernel := x.kernel, asm := x.asm,
                         needsAssemble := x.needsAssemble })
    (hk : x.needsCompile = false → x.assign ≠ none → x.kernel = x.assign)
    (ha : (s t).needsCompute = true → x.needsAssemble = false → x.asm = some (support (σ t)))
    (hfl : x.needsAssemble = true → (s t).needsAssemble = true) :
    Inv sem σ τ clk (set s t x) X := by
  have hf : ∀ u, (set s t x u).needsCompute = (s u).needsCompute := by
    intro u; by_cases hu : u = t
    · subst hu; rw [set_same, hx]
    · rw [set_ne _ _ hu]
  have hdeps : ∀ u, (set s t x u).deps = (s u).deps := by
    intro u; by_cases hu : u = t
    · subst hu; rw [set_same, hx]
    · rw [set_ne _ _ hu]
  intro u
  by_cases hu : u = t
  · subst hu
    have i := h u
    refine ⟨?_, ?_, ?_, ?_, ?_, ?_, ?_, ?_⟩
    · rw [set_same, hx]; exact i.alive
    · rw [hf]; intro hc
      obtain ⟨h1, a, h2, h3, h4, h5, h6, h7⟩ := i.pend hc
      refine ⟨by rw [set_same, hx]; exact h1, a, by rw [set_same, hx]; exact h2, h3, h4,
        fun o ho => by rw [hdeps]; exact h5 o ho, fun o ho => by rw [hf]; exact h6 o ho, ?_⟩
      rw [set_same]; exact ha hc
    · rw [set_same]; exact hk
    · rw [set_same, hx]; exact i.packed
    · rw [set_same, hx]; exact i.clean
    · rw [hf]; exact i.time
    · rw [set_same, hx]; exact i.fresh
    · rw [hf, set_same]; exact fun h => i.asmf (hfl h)
  · have i := h u
    have e : set s t x u = s u := set_ne _ _ hu
    refine ⟨by rw [e]; exact i.alive, ?_, by rw [e]; exact i.kern, by rw [e]; exact i.packed,
      by rw [e]; exact i.clean, by rw [e]; exact i.time, by rw [e]; exact i.fresh, by rw [e]; exact i.asmf⟩
    rw [e]
    intro hc
    obtain ⟨h1, a, h2, h3, h4, h5, h6, h7⟩ := i.pend hc
    exact ⟨h1, a, h2, h3, h4, fun o ho => by rw [hdeps]; exact h5 o ho,
      fun o ho => by rw [hf]; exact h6 o ho, h7⟩

theorem compile_ok {s : State} {X : Nat → Prop} {t : Nat} (h : Inv sem σ τ clk s X) :
    Inv sem σ τ clk (compile s t) X := by
  unfold compile
  simp only
  split
  · refine h.update ?_ ?_ ?_ (fun h => h)
    · rfl
    · intro _ _; rfl
    · intro hc ha
      obtain ⟨_, a, _, _, _, _, _, h7⟩ := (h t).pend hc
      exact h7 ha
  · exact h

theorem compile_fields (s : State) (t u : Nat) :
    (compile s t u).needsCompute = (s u).needsCompute ∧
    (compile s t u).needsPack = (s u).needsPack ∧
    (compile s t u).assign = (s u).assign ∧ (u ≠ t → compile s t u = s u) ∧
    (compile s t t).needsCompile = false := by
  unfold compile
  split
  · by_cases hu : u = t
    · subst hu; simp [set_same]
    · simp [set_ne _ _ hu, set_same]
  · rename_i hc
    simp only [Bool.not_eq_true] at hc
    exact ⟨rfl, rfl, rfl, fun _ => rfl, hc⟩

theorem compile_good {s : State} {t u : Nat} (h : Good (s u)) : Good (compile s t u) := by
  unfold compile
  split
  · by_cases hu : u = t
    · subst hu; rw [set_same]; exact h
    · rw [set_ne _ _ hu]; exact h
  · exact h

/-- The kernel computes the value the tensor should have. -/
theorem kernelValue_ok {s : State} {X : Nat → Prop} {t : Nat} {a : Assign}
    (h : Inv sem σ τ clk s X) (ha : (s t).assign = some a) (hk : (s t).needsCompile = false)
    (hv : σ t = sem a.1 (a.2.map σ))
    (ho : ∀ o ∈ a.2, ¬ X o ∧ (s o).needsCompute = false ∧ (s o).needsPack = false) :
    kernelValue sem s t = some (σ t) := by
  have hkern := (h t).kern hk (by rw [ha]; simp)
  unfold kernelValue
  rw [hkern, ha]
  simp only [Option.some.injEq]
  rw [hv]
  congr 1
  apply List.map_congr_left
  intro o hm
  obtain ⟨h1, h2, h3⟩ := ho o hm
  exact ((h o).clean h1 h2 h3).symm

theorem mem_operands {a : Assign} {o : Nat} : o ∈ operands (some a) ↔ o ∈ a.2 := by
  simp [operands, List.mem_eraseDups]

/-- What is proved about syncing one tensor, with a bound on its time of assignment. -/
def SyncOk (sem : Nat → List Val → Val) (σ : Nat → Val) (τ : Nat → Nat) (clk : Nat)
    (sync : State → Nat → Option State) (b : Nat) : Prop :=
  ∀ (s : State) (X : Nat → Prop) (t : Nat), Inv sem σ τ clk s X → ¬ X t →
    (∀ x, X x → b ≤ τ x) → ((s t).needsCompute = true → τ t < b) →
    ∃ s', sync s t = some s' ∧ Inv sem σ τ clk s' X ∧ Le τ b s' s ∧
      (s' t).needsCompute = false ∧ (s' t).needsPack = false

theorem syncAll_ok {sync : State → Nat → Option State} {b : Nat}
    (hs : SyncOk sem σ τ clk sync b) : ∀ (os : List Nat) (s : State) (X : Nat → Prop),
    Inv sem σ τ clk s X → (∀ x, X x → b ≤ τ x) →
    (∀ o ∈ os, ¬ X o ∧ ((s o).needsCompute = true → τ o < b)) →
    ∃ s', syncAll sync os s = some s' ∧ Inv sem σ τ clk s' X ∧ Le τ b s' s ∧
      ∀ o ∈ os, (s' o).needsCompute = false ∧ (s' o).needsPack = false
  | [], s, X, h, _, _ => ⟨s, rfl, h, Le.refl _ _ _, by simp⟩
  | o :: os, s, X, h, hX, ho => by
    obtain ⟨hxo, hto⟩ := ho o List.mem_cons_self
    obtain ⟨s1, e1, i1, l1, c1, p1⟩ := hs s X o h hxo hX hto
    obtain ⟨s2, e2, i2, l2, hall⟩ := syncAll_ok hs os s1 X i1 hX (by
      intro o' ho'
      obtain ⟨h1, h2⟩ := ho o' (List.mem_cons_of_mem _ ho')
      exact ⟨h1, fun hc => h2 ((l1 o').nc hc)⟩)
    refine ⟨s2, by simp [syncAll, e1, e2], i2, l1.trans l2, ?_⟩
    intro o' ho'
    rcases List.mem_cons.mp ho' with rfl | ho'
    · exact l2.settled c1 p1
    · exact hall o' ho'

theorem syncRemove_ok {sync : State → Nat → Option State} {b t : Nat}
    (hs : SyncOk sem σ τ clk sync b) : ∀ (os : List Nat) (s : State) (X : Nat → Prop),
    Inv sem σ τ clk s X → (∀ x, X x → b ≤ τ x) → (s t).needsCompute = false →
    (∀ o ∈ os, ¬ X o ∧ ((s o).needsCompute = true → τ o < b)) →
    ∃ s', syncRemove sync t os s = some s' ∧ Inv sem σ τ clk s' X ∧ Le τ b s' s ∧
      ∀ o ∈ os, (s' o).needsCompute = false ∧ (s' o).needsPack = false
  | [], s, X, h, _, _, _ => ⟨s, rfl, h, Le.refl _ _ _, by simp⟩
  | o :: os, s, X, h, hX, ht, ho => by
    obtain ⟨hxo, hto⟩ := ho o List.mem_cons_self
    obtain ⟨s1, e1, i1, l1, c1, p1⟩ := hs s X o h hxo hX hto
    have ht1 : (s1 t).needsCompute = false := by
      cases hc : (s1 t).needsCompute with
      | false => rfl
      | true => rw [(l1 t).nc hc] at ht; cases ht
    have he : ∀ u, set s1 o { s1 o with deps := removeDep (s1 o).deps t } u =
        { s1 u with deps := (set s1 o { s1 o with deps := removeDep (s1 o).deps t } u).deps } := by
      intro u
      by_cases hu : u = o
      · subst hu; simp [set_same]
      · simp [set_ne _ _ hu]
    have i1' := i1.deps he (by
      intro u v hv hm a ha hua
      have hvt : v ≠ t := by intro hvt; subst hvt; rw [ht1] at hv; cases hv
      by_cases hu : u = o
      · subst hu; rw [set_same]; exact mem_removeDep hm hvt
      · rw [set_ne _ _ hu]; exact hm)
    have l1' : Le τ b (set s1 o { s1 o with deps := removeDep (s1 o).deps t }) s1 := Le.deps he
    obtain ⟨s2, e2, i2, l2, hall⟩ := syncRemove_ok hs os _ X i1' hX (by rw [he t]; exact ht1) (by
      intro o' ho'
      obtain ⟨h1, h2⟩ := ho o' (List.mem_cons_of_mem _ ho')
      exact ⟨h1, fun hc => h2 ((l1 o').nc ((l1' o').nc hc))⟩)
    refine ⟨s2, by simp [syncRemove, e1, e2], i2, (l1.trans l1').trans l2, ?_⟩
    intro o' ho'
    rcases List.mem_cons.mp ho' with rfl | ho'
    · exact l2.settled (l1'.settled c1 p1).1 (l1'.settled c1 p1).2
    · exact hall o' ho'

/-- Assembling a tensor whose kernel is compiled. -/
theorem assemble_ok {sync : State → Nat → Option State} {s : State} {X : Nat → Prop} {t b : Nat}
    (h : Inv sem σ τ clk s X) (hXb : ∀ x, X x → b ≤ τ x)
    (hc : (s t).needsCompute = true) (htb : τ t < b) (hk : (s t).needsCompile = false)
    (hs : SyncOk sem σ τ clk sync (τ t)) :
    ∃ s', assemble sem sync s t = some s' ∧ Inv sem σ τ clk s' X ∧
      (s' t).needsCompute = true ∧ (s' t).needsCompile = false ∧ (s' t).needsAssemble = false ∧
      (∀ u, (s' u).needsCompute = true → (s u).needsCompute = true) ∧
      (∀ u, (s' u).needsPack = true → (s u).needsPack = true) ∧
      (∀ u, (s' u).assign = (s u).assign) ∧
      (∀ u, Good (s u) → Good (s' u)) ∧
      (∀ u, u ≠ t → (s u).needsPack = false → ((s u).needsCompute = true → τ t ≤ τ u) →
        s' u = { s u with deps := (s' u).deps }) := by
  unfold assemble
  rw [hk]
  simp only [Bool.false_eq_true, if_false]
  cases hna : (s t).needsAssemble with
  | false =>
    refine ⟨s, by simp, h, hc, hk, hna, fun _ => id, fun _ => id, fun _ => rfl,
      fun _ => id, fun _ _ _ _ => rfl⟩
  | true =>
    simp only [if_true]
    obtain ⟨hnp, a, ha, hta, hv, hd, hrank, hasm⟩ := (h t).pend hc
    have hXo : ∀ o ∈ a.2, ¬ X o := by
      intro o ho hx
      have h1 := hrank o ho (Or.inr hx)
      have h2 := hXb o hx
      omega
    obtain ⟨s1, e1, i1, l1, hall⟩ := syncAll_ok hs (operands (s t).assign) s X h
      (fun x hx => by have := hXb x hx; omega) (by
        intro o ho
        rw [ha, mem_operands] at ho
        exact ⟨hXo o ho, fun hoc => hrank o ho (Or.inl hoc)⟩)
    have hsame := (l1 t).same hnp (fun _ => Nat.le_refl _)
    have ha1 : (s1 t).assign = some a := by rw [(l1 t).assign, ha]
    have hk1 : (s1 t).needsCompile = false := by rw [hsame]; exact hk
    have hc1 : (s1 t).needsCompute = true := by rw [hsame]; exact hc
    have hkv := kernelValue_ok i1 ha1 hk1 hv (by
      intro o ho
      exact ⟨hXo o ho, hall o (by rw [ha, mem_operands]; exact ho)⟩)
    have hcall : callAssemble sem s1 t =
        some (set s1 t { s1 t with asm := some (support (σ t)), needsAssemble := false }) := by
      unfold callAssemble; rw [hkv]; rfl
    refine ⟨_, by rw [e1]; exact hcall, ?_, ?_, ?_, ?_, ?_, ?_, ?_, ?_, ?_⟩
    · refine i1.update rfl ?_ ?_ (fun h => by cases h)
      · intro h1 h2; exact (i1 t).kern h1 h2
      · intro _ _; rfl
    · rw [set_same]; exact hc1
    · rw [set_same]; exact hk1
    · rw [set_same]
    · intro u hu
      by_cases hut : u = t
      · subst hut; exact hc
      · rw [set_ne _ _ hut] at hu; exact (l1 u).nc hu
    · intro u hu
      by_cases hut : u = t
      · subst hut; rw [set_same] at hu; exact (l1 u).np hu
      · rw [set_ne _ _ hut] at hu; exact (l1 u).np hu
    · intro u
      by_cases hut : u = t
      · subst hut; rw [set_same]; exact (l1 u).assign
      · rw [set_ne _ _ hut]; exact (l1 u).assign
    · intro u hg
      by_cases hut : u = t
      · subst hut; have := hg.1; rw [hc] at this; cases this
      · rw [set_ne _ _ hut]; exact (l1 u).good hg
    · intro u hut h1 h2
      rw [set_ne _ _ hut]
      exact (l1 u).same h1 h2

/-- Computing a tensor that is compiled and assembled. -/
theorem compute_ok {sync : State → Nat → Option State} {s : State} {X : Nat → Prop} {t b : Nat}
    (h : Inv sem σ τ clk s X) (hX : ¬ X t) (hXb : ∀ x, X x → b ≤ τ x)
    (hc : (s t).needsCompute = true) (htb : τ t < b) (hk : (s t).needsCompile = false)
    (hna : (s t).needsAssemble = false) (hs : SyncOk sem σ τ clk sync (τ t)) :
    ∃ s', compute sem sync s t = some s' ∧ Inv sem σ τ clk s' X ∧
      (s' t).needsCompute = false ∧ (s' t).needsPack = false ∧
      (∀ u, (s' u).needsCompute = true → (s u).needsCompute = true) ∧
      (∀ u, (s' u).needsPack = true → (s u).needsPack = true) ∧
      (∀ u, (s' u).assign = (s u).assign) ∧
      (∀ u, Good (s u) → Good (s' u)) ∧
      (∀ u, u ≠ t → (s u).needsPack = false → ((s u).needsCompute = true → τ t ≤ τ u) →
        s' u = { s u with deps := (s' u).deps }) := by
  unfold compute
  rw [hk]
  simp only [Bool.false_eq_true, if_false, hc, if_true]
  obtain ⟨hnp, a, ha, hta, hv, hd, hrank, hasm⟩ := (h t).pend hc
  have hXo : ∀ o ∈ a.2, ¬ X o := by
    intro o ho hx
    have h1 := hrank o ho (Or.inr hx)
    have h2 := hXb o hx
    omega
  -- the state in which the flag has been cleared
  let s0 : State := set s t { s t with needsCompute := false }
  let X' : Nat → Prop := fun u => X u ∨ u = t
  have hs0ne : ∀ u, u ≠ t → s0 u = s u := fun u hu => set_ne _ _ hu
  have hs0t : s0 t = { s t with needsCompute := false } := set_same _ _ _
  have hdeps0 : ∀ u, (s0 u).deps = (s u).deps := by
    intro u; by_cases hu : u = t
    · subst hu; rw [hs0t]
    · rw [hs0ne u hu]
  have i0 : Inv sem σ τ clk s0 X' := by
    intro u
    have i := h u
    by_cases hu : u = t
    · subst hu
      refine ⟨by rw [hs0t]; exact i.alive, ?_, by rw [hs0t]; exact i.kern, ?_, ?_, ?_, ?_,
        by rw [hs0t]; intro h1; simp only at h1; rw [hna] at h1; cases h1⟩
      · rw [hs0t]; intro h1; cases h1
      · intro h1; exact absurd (Or.inr rfl) h1
      · intro h1; exact absurd (Or.inr rfl) h1
      · intro _; exact i.time (Or.inl hc)
      · rw [hs0t]; intro h1; rw [ha] at h1; cases h1
    · rw [show Inv1 sem σ τ clk s0 X' u = Inv1 sem σ τ clk s0 X' u from rfl]
      have e := hs0ne u hu
      refine ⟨by rw [e]; exact i.alive, ?_, by rw [e]; exact i.kern, ?_, ?_, ?_, by rw [e]; exact i.fresh, by rw [e]; exact i.asmf⟩
      · rw [e]; intro h1
        obtain ⟨q1, a', q2, q3, q4, q5, q6, q7⟩ := i.pend h1
        refine ⟨q1, a', q2, q3, q4, fun o ho => by rw [hdeps0]; exact q5 o ho, ?_, q7⟩
        intro o ho hor
        apply q6 o ho
        by_cases hot : o = t
        · subst hot; exact Or.inl hc
        · rw [hs0ne o hot] at hor
          rcases hor with hor | hor | hor
          · exact Or.inl hor
          · exact Or.inr hor
          · exact absurd hor hot
      · rw [e]; intro h1; exact i.packed (fun hx => h1 (Or.inl hx))
      · rw [e]; intro h1; exact i.clean (fun hx => h1 (Or.inl hx))
      · rw [e]; intro h1
        rcases h1 with h1 | h1 | h1
        · exact i.time (Or.inl h1)
        · exact i.time (Or.inr h1)
        · exact absurd h1 hu
  obtain ⟨s1, e1, i1, l1, hall⟩ := syncRemove_ok (t := t) hs (operands (s t).assign) s0 X' i0
    (by
      intro x hx
      rcases hx with hx | hx
      · have := hXb x hx; omega
      · exact Nat.le_of_eq (by rw [hx]))
    (by rw [hs0t])
    (by
      intro o ho
      rw [ha, mem_operands] at ho
      have hot : o ≠ t := by intro hot; subst hot; exact hta ho
      refine ⟨?_, ?_⟩
      · rintro (hx | hx)
        · exact hXo o ho hx
        · exact hot hx
      · rw [hs0ne o hot]; intro hoc; exact hrank o ho (Or.inl hoc))
  have hsame : s1 t = { s0 t with deps := (s1 t).deps } := (l1 t).same (by rw [hs0t]; exact hnp)
    (by rw [hs0t]; intro h1; cases h1)
  have ha1 : (s1 t).assign = some a := by rw [(l1 t).assign, hs0t]; exact ha
  have hk1 : (s1 t).needsCompile = false := by rw [hsame, hs0t]; exact hk
  have hc1 : (s1 t).needsCompute = false := by rw [hsame, hs0t]
  have hnp1 : (s1 t).needsPack = false := by rw [hsame, hs0t]; exact hnp
  have hasm1 : (s1 t).asm = some (support (σ t)) := by rw [hsame, hs0t]; exact hasm hna
  have hkv := kernelValue_ok i1 ha1 hk1 hv (by
    intro o ho
    have hot : o ≠ t := by intro hot; subst hot; exact hta ho
    refine ⟨?_, hall o (by rw [ha, mem_operands]; exact ho)⟩
    rintro (hx | hx)
    · exact hXo o ho hx
    · exact hot hx)
  have hstore : (fun c => if support (σ t) c then σ t c else 0) = σ t := by
    funext c
    by_cases hz : σ t c = 0
    · simp [support, hz]
    · simp [support, hz]
  have hcall : callCompute sem s1 t = some (set s1 t { s1 t with store := σ t }) := by
    unfold callCompute; rw [hkv, hasm1]; simp only [hstore]
  refine ⟨_, by rw [show (set s t { s t with needsCompute := false }) = s0 from rfl, e1]; exact hcall,
    ?_, ?_, ?_, ?_, ?_, ?_, ?_, ?_⟩
  · have hf : ∀ u, (set s1 t { s1 t with store := σ t } u).needsCompute = (s1 u).needsCompute := by
      intro u; by_cases hu : u = t
      · subst hu; rw [set_same]
      · rw [set_ne _ _ hu]
    have hdeps1 : ∀ u, (set s1 t { s1 t with store := σ t } u).deps = (s1 u).deps := by
      intro u; by_cases hu : u = t
      · subst hu; rw [set_same]
      · rw [set_ne _ _ hu]
    intro u
    have i := i1 u
    by_cases hu : u = t
    · subst hu
      refine ⟨by rw [set_same]; exact i.alive, ?_, by rw [set_same]; exact i.kern, ?_, ?_, ?_,
        by rw [set_same]; exact i.fresh, by rw [set_same]; exact i.asmf⟩
      · rw [hf, hc1]; intro h1; cases h1
      · rw [set_same]; intro _ _ h1; simp only at h1; rw [hnp1] at h1; cases h1
      · rw [set_same]; intro _ _ _; rfl
      · rw [hf, hc1]; intro h1; rcases h1 with h1 | h1
        · cases h1
        · exact absurd h1 hX
    · have e : set s1 t { s1 t with store := σ t } u = s1 u := set_ne _ _ hu
      have hXX : X' u ↔ X u := ⟨fun h => h.elim id (fun h => absurd h hu), Or.inl⟩
      refine ⟨by rw [e]; exact i.alive, ?_, by rw [e]; exact i.kern, ?_, ?_, ?_, by rw [e]; exact i.fresh, by rw [e]; exact i.asmf⟩
      · rw [e]; intro h1
        obtain ⟨q1, a', q2, q3, q4, q5, q6, q7⟩ := i.pend h1
        refine ⟨q1, a', q2, q3, q4, fun o ho => by rw [hdeps1]; exact q5 o ho, ?_, q7⟩
        intro o ho hor
        apply q6 o ho
        rw [hf] at hor
        exact hor.imp id Or.inl
      · rw [e]; intro h1; exact i.packed (fun hx => h1 (hXX.mp hx))
      · rw [e]; intro h1; exact i.clean (fun hx => h1 (hXX.mp hx))
      · rw [e]; intro h1; exact i.time (h1.imp id Or.inl)
  · rw [set_same]; exact hc1
  · rw [set_same]; exact hnp1
  · intro u hu
    by_cases hut : u = t
    · subst hut; exact hc
    · rw [set_ne _ _ hut] at hu
      have := (l1 u).nc hu
      rw [hs0ne u hut] at this
      exact this
  · intro u hu
    by_cases hut : u = t
    · subst hut; rw [set_same] at hu
      have h1 : (s1 u).needsPack = true := hu
      rw [hnp1] at h1; cases h1
    · rw [set_ne _ _ hut] at hu
      have := (l1 u).np hu
      rw [hs0ne u hut] at this
      exact this
  · intro u
    by_cases hut : u = t
    · subst hut; rw [set_same]; exact ha1.trans ha.symm
    · rw [set_ne _ _ hut, (l1 u).assign, hs0ne u hut]
  · intro u hg
    by_cases hut : u = t
    · subst hut; have := hg.1; rw [hc] at this; cases this
    · rw [set_ne _ _ hut]; exact (l1 u).good (by rw [hs0ne u hut]; exact hg)
  · intro u hut h1 h2
    rw [set_ne _ _ hut]
    have := (l1 u).same (by rw [hs0ne u hut]; exact h1) (by rw [hs0ne u hut]; exact h2)
    rw [hs0ne u hut] at this
    exact this

/-- Syncing works: it ends, keeps the invariant, and settles the tensor. -/
theorem syncN_ok : ∀ (fuel b : Nat), b + 1 ≤ fuel → SyncOk sem σ τ clk (syncN sem fuel) b := by
  intro fuel
  induction fuel with
  | zero => intro b hb; omega
  | succ n ih =>
    intro b hb s X t h hX hXb hbt
    show ∃ s', syncWith sem (syncN sem n) s t = some s' ∧ _
    unfold syncWith
    rw [(h t).alive]
    simp only [Bool.true_eq_false, if_false]
    cases hp : (s t).needsPack with
    | true =>
      simp only [if_true]
      obtain ⟨i, l, c, p⟩ := pack_ok (b := b) h hX hp
      exact ⟨_, rfl, i, l, c, p⟩
    | false =>
      simp only [Bool.false_eq_true, if_false]
      cases hc : (s t).needsCompute with
      | false =>
        simp only [Bool.false_eq_true, if_false]
        exact ⟨s, rfl, h, Le.refl _ _ _, hc, hp⟩
      | true =>
        simp only [if_true]
        have htb := hbt hc
        have hs := ih (τ t) (by omega)
        obtain ⟨f1, f2, f3, f4, f5⟩ := compile_fields s t t
        obtain ⟨s1, e1, i1, c1, k1, a1, m1, n1, as1, g1', sm1⟩ := assemble_ok (b := b)
          (compile_ok (t := t) h) hXb (by rw [f1]; exact hc) htb f5 hs
        obtain ⟨s2, e2, i2, c2, p2, m2, n2, as2, g2', sm2⟩ := compute_ok (b := b) i1 hX hXb c1 htb k1 a1 hs
        refine ⟨s2, by rw [e1]; exact e2, i2, ?_, c2, p2⟩
        intro u
        obtain ⟨g1, g2, g3, g4, _⟩ := compile_fields s t u
        refine ⟨fun hu => by rw [← g1]; exact m1 u (m2 u hu),
          fun hu => by rw [← g2]; exact n1 u (n2 u hu), by rw [as2, as1, g3], ?_,
          fun hg => g2' u (g1' u (compile_good hg))⟩
        intro q1 q2
        have hut : u ≠ t := by
          intro hut; subst hut
          have := q2 hc
          omega
        have r1 := sm1 u hut (by rw [g2]; exact q1) (by
          rw [g1]; intro q; have := q2 q; omega)
        have r2 := sm2 u hut (by rw [r1, g4 hut]; exact q1) (by
          rw [r1, g4 hut]; intro q; have := q2 q; omega)
        rw [r2, r1, g4 hut]

/-! ### Whole calls -/

abbrev none' : Nat → Prop := fun _ => False

/-- Syncing from outside. -/
theorem sync_top {fuel : Nat} (hf : clk + 1 ≤ fuel) {s : State} (h : Inv sem σ τ clk s none')
    (t : Nat) : ∃ s', syncN sem fuel s t = some s' ∧ Inv sem σ τ clk s' none' ∧
      (s' t).needsCompute = false ∧ (s' t).needsPack = false := by
  obtain ⟨s', e, i, _, c, p⟩ := syncN_ok fuel clk hf s none' t h (fun x => x)
    (fun _ hx => hx.elim) (fun hc => (h t).time (Or.inl hc))
  exact ⟨s', e, i, c, p⟩

/-- Syncing the waiting tensors: afterwards nobody waits. -/
theorem syncDependents_ok {fuel : Nat} (hf : clk + 1 ≤ fuel) {s : State}
    (h : Inv sem σ τ clk s none') (t : Nat) :
    ∃ s', syncDependents (syncN sem fuel) s t = some s' ∧ Inv sem σ τ clk s' none' ∧
      (∀ u a, (s' u).needsCompute = true → (s' u).assign = some a → t ∉ a.2) ∧
      (∀ u, (s' u).assign = (s u).assign) ∧ (Good (s t) → Good (s' t)) := by
  obtain ⟨s1, e1, i1, l1, hall⟩ := syncAll_ok (syncN_ok fuel clk hf) (s t).deps s none' h
    (fun _ hx => hx.elim) (fun o _ => ⟨fun x => x, fun hc => (h o).time (Or.inl hc)⟩)
  have hno : ∀ u a, (s1 u).needsCompute = true → (s1 u).assign = some a → t ∉ a.2 := by
    intro u a hc ha ht
    have hc0 := (l1 u).nc hc
    obtain ⟨_, a', ha', _, _, hd, _, _⟩ := (h u).pend hc0
    have : a' = a := by
      rw [(l1 u).assign, ha'] at ha; exact Option.some.inj ha
    subst this
    have := (hall u (hd t ht)).1
    rw [hc] at this; cases this
  have he : ∀ u, set s1 t { s1 t with deps := [] } u =
      { s1 u with deps := (set s1 t { s1 t with deps := [] } u).deps } := by
    intro u
    by_cases hu : u = t
    · subst hu; simp [set_same]
    · simp [set_ne _ _ hu]
  refine ⟨set s1 t { s1 t with deps := [] }, by simp [syncDependents, e1], ?_, ?_, ?_, ?_⟩
  · refine i1.deps he ?_
    intro u v hv hm a ha hua
    have hut : u ≠ t := by intro hut; subst hut; exact hno v a hv ha hua
    rw [set_ne _ _ hut]; exact hm
  · intro u a hc ha
    rw [he u] at hc ha
    exact hno u a hc ha
  · intro u; rw [he u]; exact (l1 u).assign
  · intro hg; rw [he t]; exact (l1 t).good hg

/-- Inserting a component. -/
theorem insert_ok {s : State} {t : Nat} {c : List Nat} {v : Int} (h : Inv sem σ τ clk s none')
    (hno : ∀ u a, (s u).needsCompute = true → (s u).assign = some a → t ∉ a.2)
    (hg : Good (s t)) :
    Inv sem (fun u => if u = t then addAt (σ t) c v else σ u) τ clk
      (set s t { s t with buffer := (s t).buffer ++ [(c, v)], needsPack := true }) none' := by
  intro u
  have i := h u
  by_cases hu : u = t
  · subst hu
    refine ⟨by rw [set_same]; exact i.alive, ?_, by rw [set_same]; exact i.kern, ?_, ?_, ?_, ?_,
      by rw [set_same]; exact i.asmf⟩
    · rw [set_same]; intro hc; have := hg.1; rw [this] at hc; cases hc
    · rw [set_same]; intro _ _ _
      simp only [if_true]
      cases hp : (s u).needsPack with
      | true =>
        rw [i.packed (fun x => x) hg.1 hp]
        split <;> simp [addAll, List.foldl_append]
      | false =>
        rcases hg.2 with h1 | ⟨h1, h2⟩
        · rw [hp] at h1; cases h1
        · rw [i.clean (fun x => x) hg.1 hp, h1, h2]
          simp [addAll]
    · rw [set_same]; intro _ _ h1; cases h1
    · rw [set_same]; exact i.time
    · rw [set_same]; intro _; exact ⟨hg.1, Or.inl rfl⟩
  · have e : set s t { s t with buffer := (s t).buffer ++ [(c, v)], needsPack := true } u = s u :=
      set_ne _ _ hu
    refine ⟨by rw [e]; exact i.alive, ?_, by rw [e]; exact i.kern,
      by rw [e, if_neg hu]; exact i.packed, by rw [e, if_neg hu]; exact i.clean,
      by rw [e]; exact i.time, by rw [e]; exact i.fresh, by rw [e]; exact i.asmf⟩
    rw [e, if_neg hu]
    intro hc
    obtain ⟨h1, a, h2, h3, h4, h5, h6, h7⟩ := i.pend hc
    have hta := hno u a hc h2
    refine ⟨h1, a, h2, h3, ?_, ?_, ?_, h7⟩
    · rw [h4]
      congr 1
      apply List.map_congr_left
      intro o ho
      rw [if_neg (by intro hot; subst hot; exact hta ho)]
    · intro o ho
      have hot : o ≠ t := by intro hot; subst hot; exact hta ho
      rw [set_ne _ _ hot]; exact h5 o ho
    · intro o ho
      have hot : o ≠ t := by intro hot; subst hot; exact hta ho
      rw [set_ne _ _ hot]; exact h6 o ho

/-- What an assignment does to the state. -/
structure Assigned (s s' : State) (t : Nat) (a : Assign) : Prop where
  other : ∀ u, u ≠ t → s' u = { s u with deps := (s' u).deps }
  self : s' t = { s t with needsPack := false, needsAssemble := true, needsCompute := true,
                           needsCompile := (s' t).needsCompile, assign := some a,
                           deps := (s' t).deps }
  comp : (s' t).needsCompile = false → (s t).needsCompile = false ∧ (s t).assign = some a
  keep : ∀ u v, v ≠ t → v ∈ (s u).deps → v ∈ (s' u).deps
  waits : ∀ o ∈ a.2, t ∈ (s' o).deps

/-- Assigning an expression. -/
theorem assign_ok {s s' : State} {t : Nat} {a : Assign} (h : Inv sem σ τ clk s none')
    (hno : ∀ u a, (s u).needsCompute = true → (s u).assign = some a → t ∉ a.2)
    (hta : t ∉ a.2) (ha : Assigned s s' t a) :
    Inv sem (fun u => if u = t then sem a.1 (a.2.map σ) else σ u)
      (fun u => if u = t then clk else τ u) (clk + 1) s' none' := by
  have hmap : ∀ l : List Nat, t ∉ l →
      l.map (fun u => if u = t then sem a.1 (a.2.map σ) else σ u) = l.map σ := by
    intro l hl
    apply List.map_congr_left
    intro o ho
    rw [if_neg (by intro hot; subst hot; exact hl ho)]
  intro u
  have i := h u
  by_cases hu : u = t
  · subst hu
    have e := ha.self
    refine ⟨by rw [e]; exact i.alive, ?_, ?_, ?_, ?_, ?_, ?_, ?_⟩
    · intro _
      refine ⟨by rw [e], a, by rw [e], hta, by rw [if_pos rfl, hmap _ hta], ha.waits, ?_, ?_⟩
      · intro o ho hor
        have hot : o ≠ u := by intro hot; subst hot; exact hta ho
        rw [if_neg hot, if_pos rfl]
        rcases hor with hor | hor
        · rw [ha.other o hot] at hor
          exact (h o).time (Or.inl hor)
        · exact hor.elim
      · rw [e]; intro h1; cases h1
    · intro hk _
      obtain ⟨h1, h2⟩ := ha.comp hk
      rw [e]
      have := i.kern h1 (by rw [h2]; simp)
      rw [h2] at this
      exact this
    · rw [e]; intro _ h1; cases h1
    · rw [e]; intro _ h1; cases h1
    · intro _; rw [if_pos rfl]; omega
    · rw [e]; intro h1; cases h1
    · rw [e]; intro _; rfl
  · have e := ha.other u hu
    refine ⟨by rw [e]; exact i.alive, ?_, by rw [e]; exact i.kern,
      by rw [e, if_neg hu]; exact i.packed, by rw [e, if_neg hu]; exact i.clean, ?_,
      by rw [e]; exact i.fresh, by rw [e]; exact i.asmf⟩
    · rw [e, if_neg hu]
      intro hc
      obtain ⟨h1, b, h2, h3, h4, h5, h6, h7⟩ := i.pend hc
      have htb := hno u b hc h2
      refine ⟨h1, b, h2, h3, by rw [hmap _ htb]; exact h4, ?_, ?_, h7⟩
      · intro o ho; exact ha.keep o u hu (h5 o ho)
      · intro o ho hor
        have hot : o ≠ t := by intro hot; subst hot; exact htb ho
        rw [ha.other o hot] at hor
        simp only [if_neg hot, if_neg hu]
        exact h6 o ho hor
    · rw [e, if_neg hu]; intro hc; have := i.time hc; omega

theorem addDeps_spec (t : Nat) : ∀ (os : List Nat) (s : State) (u : Nat),
    addDeps t os s u = { s u with deps := (addDeps t os s u).deps } ∧
    (∀ v, v ∈ (s u).deps → v ∈ (addDeps t os s u).deps) ∧ (u ∈ os → t ∈ (addDeps t os s u).deps)
  | [], s, u => ⟨rfl, fun _ h => h, fun h => by cases h⟩
  | o :: os, s, u => by
    obtain ⟨h1, h2, h3⟩ := addDeps_spec t os (set s o { s o with deps := (s o).deps ++ [t] }) u
    unfold addDeps
    refine ⟨?_, ?_, ?_⟩
    · by_cases hu : u = o
      · subst hu; rw [set_same] at h1; exact h1
      · rw [set_ne _ _ hu] at h1; exact h1
    · intro v hv
      apply h2
      by_cases hu : u = o
      · subst hu; rw [set_same]; exact List.mem_append_left _ hv
      · rw [set_ne _ _ hu]; exact hv
    · intro hm
      by_cases hu : u = o
      · subst hu; apply h2; rw [set_same]; exact List.mem_append_right _ (by simp)
      · rcases List.mem_cons.mp hm with hm | hm
        · exact absurd hm hu
        · exact h3 hm

theorem removeDeps_spec (t : Nat) : ∀ (os : List Nat) (s : State) (u : Nat),
    removeDeps t os s u = { s u with deps := (removeDeps t os s u).deps } ∧
    (∀ v, v ≠ t → v ∈ (s u).deps → v ∈ (removeDeps t os s u).deps)
  | [], s, u => ⟨rfl, fun _ _ h => h⟩
  | o :: os, s, u => by
    obtain ⟨h1, h2⟩ := removeDeps_spec t os (set s o { s o with deps := removeDep (s o).deps t }) u
    unfold removeDeps
    refine ⟨?_, ?_⟩
    · by_cases hu : u = o
      · subst hu; rw [set_same] at h1; exact h1
      · rw [set_ne _ _ hu] at h1; exact h1
    · intro v hvt hv
      apply h2 v hvt
      by_cases hu : u = o
      · subst hu; rw [set_same]; exact mem_removeDep hv hvt
      · rw [set_ne _ _ hu]; exact hv

/-- What the comparison with the old assignment does. -/
theorem retire_spec (s : State) (t : Nat) (a : Assign) :
    (∀ u, u ≠ t → retire s t a u = { s u with deps := (retire s t a u).deps }) ∧
    retire s t a t = { s t with needsCompile := (retire s t a t).needsCompile,
                                deps := (retire s t a t).deps } ∧
    ((retire s t a t).needsCompile = false → (s t).needsCompile = false ∧ (s t).assign = some a) ∧
    (∀ u v, v ≠ t → v ∈ (s u).deps → v ∈ (retire s t a u).deps) := by
  unfold retire
  split
  · rename_i ha
    exact ⟨fun _ _ => rfl, rfl, fun h => ⟨h, ha⟩, fun _ _ _ h => h⟩
  · have hw : ∀ u, unwait s t u = { s u with deps := (unwait s t u).deps } ∧
        (∀ v, v ≠ t → v ∈ (s u).deps → v ∈ (unwait s t u).deps) := by
      intro u
      unfold unwait
      split
      · exact removeDeps_spec t _ s u
      · exact ⟨rfl, fun _ _ h => h⟩
    refine ⟨?_, ?_, ?_, ?_⟩
    · intro u hu; rw [set_ne _ _ hu]; exact (hw u).1
    · rw [set_same, (hw t).1]
    · rw [set_same]; intro h; cases h
    · intro u v hv hm
      by_cases hu : u = t
      · subst hu; rw [set_same]; exact (hw u).2 v hv hm
      · rw [set_ne _ _ hu]; exact (hw u).2 v hv hm

theorem assignTo_spec (s : State) (t : Nat) (a : Assign) : Assigned s (assignTo s t a) t a := by
  unfold assignTo
  simp only
  generalize hs1 : set s t { s t with needsPack := false } = s1
  have e1 : ∀ u, u ≠ t → s1 u = s u := fun u hu => by rw [← hs1, set_ne _ _ hu]
  have t1 : s1 t = { s t with needsPack := false } := by rw [← hs1, set_same]
  obtain ⟨r1, r2, r3, r4⟩ := retire_spec s1 t a
  generalize hs2 : retire s1 t a = s2 at *
  generalize hs3 : set s2 t { s2 t with needsAssemble := true, needsCompute := true } = s3
  have e3 : ∀ u, u ≠ t → s3 u = s2 u := fun u hu => by rw [← hs3, set_ne _ _ hu]
  have t3 : s3 t = { s2 t with needsAssemble := true, needsCompute := true } := by
    rw [← hs3, set_same]
  have d := addDeps_spec t (operands (some a)) s3
  generalize hs4 : addDeps t (operands (some a)) s3 = s4 at *
  have d1 : ∀ u, (s1 u).deps = (s u).deps := by
    intro u; by_cases hu : u = t
    · subst hu; rw [t1]
    · rw [e1 u hu]
  have d3 : ∀ u, (s3 u).deps = (s2 u).deps := by
    intro u; by_cases hu : u = t
    · subst hu; rw [t3]
    · rw [e3 u hu]
  have d5 : ∀ u, (set s4 t { s4 t with assign := some a } u).deps = (s4 u).deps := by
    intro u; by_cases hu : u = t
    · subst hu; rw [set_same]
    · rw [set_ne _ _ hu]
  refine ⟨?_, ?_, ?_, ?_, ?_⟩
  · intro u hu
    rw [set_ne _ _ hu, (d u).1, e3 u hu, r1 u hu, e1 u hu]
  · rw [set_same, (d t).1, t3, r2, t1]
  · rw [set_same]
    show (s4 t).needsCompile = false → _
    rw [(d t).1, t3]
    show (s2 t).needsCompile = false → _
    intro h
    obtain ⟨q1, q2⟩ := r3 h
    rw [t1] at q1 q2
    exact ⟨q1, q2⟩
  · intro u v hv hm
    rw [d5]
    apply (d u).2.1
    rw [d3]
    apply r4 u v hv
    rw [d1]; exact hm
  · intro o ho
    rw [d5]
    exact (d o).2.2 (mem_operands.mpr ho)

theorem assignScalarTo_spec (s : State) (t : Nat) (a : Assign) :
    Assigned s (assignScalarTo s t a) t a := by
  unfold assignScalarTo
  simp only
  have d := addDeps_spec t (operands (some a)) s
  generalize hs1 : addDeps t (operands (some a)) s = s1 at *
  generalize hs2 : set s1 t { s1 t with needsPack := false } = s2
  have e2 : ∀ u, u ≠ t → s2 u = s1 u := fun u hu => by rw [← hs2, set_ne _ _ hu]
  have t2 : s2 t = { s1 t with needsPack := false } := by rw [← hs2, set_same]
  generalize hs3 : (if (s2 t).assign = some a then s2
    else set s2 t { s2 t with needsCompile := true }) = s3
  have e3 : ∀ u, u ≠ t → s3 u = s2 u := by
    intro u hu; rw [← hs3]; split
    · rfl
    · rw [set_ne _ _ hu]
  have t3 : s3 t = { s2 t with needsCompile := (s3 t).needsCompile } ∧
      ((s3 t).needsCompile = false → (s2 t).needsCompile = false ∧ (s2 t).assign = some a) := by
    rw [← hs3]; split
    · rename_i h; exact ⟨rfl, fun h' => ⟨h', h⟩⟩
    · rw [set_same]; exact ⟨rfl, fun h' => by cases h'⟩
  have hd : ∀ u, (set s3 t { s3 t with
      needsAssemble := true, needsCompute := true, assign := some a } u).deps = (s1 u).deps := by
    intro u; by_cases hu : u = t
    · subst hu; rw [set_same, t3.1, t2]
    · rw [set_ne _ _ hu, e3 u hu, e2 u hu]
  refine ⟨?_, ?_, ?_, ?_, ?_⟩
  · intro u hu
    rw [set_ne _ _ hu, e3 u hu, e2 u hu]; exact (d u).1
  · rw [set_same, t3.1, t2, (d t).1]
  · rw [set_same]
    intro h
    obtain ⟨q1, q2⟩ := t3.2 h
    rw [t2, (d t).1] at q1 q2
    exact ⟨q1, q2⟩
  · intro u v _ hm
    rw [hd]; exact (d u).2.1 v hm
  · intro o ho
    rw [hd]; exact (d o).2.2 (mem_operands.mpr ho)

/-! ### Histories -/

theorem step_ok {fuel : Nat} (hf : clk + 1 ≤ fuel) {s : State} (h : Inv sem σ τ clk s none')
    (op : Op) (hop : Fine s op) :
    ∃ s' o τ' clk', step sem fuel s op = some (s', o) ∧
      Inv sem (eagerStep sem σ op) τ' clk' s' none' ∧ clk' ≤ clk + 1 ∧
      (∀ t, op = .read t → o = .value (σ t)) ∧ (∀ v, o = .value v → ∃ t, op = .read t) ∧
      (∀ u a, (s' u).assign = some a → (s u).assign ≠ none ∨ op = .assign u a ∨
        op = .assignScalar u a) := by
  have stay : ∀ {s s' : State}, (∀ u, (s' u).assign = (s u).assign) →
      ∀ (P Q : Nat → Assign → Prop) u a, (s' u).assign = some a →
        (s u).assign ≠ none ∨ P u a ∨ Q u a := by
    intro s s' he P Q u a ha
    left; rw [← he, ha]; simp
  cases op with
  | insert t c v =>
    obtain ⟨s1, e1, i1, hno, ha, hg⟩ := syncDependents_ok hf h t
    have hgood : Good (s t) := by
      rcases hop with hop | hop
      · exact (h t).fresh hop
      · exact hop
    refine ⟨_, _, τ, clk, by simp only [step, e1]; rfl, insert_ok i1 hno (hg hgood), by omega,
      (by intro t h; cases h), (by intro v h; cases h), stay ?_ _ _⟩
    intro u
    by_cases hu : u = t
    · subst hu; rw [set_same]; exact ha u
    · rw [set_ne _ _ hu]; exact ha u
  | assign t a =>
    obtain ⟨s1, e1, i1, hno, ha, _⟩ := syncDependents_ok hf h t
    refine ⟨_, _, _, clk + 1, by simp only [step, e1]; rfl,
      assign_ok i1 hno hop (assignTo_spec s1 t a), Nat.le_refl _,
      (by intro t h; cases h), (by intro v h; cases h), ?_⟩
    intro u b hb
    by_cases hu : u = t
    · subst hu
      rw [(assignTo_spec s1 u a).self] at hb
      right; left; rw [Option.some.inj hb]
    · rw [(assignTo_spec s1 t a).other u hu] at hb
      left; rw [← ha]; simp only at hb; rw [hb]; simp
  | assignScalar t a =>
    obtain ⟨s1, e1, i1, hno, ha, _⟩ := syncDependents_ok hf h t
    refine ⟨_, _, _, clk + 1, by simp only [step, e1]; rfl,
      assign_ok i1 hno hop (assignScalarTo_spec s1 t a), Nat.le_refl _,
      (by intro t h; cases h), (by intro v h; cases h), ?_⟩
    intro u b hb
    by_cases hu : u = t
    · subst hu
      rw [(assignScalarTo_spec s1 u a).self] at hb
      right; right; rw [Option.some.inj hb]
    · rw [(assignScalarTo_spec s1 t a).other u hu] at hb
      left; rw [← ha]; simp only at hb; rw [hb]; simp
  | pack t =>
    refine ⟨pack s t, .done, τ, clk, rfl, ?_, by omega, (by intro t h; cases h),
      (by intro v h; cases h), stay ?_ _ _⟩
    · cases hp : (s t).needsPack with
      | true => exact (pack_ok (b := 0) h (fun x => x) hp).1
      | false =>
        have : pack s t = s := by unfold pack; simp [hp]
        rw [this]; exact h
    · intro u; unfold pack; split
      · by_cases hu : u = t
        · subst hu; rw [set_same]
        · rw [set_ne _ _ hu]
      · rfl
  | compile t =>
    cases ha : (s t).assign with
    | none =>
      exact ⟨s, .error, τ, clk, by simp [step, ha], h, by omega, (by intro t h; cases h),
        (by intro v h; cases h), stay (fun _ => rfl) _ _⟩
    | some a =>
      exact ⟨compile s t, .done, τ, clk, by simp [step, ha], compile_ok h, by omega,
        (by intro t h; cases h), (by intro v h; cases h),
        stay (fun u => (compile_fields s t u).2.2.1) _ _⟩
  | assemble t =>
    cases hk : (s t).needsCompile with
    | true =>
      exact ⟨s, .error, τ, clk, by simp [step, hk], h, by omega, (by intro t h; cases h),
        (by intro v h; cases h), stay (fun _ => rfl) _ _⟩
    | false =>
      cases hna : (s t).needsAssemble with
      | false =>
        exact ⟨s, .done, τ, clk, by simp [step, hk, assemble, hna], h, by omega,
          (by intro t h; cases h), (by intro v h; cases h), stay (fun _ => rfl) _ _⟩
      | true =>
        have hc := (h t).asmf hna
        have ht := (h t).time (Or.inl hc)
        obtain ⟨s1, e1, i1, _, _, _, _, _, as1, _, _⟩ := assemble_ok (b := clk) h
          (fun _ hx => hx.elim) hc ht hk (syncN_ok fuel (τ t) (by omega))
        exact ⟨s1, .done, τ, clk, by simp [step, hk, e1], i1, by omega,
          (by intro t h; cases h), (by intro v h; cases h), stay as1 _ _⟩
  | compute t =>
    cases hk : (s t).needsCompile with
    | true =>
      exact ⟨s, .error, τ, clk, by simp [step, hk], h, by omega, (by intro t h; cases h),
        (by intro v h; cases h), stay (fun _ => rfl) _ _⟩
    | false =>
      cases hc : (s t).needsCompute with
      | false =>
        exact ⟨s, .done, τ, clk, by simp [step, hk, compute, hc], h, by omega,
          (by intro t h; cases h), (by intro v h; cases h), stay (fun _ => rfl) _ _⟩
      | true =>
        have hna : (s t).needsAssemble = false := by
          rcases hop with hop | hop | hop
          · rw [hk] at hop; cases hop
          · rw [hc] at hop; cases hop
          · exact hop
        have ht := (h t).time (Or.inl hc)
        obtain ⟨s1, e1, i1, _, _, _, _, as1, _, _⟩ := compute_ok (b := clk) h (fun x => x)
          (fun _ hx => hx.elim) hc ht hk hna (syncN_ok fuel (τ t) (by omega))
        exact ⟨s1, .done, τ, clk, by simp [step, hk, e1], i1, by omega,
          (by intro t h; cases h), (by intro v h; cases h), stay as1 _ _⟩
  | evaluate t =>
    cases ha : (s t).assign with
    | none =>
      exact ⟨s, .error, τ, clk, by simp [step, ha], h, by omega, (by intro t h; cases h),
        (by intro v h; cases h), stay (fun _ => rfl) _ _⟩
    | some a =>
      obtain ⟨f1, f2, f3, f4, f5⟩ := compile_fields s t t
      have i0 := compile_ok (t := t) h
      cases hc : (s t).needsCompute with
      | false =>
        have hc0 : (compile s t t).needsCompute = false := by rw [f1]; exact hc
        have hna : (compile s t t).needsAssemble = false := by
          cases hna : (compile s t t).needsAssemble with
          | false => rfl
          | true => rw [(i0 t).asmf hna] at hc0; cases hc0
        exact ⟨compile s t, .done, τ, clk,
          by simp [step, ha, assemble, compute, f5, hna, hc0], i0, by omega,
          (by intro t h; cases h), (by intro v h; cases h),
          stay (fun u => (compile_fields s t u).2.2.1) _ _⟩
      | true =>
        have ht := (h t).time (Or.inl hc)
        have hs : SyncOk sem σ τ clk (syncN sem fuel) (τ t) := syncN_ok fuel (τ t) (by omega)
        obtain ⟨s1, e1, i1, c1, k1, n1, _, _, as1, _, _⟩ := assemble_ok (b := clk) i0
          (fun _ hx => hx.elim) (by rw [f1]; exact hc) ht f5 hs
        obtain ⟨s2, e2, i2, _, _, _, _, as2, _, _⟩ := compute_ok (b := clk) i1 (fun x => x)
          (fun _ hx => hx.elim) c1 ht k1 n1 hs
        exact ⟨s2, .done, τ, clk, by simp [step, ha, e1, e2], i2, by omega,
          (by intro t h; cases h), (by intro v h; cases h),
          stay (fun u => by rw [as2, as1, (compile_fields s t u).2.2.1]) _ _⟩
  | read t =>
    obtain ⟨s1, e1, i1, l1, c1, p1⟩ := syncN_ok fuel clk hf s none' t h (fun x => x)
      (fun _ hx => hx.elim) (fun hc => (h t).time (Or.inl hc))
    refine ⟨s1, .value (s1 t).store, τ, clk, by simp [step, e1], i1, by omega, ?_, ?_,
      stay (fun u => (l1 u).assign) _ _⟩
    · intro t' ht'
      injection ht' with ht'
      subst ht'
      rw [(i1 t).clean (fun x => x) c1 p1]
    · intro _ _; exact ⟨t, rfl⟩
  | destroy t => exact hop.elim
  | setStorage t v => exact hop.elim

theorem Inv.start : Inv sem (fun _ _ => 0) (fun _ => 0) 0 initial none' := by
  intro t
  refine ⟨rfl, ?_, ?_, ?_, ?_, ?_, ?_, ?_⟩
  · intro h; cases h
  · intro _ h; exact absurd rfl h
  · intro _ _ _; rfl
  · intro _ _ h; cases h
  · intro h; rcases h with h | h
    · cases h
    · exact h.elim
  · intro _; exact ⟨rfl, Or.inl rfl⟩
  · intro h; cases h

theorem reads_cons (o : Out) (os : List Out) :
    reads (o :: os) = (match o with | .value v => [v] | _ => []) ++ reads os := by
  cases o <;> rfl

theorem run_ok {fuel : Nat} : ∀ (ops : List Op) (σ : Nat → Val) (τ : Nat → Nat) (clk : Nat)
    (s : State), clk + ops.length + 1 ≤ fuel → Inv sem σ τ clk s none' →
    AllFine sem fuel s ops →
    ∃ s' outs, run sem fuel s ops = some (s', outs) ∧ reads outs = eagerReads sem σ ops
  | [], σ, τ, clk, s, _, _, _ => ⟨s, [], rfl, rfl⟩
  | op :: ops, σ, τ, clk, s, hf, h, hop => by
    simp only [List.length_cons] at hf
    obtain ⟨s1, o, τ', clk', e1, i1, hclk, hread, hval, _⟩ :=
      step_ok (sem := sem) (fuel := fuel) (by omega) h op hop.1
    obtain ⟨s2, outs, e2, r2⟩ := run_ok ops _ τ' clk' s1 (by omega) i1 (hop.2 s1 o e1)
    refine ⟨s2, o :: outs, by simp [run, e1, e2], ?_⟩
    rw [reads_cons, r2]
    cases op <;> first
      | (rw [hread _ rfl]; rfl)
      | (cases o <;> first
          | rfl
          | (obtain ⟨t, ht⟩ := hval _ rfl; cases ht))

theorem plain_fine {fuel : Nat} : ∀ (ops : List Op) (σ : Nat → Val) (τ : Nat → Nat) (clk : Nat)
    (s : State) (as : List Nat), clk + ops.length + 1 ≤ fuel → Inv sem σ τ clk s none' →
    (∀ u, (s u).assign ≠ none → u ∈ as) → Plain as ops → AllFine sem fuel s ops
  | [], σ, τ, clk, s, as, _, _, _, _ => trivial
  | op :: ops, σ, τ, clk, s, as, hf, h, has, hp => by
    simp only [List.length_cons] at hf
    have key : ∀ as', Fine s op → (∀ u, u ∈ as → u ∈ as') →
        (∀ u a, op = .assign u a ∨ op = .assignScalar u a → u ∈ as') → Plain as' ops →
        AllFine sem fuel s (op :: ops) := by
      intro as' hfine hsub hnew hpl
      refine ⟨hfine, ?_⟩
      intro s' o hs'
      obtain ⟨s1, o1, τ', clk', e1, i1, hclk, _, _, ha⟩ := step_ok (sem := sem) (fuel := fuel) (by omega) h op hfine
      rw [e1] at hs'
      injection hs' with hs'
      injection hs' with h1 h2
      subst h1
      refine plain_fine ops _ τ' clk' s1 as' (by omega) i1 ?_ hpl
      intro u hu
      cases hb : (s1 u).assign with
      | none => exact absurd hb hu
      | some b =>
        rcases ha u b hb with q | q
        · exact hsub u (has u q)
        · exact hnew u b q
    cases op with
    | insert t c v =>
      refine key as (Or.inl ?_) (fun _ h => h) (by intro u a h; rcases h with h | h <;> cases h) hp.2
      cases hb : (s t).assign with
      | none => rfl
      | some b => exact absurd (has t (by rw [hb]; simp)) hp.1
    | assign t a =>
      refine key (t :: as) hp.1 (fun _ h => List.mem_cons_of_mem _ h) ?_ hp.2
      intro u b h; rcases h with h | h
      · injection h with h1; subst h1; exact List.mem_cons_self
      · cases h
    | assignScalar t a =>
      refine key (t :: as) hp.1 (fun _ h => List.mem_cons_of_mem _ h) ?_ hp.2
      intro u b h; rcases h with h | h
      · cases h
      · injection h with h1; subst h1; exact List.mem_cons_self
    | pack t => exact key as trivial (fun _ h => h) (by intro u a h; rcases h with h | h <;> cases h) hp
    | compile t => exact key as trivial (fun _ h => h) (by intro u a h; rcases h with h | h <;> cases h) hp
    | assemble t => exact key as trivial (fun _ h => h) (by intro u a h; rcases h with h | h <;> cases h) hp
    | evaluate t => exact key as trivial (fun _ h => h) (by intro u a h; rcases h with h | h <;> cases h) hp
    | read t => exact key as trivial (fun _ h => h) (by intro u a h; rcases h with h | h <;> cases h) hp
    | compute t => exact hp.elim
    | destroy t => exact hp.elim
    | setStorage t v => exact hp.elim

end

end Verif.Lazy
