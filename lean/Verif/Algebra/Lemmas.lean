import Verif.Algebra.Spec
/-
Helper lemmas about the De Morgan rewriting, the property scans, the inferred
iteration space and loop nests.
-/
namespace Verif.Algebra

/-! ### De Morgan -/

mutual

theorem mem_applier (R : Nat → Prop) : ∀ a, Mem R (applier a) ↔ ¬ Mem R a
  | .region n => by simp [applier, Mem]
  | .compl a => by simp only [applier, Mem]; rw [mem_dispatch R a]; simp [Classical.not_not]
  | .inter a b => by
    simp only [applier, Mem, mem_applier R a, mem_applier R b]
    exact Classical.not_and_iff_not_or_not.symm
  | .union a b => by
    simp only [applier, Mem, mem_applier R a, mem_applier R b]
    exact not_or.symm

theorem mem_dispatch (R : Nat → Prop) : ∀ a, Mem R (dispatch a) ↔ Mem R a
  | .region n => by simp [dispatch]
  | .compl a => by simp only [dispatch, Mem, mem_applier R a]
  | .inter a b => by simp only [dispatch, Mem, mem_dispatch R a, mem_dispatch R b]
  | .union a b => by simp only [dispatch, Mem, mem_dispatch R a, mem_dispatch R b]

end

mutual

theorem normal_applier : ∀ a, Normal (applier a)
  | .region n => by simp [applier, Normal]
  | .compl a => by simp only [applier]; exact normal_dispatch a
  | .inter a b => by simp only [applier, Normal]; exact ⟨normal_applier a, normal_applier b⟩
  | .union a b => by simp only [applier, Normal]; exact ⟨normal_applier a, normal_applier b⟩

theorem normal_dispatch : ∀ a, Normal (dispatch a)
  | .region n => by simp [dispatch, Normal]
  | .compl a => by simp only [dispatch]; exact normal_applier a
  | .inter a b => by simp only [dispatch, Normal]; exact ⟨normal_dispatch a, normal_dispatch b⟩
  | .union a b => by simp only [dispatch, Normal]; exact ⟨normal_dispatch a, normal_dispatch b⟩

end

/-! ### Property scans -/

section
variable {V : Type} [DecidableEq V]

theorem declared_of_pos {p : Decl V} {n i : Nat} (h : i ∈ p.pos n) : Declared p i := by
  unfold Decl.pos at h
  split at h
  · rename_i he; exact Or.inl (List.isEmpty_iff.mp he)
  · exact Or.inr h

theorem annScan_some {a : V} {args : List (Arg V)} {e : Arg V} :
    ∀ {ps : List Nat}, annScan a args ps = some (some e) →
      e = .lit a ∧ ∃ i ∈ ps, args[i]? = some (.lit a)
  | [], h => by simp [annScan] at h
  | i :: rest, h => by
    unfold annScan at h
    split at h
    · cases h
    · rename_i x hx
      split at h
      · rename_i he
        subst he
        have : e = .lit a := by simpa using h.symm
        exact ⟨this, i, List.mem_cons_self, hx⟩
      · obtain ⟨h1, j, hj, h2⟩ := annScan_some h
        exact ⟨h1, j, List.mem_cons_of_mem _ hj, h2⟩

theorem annScan_none {a : V} {args : List (Arg V)} :
    ∀ {ps : List Nat}, annScan a args ps = some none →
      ∀ i ∈ ps, ∃ e, args[i]? = some e ∧ e ≠ .lit a
  | [], _ => by simp
  | i :: rest, h => by
    unfold annScan at h
    split at h
    · cases h
    · rename_i x hx
      split at h
      · simp at h
      · rename_i hne
        intro j hj
        rcases List.mem_cons.mp hj with rfl | hj
        · exact ⟨x, hx, hne⟩
        · exact annScan_none h j hj

/-- After the identity scan: with count 0 all looked-at arguments are the identity;
with count 1 exactly one is not. -/
theorem idScan_zero {e : V} {args : List (Arg V)} :
    ∀ {ps : List Nat} {t r}, idScan e args ps 0 t = some (0, r) →
      ∀ i ∈ ps, args[i]? = some (.lit e)
  | [], _, _, _ => by simp
  | i :: rest, t, r, h => by
    unfold idScan at h
    split at h
    · cases h
    · rename_i x hx
      split at h
      · rename_i he
        subst he
        intro j hj
        rcases List.mem_cons.mp hj with rfl | hj
        · exact hx
        · exact idScan_zero h j hj
      · simp only [if_true] at h
        exact absurd h (by
          intro h
          have := idScan_ge h
          omega)
where
  idScan_ge {e : V} {args : List (Arg V)} :
      ∀ {ps : List Nat} {k t m r}, idScan e args ps k t = some (m, r) → k ≤ m ∨ 2 ≤ m
    | [], k, t, m, r, h => by simp [idScan] at h; omega
    | i :: rest, k, t, m, r, h => by
      unfold idScan at h
      split at h
      · cases h
      · split at h
        · exact idScan_ge h
        · split at h
          · have := idScan_ge h; omega
          · simp at h; omega

theorem idScan_done {e : V} {args : List (Arg V)} :
    ∀ {ps : List Nat} {t r}, idScan e args ps 1 t = some (1, r) →
      r = t ∧ ∀ i ∈ ps, args[i]? = some (.lit e)
  | [], t, r, h => by simp [idScan] at h; simp [h]
  | i :: rest, t, r, h => by
    unfold idScan at h
    split at h
    · cases h
    · rename_i x hx
      split at h
      · rename_i he
        subst he
        obtain ⟨h1, h2⟩ := idScan_done h
        refine ⟨h1, ?_⟩
        intro j hj
        rcases List.mem_cons.mp hj with rfl | hj
        · exact hx
        · exact h2 j hj
      · simp at h

theorem idScan_one {e : V} {args : List (Arg V)} :
    ∀ {ps : List Nat} {t r}, ps.Nodup → idScan e args ps 0 t = some (1, r) →
      ∃ k x, k ∈ ps ∧ args[k]? = some x ∧ r = some x ∧
        ∀ i ∈ ps, i ≠ k → args[i]? = some (.lit e)
  | [], t, r, _, h => by simp [idScan] at h
  | i :: rest, t, r, hnd, h => by
    unfold idScan at h
    split at h
    · cases h
    · rename_i x hx
      have hnd' := List.nodup_cons.mp hnd
      split at h
      · rename_i he
        subst he
        obtain ⟨k, y, hk, h1, h2, h3⟩ := idScan_one hnd'.2 h
        refine ⟨k, y, List.mem_cons_of_mem _ hk, h1, h2, ?_⟩
        intro j hj hjk
        rcases List.mem_cons.mp hj with rfl | hj
        · exact hx
        · exact h3 j hj hjk
      · simp only [if_true] at h
        obtain ⟨h1, h2⟩ := idScan_done h
        refine ⟨i, x, List.mem_cons_self, hx, h1, ?_⟩
        intro j hj hjk
        rcases List.mem_cons.mp hj with rfl | hj
        · exact absurd rfl hjk
        · exact h2 j hj

theorem idScan_range {e : V} {args : List (Arg V)} :
    ∀ {ps : List Nat} {k t m r}, idScan e args ps k t = some (m, r) → m ≤ 1 →
      ∀ i ∈ ps, i < args.length
  | [], _, _, _, _, _, _ => by simp
  | i :: rest, k, t, m, r, h, hm => by
    unfold idScan at h
    split at h
    · cases h
    · rename_i x hx
      have hi : i < args.length := (List.getElem?_eq_some_iff.mp hx).1
      have hrest : ∀ j ∈ rest, j < args.length := by
        split at h
        · exact idScan_range h hm
        · split at h
          · exact idScan_range h hm
          · simp at h; omega
      intro j hj
      rcases List.mem_cons.mp hj with rfl | hj
      · exact hi
      · exact hrest j hj

theorem length_le_of_nodup {l : List Nat} : ∀ {m : List Nat}, l.Nodup → (∀ x ∈ l, x ∈ m) →
    l.length ≤ m.length := by
  induction l with
  | nil => intro m _ _; simp
  | cons a l ih =>
    intro m hn hm
    have hn' := List.nodup_cons.mp hn
    have ha : a ∈ m := hm a List.mem_cons_self
    have := ih (m := m.erase a) hn'.2 (by
      intro x hx
      have hxa : x ≠ a := fun h => hn'.1 (h ▸ hx)
      exact (List.mem_erase_of_ne hxa).mpr (hm x (List.mem_cons_of_mem _ hx)))
    have hlen := List.length_erase_of_mem ha
    have hpos : 0 < m.length := List.length_pos_of_mem ha
    simp only [List.length_cons]
    omega

theorem length_le_bound {ps : List Nat} {n : Nat} (hnd : ps.Nodup) (hlt : ∀ i ∈ ps, i < n) :
    ps.length ≤ n := by
  have := length_le_of_nodup (m := List.range n) hnd (fun x hx => List.mem_range.mpr (hlt x hx))
  simpa using this

/-- Distinct numbers below `n`, as many as there are, are all of them. -/
theorem mem_of_full {ps : List Nat} {n : Nat} (hnd : ps.Nodup) (hlt : ∀ i ∈ ps, i < n)
    (hlen : n ≤ ps.length) {i : Nat} (hi : i < n) : i ∈ ps := by
  apply Classical.byContradiction
  intro hni
  have := length_le_bound (ps := i :: ps) (n := n) (List.nodup_cons.mpr ⟨hni, hnd⟩) (by
    intro x hx
    rcases List.mem_cons.mp hx with rfl | hx
    · exact hi
    · exact hlt x hx)
  simp at this
  omega

theorem pos_nodup {p : Decl V} (h : p.positions.Nodup) (n : Nat) : (p.pos n).Nodup := by
  unfold Decl.pos
  split
  · exact List.nodup_range
  · exact h

/-- Evaluating rewritten arguments gives what the arguments evaluate to. -/
theorem argVal_zeroArg {zero : V} {ex : Nat → Bool} {env : Nat → V}
    (h : ∀ n, ex n = true → env n = zero) (a : Arg V) :
    argVal env (zeroArg zero ex a) = argVal env a := by
  cases a with
  | lit v => rfl
  | expr n =>
    simp only [zeroArg]
    split
    · rename_i hn; exact (h n hn).symm
    · rfl

/-! ### Inferred iteration spaces -/

theorem mem_foldl_inter (R : Nat → Prop) : ∀ (l : List Nat) (a : Alg),
    Mem R (l.foldl (fun a m => .inter a (.region m)) a) ↔ Mem R a ∧ ∀ m ∈ l, R m
  | [], a => by simp
  | m :: l, a => by
    simp only [List.foldl_cons, mem_foldl_inter R l, Mem, List.mem_cons, forall_eq_or_imp]
    exact and_assoc

theorem mem_foldl_union (R : Nat → Prop) : ∀ (l : List Nat) (a : Alg),
    Mem R (l.foldl (fun a m => .union a (.region m)) a) ↔ Mem R a ∨ ∃ m ∈ l, R m
  | [], a => by simp
  | m :: l, a => by
    simp only [List.foldl_cons, mem_foldl_union R l, Mem, List.mem_cons, exists_eq_or_imp]
    exact or_assoc

theorem mem_foldAlg_inter {R : Nat → Prop} {l : List Nat} {a : Alg}
    (h : foldAlg .inter l = some a) : Mem R a ↔ ∀ m ∈ l, R m := by
  cases l with
  | nil => cases h
  | cons n l =>
    simp only [foldAlg, Option.some.injEq] at h
    subst h
    rw [mem_foldl_inter]
    simp [Mem]

theorem mem_foldAlg_union {R : Nat → Prop} {l : List Nat} {a : Alg}
    (h : foldAlg .union l = some a) : Mem R a ↔ ∃ m ∈ l, R m := by
  cases l with
  | nil => cases h
  | cons n l =>
    simp only [foldAlg, Option.some.injEq] at h
    subst h
    rw [mem_foldl_union]
    simp [Mem]

theorem toIntersect_mem {a : V} {fills : List (Option V)} :
    ∀ {ps l : List Nat}, toIntersect a fills ps = some l →
      ∀ i, i ∈ l ↔ i ∈ ps ∧ fills[i]? = some (some a)
  | [], l, h => by simp [toIntersect] at h; subst h; simp
  | j :: ps, l, h => by
    unfold toIntersect at h
    split at h
    · cases h
    · rename_i f hf
      obtain ⟨l', hl', rfl⟩ := Option.map_eq_some_iff.mp h
      have ih := toIntersect_mem hl'
      intro i
      split
      · rename_i hfa
        subst hfa
        rw [List.mem_cons, List.mem_cons, ih]
        constructor
        · rintro (rfl | ⟨h1, h2⟩)
          · exact ⟨Or.inl rfl, hf⟩
          · exact ⟨Or.inr h1, h2⟩
        · rintro ⟨rfl | h1, h2⟩
          · exact Or.inl rfl
          · exact Or.inr ⟨h1, h2⟩
      · rename_i hfa
        rw [ih, List.mem_cons]
        constructor
        · rintro ⟨h1, h2⟩; exact ⟨Or.inr h1, h2⟩
        · rintro ⟨rfl | h1, h2⟩
          · rw [hf] at h2; exact absurd (by simpa using h2) hfa
          · exact ⟨h1, h2⟩

theorem mem_defaultAlg {R : Nat → Prop} {n : Nat} {a : Alg} (h : defaultAlg n = some a) :
    Mem R a := by
  obtain ⟨t, _, rfl⟩ := Option.map_eq_some_iff.mp h
  exact Classical.em _

/-! ### Loop nests -/

theorem freeFirst_true {free : List Nat} :
    ∀ {vs : List Nat}, freeFirst free true vs = true → ∀ v ∈ vs, v ∉ free
  | [], _ => by simp
  | v :: vs, h => by
    unfold freeFirst at h
    split at h
    · simp at h
    · rename_i hv
      intro w hw
      rcases List.mem_cons.mp hw with rfl | hw
      · simpa using hv
      · exact freeFirst_true h w hw

theorem freeFirst_last {free : List Nat} :
    ∀ {vs : List Nat}, freeFirst free false vs = true → (∃ v ∈ vs, v ∉ free) →
      ∀ v, vs.getLast? = some v → v ∉ free
  | [], _, _ => by simp
  | v :: vs, h, hex => by
    unfold freeFirst at h
    split at h
    · rename_i hv
      simp only [Bool.false_eq_true, if_false] at h
      obtain ⟨w, hw, hwf⟩ := hex
      rcases List.mem_cons.mp hw with rfl | hw'
      · exact absurd (by simpa using hv) hwf
      · intro u hu
        have hne : vs ≠ [] := List.ne_nil_of_mem hw'
        rw [List.getLast?_cons_of_ne_nil hne] at hu
        exact freeFirst_last h ⟨w, hw', hwf⟩ u hu
    · rename_i hv
      intro u hu
      have : u ∈ v :: vs := List.mem_of_getLast? hu
      rcases List.mem_cons.mp this with rfl | hu'
      · simpa using hv
      · exact freeFirst_true h u hu'

theorem map_setVar {lhs : List Nat} {v : Nat} (h : v ∉ lhs) (env : Nat → Nat) (x : Nat) :
    lhs.map (setVar env v x) = lhs.map env := by
  apply List.map_congr_left
  intro w hw
  have : w ≠ v := fun he => h (he ▸ hw)
  simp [setVar, this]

theorem iterate_congr {S : Type} {b1 b2 : Nat → S → S × Bool} (h : ∀ x s, b1 x s = b2 x s) :
    ∀ n x s, iterate b1 n x s = iterate b2 n x s
  | 0, _, _ => rfl
  | n + 1, x, s => by
    unfold iterate
    rw [h x s]
    split
    · rfl
    · exact iterate_congr h n _ _

/-- Once the state does not change any more, the rest of the loop does not matter. -/
theorem iterate_stable {S : Type} {b : Nat → S → S × Bool} {s : S}
    (h : ∀ x, (b x s).1 = s) : ∀ n x, iterate b n x s = s
  | 0, _ => rfl
  | n + 1, x => by
    unfold iterate
    have hx := h x
    split
    · rename_i s' he; rw [he] at hx; exact hx
    · rename_i s' he
      rw [he] at hx
      simp only at hx
      subst hx
      exact iterate_stable h n _

theorem put_same (s : List Nat → V) (k : List Nat) (v : V) (h : s k = v) : put s k v = s := by
  funext k'
  unfold put
  split
  · rename_i he; rw [he, h]
  · rfl

/-- Two bodies with the same effect; the first breaks only when nothing can change. -/
theorem iterate_exit {S : Type} {b1 b2 : Nat → S → S × Bool}
    (h1 : ∀ x s, (b1 x s).1 = (b2 x s).1) (h2 : ∀ x s, (b2 x s).2 = false)
    (h3 : ∀ x s, (b1 x s).2 = true → ∀ y, (b2 y (b1 x s).1).1 = (b1 x s).1) :
    ∀ n x s, iterate b1 n x s = iterate b2 n x s
  | 0, _, _ => rfl
  | n + 1, x, s => by
    have e1 := h1 x s
    have e2 := h2 x s
    have e3 := h3 x s
    rw [iterate, iterate]
    rcases hb1 : b1 x s with ⟨s1, k1⟩
    rcases hb2 : b2 x s with ⟨s2, k2⟩
    rw [hb1, hb2] at e1
    rw [hb2] at e2
    rw [hb1] at e3
    simp only at e1 e2 e3
    subst e1 e2
    cases k1 with
    | true => exact (iterate_stable (e3 rfl) n _).symm
    | false => exact iterate_exit h1 h2 h3 n _ _

theorem stmt_none_snd (op : List V → V) (lhs : List Nat) (rhs : (Nat → Nat) → Option V)
    (env : Nat → Nat) (s : List Nat → V) : (stmt op none lhs rhs env s).2 = false := by
  unfold stmt
  split <;> simp

theorem stmt_fst (op : List V → V) (x y : Option V) (lhs : List Nat)
    (rhs : (Nat → Nat) → Option V) (env : Nat → Nat) (s : List Nat → V) :
    (stmt op x lhs rhs env s).1 = (stmt op y lhs rhs env s).1 := by
  unfold stmt
  split <;> rfl

/-- A location that holds the annihilator keeps it. -/
theorem stmt_stable {op : List V → V} {a : V} (ha : ∀ r, op [a, r] = a) {lhs : List Nat}
    {rhs : (Nat → Nat) → Option V} {env : Nat → Nat} {s : List Nat → V}
    (h : s (lhs.map env) = a) : (stmt op none lhs rhs env s).1 = s := by
  unfold stmt
  split
  · rfl
  · exact put_same _ _ _ (by rw [h, ha])

/-- After a break the location holds the annihilator. -/
theorem stmt_break {op : List V → V} {a : V} {lhs : List Nat}
    {rhs : (Nat → Nat) → Option V} {env : Nat → Nat} {s : List Nat → V}
    (h : (stmt op (some a) lhs rhs env s).2 = true) :
    (stmt op (some a) lhs rhs env s).1 (lhs.map env) = a := by
  unfold stmt at h ⊢
  split at h
  · cases h
  · simp only [decide_eq_true_eq, Option.some.injEq] at h
    simp [put, ← h]

/-- In the innermost loop a `break` on the annihilator changes nothing. -/
theorem inner_exit {op : List V → V} {a : V} (ha : ∀ r, op [a, r] = a) {lhs : List Nat}
    {rhs : (Nat → Nat) → Option V} {v : Nat} (hv : v ∉ lhs) (env : Nat → Nat) (n x : Nat)
    (s : List Nat → V) :
      iterate (fun x s => stmt op (some a) lhs rhs (setVar env v x) s) n x s =
        iterate (fun x s => stmt op none lhs rhs (setVar env v x) s) n x s := by
  apply iterate_exit
  · intro x s; exact stmt_fst ..
  · intro x s; exact stmt_none_snd ..
  · intro x s hb y
    have := stmt_break hb
    apply stmt_stable ha
    rw [map_setVar hv] at this ⊢
    exact this

theorem run_exit {op : List V → V} {a : V} (ha : ∀ r, op [a, r] = a) {lhs : List Nat}
    {rhs : (Nat → Nat) → Option V} :
    ∀ {loops : List (Nat × Nat)}, loops ≠ [] →
      (∀ v, (loops.map Prod.fst).getLast? = some v → v ∉ lhs) → ∀ env s,
      run op (some a) lhs rhs loops env s = run op none lhs rhs loops env s
  | [], h, _, _, _ => absurd rfl h
  | [(v, n)], _, hl, env, s => by
    have hv : v ∉ lhs := hl v (by simp)
    simp only [run]
    rw [inner_exit ha hv env]
  | (v, n) :: l :: rest, _, hl, env, s => by
    simp only [run]
    congr 1
    apply iterate_congr
    intro x s
    exact run_exit ha (loops := l :: rest) (by simp) (by
      intro w hw; apply hl w; simpa [List.getLast?_cons_cons] using hw) _ _

/-- One execution of the statement without early exit. -/
def step (op : List V → V) (lhs : List Nat) (rhs : (Nat → Nat) → Option V)
    (s : List Nat → V) (env : Nat → Nat) : List Nat → V :=
  (stmt op none lhs rhs env s).1

theorem run_none_snd (op : List V → V) (lhs : List Nat) (rhs : (Nat → Nat) → Option V)
    (loops : List (Nat × Nat)) (env : Nat → Nat) (s : List Nat → V) :
    (run op none lhs rhs loops env s).2 = false := by
  cases loops with
  | nil => exact stmt_none_snd ..
  | cons l rest => rfl

theorem iterate_noexit {S : Type} {b : Nat → S → S × Bool} (h : ∀ x s, (b x s).2 = false) :
    ∀ n x s, iterate b n x s = (List.range' x n).foldl (fun s x => (b x s).1) s
  | 0, _, _ => rfl
  | n + 1, x, s => by
    unfold iterate
    have hx := h x s
    split
    · rename_i s' he; rw [he] at hx; cases hx
    · rename_i s' he
      rw [iterate_noexit h n, List.range'_succ, List.foldl_cons, he]

theorem foldl_flatMap' {α β S : Type} (f : S → β → S) (g : α → List β) :
    ∀ (l : List α) (s : S),
      (l.flatMap g).foldl f s = l.foldl (fun s x => (g x).foldl f s) s
  | [], _ => rfl
  | a :: l, s => by
    rw [List.flatMap_cons, List.foldl_append, List.foldl_cons, foldl_flatMap' f g l]

theorem foldl_congr' {α S : Type} {f g : S → α → S} (h : ∀ s a, f s a = g s a) :
    ∀ (l : List α) (s : S), l.foldl f s = l.foldl g s
  | [], _ => rfl
  | a :: l, s => by rw [List.foldl_cons, List.foldl_cons, h, foldl_congr' h l]

theorem run_none (op : List V → V) (lhs : List Nat) (rhs : (Nat → Nat) → Option V) :
    ∀ (loops : List (Nat × Nat)) (env : Nat → Nat) (s : List Nat → V),
      (run op none lhs rhs loops env s).1 = (envs loops env).foldl (step op lhs rhs) s
  | [], _, _ => rfl
  | (v, n) :: rest, env, s => by
    simp only [run, envs]
    rw [iterate_noexit (fun x s => run_none_snd ..), foldl_flatMap', List.range_eq_range']
    exact foldl_congr' (fun s x => run_none op lhs rhs rest _ s) _ _

theorem foldl_step (op : List V → V) (lhs : List Nat) (rhs : (Nat → Nat) → Option V)
    (k : List Nat) : ∀ (es : List (Nat → Nat)) (s : List Nat → V),
      es.foldl (step op lhs rhs) s k =
        ((es.filter (fun env => lhs.map env = k)).filterMap rhs).foldl
          (fun acc r => op [acc, r]) (s k)
  | [], _ => rfl
  | env :: es, s => by
    rw [List.foldl_cons, foldl_step op lhs rhs k es]
    by_cases hk : lhs.map env = k
    · rw [List.filter_cons_of_pos (by simpa using hk)]
      cases hr : rhs env with
      | none => simp [hr, step, stmt]
      | some r => simp [hr, step, stmt, put, hk]
    · rw [List.filter_cons_of_neg (by simpa using hk)]
      cases hr : rhs env with
      | none => simp [hr, step, stmt]
      | some r => simp [hr, step, stmt, put, Ne.symm hk]

end

end Verif.Algebra
