import Verif.Refs.Lemmas
/-! Property C35. -/
namespace Verif.Refs

/-- Specification: a node is in use when a handle variable, or a handle in a node in use, refers to it. -/
inductive InUse (s : St) : Nat → Prop
  | var (v o : Nat) : readVar s v = some o → InUse s o
  | field (q : Nat) (n : Node) (o : Nat) : InUse s q → s.heap[q]? = some n → some o ∈ n.fields → InUse s o

/-- An assignment to `dst` from the handle at `src` is safe when a handle variable other than `dst`
keeps the node alive that holds the source handle (for a field) or that it refers to (for `dst`
itself). -/
def safeSrc (s : St) (dst : Nat) : Loc → Prop
  | .var v => v ≠ dst ∨ readVar s dst = none ∨ ∃ u, u ≠ dst ∧ readVar s u = readVar s dst
  | .field o _ => ∃ u, u ≠ dst ∧ readVar s u = some o

/-- Operations whose source handle exists and that do not assign a handle from something only it keeps
alive. -/
def safeOp (s : St) : Op → Prop
  | .copyConstruct (.field o _) => ∃ u, readVar s u = some o
  | .copyAssign dst src => safeSrc s dst src
  | .rawAssign dst src => safeSrc s dst src
  | _ => True

/-- Every operation is safe in the state it is executed in. -/
def safeRun : St → List Op → Prop
  | _, [] => True
  | s, o :: os => safeOp s o ∧ ∀ s', step s o = some s' → safeRun s' os

theorem Inv.vars {s : St} {extra : Nat → Nat} (h : Inv s extra) (V : List (Option Nat)) (extra' : Nat → Nat)
    (he : ∀ o, V.count (some o) + extra' o = s.vars.count (some o) + extra o) :
    Inv { s with vars := V } extra' :=
  ⟨fun o => by have := h.count o; have := he o; show V.count (some o) + fieldRefs s.heap o + extra' o = refOf s.heap o; omega,
   h.pos, h.back, h.log⟩

theorem Inv.congr {s : St} {e e' : Nat → Nat} (h : Inv s e) (he : ∀ o, e o = e' o) : Inv s e' :=
  ⟨fun o => by rw [← he o]; exact h.count o, h.pos, h.back, h.log⟩

theorem readVar_mem {s : St} {v o : Nat} (h : readVar s v = some o) : some o ∈ s.vars := by
  unfold readVar at h
  cases hv : s.vars[v]? with
  | none => rw [hv] at h; simp at h
  | some x => rw [hv] at h; simp at h; rw [h] at hv; exact List.mem_of_getElem? hv

theorem count_set (l : List (Option Nat)) (i : Nat) (x y : Option Nat) (z : Option Nat) (h : l[i]? = some y) :
    (l.set i x).count z + (if y = z then 1 else 0) = l.count z + (if x = z then 1 else 0) := by
  induction l generalizing i with
  | nil => simp at h
  | cons a l ih =>
    cases i with
    | zero =>
      simp at h
      subst h
      simp only [List.set_cons_zero, List.count_cons, beq_iff_eq]
      split <;> split <;> omega
    | succ i =>
      have := ih i (by simpa using h)
      simp only [List.set_cons_succ, List.count_cons]
      omega

theorem alive_of_var {s : St} {extra : Nat → Nat} (h : Inv s extra) {o : Nat} (hm : some o ∈ s.vars) :
    alive s.heap o := by
  apply alive_refOf
  rw [← h.count o]
  have := List.count_pos_iff.2 hm
  omega

theorem fieldRefs_pos {heap : List Node} {q o : Nat} {n : Node} (hn : heap[q]? = some n) (ha : n.alive = true)
    (hf : some o ∈ n.fields) : 0 < fieldRefs heap o := by
  have := sum_map_set (fun n : Node => if n.alive then n.fields.count (some o) else 0) heap q
    ⟨0, [], false⟩ n hn
  have hc := List.count_pos_iff.2 hf
  unfold fieldRefs
  simp only [ha, if_true] at this
  simp at this
  omega

theorem alive_of_field {s : St} {extra : Nat → Nat} (h : Inv s extra) {q o : Nat} {n : Node}
    (hn : s.heap[q]? = some n) (ha : n.alive = true) (hf : some o ∈ n.fields) : alive s.heap o := by
  apply alive_refOf
  rw [← h.count o]
  have := fieldRefs_pos hn ha hf
  omega

theorem fieldRefs_exists : ∀ (heap : List Node) (o : Nat), 0 < fieldRefs heap o →
    ∃ (q : Nat) (n : Node), heap[q]? = some n ∧ n.alive = true ∧ some o ∈ n.fields := by
  intro heap o
  induction heap with
  | nil => intro h; simp [fieldRefs] at h
  | cons n heap ih =>
    intro h
    have : fieldRefs (n :: heap) o = (if n.alive then n.fields.count (some o) else 0) + fieldRefs heap o := rfl
    rw [this] at h
    by_cases h0 : 0 < fieldRefs heap o
    · obtain ⟨q, m, h1, h2, h3⟩ := ih h0
      exact ⟨q + 1, m, by simpa using h1, h2, h3⟩
    · refine ⟨0, n, rfl, ?_⟩
      cases ha : n.alive with
      | false => rw [ha] at h; simp at h; omega
      | true =>
        rw [ha] at h
        simp only [if_true] at h
        exact ⟨rfl, List.count_pos_iff.1 (by omega)⟩

theorem acquire_spec {s : St} {extra : Nat → Nat} (h : Inv s extra) {p : Nat} (ha : alive s.heap p) :
    ∃ s', acquire s p = some s' ∧ Inv s' (fun o => extra o + if o = p then 1 else 0) ∧ s'.vars = s.vars ∧
      s'.heap.length = s.heap.length ∧ (∀ o, alive s.heap o → alive s'.heap o) := by
  obtain ⟨n, hn, hna⟩ := ha
  refine ⟨{ s with heap := s.heap.set p { n with ref := n.ref + 1 } }, ?_, ?_, rfl, by simp, ?_⟩
  · unfold acquire
    rw [hn]
    show (if n.alive = true then _ else none) = _
    rw [if_pos hna]
  · exact inv_setRef h hn hna (by omega) (by simp; omega) (by intro o ho; simp [ho])
  · intro o ho
    by_cases hop : o = p
    · subst hop; exact (alive_set_same hn).2 hna
    · exact (alive_set_ne (Ne.symm hop)).2 ho

theorem acquireOpt_spec {s : St} {extra : Nat → Nat} (h : Inv s extra) {p : Option Nat}
    (ha : ∀ q, p = some q → alive s.heap q) :
    ∃ s', acquireOpt s p = some s' ∧ Inv s' (fun o => extra o + if p = some o then 1 else 0) ∧
      s'.vars = s.vars ∧ s'.heap.length = s.heap.length ∧ (∀ o, alive s.heap o → alive s'.heap o) := by
  cases p with
  | none => exact ⟨s, rfl, h.congr (fun o => by simp), rfl, rfl, fun o ho => ho⟩
  | some q =>
    obtain ⟨s', h1, h2, h3, h4, h5⟩ := acquire_spec h (ha q rfl)
    refine ⟨s', h1, h2.congr ?_, h3, h4, h5⟩
    intro o
    by_cases ho : o = q
    · subst ho; simp
    · have : ¬ q = o := fun h => ho h.symm
      simp [ho, this]

theorem acquireOpt_vars (s : St) (V : List (Option Nat)) (p : Option Nat) :
    acquireOpt { s with vars := V } p = (acquireOpt s p).map (fun s1 => { s1 with vars := V }) := by
  cases p with
  | none => rfl
  | some p =>
    show acquire _ p = (acquire s p).map _
    unfold acquire
    show (match s.heap[p]? with | none => none | some n => _) = _
    cases s.heap[p]? with
    | none => rfl
    | some n => simp only; split <;> rfl

theorem releaseAll_vars : ∀ (fuel : Nat) (s : St) (V : List (Option Nat)) (ps : List Nat),
    releaseAll fuel { s with vars := V } ps = (releaseAll fuel s ps).map (fun s1 => { s1 with vars := V }) := by
  intro fuel
  induction fuel with
  | zero => intro s V ps; cases ps <;> rfl
  | succ fuel ih =>
    intro s V ps
    cases ps with
    | nil => rfl
    | cons p ps =>
      have hd : ∀ s : St, releaseAll (fuel + 1) s (p :: ps) = (match s.heap[p]? with
        | none => none
        | some n =>
          if n.alive then
            if n.ref = 1 then
              releaseAll fuel
                { s with heap := s.heap.set p { n with ref := 0, alive := false }, log := s.log ++ [p] }
                (n.fields.reverse.filterMap id ++ ps)
            else releaseAll fuel { s with heap := s.heap.set p { n with ref := n.ref - 1 } } ps
          else none) := fun _ => rfl
      rw [hd, hd]
      show (match s.heap[p]? with | none => none | some n => _) = _
      cases s.heap[p]? with
      | none => rfl
      | some n =>
        simp only
        split
        · split
          · exact ih { s with heap := s.heap.set p { n with ref := 0, alive := false }, log := s.log ++ [p] } V _
          · exact ih { s with heap := s.heap.set p { n with ref := n.ref - 1 } } V ps
        · rfl

/-- Releasing the node a handle variable refers to; the variable itself still has its old pointer. -/
theorem release_spec {s : St} (h : Inv s (fun _ => 0)) (v : Nat) :
    ∃ s1, release s (readVar s v) = some s1 ∧ s1.vars = s.vars ∧
      Inv { s1 with vars := s.vars.set v none } (fun _ => 0) ∧
      (∀ (o : Nat) (n : Node), s1.heap[o]? = some n → n.alive = true →
        ∃ m : Node, s.heap[o]? = some m ∧ m.alive = true ∧ m.fields = n.fields) := by
  cases hv : readVar s v with
  | none =>
    refine ⟨s, rfl, rfl, h.vars _ _ ?_, fun o n hn ha => ⟨n, hn, ha, rfl⟩⟩
    intro o
    unfold readVar at hv
    cases hg : s.vars[v]? with
    | none => rw [List.set_eq_of_length_le (List.getElem?_eq_none_iff.1 hg)]
    | some x =>
      rw [hg] at hv
      simp at hv
      have := count_set s.vars v none x (some o) hg
      rw [hv] at this
      simp at this
      rw [this]
  | some p =>
    have hg : s.vars[v]? = some (some p) := by
      unfold readVar at hv
      cases hg : s.vars[v]? with
      | none => rw [hg] at hv; simp at hv
      | some x => rw [hg] at hv; simp at hv; rw [hv]
    have hinv : Inv { s with vars := s.vars.set v none } (fun o => [p].count o) := by
      apply h.vars
      intro o
      have := count_set s.vars v none (some p) (some o) hg
      simp only [List.count_cons, List.count_nil]
      by_cases ho : p = o
      · subst ho; simp at this ⊢; omega
      · have h2 : (p == o) = false := by simpa using ho
        simp [h2]; simp [ho] at this; exact this
    obtain ⟨s', e1, e2, e3, e4, e5⟩ := releaseAll_spec (totalRefs s) _ _ hinv (Nat.le_refl _)
    rw [releaseAll_vars] at e1
    cases hr : releaseAll (totalRefs s) s [p] with
    | none => rw [hr] at e1; simp at e1
    | some s1 =>
      rw [hr] at e1
      have e1' : { s1 with vars := s.vars.set v none } = s' := Option.some.inj e1
      have hv1 : s1.vars = s.vars := by
        have := releaseAll_vars (totalRefs s) s s.vars [p]
        have hs : ({ s with vars := s.vars } : St) = s := rfl
        rw [hs, hr] at this
        have := Option.some.inj this
        rw [this]
      refine ⟨s1, hr, hv1, by rw [e1']; exact e2, ?_⟩
      intro o n hn ha
      exact e5 o n (by rw [← e1']; exact hn) ha

theorem readVar_ne_mem {s : St} {u dst o : Nat} (hne : u ≠ dst) (h : readVar s u = some o) :
    some o ∈ s.vars.set dst none := by
  unfold readVar at h
  cases hv : s.vars[u]? with
  | none => rw [hv] at h; simp at h
  | some x =>
    rw [hv] at h; simp at h; rw [h] at hv
    apply List.mem_of_getElem? (i := u)
    rw [List.getElem?_set_ne (Ne.symm hne)]; exact hv

theorem acquireList_spec : ∀ (fs : List (Option Nat)) (s : St) (extra : Nat → Nat), Inv s extra →
    (∀ q, some q ∈ fs → alive s.heap q) →
    ∃ s', acquireList s fs = some s' ∧ Inv s' (fun o => extra o + fs.count (some o)) ∧ s'.vars = s.vars ∧
      s'.heap.length = s.heap.length := by
  intro fs
  induction fs with
  | nil => intro s extra h _; exact ⟨s, rfl, h.congr (fun o => by simp), rfl, rfl⟩
  | cons p fs ih =>
    intro s extra h ha
    obtain ⟨s1, e1, e2, e3, e4, e5⟩ := acquireOpt_spec h (p := p) (fun q hq => ha q (by rw [hq]; exact List.mem_cons_self))
    obtain ⟨s2, f1, f2, f3, f4⟩ := ih s1 _ e2 (fun q hq => e5 q (ha q (List.mem_cons_of_mem _ hq)))
    refine ⟨s2, ?_, f2.congr ?_, by rw [f3, e3], by rw [f4, e4]⟩
    · show (acquireOpt s p).bind _ = _
      rw [e1]; exact f1
    · intro o
      simp only [List.count_cons, beq_iff_eq]
      split <;> omega

/-- After a release of `dst`, the pointer read from a safe source refers to a live node. -/
theorem safe_read {s s1 : St} (h : Inv s (fun _ => 0)) {dst : Nat} {src : Loc} (hsafe : safeSrc s dst src)
    (hv : s1.vars = s.vars) (hi : Inv { s1 with vars := s.vars.set dst none } (fun _ => 0))
    (hk : ∀ (o : Nat) (n : Node), s1.heap[o]? = some n → n.alive = true →
        ∃ m : Node, s.heap[o]? = some m ∧ m.alive = true ∧ m.fields = n.fields) :
    ∃ p, readLoc s1 src = some p ∧ readLoc s src = some p ∧ ∀ q, p = some q → alive s1.heap q := by
  cases src with
  | var v =>
    have hr : readVar s1 v = readVar s v := by unfold readVar; rw [hv]
    refine ⟨readVar s v, by show some (readVar s1 v) = _; rw [hr], rfl, ?_⟩
    intro q hq
    rcases hsafe with hne | hnull | ⟨u, hu, hu2⟩
    · exact alive_of_var hi (readVar_ne_mem hne hq)
    · by_cases hvd : v = dst
      · rw [hvd, hnull] at hq; exact absurd hq (by simp)
      · exact alive_of_var hi (readVar_ne_mem hvd hq)
    · by_cases hvd : v = dst
      · rw [hvd, ← hu2] at hq
        exact alive_of_var hi (readVar_ne_mem hu hq)
      · exact alive_of_var hi (readVar_ne_mem hvd hq)
  | field o i =>
    obtain ⟨u, hu, hu2⟩ := hsafe
    obtain ⟨n, hn, hna⟩ := alive_of_var hi (readVar_ne_mem hu hu2)
    have hn' : s1.heap[o]? = some n := hn
    obtain ⟨m, hm, hma, hmf⟩ := hk o n hn' hna
    refine ⟨(n.fields[i]?).join, ?_, ?_, ?_⟩
    · show (match s1.heap[o]? with | none => none | some n => _) = _
      rw [hn']; show (if n.alive = true then _ else none) = _
      rw [if_pos hna]
    · show (match s.heap[o]? with | none => none | some n => _) = _
      rw [hm]; show (if m.alive = true then _ else none) = _
      rw [if_pos hma, hmf]
    · intro q hq
      refine alive_of_field hi hn hna ?_
      cases hf : n.fields[i]? with
      | none => rw [hf] at hq; simp at hq
      | some x => rw [hf] at hq; simp at hq; rw [hq] at hf; exact List.mem_of_getElem? hf

theorem assign_tail {s s1 : St} {dst : Nat} (hd : dst < s.vars.length) (hv : s1.vars = s.vars)
    (hi : Inv { s1 with vars := s.vars.set dst none } (fun _ => 0)) (p : Option Nat)
    (ha : ∀ q, p = some q → alive s1.heap q) :
    ∃ s', acquireOpt { s1 with vars := s1.vars.set dst p } p = some s' ∧ Inv s' (fun _ => 0) := by
  obtain ⟨s2, e1, e2, e3, _, _⟩ := acquireOpt_spec hi (p := p) ha
  rw [acquireOpt_vars] at e1
  cases h1 : acquireOpt s1 p with
  | none => rw [h1] at e1; simp at e1
  | some t =>
    rw [h1] at e1
    have e1' : { t with vars := s.vars.set dst none } = s2 := Option.some.inj e1
    refine ⟨{ t with vars := s1.vars.set dst p }, by rw [acquireOpt_vars, h1]; rfl, ?_⟩
    have := e2.vars (s1.vars.set dst p) (fun _ => 0) (by
      intro o
      rw [e3, hv]
      have hlen : dst < (s.vars.set dst none).length := by simpa using hd
      have hc := count_set (s.vars.set dst none) dst p none (some o)
        (by rw [List.getElem?_set_self hd])
      rw [List.set_set] at hc
      simp at hc
      simpa using hc)
    rw [← e1'] at this
    exact this

/-- Every safe operation succeeds (no counter of a deleted node is touched, nothing is deleted twice)
and keeps the counters exact. -/
theorem step_safe {s : St} (h : Inv s (fun _ => 0)) (op : Op) (hsafe : safeOp s op) :
    ∃ s', step s op = some s' ∧ Inv s' (fun _ => 0) := by
  cases op with
  | create args =>
    have hal : ∀ q, some q ∈ args.map (readVar s) → alive s.heap q := by
      intro q hq
      obtain ⟨a, _, ha⟩ := List.mem_map.1 hq
      exact alive_of_var h (readVar_mem ha)
    obtain ⟨s1, e1, e2, e3, e4⟩ := acquireList_spec (args.map (readVar s)) s _ h hal
    refine ⟨_, by show (acquireList s _).map _ = _; rw [e1]; rfl, ?_⟩
    generalize hfs : args.map (readVar s) = fs at e1 e2 hal
    have hlen0 : s.vars.count (some s1.heap.length) + fieldRefs s1.heap s1.heap.length +
        (0 + fs.count (some s1.heap.length)) = 0 := by
      have := e2.count s1.heap.length
      rw [e3] at this
      rw [this]
      simp [refOf]
    have hfr : ∀ o, fieldRefs (s1.heap ++ [⟨1, fs, true⟩]) o = fieldRefs s1.heap o + fs.count (some o) := by
      intro o; simp [fieldRefs]
    have hold : ∀ o, o ≠ s1.heap.length → (s1.heap ++ [(⟨1, fs, true⟩ : Node)])[o]? = s1.heap[o]? := by
      intro o ho
      rcases Nat.lt_or_ge o s1.heap.length with hlt | hge
      · rw [List.getElem?_append_left hlt]
      · rw [List.getElem?_eq_none_iff.2 hge, List.getElem?_eq_none_iff.2 (by simp; omega)]
    have hnew : (s1.heap ++ [(⟨1, fs, true⟩ : Node)])[s1.heap.length]? = some ⟨1, fs, true⟩ := by simp
    refine ⟨?_, ?_, ?_, ?_⟩
    · intro o
      show (s1.vars ++ [some s1.heap.length]).count (some o) + fieldRefs (s1.heap ++ [⟨1, fs, true⟩]) o + 0 =
        refOf (s1.heap ++ [⟨1, fs, true⟩]) o
      rw [hfr, List.count_append]
      by_cases ho : o = s1.heap.length
      · subst ho
        simp only [refOf, hnew]
        rw [e3]
        simp
        omega
      · have hc := e2.count o
        have h3 : (List.count (some o) [some s1.heap.length]) = 0 := by
          have : ¬ s1.heap.length = o := fun h => ho h.symm
          simp [List.count_cons, this]
        rw [h3]
        have : refOf (s1.heap ++ [⟨1, fs, true⟩]) o = refOf s1.heap o := by unfold refOf; rw [hold o ho]
        rw [this]
        omega
    · intro o hal'
      show 0 < refOf (s1.heap ++ [⟨1, fs, true⟩]) o
      by_cases ho : o = s1.heap.length
      · subst ho; simp only [refOf, hnew]; simp
      · have : refOf (s1.heap ++ [⟨1, fs, true⟩]) o = refOf s1.heap o := by unfold refOf; rw [hold o ho]
        rw [this]
        obtain ⟨n, hn, hna⟩ := hal'
        exact e2.pos o ⟨n, by rw [← hold o ho]; exact hn, hna⟩
    · intro o n hn q hq
      have hn' : (s1.heap ++ [(⟨1, fs, true⟩ : Node)])[o]? = some n := hn
      by_cases ho : o = s1.heap.length
      · subst ho
        rw [hnew] at hn'
        rw [← Option.some.inj hn'] at hq
        obtain ⟨m, hm, _⟩ := hal q hq
        have := (List.getElem?_eq_some_iff.1 hm).1
        omega
      · rw [hold o ho] at hn'
        exact e2.back o n hn' q hq
    · refine ⟨e2.log.1, ?_⟩
      intro o
      show o ∈ s1.log ↔ (o < (s1.heap ++ [(⟨1, fs, true⟩ : Node)]).length ∧
        ¬ alive (s1.heap ++ [(⟨1, fs, true⟩ : Node)]) o)
      rw [e2.log.2 o]
      by_cases ho : o = s1.heap.length
      · subst ho
        constructor
        · rintro ⟨h1, _⟩; omega
        · rintro ⟨_, h2⟩; exact absurd ⟨_, hnew, rfl⟩ h2
      · unfold alive
        rw [hold o ho]
        simp
        intro _
        constructor <;> intro _ <;> omega
  | copyConstruct src =>
    have hread : ∃ p, readLoc s src = some p ∧ ∀ q, p = some q → alive s.heap q := by
      cases src with
      | var v => exact ⟨readVar s v, rfl, fun q hq => alive_of_var h (readVar_mem hq)⟩
      | field o i =>
        obtain ⟨u, hu⟩ := hsafe
        obtain ⟨n, hn, hna⟩ := alive_of_var h (readVar_mem hu)
        refine ⟨(n.fields[i]?).join, ?_, ?_⟩
        · show (match s.heap[o]? with | none => none | some n => _) = _
          rw [hn]; show (if n.alive = true then _ else none) = _
          rw [if_pos hna]
        · intro q hq
          refine alive_of_field h hn hna ?_
          cases hf : n.fields[i]? with
          | none => rw [hf] at hq; simp at hq
          | some x => rw [hf] at hq; simp at hq; rw [hq] at hf; exact List.mem_of_getElem? hf
    obtain ⟨p, hp, ha⟩ := hread
    obtain ⟨s1, e1, e2, e3, _, _⟩ := acquireOpt_spec h ha
    refine ⟨{ s1 with vars := s.vars ++ [p] }, ?_, ?_⟩
    · show (readLoc s src).bind _ = _
      rw [hp]
      show acquireOpt { s with vars := s.vars ++ [p] } p = _
      rw [acquireOpt_vars, e1]; rfl
    · apply e2.vars
      intro o
      rw [e3, List.count_append]
      by_cases ho : p = some o
      · simp [ho]
      · have : (List.count (some o) [p]) = 0 := by simp [List.count_cons, ho]
        simp [ho, this]
  | moveConstruct src =>
    refine ⟨_, rfl, ?_⟩
    apply h.vars
    intro o
    rw [List.count_append]
    unfold readVar
    cases hg : s.vars[src]? with
    | none =>
      rw [List.set_eq_of_length_le (List.getElem?_eq_none_iff.1 hg)]
      simp [List.count_cons]
    | some x =>
      have := count_set s.vars src none x (some o) hg
      simp only [List.count_cons, List.count_nil, Option.join_some, beq_iff_eq]
      simp at this
      omega
  | copyAssign dst src =>
    show ∃ s', (if dst < s.vars.length then _ else some s) = some s' ∧ _
    by_cases hd : dst < s.vars.length
    · rw [if_pos hd]
      obtain ⟨s1, e1, e2, e3, e4⟩ := release_spec h dst
      obtain ⟨p, hp, _, ha⟩ := safe_read h hsafe e2 e3 e4
      obtain ⟨s', f1, f2⟩ := assign_tail hd e2 e3 p ha
      refine ⟨s', ?_, f2⟩
      rw [e1]
      show (readLoc s1 src).bind _ = _
      rw [hp]; exact f1
    · rw [if_neg hd]; exact ⟨s, rfl, h⟩
  | rawAssign dst src =>
    show ∃ s', (if dst < s.vars.length then _ else some s) = some s' ∧ _
    by_cases hd : dst < s.vars.length
    · rw [if_pos hd]
      obtain ⟨s1, e1, e2, e3, e4⟩ := release_spec h dst
      obtain ⟨p, _, hp, ha⟩ := safe_read h hsafe e2 e3 e4
      obtain ⟨s', f1, f2⟩ := assign_tail hd e2 e3 p ha
      refine ⟨s', ?_, f2⟩
      rw [hp]
      show (release s (readVar s dst)).bind _ = _
      rw [e1]; exact f1
    · rw [if_neg hd]; exact ⟨s, rfl, h⟩
  | moveAssign dst src =>
    show ∃ s', (if dst < s.vars.length ∧ src < s.vars.length then _ else some s) = some s' ∧ _
    by_cases hd : dst < s.vars.length ∧ src < s.vars.length
    · rw [if_pos hd]
      obtain ⟨s1, e1, e2, e3, e4⟩ := release_spec h dst
      refine ⟨_, by rw [e1]; rfl, ?_⟩
      have := e3.vars ((s1.vars.set dst (readVar s1 src)).set src none) (fun _ => 0) (by
        intro o
        show _ + 0 = (s.vars.set dst none).count (some o) + 0
        rw [e2]
        unfold readVar
        rw [e2]
        by_cases hds : src = dst
        · subst hds; rw [List.set_set]
        · obtain ⟨x, hx⟩ : ∃ x, s.vars[src]? = some x := ⟨_, List.getElem?_eq_getElem hd.2⟩
          rw [hx]
          simp only [Option.join_some]
          obtain ⟨y, hy⟩ : ∃ y, s.vars[dst]? = some y := ⟨_, List.getElem?_eq_getElem hd.1⟩
          have h1 := count_set (s.vars.set dst x) src none x (some o)
            (by rw [List.getElem?_set_ne (fun h => hds h.symm)]; exact hx)
          have h2 := count_set s.vars dst x y (some o) hy
          have h3 := count_set s.vars dst none y (some o) hy
          simp at h1 h3
          omega)
      exact this
    · rw [if_neg hd]; exact ⟨s, rfl, h⟩
  | destroy v =>
    obtain ⟨s1, e1, e2, e3, _⟩ := release_spec h v
    refine ⟨_, by show (release s (readVar s v)).map _ = _; rw [e1]; rfl, ?_⟩
    show Inv { s1 with vars := s1.vars.set v none } _
    rw [e2]; exact e3

theorem inv_initial : Inv initial (fun _ => 0) :=
  ⟨fun o => by simp [initial, fieldRefs, refOf], fun o h => by obtain ⟨n, hn, _⟩ := h; simp [initial] at hn,
   fun o n hn => by simp [initial] at hn, by simp [initial], fun o => by simp [initial]⟩

theorem run_safe : ∀ (ops : List Op) (s : St), Inv s (fun _ => 0) → safeRun s ops →
    ∃ s', run s ops = some s' ∧ Inv s' (fun _ => 0) := by
  intro ops
  induction ops with
  | nil => intro s h _; exact ⟨s, rfl, h⟩
  | cons o os ih =>
    intro s h hs
    obtain ⟨s1, e1, e2⟩ := step_safe h o hs.1
    obtain ⟨s2, f1, f2⟩ := ih s1 e2 (hs.2 s1 e1)
    exact ⟨s2, by show (step s o).bind _ = _; rw [e1]; exact f1, f2⟩

theorem alive_iff_inUse {s : St} (h : Inv s (fun _ => 0)) (o : Nat) : alive s.heap o ↔ InUse s o := by
  constructor
  · have key : ∀ k o, s.heap.length - o ≤ k → alive s.heap o → InUse s o := by
      intro k
      induction k with
      | zero =>
        intro o hk ⟨n, hn, _⟩
        have := (List.getElem?_eq_some_iff.1 hn).1
        omega
      | succ k ih =>
        intro o hk ha
        have hpos := h.pos o ha
        rw [← h.count o] at hpos
        by_cases hf : 0 < fieldRefs s.heap o
        · obtain ⟨q, n, hq, hqa, hm⟩ := fieldRefs_exists _ _ hf
          have hlt := h.back q n hq o hm
          have := (List.getElem?_eq_some_iff.1 hq).1
          exact InUse.field q n o (ih q (by omega) ⟨n, hq, hqa⟩) hq hm
        · have : 0 < s.vars.count (some o) := by omega
          obtain ⟨i, hi⟩ := List.getElem?_of_mem (List.count_pos_iff.1 this)
          exact InUse.var i o (by unfold readVar; rw [hi]; rfl)
    exact key _ o (Nat.le_refl _)
  · intro hu
    induction hu with
    | var v o hv => exact alive_of_var h (readVar_mem hv)
    | field q n o _ hq hm ih =>
      obtain ⟨n', hn', hna⟩ := ih
      rw [hq] at hn'
      rw [← Option.some.inj hn'] at hna
      exact alive_of_field h hq hna hm

/-- C35, for all histories in which no handle is assigned from something only it keeps alive: no
operation touches a deleted node; at every point the nodes that have been deleted are exactly the
allocated nodes no handle leads to, and each was deleted exactly once. (Without the restriction the
property is false, see `handles_self_assign_fails` and `handles_child_assign_fails`.) -/
theorem handles_partial (ops : List Op) (hsafe : safeRun initial ops) :
    ∃ s, run initial ops = some s ∧ s.log.Nodup ∧
      ∀ o, o ∈ s.log ↔ (o < s.heap.length ∧ ¬ InUse s o) := by
  obtain ⟨s, h1, h2⟩ := run_safe ops initial inv_initial hsafe
  refine ⟨s, h1, h2.log.1, ?_⟩
  intro o
  rw [h2.log.2 o, alive_iff_inUse h2 o]

/-- C35: the counter of a node equals the number of handles that refer to it. -/
theorem handles_count_partial (ops : List Op) (hsafe : safeRun initial ops) :
    ∃ s, run initial ops = some s ∧ ∀ (o : Nat) (n : Node), s.heap[o]? = some n → n.alive = true →
      n.ref = s.vars.count (some o) +
        (s.heap.map (fun m => if m.alive then m.fields.count (some o) else 0)).sum := by
  obtain ⟨s, h1, h2⟩ := run_safe ops initial inv_initial hsafe
  refine ⟨s, h1, ?_⟩
  intro o n hn ha
  have := h2.count o
  rw [refOf_alive hn ha] at this
  unfold fieldRefs at this
  omega

/-- A history with a shared operand, an assignment and deletions that the theorems apply to. -/
def sampleOps : List Op :=
  [.create [], .create [0, 0], .copyConstruct (.field 1 0), .copyAssign 0 (.var 1), .destroy 1, .moveAssign 0 2]

example : safeRun initial sampleOps := by
  unfold sampleOps
  refine ⟨trivial, fun s hs => ?_⟩
  simp [step, acquireList, initial] at hs; subst hs
  refine ⟨trivial, fun s hs => ?_⟩
  simp [step, acquireList, acquireOpt, acquire, readVar] at hs; subst hs
  refine ⟨⟨1, rfl⟩, fun s hs => ?_⟩
  simp [step, acquireOpt, acquire, readLoc] at hs; subst hs
  refine ⟨Or.inl (by decide), fun s hs => ?_⟩
  simp [step, acquireOpt, acquire, readLoc, readVar, release, releaseAll, totalRefs] at hs; subst hs
  exact ⟨trivial, fun s hs => ⟨trivial, fun _ _ => trivial⟩⟩

example : (run initial sampleOps).map (·.log) = some [1] := by decide

/-- C35 is false for `e = e` when `e` is the only handle: the node is deleted and then used. -/
theorem handles_self_assign_fails : run initial [.create [], .copyAssign 0 (.var 0)] = none := by decide

/-- C35 is false for `e = e.operand` when `e` is the only handle to its node: the operand handle is
read after the node that contains it is deleted. -/
theorem handles_child_assign_fails :
    run initial [.create [], .create [0], .copyAssign 1 (.field 1 0)] = none := by decide

end Verif.Refs
