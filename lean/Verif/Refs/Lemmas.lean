import Verif.Refs.Model
/-! The counting invariant of the handles. -/
namespace Verif.Refs

/-- Handles to `o` inside live nodes. -/
def fieldRefs (heap : List Node) (o : Nat) : Nat :=
  (heap.map (fun n => if n.alive then n.fields.count (some o) else 0)).sum

/-- The counter of `o`, zero when `o` is not a live node. -/
def refOf (heap : List Node) (o : Nat) : Nat :=
  match heap[o]? with
  | some n => if n.alive then n.ref else 0
  | none => 0

def alive (heap : List Node) (o : Nat) : Prop := ∃ n, heap[o]? = some n ∧ n.alive = true

/-- Counters count the handles, with `extra o` more for releases under way. -/
structure Inv (s : St) (extra : Nat → Nat) : Prop where
  count : ∀ o, s.vars.count (some o) + fieldRefs s.heap o + extra o = refOf s.heap o
  pos : ∀ o, alive s.heap o → 0 < refOf s.heap o
  back : ∀ (o : Nat) (n : Node), s.heap[o]? = some n → ∀ p, some p ∈ n.fields → p < o
  log : s.log.Nodup ∧ ∀ o, o ∈ s.log ↔ (o < s.heap.length ∧ ¬ alive s.heap o)

theorem sum_map_set {α : Type} (f : α → Nat) : ∀ (l : List α) (i : Nat) (x y : α), l[i]? = some y →
    ((l.set i x).map f).sum + f y = (l.map f).sum + f x := by
  intro l
  induction l with
  | nil => intro i x y h; simp at h
  | cons a l ih =>
    intro i x y h
    cases i with
    | zero => simp at h; simp [h]; omega
    | succ i =>
      have := ih i x y (by simpa using h)
      simp only [List.set_cons_succ, List.map_cons, List.sum_cons]
      omega

theorem alive_refOf {heap : List Node} {o : Nat} (h : 0 < refOf heap o) : alive heap o := by
  unfold refOf at h
  cases hn : heap[o]? with
  | none => rw [hn] at h; simp at h
  | some n =>
    rw [hn] at h
    simp only at h
    refine ⟨n, hn, ?_⟩
    cases ha : n.alive with
    | true => rfl
    | false => rw [ha] at h; simp at h

theorem refOf_alive {heap : List Node} {o : Nat} {n : Node} (h : heap[o]? = some n) (ha : n.alive = true) :
    refOf heap o = n.ref := by simp [refOf, h, ha]

theorem refOf_set_same {heap : List Node} {p : Nat} {n n' : Node} (h : heap[p]? = some n) :
    refOf (heap.set p n') p = if n'.alive then n'.ref else 0 := by
  have hp : p < heap.length := (List.getElem?_eq_some_iff.1 h).1
  simp [refOf, hp]

theorem refOf_set_ne {heap : List Node} {p o : Nat} {n' : Node} (h : p ≠ o) :
    refOf (heap.set p n') o = refOf heap o := by
  simp [refOf, List.getElem?_set_ne h]

theorem alive_set_ne {heap : List Node} {p o : Nat} {n' : Node} (h : p ≠ o) :
    alive (heap.set p n') o ↔ alive heap o := by
  simp [alive, List.getElem?_set_ne h]

theorem alive_set_same {heap : List Node} {p : Nat} {n n' : Node} (h : heap[p]? = some n) :
    alive (heap.set p n') p ↔ n'.alive = true := by
  have hp : p < heap.length := (List.getElem?_eq_some_iff.1 h).1
  simp [alive, hp]

/-- Changing the counter of a live node. -/
theorem inv_setRef {s : St} {extra extra' : Nat → Nat} (h : Inv s extra) {p : Nat} {n : Node} {r : Nat}
    (hn : s.heap[p]? = some n) (ha : n.alive = true) (hr : 0 < r)
    (he : extra' p + n.ref = extra p + r) (heo : ∀ o, o ≠ p → extra' o = extra o) :
    Inv { s with heap := s.heap.set p { n with ref := r } } extra' := by
  have hf : ∀ o, fieldRefs (s.heap.set p { n with ref := r }) o = fieldRefs s.heap o := by
    intro o
    have := sum_map_set (fun n : Node => if n.alive then n.fields.count (some o) else 0) s.heap p
      { n with ref := r } n hn
    unfold fieldRefs
    simp only at this
    omega
  refine ⟨?_, ?_, ?_, ?_⟩
  · intro o
    have hc := h.count o
    show s.vars.count (some o) + fieldRefs (s.heap.set p { n with ref := r }) o + extra' o = _
    rw [hf]
    by_cases ho : o = p
    · subst ho
      rw [refOf_set_same hn]
      rw [refOf_alive hn ha] at hc
      simp only [ha, if_true]
      omega
    · rw [refOf_set_ne (Ne.symm ho), heo o ho]; exact hc
  · intro o hal
    show 0 < refOf (s.heap.set p { n with ref := r }) o
    by_cases ho : o = p
    · subst ho
      rw [refOf_set_same hn]; simp only [ha, if_true]; exact hr
    · rw [refOf_set_ne (Ne.symm ho)]
      exact h.pos o ((alive_set_ne (Ne.symm ho)).1 hal)
  · intro o m hm q hq
    by_cases ho : o = p
    · subst ho
      have hlt : o < s.heap.length := (List.getElem?_eq_some_iff.1 hn).1
      have : m = { n with ref := r } := by
        have hm' : (s.heap.set o { n with ref := r })[o]? = some m := hm
        rw [List.getElem?_set_self hlt] at hm'
        exact (Option.some.inj hm').symm
      rw [this] at hq
      exact h.back o n hn q hq
    · have hm' : (s.heap.set p { n with ref := r })[o]? = some m := hm
      rw [List.getElem?_set_ne (Ne.symm ho)] at hm'
      exact h.back o m hm' q hq
  · refine ⟨h.log.1, ?_⟩
    intro o
    show o ∈ s.log ↔ (o < (s.heap.set p { n with ref := r }).length ∧ ¬ alive (s.heap.set p { n with ref := r }) o)
    rw [List.length_set, h.log.2 o]
    by_cases ho : o = p
    · subst ho
      rw [alive_set_same hn]
      constructor
      · rintro ⟨_, h2⟩; exact absurd ⟨n, hn, ha⟩ h2
      · rintro ⟨_, h2⟩; exact absurd ha h2
    · rw [alive_set_ne (Ne.symm ho)]

theorem count_filterMap_id : ∀ (l : List (Option Nat)) (o : Nat),
    (l.filterMap id).count o = l.count (some o) := by
  intro l o
  induction l with
  | nil => rfl
  | cons a l ih =>
    cases a with
    | none => simp [ih]
    | some b => simp [List.count_cons, ih]

/-- Deleting a node whose counter has reached one. -/
theorem inv_delete {s : St} {extra extra' : Nat → Nat} (h : Inv s extra) {p : Nat} {n : Node}
    (hn : s.heap[p]? = some n) (ha : n.alive = true) (hr : n.ref = 1) (hx : 0 < extra p)
    (he : ∀ o, extra' o + (if o = p then 1 else 0) = extra o + n.fields.count (some o)) :
    Inv { s with heap := s.heap.set p { n with ref := 0, alive := false }, log := s.log ++ [p] } extra' := by
  have hlt : p < s.heap.length := (List.getElem?_eq_some_iff.1 hn).1
  have hf : ∀ o, fieldRefs (s.heap.set p { n with ref := 0, alive := false }) o + n.fields.count (some o)
      = fieldRefs s.heap o := by
    intro o
    have := sum_map_set (fun n : Node => if n.alive then n.fields.count (some o) else 0) s.heap p
      { n with ref := 0, alive := false } n hn
    unfold fieldRefs
    simp only [ha, if_true] at this
    simpa using this
  refine ⟨?_, ?_, ?_, ?_⟩
  · intro o
    have hc := h.count o
    have h1 := hf o
    have h2 := he o
    show s.vars.count (some o) + fieldRefs (s.heap.set p { n with ref := 0, alive := false }) o + extra' o = _
    by_cases ho : o = p
    · subst ho
      rw [refOf_set_same hn]
      rw [refOf_alive hn ha] at hc
      simp only [if_true] at h2
      simp only [Bool.false_eq_true, if_false]
      omega
    · rw [refOf_set_ne (Ne.symm ho)]
      rw [if_neg ho] at h2
      omega
  · intro o hal
    by_cases ho : o = p
    · subst ho
      have := (alive_set_same hn).1 hal
      exact absurd this (by simp)
    · show 0 < refOf (s.heap.set p _) o
      rw [refOf_set_ne (Ne.symm ho)]
      exact h.pos o ((alive_set_ne (Ne.symm ho)).1 hal)
  · intro o m hm q hq
    have hm' : (s.heap.set p { n with ref := 0, alive := false })[o]? = some m := hm
    by_cases ho : o = p
    · subst ho
      rw [List.getElem?_set_self hlt] at hm'
      rw [← Option.some.inj hm'] at hq
      exact h.back o n hn q hq
    · rw [List.getElem?_set_ne (Ne.symm ho)] at hm'
      exact h.back o m hm' q hq
  · have hnot : p ∉ s.log := by
      intro hin
      exact ((h.log.2 p).1 hin).2 ⟨n, hn, ha⟩
    constructor
    · show (s.log ++ [p]).Nodup
      rw [List.nodup_append]
      refine ⟨h.log.1, by simp, ?_⟩
      intro a ha' b hb
      rw [List.mem_singleton] at hb
      rw [hb]; intro hab; rw [hab] at ha'; exact hnot ha'
    · intro o
      show o ∈ s.log ++ [p] ↔ (o < (s.heap.set p { n with ref := 0, alive := false }).length ∧
        ¬ alive (s.heap.set p { n with ref := 0, alive := false }) o)
      rw [List.length_set, List.mem_append, List.mem_singleton, h.log.2 o]
      by_cases ho : o = p
      · subst ho
        rw [alive_set_same hn]
        simp [hlt]
      · rw [alive_set_ne (Ne.symm ho)]
        simp [ho]

theorem totalRefs_setRef {s : St} {p : Nat} {n n' : Node} (hn : s.heap[p]? = some n) :
    (({ s with heap := s.heap.set p n' } : St) |> totalRefs) + (if n.alive then n.ref else 0)
      = totalRefs s + (if n'.alive then n'.ref else 0) :=
  sum_map_set (fun n : Node => if n.alive then n.ref else 0) s.heap p n' n hn

/-- What a sequence of releases does to the things outside the heap, and to nodes that die. -/
theorem releaseAll_spec : ∀ (fuel : Nat) (s : St) (ps : List Nat), Inv s (fun o => ps.count o) →
    totalRefs s ≤ fuel →
    ∃ s', releaseAll fuel s ps = some s' ∧ Inv s' (fun _ => 0) ∧ s'.vars = s.vars ∧
      s'.heap.length = s.heap.length ∧
      (∀ (o : Nat) (n : Node), s'.heap[o]? = some n → n.alive = true → ∃ m : Node, s.heap[o]? = some m ∧ m.alive = true ∧
        m.fields = n.fields) := by
  intro fuel
  induction fuel with
  | zero =>
    intro s ps h hf
    cases ps with
    | nil =>
      refine ⟨s, rfl, ⟨fun o => by simpa using h.count o, h.pos, h.back, h.log⟩, rfl, rfl, ?_⟩
      intro o n hn ha; exact ⟨n, hn, ha, rfl⟩
    | cons p ps =>
      exfalso
      have hc := h.count p
      have : 0 < refOf s.heap p := by rw [← hc]; simp; omega
      obtain ⟨n, hn, ha⟩ := alive_refOf this
      rw [refOf_alive hn ha] at this
      have := totalRefs_setRef (n' := ⟨0, [], false⟩) hn
      simp only [ha, if_true] at this
      simp at this
      omega
  | succ fuel ih =>
    intro s ps h hf
    cases ps with
    | nil =>
      refine ⟨s, rfl, ⟨fun o => by simpa using h.count o, h.pos, h.back, h.log⟩, rfl, rfl, ?_⟩
      intro o n hn ha; exact ⟨n, hn, ha, rfl⟩
    | cons p ps =>
      have hc := h.count p
      have hpos : 0 < refOf s.heap p := by rw [← hc]; simp; omega
      obtain ⟨n, hn, ha⟩ := alive_refOf hpos
      have hlt : p < s.heap.length := (List.getElem?_eq_some_iff.1 hn).1
      rw [refOf_alive hn ha] at hpos
      by_cases hr : n.ref = 1
      · have hinv := inv_delete (extra' := fun o => (n.fields.reverse.filterMap id ++ ps).count o) h hn ha hr
          (by simp) (by
            intro o
            simp only [List.count_append, List.count_cons]
            rw [count_filterMap_id, List.count_reverse]
            by_cases ho : o = p
            · subst ho; simp; omega
            · have : (p == o) = false := by simp; exact fun h => ho h.symm
              simp [ho, this]; omega)
        have htot := totalRefs_setRef (n' := { n with ref := 0, alive := false }) hn
        simp only [ha, if_true] at htot
        obtain ⟨s', e1, e2, e3, e4, e5⟩ := ih _ _ hinv (by
          have : totalRefs { s with heap := s.heap.set p { n with ref := 0, alive := false }, log := s.log ++ [p] }
            = totalRefs { s with heap := s.heap.set p { n with ref := 0, alive := false } } := rfl
          rw [this]
          simp at htot
          omega)
        refine ⟨s', ?_, e2, e3, by rw [e4]; simp, ?_⟩
        · show (match s.heap[p]? with | none => none | some n => _) = _
          rw [hn]
          show (if n.alive = true then if n.ref = 1 then _ else _ else none) = _
          rw [if_pos ha, if_pos hr]
          exact e1
        · intro o m hm hma
          obtain ⟨m', q1, q2, q3⟩ := e5 o m hm hma
          have q1' : (s.heap.set p { n with ref := 0, alive := false })[o]? = some m' := q1
          by_cases ho : o = p
          · subst ho
            rw [List.getElem?_set_self hlt] at q1'
            rw [← Option.some.inj q1'] at q2
            exact absurd q2 (by simp)
          · rw [List.getElem?_set_ne (Ne.symm ho)] at q1'
            exact ⟨m', q1', q2, q3⟩
      · have hinv := inv_setRef (extra' := fun o => ps.count o) h hn ha (r := n.ref - 1) (by omega)
          (by simp; omega) (by
            intro o ho
            have : (p == o) = false := by simp; exact fun h => ho h.symm
            simp [List.count_cons, this])
        have htot := totalRefs_setRef (n' := { n with ref := n.ref - 1 }) hn
        rw [if_pos ha] at htot
        have h2 : (if ({ n with ref := n.ref - 1 } : Node).alive then
            ({ n with ref := n.ref - 1 } : Node).ref else 0) = n.ref - 1 := if_pos ha
        rw [h2] at htot
        obtain ⟨s', e1, e2, e3, e4, e5⟩ := ih _ _ hinv (by omega)
        refine ⟨s', ?_, e2, e3, by rw [e4]; simp, ?_⟩
        · show (match s.heap[p]? with | none => none | some n => _) = _
          rw [hn]
          show (if n.alive = true then if n.ref = 1 then _ else _ else none) = _
          rw [if_pos ha, if_neg hr]
          exact e1
        · intro o m hm hma
          obtain ⟨m', q1, q2, q3⟩ := e5 o m hm hma
          have q1' : (s.heap.set p { n with ref := n.ref - 1 })[o]? = some m' := q1
          by_cases ho : o = p
          · subst ho
            rw [List.getElem?_set_self hlt] at q1'
            have hm' := Option.some.inj q1'
            exact ⟨n, hn, ha, by rw [← q3, ← hm']⟩
          · rw [List.getElem?_set_ne (Ne.symm ho)] at q1'
            exact ⟨m', q1', q2, q3⟩

end Verif.Refs
