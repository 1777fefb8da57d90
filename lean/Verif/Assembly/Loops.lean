import Verif.Assembly.Lemmas
/-! The loops preserve the invariant of assembly. -/
namespace Verif.Assembly
open Verif.Merge (Lvl)
open Verif.Pack (Kind)

variable {V : Type}

theorem skipTo (fill : V) {ls : List (Nat × Kind)} {E : Nat} (B : Nat) (f : Nat → Tree V ls.length)
    {X : List (Tree V ls.length)} {s : St V} : ∀ (m k : Nat), Rep fill true ls (B + k) E (X ++ (List.range k).map f) s →
    B + (k + m) ≤ E → (∀ j, k ≤ j → j < k + m → f j = fillTree fill ls) →
    Rep fill true ls (B + (k + m)) E (X ++ (List.range (k + m)).map f) s := by
  intro m
  induction m with
  | zero => intro k h _ _; exact h
  | succ m ih =>
    intro k h hE hf
    have h1 := skip_rep fill ls _ _ _ _ h (by omega)
    have h2 : Rep fill true ls (B + (k + 1)) E (X ++ (List.range (k + 1)).map f) s := by
      rw [List.range_succ, List.map_append, ← List.append_assoc, List.map_cons, List.map_nil, hf k (Nat.le_refl _) (by omega)]
      exact h1
    have := ih (k + 1) h2 (by omega) (fun j hj1 hj2 => hf j (by omega) (by omega))
    rw [show k + 1 + m = k + (m + 1) by omega] at this
    exact this

/-- What `assemble` does at one position. -/
def AssembleOK (fill : V) (ls : List (Nat × Kind)) : Prop :=
  ∀ (ud : Bool) (p E : Nat) (t : Tree V ls.length) (cs : List (Tree V ls.length)) (s : St V),
    Rep fill ud ls p E cs s → p < E → visitsOK ls t →
    ∃ s', assemble fill ud ls p t s = some s' ∧ Rep fill ud ls (p + 1) E (cs ++ [norm fill ls t]) s'

theorem dense_fold (fill : V) {ls : List (Nat × Kind)} (ih : AssembleOK fill ls) {n E : Nat} (p : Nat)
    (hE : p * n + n ≤ E) (f : Nat → Tree V ls.length) {X : List (Tree V ls.length)} :
    ∀ (es : List (Nat × Tree V ls.length)) (k : Nat) (s : St V), k ≤ n →
    Rep fill true ls (p * n + k) E (X ++ (List.range k).map f) s →
    (es.map Prod.fst).Pairwise (· < ·) → (∀ e ∈ es, k ≤ e.1 ∧ e.1 < n) →
    (∀ e ∈ es, f e.1 = norm fill ls e.2 ∧ visitsOK ls e.2) →
    (∀ j, k ≤ j → j < n → j ∉ es.map Prod.fst → f j = fillTree fill ls) →
    ∃ s', List.foldlM (fun (s : St V) (e : Nat × Tree V ls.length) => assemble fill true ls (p * n + e.1) e.2 s) s es = some s' ∧
      Rep fill true ls (p * n + n) E (X ++ (List.range n).map f) s' := by
  intro es
  induction es with
  | nil =>
    intro k s hk h _ _ _ hf
    refine ⟨s, rfl, ?_⟩
    have := skipTo fill (p * n) f (n - k) k h (by omega) (fun j h1 h2 => hf j h1 (by omega) (by simp))
    rw [show k + (n - k) = n by omega] at this
    exact this
  | cons e es ihe =>
    intro k s hk h hs hr hv hf
    obtain ⟨i, c⟩ := e
    have hi := hr (i, c) List.mem_cons_self
    simp only at hi
    rw [List.map_cons, List.pairwise_cons] at hs
    have h1 := skipTo fill (p * n) f (i - k) k h (by omega) (by
      intro j hj1 hj2
      apply hf j hj1 (by omega)
      rw [List.map_cons, List.mem_cons]
      rintro (rfl | hj)
      · omega
      · have := hs.1 j hj
        simp only at this
        omega)
    rw [show k + (i - k) = i by omega] at h1
    obtain ⟨s1, a1, a2⟩ := ih true (p * n + i) E c _ s h1 (by omega) (hv (i, c) List.mem_cons_self).2
    have h2 : Rep fill true ls (p * n + (i + 1)) E (X ++ (List.range (i + 1)).map f) s1 := by
      rw [List.range_succ, List.map_append, ← List.append_assoc, List.map_cons, List.map_nil,
        (hv (i, c) List.mem_cons_self).1]
      exact a2
    obtain ⟨s2, b1, b2⟩ := ihe (i + 1) s1 (by omega) h2 hs.2
      (fun e he => ⟨by have := hs.1 e.1 (List.mem_map.2 ⟨e, he, rfl⟩); simp only at this; omega,
        (hr e (List.mem_cons_of_mem _ he)).2⟩)
      (fun e he => hv e (List.mem_cons_of_mem _ he))
      (fun j hj1 hj2 hj3 => hf j (by omega) hj2 (by
        rw [List.map_cons, List.mem_cons]
        rintro (rfl | hj)
        · omega
        · exact hj3 hj))
    refine ⟨s2, ?_, b2⟩
    rw [List.foldlM_cons, a1]
    exact b1

theorem lookup_mem {α : Type} : ∀ {l : List (Nat × α)} {e : Nat × α}, (l.map Prod.fst).Pairwise (· < ·) →
    e ∈ l → l.lookup e.1 = some e.2 := by
  intro l
  induction l with
  | nil => intro e _ h; simp at h
  | cons a l ih =>
    intro e hs h
    obtain ⟨i, c⟩ := a
    rw [List.map_cons, List.pairwise_cons] at hs
    rcases List.mem_cons.1 h with rfl | h
    · simp
    · have := hs.1 e.1 (List.mem_map.2 ⟨e, h, rfl⟩)
      rw [List.lookup_cons]
      have hne : (e.1 == i) = false := by rw [beq_eq_false_iff_ne]; simp only at this; omega
      rw [hne]
      exact ih hs.2 h

theorem lookup_not_mem {α : Type} {j : Nat} : ∀ {l : List (Nat × α)}, j ∉ l.map Prod.fst → l.lookup j = none := by
  intro l
  induction l with
  | nil => intro _; rfl
  | cons a l ih =>
    intro h
    obtain ⟨i, c⟩ := a
    rw [List.map_cons, List.mem_cons, not_or] at h
    rw [List.lookup_cons]
    have hne : (j == i) = false := by rw [beq_eq_false_iff_ne]; exact h.1
    rw [hne]
    exact ih h.2

theorem dense_ok (fill : V) (n : Nat) {ls : List (Nat × Kind)} (ih : AssembleOK fill ls) :
    AssembleOK fill ((n, .dense) :: ls) := by
  intro ud p E t cs s h hlt hv
  obtain ⟨h1, h2, h3, h4⟩ := h
  obtain ⟨hv1, hv2⟩ := hv
  obtain ⟨hv1, hv3⟩ := hv1 rfl
  have hE : p * n + n ≤ E * n := by
    have : (p + 1) * n ≤ E * n := Nat.mul_le_mul_right _ hlt
    rwa [Nat.succ_mul] at this
  obtain ⟨s', f1, f2⟩ := dense_fold fill ih p hE
    (fun i => match (entries t).lookup i with | some c => norm fill ls c | none => fillTree fill ls)
    (entries t) 0 s (Nat.zero_le _) (by simpa using h4) hv1 (fun e he => ⟨Nat.zero_le _, hv3 e he⟩)
    (fun e he => ⟨by simp only [lookup_mem hv1 he], hv2 e he⟩)
    (fun j _ _ hj => by simp only [lookup_not_mem hj])
  refine ⟨s', f1, by simp [h1], hlt, ?_, ?_⟩
  · intro c hc
    rcases List.mem_append.1 hc with hc | hc
    · exact h3 c hc
    · rw [List.mem_singleton.1 hc]
      show ((List.range n).map (fun i => (i, _))).map Prod.fst = _
      rw [List.map_map]; exact List.map_id' _
  · rw [Nat.succ_mul, List.flatMap_append, List.flatMap_cons, List.flatMap_nil, List.append_nil]
    have hk : kids (norm fill ((n, Kind.dense) :: ls) t) = (List.range n).map
        (fun i => match (entries t).lookup i with | some c => norm fill ls c | none => fillTree fill ls) := by
      show ((List.range n).map (fun i => (i, _))).map Prod.snd = _
      rw [List.map_map]; rfl
    rw [hk]
    exact f2

/-- The compressed level while a loop over it runs: `X` are its coordinates so far. -/
structure Appended (c0 : CompSt) {d : Nat} (X : List (Nat × Tree V d)) (c : CompSt) : Prop where
  pos : c.pos = c0.pos
  size : c.size = X.length
  le : c.size ≤ c.crd.length
  pos0 : 0 < c.crd.length
  crd : ∀ (i : Nat) (e : Nat × Tree V d), X[i]? = some e → c.crd[i]? = some (some e.1)

theorem appendCoord_spec {c0 c : CompSt} {d : Nat} {X : List (Nat × Tree V d)} (h : Appended c0 X c) (e : Nat × Tree V d) :
    ∃ c', appendCoord c e.1 = some c' ∧ Appended c0 (X ++ [e]) c' := by
  obtain ⟨d1, d2, d3⟩ := dbl_spec c.crd c.size h.pos0 h.le
  refine ⟨{ c with crd := (doubleSizeIfFull c.crd c.size).set c.size (some e.1), size := c.size + 1 },
    by unfold appendCoord; rw [write_some d1]; rfl, h.pos, ?_, ?_, ?_, ?_⟩
  · show c.size + 1 = _
    rw [h.size]; simp
  · show c.size + 1 ≤ (List.set _ _ _).length
    rw [List.length_set]; omega
  · show 0 < (List.set _ _ _).length
    rw [List.length_set]; omega
  · intro i e' hi
    show (List.set (doubleSizeIfFull c.crd c.size) c.size (some e.1))[i]? = _
    have hlen := h.size
    have hle := h.le
    rw [List.getElem?_append] at hi
    split at hi
    · rw [List.getElem?_set_ne (by omega), d3 i (by omega)]
      exact h.crd i e' hi
    · have hi0 := (List.getElem?_eq_some_iff.1 hi).1
      have : i = X.length := by
        have : i - X.length < 1 := hi0
        omega
      subst this
      rw [Nat.sub_self] at hi
      have he : e = e' := Option.some.inj hi
      rw [← he, ← hlen, List.getElem?_set_self d1]

theorem childSize_rep {fill : V} {ud : Bool} {n : Nat} {ls : List (Nat × Kind)} {P E : Nat}
    {cs : List (Tree V ((n, Kind.sparse) :: ls).length)} {s : St V}
    (h : Rep fill ud ((n, .sparse) :: ls) P E cs s) :
    childSize ((n, .sparse) :: ls) s = some (cs.flatMap entries).length := by
  obtain ⟨c, cs', hc, _, _, _, _, h5, _⟩ := h
  show s.comps.head?.map _ = _
  rw [hc, ← h5]; rfl

/-- One iteration of a loop over an append level, as in `assemble`. -/
def appendStep (fill : V) (ls : List (Nat × Kind)) (x : CompSt × St V) (e : Nat × Tree V ls.length) :
    Option (CompSt × St V) :=
  (initDown fill false ls x.1.size (x.1.size + 1) x.2).bind fun s1 =>
  (assemble fill false ls x.1.size e.2 s1).bind fun s2 =>
  if (childSize ls s1).isSome && childSize ls s1 == childSize ls s2 then some (x.1, s2)
  else (appendCoord x.1 e.1).map fun c' => (c', s2)

theorem appendStep_spec (fill : V) {ls : List (Nat × Kind)} (ih : AssembleOK fill ls) {c0 : CompSt}
    {X : List (Nat × Tree V ls.length)} {x : CompSt × St V} (e : Nat × Tree V ls.length) (hv : visitsOK ls e.2)
    (hc : Appended c0 X x.1) (hr : Rep fill false ls x.1.size x.1.size (X.map Prod.snd) x.2) :
    ∃ x', appendStep fill ls x e = some x' ∧
      Appended c0 (X ++ ([(e.1, norm fill ls e.2)].filter (fun e => !emptySlice ls e.2))) x'.1 ∧
      Rep fill false ls x'.1.size x'.1.size
        ((X ++ ([(e.1, norm fill ls e.2)].filter (fun e => !emptySlice ls e.2))).map Prod.snd) x'.2 := by
  obtain ⟨s1, i1, i2⟩ := initDown_rep fill ls false _ _ _ _ hr (Nat.le_succ _) (fun _ => rfl)
  obtain ⟨s2, a1, a2⟩ := ih false _ _ e.2 _ s1 i2 (Nat.lt_succ_self _) hv
  have hstep : appendStep fill ls x e =
      if (childSize ls s1).isSome && childSize ls s1 == childSize ls s2 then some (x.1, s2)
      else (appendCoord x.1 e.1).map fun c' => (c', s2) := by
    unfold appendStep
    rw [i1]
    show (assemble fill false ls x.1.size e.2 s1).bind _ = _
    rw [a1]
    rfl
  have happ : ∀ (_ : emptySlice ls (norm fill ls e.2) = false)
      (_ : ((childSize ls s1).isSome && childSize ls s1 == childSize ls s2) = false),
      ∃ x', appendStep fill ls x e = some x' ∧
      Appended c0 (X ++ ([(e.1, norm fill ls e.2)].filter (fun e => !emptySlice ls e.2))) x'.1 ∧
      Rep fill false ls x'.1.size x'.1.size
        ((X ++ ([(e.1, norm fill ls e.2)].filter (fun e => !emptySlice ls e.2))).map Prod.snd) x'.2 := by
    intro he hcond
    obtain ⟨c', b1, b2⟩ := appendCoord_spec hc (e.1, norm fill ls e.2)
    simp only at b1
    refine ⟨(c', s2), ?_, ?_, ?_⟩
    · rw [hstep, hcond, b1]; rfl
    · simp only [List.filter_cons, he, Bool.not_false, if_true, List.filter_nil]
      exact b2
    · simp only [List.filter_cons, he, Bool.not_false, if_true, List.filter_nil, List.map_append, List.map_cons,
        List.map_nil]
      rw [b2.size, List.length_append, List.length_singleton, ← hc.size]
      exact a2
  cases ls with
  | nil => exact happ rfl rfl
  | cons l ls =>
    obtain ⟨n, kd⟩ := l
    cases kd with
    | dense => exact happ rfl rfl
    | sparse =>
      have c1 := childSize_rep i2
      have c2 := childSize_rep a2
      rw [List.flatMap_append, List.length_append, List.flatMap_cons, List.flatMap_nil, List.append_nil] at c2
      cases hen : entries (norm fill ((n, Kind.sparse) :: ls) e.2) with
      | nil =>
        have hE : emptySlice ((n, Kind.sparse) :: ls) (norm fill ((n, Kind.sparse) :: ls) e.2) = true := by
          show (entries _).isEmpty = true
          rw [hen]; rfl
        rw [hen, List.length_nil, Nat.add_zero] at c2
        refine ⟨(x.1, s2), ?_, ?_, ?_⟩
        · rw [hstep, c1, c2]; simp
        · simp only [List.filter_cons, hE, Bool.not_true, Bool.false_eq_true, if_false, List.filter_nil, List.append_nil]
          exact hc
        · simp only [List.filter_cons, hE, Bool.not_true, Bool.false_eq_true, if_false, List.filter_nil, List.append_nil]
          exact rollback_rep fill a2 hen
      | cons a as =>
        apply happ
        · show (entries _).isEmpty = false
          rw [hen]; rfl
        · rw [c1, c2, hen]
          simp

theorem append_fold (fill : V) {ls : List (Nat × Kind)} (ih : AssembleOK fill ls) {c0 : CompSt} :
    ∀ (es : List (Nat × Tree V ls.length)) (X : List (Nat × Tree V ls.length)) (x : CompSt × St V),
    (∀ e ∈ es, visitsOK ls e.2) →
    Appended c0 X x.1 → Rep fill false ls x.1.size x.1.size (X.map Prod.snd) x.2 →
    ∃ x', List.foldlM (appendStep fill ls) x es = some x' ∧
      Appended c0 (X ++ (es.map (fun e => (e.1, norm fill ls e.2))).filter (fun e => !emptySlice ls e.2)) x'.1 ∧
      Rep fill false ls x'.1.size x'.1.size
        ((X ++ (es.map (fun e => (e.1, norm fill ls e.2))).filter (fun e => !emptySlice ls e.2)).map Prod.snd) x'.2 := by
  intro es
  induction es with
  | nil => intro X x _ h1 h2; exact ⟨x, rfl, by simpa using h1, by simpa using h2⟩
  | cons e es ihe =>
    intro X x hv h1 h2
    obtain ⟨x1, a1, a2, a3⟩ := appendStep_spec fill ih e (hv e List.mem_cons_self) h1 h2
    obtain ⟨x2, b1, b2, b3⟩ := ihe _ x1 (fun e' he => hv e' (List.mem_cons_of_mem _ he)) a2 a3
    have hl : X ++ [(e.1, norm fill ls e.2)].filter (fun e => !emptySlice ls e.2) ++
        (es.map (fun e => (e.1, norm fill ls e.2))).filter (fun e => !emptySlice ls e.2) =
        X ++ ((e :: es).map (fun e => (e.1, norm fill ls e.2))).filter (fun e => !emptySlice ls e.2) := by
      rw [List.append_assoc, ← List.filter_append]; rfl
    rw [hl] at b2 b3
    refine ⟨x2, ?_, b2, b3⟩
    rw [List.foldlM_cons, a1]
    exact b1

theorem take_flatMap_snoc {d : Nat} (cs : List (Tree V (d + 1))) (t : Tree V (d + 1)) :
    countTo (cs ++ [t]) (cs.length + 1) = (cs.flatMap entries).length + (entries t).length := by
  unfold countTo
  rw [List.take_of_length_le (by simp), List.flatMap_append, List.length_append]
  simp

theorem sparse_ok (fill : V) (n : Nat) {ls : List (Nat × Kind)} (ih : AssembleOK fill ls) :
    AssembleOK fill ((n, .sparse) :: ls) := by
  intro ud p E t cs s h hlt hv
  obtain ⟨c, cs', hc, h1, h2, h3, h4, h5, h6, h7, h8, h9, h10, h11⟩ := h
  have happ : Appended c (cs.flatMap entries) c := ⟨rfl, h5, h6, h7, h8⟩
  obtain ⟨x', f1, f2, f3⟩ := append_fold fill ih (entries t) (cs.flatMap entries) (c, (⟨cs', s.vals⟩ : St V))
    hv.2 happ (by rw [← flatMap_kids]; exact h11)
  have hnorm : ((entries t).map (fun e => (e.1, norm fill ls e.2))).filter (fun e => !emptySlice ls e.2) =
      entries (norm fill ((n, .sparse) :: ls) t) := rfl
  rw [hnorm] at f2 f3
  have hpos : p + 1 < x'.1.pos.length := by rw [f2.pos]; omega
  have hval : (if ud then x'.1.size - c.size else x'.1.size) =
      (if ud then (entries (norm fill ((n, .sparse) :: ls) t)).length
       else (cs.flatMap entries).length + (entries (norm fill ((n, .sparse) :: ls) t)).length) := by
    rw [f2.size, h5, List.length_append]
    cases ud
    · rfl
    · exact Nat.add_sub_cancel_left _ _
  refine ⟨⟨{ x'.1 with pos := x'.1.pos.set (p + 1) (some (if ud then x'.1.size - c.size else x'.1.size)) } :: x'.2.comps,
    x'.2.vals⟩, ?_, _, x'.2.comps, rfl, by simp [h1], hlt, ?_, ?_, ?_, f2.le, f2.pos0, ?_, ?_, ?_, ?_⟩
  · have hd : assemble fill ud ((n, .sparse) :: ls) p t s =
      (match s.comps with
      | [] => none
      | c :: cs =>
        (List.foldlM (appendStep fill ls) (c, (⟨cs, s.vals⟩ : St V)) (entries t)).bind fun x =>
        (write x.1.pos (p + 1) (if ud then x.1.size - c.size else x.1.size)).map fun pos =>
          (⟨{ x.1 with pos := pos } :: x.2.comps, x.2.vals⟩ : St V)) := by
      rw [assemble]; rfl
    rw [hd, hc]
    show (List.foldlM (appendStep fill ls) (c, (⟨cs', s.vals⟩ : St V)) (entries t)).bind _ = _
    rw [f1]
    show (write x'.1.pos (p + 1) _).map _ = _
    rw [write_some hpos]
    rfl
  · show E + 1 ≤ (List.set _ _ _).length
    rw [List.length_set, f2.pos]; exact h3
  · show (List.set _ _ _)[0]? = _
    rw [List.getElem?_set_ne (by omega), f2.pos]; exact h4
  · show x'.1.size = _
    rw [f2.size, List.flatMap_append]; simp
  · intro i e hi
    apply f2.crd i e
    rw [List.flatMap_append] at hi
    simpa using hi
  · intro hud q hq
    show (List.set _ _ _)[q + 1]? = _
    rcases Nat.lt_or_ge q p with hqp | hqp
    · rw [List.getElem?_set_ne (by omega), f2.pos, h9 hud q hqp]
      congr 2
      unfold countTo
      rw [List.take_append_of_le_length (by omega)]
    · have : q = p := by omega
      subst this
      rw [List.getElem?_set_self hpos, hval, hud]
      congr 2
      rw [← h1, take_flatMap_snoc]
      rfl
  · intro hud
    refine ⟨?_, ?_⟩
    · intro q t' hq
      show (List.set _ _ _)[q + 1]? = _
      rw [List.getElem?_append] at hq
      split at hq
      · rw [List.getElem?_set_ne (by omega), f2.pos]
        exact (h10 hud).1 q t' hq
      · have hi0 := (List.getElem?_eq_some_iff.1 hq).1
        have hqp : q = p := by
          have : q - cs.length < 1 := hi0
          omega
        subst hqp
        rw [h1, Nat.sub_self] at hq
        have ht : norm fill ((n, Kind.sparse) :: ls) t = t' := Option.some.inj hq
        rw [List.getElem?_set_self hpos, hval, hud, ← ht]
        rfl
    · intro q hq1 hq2
      show (List.set _ _ _)[q + 1]? = _
      rw [List.getElem?_set_ne (by omega), f2.pos]
      exact (h10 hud).2 q (by omega) hq2
  · rw [flatMap_kids, List.flatMap_append, List.flatMap_cons, List.flatMap_nil, List.append_nil]
    exact f3

theorem leaf_ok (fill : V) : AssembleOK fill [] := by
  intro ud p E t cs s h hlt _
  obtain ⟨h1, h2, h3, h4, h5, h6, h7⟩ := h
  have hp : p < s.vals.length := by omega
  refine ⟨{ s with vals := s.vals.set p (some (valOf t)) }, ?_, h1, by simp [h2], ?_, hlt, ?_, ?_, ?_⟩
  · rw [assemble, write_some hp]; rfl
  · show E ≤ (List.set _ _ _).length
    rw [List.length_set]; exact h3
  · intro hu
    show 0 < (List.set _ _ _).length
    rw [List.length_set]; exact h5 hu
  · intro i v hi
    show (List.set _ _ _)[i]? = _
    rw [List.getElem?_append] at hi
    split at hi
    · rw [List.getElem?_set_ne (by omega)]
      exact h6 i v hi
    · have hi0 := (List.getElem?_eq_some_iff.1 hi).1
      have : i = p := by
        have : i - cs.length < 1 := hi0
        omega
      subst this
      rw [h2, Nat.sub_self] at hi
      have hv : norm fill [] t = v := Option.some.inj hi
      rw [List.getElem?_set_self hp, ← hv]
      rfl
  · intro hu i hi1 hi2
    show (List.set _ _ _)[i]? = _
    rw [List.getElem?_set_ne (by omega)]
    exact h7 hu i (by omega) hi2

theorem assemble_ok (fill : V) : ∀ ls : List (Nat × Kind), AssembleOK fill ls := by
  intro ls
  induction ls with
  | nil => exact leaf_ok fill
  | cons l ls ih =>
    obtain ⟨n, kd⟩ := l
    cases kd with
    | dense => exact dense_ok fill n ih
    | sparse => exact sparse_ok fill n ih

end Verif.Assembly
