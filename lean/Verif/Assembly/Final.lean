import Verif.Assembly.Loops
import Verif.Pack.Expected
/-! The finished arrays, and walking them. -/
namespace Verif.Assembly
open Verif.Merge (Lvl)
open Verif.Pack (Kind walk forAll forAll_eq IndexWF)

variable {V : Type}

/-- The arrays of the result for the contents of its positions. -/
def encode : (ls : List (Nat × Kind)) → List (Tree V ls.length) → List Lvl × List V
  | [], cs => ([], cs.map valOf)
  | (n, .dense) :: ls, cs => (.dense n :: (encode ls (cs.flatMap kids)).1, (encode ls (cs.flatMap kids)).2)
  | (_, .sparse) :: ls, cs =>
    (.comp ((List.range (cs.length + 1)).map (countTo cs)) ((cs.flatMap entries).map Prod.fst) ::
      (encode ls (cs.flatMap kids)).1, (encode ls (cs.flatMap kids)).2)

/-! ### Finalisation -/

theorem mapM_id_some {α : Type} (l : List α) : (l.map some).mapM id = some l := by
  induction l with
  | nil => rfl
  | cons a l ih => simp [List.mapM_cons, ih]

theorem readAll_eq {α : Type} {a : Arr α} {l : List α} (h : ∀ (i : Nat) (x : α), l[i]? = some x → a[i]? = some (some x)) :
    readAll a l.length = some l := by
  unfold readAll
  have hle : l.length ≤ a.length := by
    rcases Nat.lt_or_ge a.length l.length with hlt | hge
    · have := h a.length _ (List.getElem?_eq_getElem hlt)
      rw [List.getElem?_eq_none (Nat.le_refl _)] at this
      cases this
    · exact hge
  rw [if_pos hle]
  have : a.take l.length = l.map some := by
    apply List.ext_getElem?
    intro i
    rw [List.getElem?_take, List.getElem?_map]
    split
    · rename_i hi
      rw [List.getElem?_eq_getElem hi]
      exact h i _ (List.getElem?_eq_getElem hi)
    · rw [List.getElem?_eq_none (by omega)]; rfl
  rw [this]
  exact mapM_id_some l

theorem countTo_succ {d : Nat} (cs : List (Tree V (d + 1))) (p : Nat) (t : Tree V (d + 1)) (h : cs[p]? = some t) :
    countTo cs (p + 1) = countTo cs p + (entries t).length := by
  unfold countTo
  rw [List.take_add_one, h, List.flatMap_append, List.length_append]
  simp

theorem prefixSum_spec {d : Nat} (cs : List (Tree V (d + 1))) : ∀ (k p : Nat) (a : Arr Nat), p + k = cs.length →
    cs.length + 1 ≤ a.length →
    (∀ q (t : Tree V (d + 1)), p ≤ q → cs[q]? = some t → a[q + 1]? = some (some (entries t).length)) →
    (∀ q, q < p → a[q + 1]? = some (some (countTo cs (q + 1)))) → a[0]? = some (some 0) →
    ∃ a', prefixSum k (p + 1) (countTo cs p) a = some a' ∧ a'[0]? = some (some 0) ∧
      ∀ q, q < cs.length → a'[q + 1]? = some (some (countTo cs (q + 1))) := by
  intro k
  induction k with
  | zero => intro p a hp _ _ h2 h0; exact ⟨a, rfl, h0, fun q hq => h2 q (by omega)⟩
  | succ k ih =>
    intro p a hp hlen h1 h2 h0
    have hlt : p < cs.length := by omega
    have hpt := List.getElem?_eq_getElem hlt
    have hr : read a (p + 1) = some (entries cs[p]).length := by
      unfold read
      rw [h1 p _ (Nat.le_refl _) hpt]
      rfl
    have hc := countTo_succ cs p _ hpt
    have hw : p + 1 < a.length := by omega
    obtain ⟨a', i1, i2, i3⟩ := ih (p + 1) (a.set (p + 1) (some (countTo cs (p + 1)))) (by omega)
      (by rw [List.length_set]; exact hlen)
      (fun q t hq1 hq2 => by rw [List.getElem?_set_ne (by omega)]; exact h1 q t (by omega) hq2)
      (fun q hq => by
        rcases Nat.lt_or_ge q p with hqp | hqp
        · rw [List.getElem?_set_ne (by omega)]; exact h2 q hqp
        · have : q = p := by omega
          subst this
          rw [List.getElem?_set_self hw])
      (by rw [List.getElem?_set_ne (by omega)]; exact h0)
    refine ⟨a', ?_, i2, i3⟩
    unfold prefixSum
    rw [hr]
    show (write a (p + 1) (countTo cs p + (entries cs[p]).length)).bind _ = _
    rw [← hc, write_some hw]
    exact i1

theorem finalize_spec (fill : V) : ∀ (ls : List (Nat × Kind)) (ud : Bool) (P : Nat) (cs : List (Tree V ls.length)) (s : St V),
    Rep fill ud ls P P cs s →
    ∃ comps, finalize ud P ls s.comps = some comps ∧ output P ls comps s.vals = some (encode ls cs) := by
  intro ls
  induction ls with
  | nil =>
    intro ud P cs s h
    obtain ⟨h1, h2, h3, h4, h5, h6, h7⟩ := h
    refine ⟨s.comps, by cases ud <;> rfl, ?_⟩
    show (readAll s.vals P).map _ = _
    have hlen : (cs.map valOf).length = P := by rw [List.length_map]; exact h2
    rw [← hlen, readAll_eq]
    · rfl
    · intro i x hi
      rw [List.getElem?_map] at hi
      cases hc : cs[i]? with
      | none => rw [hc] at hi; cases hi
      | some v =>
        rw [hc] at hi
        rw [h6 i v hc]
        exact congrArg some hi
  | cons l ls ih =>
    obtain ⟨n, kd⟩ := l
    intro ud P cs s h
    cases kd with
    | dense =>
      obtain ⟨h1, h2, h3, h4⟩ := h
      obtain ⟨comps, f1, f2⟩ := ih true (P * n) _ s h4
      refine ⟨comps, by rw [finalize]; exact f1, ?_⟩
      show (output (P * n) ls comps s.vals).map _ = _
      rw [f2]
      rfl
    | sparse =>
      obtain ⟨c, cs', hc, h1, h2, h3, h4, h5, h6, h7, h8, h9, h10, h11⟩ := h
      obtain ⟨comps, f1, f2⟩ := ih false c.size _ _ h11
      have hpos : ∃ a', (if ud then prefixSum P 1 0 c.pos else some c.pos) = some a' ∧ a'[0]? = some (some 0) ∧
          ∀ q, q < P → a'[q + 1]? = some (some (countTo cs (q + 1))) := by
        cases ud with
        | false => exact ⟨c.pos, rfl, h4, h9 rfl⟩
        | true =>
          have := prefixSum_spec cs P 0 c.pos (by omega) (by omega) (fun q t _ hq => (h10 rfl).1 q t hq)
            (fun q hq => by omega) h4
          rw [h1] at this
          exact this
      obtain ⟨a', p1, p2, p3⟩ := hpos
      refine ⟨{ c with pos := a' } :: comps, ?_, ?_⟩
      · rw [hc, finalize, p1]
        show (finalize false c.size ls cs').map _ = _
        rw [f1]; rfl
      · show (readAll a' (P + 1)).bind _ = _
        have hl1 : ((List.range (cs.length + 1)).map (countTo cs)).length = P + 1 := by simp [h1]
        rw [← hl1, readAll_eq]
        · show (readAll c.crd c.size).bind _ = _
          have hl2 : ((cs.flatMap entries).map Prod.fst).length = c.size := by rw [List.length_map]; exact h5.symm
          rw [← hl2, readAll_eq]
          · show (output ((cs.flatMap entries).map Prod.fst).length ls comps s.vals).map _ = _
            rw [hl2, f2]
            rfl
          · intro i x hi
            rw [List.getElem?_map] at hi
            cases he : (cs.flatMap entries)[i]? with
            | none => rw [he] at hi; cases hi
            | some e =>
              rw [he] at hi
              rw [h8 i e he]
              exact congrArg some hi
        · intro i x hi
          rcases Nat.lt_or_ge i (cs.length + 1) with hlt | hge
          · rw [List.getElem?_map, List.getElem?_range hlt] at hi
            have hx : countTo cs i = x := Option.some.inj hi
            rw [← hx]
            cases i with
            | zero => rw [p2]; rfl
            | succ i => exact p3 i (by omega)
          · rw [List.getElem?_eq_none (by simpa using hge)] at hi
            cases hi

/-! ### Walking -/

/-- All components below a position. -/
def rows : (ls : List (Nat × Kind)) → Tree V ls.length → List (List Nat × V)
  | [], v => [([], valOf v)]
  | _ :: ls, t => (entries t).flatMap (fun e => under e.1 (rows ls e.2))

/-- Dense levels have all their coordinates. -/
def Full : (ls : List (Nat × Kind)) → Tree V ls.length → Prop
  | [], _ => True
  | (n, k) :: ls, t => (k = .dense → (entries t).map Prod.fst = List.range n) ∧ ∀ e ∈ entries t, Full ls e.2

theorem flat_get {α β : Type} (f : α → List β) : ∀ (cs : List α) (p : Nat) (c : α) (j : Nat), cs[p]? = some c →
    j < (f c).length → (cs.flatMap f)[((cs.take p).flatMap f).length + j]? = (f c)[j]? := by
  intro cs
  induction cs with
  | nil => intro p c j h; simp at h
  | cons a cs ih =>
    intro p c j h hj
    cases p with
    | zero =>
      rw [List.getElem?_cons_zero] at h
      have : a = c := Option.some.inj h
      subst this
      rw [List.take_zero, List.flatMap_nil, List.length_nil, Nat.zero_add, List.flatMap_cons,
        List.getElem?_append_left hj]
    | succ p =>
      rw [List.getElem?_cons_succ] at h
      rw [List.take_succ_cons, List.flatMap_cons, List.flatMap_cons, List.length_append, Nat.add_assoc,
        List.getElem?_append_right (by omega), Nat.add_sub_cancel_left]
      exact ih p c j h hj

theorem range_flatMap_getD {α β : Type} (f : α → List β) (l : List α) :
    (List.range l.length).flatMap (fun j => ((l[j]?).map f).getD []) = l.flatMap f := by
  have key : ∀ k, k ≤ l.length →
      (List.range k).flatMap (fun j => ((l[j]?).map f).getD []) = (l.take k).flatMap f := by
    intro k
    induction k with
    | zero => intro _; simp
    | succ k ih =>
      intro hk
      rw [List.range_succ, List.flatMap_append, ih (by omega), List.take_add_one, List.flatMap_append,
        List.getElem?_eq_getElem (by omega : k < l.length)]
      simp [List.getElem?_eq_getElem (by omega : k < l.length)]
  rw [key _ (Nat.le_refl _), List.take_length]

theorem kids_get {d : Nat} (t : Tree V (d + 1)) (j : Nat) : (kids t)[j]? = ((entries t)[j]?).map Prod.snd := by
  unfold kids; rw [List.getElem?_map]

theorem flatMap_kids_take {d : Nat} (cs : List (Tree V (d + 1))) (p : Nat) :
    ((cs.take p).flatMap kids).length = countTo cs p := by
  rw [flatMap_kids, List.length_map]; rfl

theorem full_entries {n : Nat} {k : Kind} {ls : List (Nat × Kind)} {cs : List (Tree V (ls.length + 1))}
    (h : ∀ c ∈ cs, Full ((n, k) :: ls) c) : ∀ c ∈ cs.flatMap kids, Full ls c := by
  intro c hc
  obtain ⟨t, ht, hct⟩ := List.mem_flatMap.1 hc
  obtain ⟨e, he, rfl⟩ := List.mem_map.1 hct
  exact (h t ht).2 e he

theorem countTo_dense {n : Nat} {ls : List (Nat × Kind)} {cs : List (Tree V (ls.length + 1))}
    (h : ∀ c ∈ cs, Full ((n, .dense) :: ls) c) : ∀ p, p ≤ cs.length → countTo cs p = p * n := by
  intro p
  induction p with
  | zero => intro _; unfold countTo; simp
  | succ p ih =>
    intro hp
    have hlt : p < cs.length := by omega
    rw [countTo_succ cs p _ (List.getElem?_eq_getElem hlt), ih (by omega), Nat.succ_mul]
    have := (h _ (List.getElem_mem hlt)).1 rfl
    have hl : ((entries cs[p]).map Prod.fst).length = n := by rw [this, List.length_range]
    rw [List.length_map] at hl
    rw [hl]

theorem walk_encode : ∀ (ls : List (Nat × Kind)) (cs : List (Tree V ls.length)) (p : Nat) (c : Tree V ls.length),
    (∀ c ∈ cs, Full ls c) → cs[p]? = some c →
    walk (encode ls cs).2 (encode ls cs).1 p = some (rows ls c) := by
  intro ls
  induction ls with
  | nil =>
    intro cs p c _ h
    show (match (cs.map valOf)[p]? with | none => none | some v => some [([], v)]) = _
    rw [List.getElem?_map, h]
    rfl
  | cons l ls ih =>
    obtain ⟨n, kd⟩ := l
    intro cs p c hf h
    have hplt : p < cs.length := (List.getElem?_eq_some_iff.1 h).1
    have hcf := hf c (List.mem_of_getElem? h)
    have hkids := full_entries hf
    -- the walk below the `j`-th coordinate of the position
    have hkid : ∀ j e, (entries c)[j]? = some e →
        walk (encode ls (cs.flatMap kids)).2 (encode ls (cs.flatMap kids)).1 (countTo cs p + j) = some (rows ls e.2) := by
      intro j e he
      apply ih _ _ _ hkids
      have hj : j < (kids c).length := by rw [kids_length]; exact (List.getElem?_eq_some_iff.1 he).1
      rw [← flatMap_kids_take cs p, flat_get kids cs p c j h hj, kids_get, he]
      rfl
    have hsum : rows ((n, kd) :: ls) c = (List.range (entries c).length).flatMap (fun j =>
        (((entries c)[j]?).map (fun e => under e.1 (rows ls e.2))).getD []) := by
      rw [range_flatMap_getD (fun (e : Nat × Tree V ls.length) => under e.1 (rows ls e.2))]; rfl
    rw [hsum]
    cases kd with
    | dense =>
      have hfst := hcf.1 rfl
      have hn : (entries c).length = n := by
        rw [← List.length_map (f := Prod.fst), hfst, List.length_range]
      show forAll (fun j => (walk (encode ls (cs.flatMap kids)).2 (encode ls (cs.flatMap kids)).1 (p * n + j)).map _) (List.range n) = _
      rw [hn]
      apply forAll_eq
      intro j hj
      rw [List.mem_range] at hj
      have he := List.getElem?_eq_getElem (show j < (entries c).length by omega)
      have hw := hkid j _ he
      rw [countTo_dense hf p (by omega)] at hw
      have hjf : ((entries c)[j]'(by omega)).1 = j := by
        have h1 : ((entries c).map Prod.fst)[j]? = some j := by rw [hfst, List.getElem?_range hj]
        rw [List.getElem?_map, he] at h1
        exact Option.some.inj h1
      rw [hw, he]
      simp only [Option.map_some, hjf]
      rfl
    | sparse =>
      have hpos : ∀ q, q ≤ cs.length → ((List.range (cs.length + 1)).map (countTo cs))[q]? = some (countTo cs q) := by
        intro q hq
        rw [List.getElem?_map, List.getElem?_range (by omega)]; rfl
      have hd : walk (encode ((n, Kind.sparse) :: ls) cs).2 (encode ((n, Kind.sparse) :: ls) cs).1 p =
        match ((List.range (cs.length + 1)).map (countTo cs))[p]?, ((List.range (cs.length + 1)).map (countTo cs))[p + 1]? with
        | some a, some b =>
          forAll (fun q => match ((cs.flatMap entries).map Prod.fst)[q]? with
            | none => none
            | some x => (walk (encode ls (cs.flatMap kids)).2 (encode ls (cs.flatMap kids)).1 q).map
                (List.map (fun (r : List Nat × V) => (x :: r.1, r.2)))) (List.range' a (b - a))
        | _, _ => none := rfl
      rw [hd, hpos p (by omega), hpos (p + 1) (by omega)]
      simp only
      rw [countTo_succ cs p c h, Nat.add_sub_cancel_left, List.range'_eq_map_range]
      rw [← Pack.forAll_map (fun q => match ((cs.flatMap entries).map Prod.fst)[q]? with
            | none => none
            | some x => (walk (encode ls (cs.flatMap kids)).2 (encode ls (cs.flatMap kids)).1 q).map
                (List.map (fun (r : List Nat × V) => (x :: r.1, r.2))))]
      apply forAll_eq
      intro j hj
      rw [List.mem_range] at hj
      have he := List.getElem?_eq_getElem hj
      have hg : (cs.flatMap entries)[countTo cs p + j]? = some (entries c)[j] := by
        unfold countTo
        rw [flat_get entries cs p c j h hj, he]
      rw [List.getElem?_map, hg, he]
      simp only [Option.map_some]
      rw [hkid j _ he]
      rfl

/-! ### Contents and specification -/

theorem rows_fillTree (fill : V) : ∀ ls : List (Nat × Kind), rows ls (fillTree fill ls) = unvisited fill ls := by
  intro ls
  induction ls with
  | nil => rfl
  | cons l ls ih =>
    obtain ⟨n, kd⟩ := l
    cases kd with
    | sparse => rfl
    | dense =>
      show ((List.range n).map (fun i => (i, fillTree fill ls))).flatMap _ = _
      rw [List.flatMap_map]
      apply flatMap_congr'
      intro i _
      show under i (rows ls (fillTree fill ls)) = _
      rw [ih]

theorem rows_empty (ls : List (Nat × Kind)) (t : Tree V ls.length) (h : emptySlice ls t = true) : rows ls t = [] := by
  cases ls with
  | nil => cases h
  | cons l ls =>
    obtain ⟨n, kd⟩ := l
    cases kd with
    | dense => cases h
    | sparse =>
      have : (entries t).isEmpty = true := h
      rw [List.isEmpty_iff] at this
      show (entries t).flatMap _ = _
      rw [this]; rfl

theorem rows_norm (fill : V) : ∀ (ls : List (Nat × Kind)) (t : Tree V ls.length),
    rows ls (norm fill ls t) = stored fill ls t := by
  intro ls
  induction ls with
  | nil => intro t; rfl
  | cons l ls ih =>
    obtain ⟨n, kd⟩ := l
    intro t
    cases kd with
    | dense =>
      show ((List.range n).map (fun i => (i, _))).flatMap _ = (List.range n).flatMap _
      rw [List.flatMap_map]
      apply flatMap_congr'
      intro i _
      cases h : (entries t).lookup i with
      | none => simp only; rw [rows_fillTree]
      | some c => simp only; rw [ih]
    | sparse =>
      show (((entries t).map (fun e => (e.1, norm fill ls e.2))).filter (fun e => !emptySlice ls e.2)).flatMap _ =
        (entries t).flatMap _
      rw [Pack.flatMap_filter', List.flatMap_map]
      · apply flatMap_congr'
        intro e _
        simp only [ih]
      · intro e _ he
        have : emptySlice ls e.2 = true := by simpa using he
        rw [rows_empty ls e.2 this]; rfl

theorem full_fillTree (fill : V) : ∀ ls : List (Nat × Kind), Full ls (fillTree fill ls) := by
  intro ls
  induction ls with
  | nil => trivial
  | cons l ls ih =>
    obtain ⟨n, kd⟩ := l
    cases kd with
    | sparse => exact ⟨fun h => (nomatch h), fun e he => (nomatch he)⟩
    | dense =>
      refine ⟨fun _ => ?_, ?_⟩
      · show ((List.range n).map (fun i => (i, fillTree fill ls))).map Prod.fst = _
        rw [List.map_map]; exact List.map_id' _
      · intro e he
        obtain ⟨i, _, rfl⟩ := List.mem_map.1 (show e ∈ (List.range n).map (fun i => (i, fillTree fill ls)) from he)
        exact ih

theorem full_norm (fill : V) : ∀ (ls : List (Nat × Kind)) (t : Tree V ls.length), Full ls (norm fill ls t) := by
  intro ls
  induction ls with
  | nil => intro _; trivial
  | cons l ls ih =>
    obtain ⟨n, kd⟩ := l
    intro t
    cases kd with
    | sparse =>
      refine ⟨fun h => (nomatch h), fun e he => ?_⟩
      have he' := (List.mem_filter.1 (show e ∈ ((entries t).map (fun e => (e.1, norm fill ls e.2))).filter
        (fun e => !emptySlice ls e.2) from he)).1
      obtain ⟨i, _, rfl⟩ := List.mem_map.1 he'
      exact ih _
    | dense =>
      refine ⟨fun _ => ?_, ?_⟩
      · show ((List.range n).map (fun i => (i, _))).map Prod.fst = _
        rw [List.map_map]; exact List.map_id' _
      · intro e he
        obtain ⟨i, _, rfl⟩ := List.mem_map.1 (show e ∈ (List.range n).map (fun i => (i,
          (match (entries t).lookup i with | some c => norm fill ls c | none => fillTree fill ls))) from he)
        cases h : (entries t).lookup i with
        | none => simp only; exact full_fillTree fill ls
        | some c => simp only; exact ih c

theorem run_encode (cap : Nat) (hcap : 0 < cap) (fill : V) (ls : List (Nat × Kind)) (t : Tree V ls.length)
    (hv : visitsOK ls t) : run cap fill ls t = some (encode ls [norm fill ls t]) := by
  have h0 := (initLevels_rep cap hcap fill ls false).1 1 (fun _ => rfl)
  obtain ⟨s, a1, a2⟩ := assemble_ok fill ls false 0 1 t [] _ h0 (by omega) hv
  obtain ⟨comps, f1, f2⟩ := finalize_spec fill ls false 1 _ s a2
  unfold run
  rw [a1]
  show (finalize false 1 ls s.comps).bind _ = _
  rw [f1]
  exact f2

end Verif.Assembly
