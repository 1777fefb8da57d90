import Verif.Assembly.Final
/-! The assembled arrays are well formed. -/
namespace Verif.Assembly
open Verif.Merge (Lvl)
open Verif.Pack (Kind IndexWF)

variable {V : Type}

theorem countTo_mono {d : Nat} (cs : List (Tree V (d + 1))) {p q : Nat} (h : p ≤ q) : countTo cs p ≤ countTo cs q := by
  unfold countTo
  obtain ⟨k, rfl⟩ := Nat.exists_eq_add_of_le h
  rw [List.take_add, List.flatMap_append, List.length_append]
  omega

theorem segment_entries {d : Nat} (cs : List (Tree V (d + 1))) {p : Nat} (hp : p < cs.length) :
    (((cs.flatMap entries).map Prod.fst).drop (countTo cs p)).take (countTo cs (p + 1) - countTo cs p) =
      (entries cs[p]).map Prod.fst := by
  rw [countTo_succ cs p _ (List.getElem?_eq_getElem hp), Nat.add_sub_cancel_left]
  have h1 : cs.flatMap entries = (cs.take p).flatMap entries ++ (entries cs[p] ++ (cs.drop (p + 1)).flatMap entries) := by
    rw [← List.flatMap_cons, ← List.drop_eq_getElem_cons hp, ← List.flatMap_append, List.take_append_drop]
  rw [h1, List.map_append, List.map_append]
  have h2 : countTo cs p = (((cs.take p).flatMap entries).map Prod.fst).length := by
    rw [List.length_map]; rfl
  rw [h2, List.drop_left]
  have h3 : (entries cs[p]).length = ((entries cs[p]).map Prod.fst).length := by rw [List.length_map]
  rw [h3, List.take_left]

theorem encode_length : ∀ (ls : List (Nat × Kind)) (cs : List (Tree V ls.length)), (encode ls cs).1.length = ls.length := by
  intro ls
  induction ls with
  | nil => intro _; rfl
  | cons l ls ih =>
    obtain ⟨n, kd⟩ := l
    intro cs
    cases kd with
    | dense =>
      show (Lvl.dense n :: (encode ls (cs.flatMap kids)).1).length = _
      rw [List.length_cons, ih]; rfl
    | sparse =>
      show (Lvl.comp _ _ :: (encode ls (cs.flatMap kids)).1).length = _
      rw [List.length_cons, ih]; rfl

theorem encode_wf : ∀ (ls : List (Nat × Kind)) (cs : List (Tree V ls.length)),
    (∀ c ∈ cs, Full ls c) → (∀ c ∈ cs, visitsSorted ls c) →
    IndexWF cs.length ((ls.map Prod.fst).zip (encode ls cs).1) (encode ls cs).2.length := by
  intro ls
  induction ls with
  | nil =>
    intro cs _ _
    show (cs.map valOf).length = cs.length
    rw [List.length_map]
  | cons l ls ih =>
    obtain ⟨n, kd⟩ := l
    intro cs hf hs
    have hkf := full_entries hf
    have hks : ∀ c ∈ cs.flatMap kids, visitsSorted ls c := by
      intro c hc
      obtain ⟨t, ht, hct⟩ := List.mem_flatMap.1 hc
      obtain ⟨e, he, rfl⟩ := List.mem_map.1 hct
      exact (hs t ht).2.2 e he
    have hlen : (cs.flatMap kids).length = countTo cs cs.length := by
      rw [← flatMap_kids_take, List.take_length]
    have hi := ih (cs.flatMap kids) hkf hks
    cases kd with
    | dense =>
      refine ⟨rfl, ?_⟩
      rw [hlen, countTo_dense hf _ (Nat.le_refl _)] at hi
      exact hi
    | sparse =>
      have htot : countTo cs cs.length = ((cs.flatMap entries).map Prod.fst).length := by
        unfold countTo; rw [List.take_length, List.length_map]
      have hpos : ∀ q, q ≤ cs.length → ((List.range (cs.length + 1)).map (countTo cs))[q]? = some (countTo cs q) := by
        intro q hq
        rw [List.getElem?_map, List.getElem?_range (by omega)]; rfl
      refine ⟨by simp, by rw [hpos 0 (by omega)]; rfl, by rw [hpos _ (Nat.le_refl _), htot], ?_, ?_, ?_, ?_⟩
      · rw [List.pairwise_map]
        exact List.pairwise_lt_range.imp (fun h => countTo_mono cs (Nat.le_of_lt h))
      · intro p a b ha hb
        have hp : p + 1 < cs.length + 1 := by
          have := (List.getElem?_eq_some_iff.1 hb).1
          simpa using this
        rw [hpos p (by omega)] at ha
        rw [hpos (p + 1) (by omega)] at hb
        have ha' := Option.some.inj ha
        have hb' := Option.some.inj hb
        subst ha' hb'
        rw [segment_entries cs (by omega)]
        exact (hs _ (List.getElem_mem (by omega))).1
      · intro x hx
        obtain ⟨e, he, rfl⟩ := List.mem_map.1 hx
        obtain ⟨t, ht, he⟩ := List.mem_flatMap.1 he
        exact (hs t ht).2.1 e he
      · rw [← htot, ← hlen]
        exact hi

theorem sorted_fillTree (fill : V) : ∀ ls : List (Nat × Kind), visitsSorted ls (fillTree fill ls) := by
  intro ls
  induction ls with
  | nil => trivial
  | cons l ls ih =>
    obtain ⟨n, kd⟩ := l
    cases kd with
    | sparse => exact ⟨List.Pairwise.nil, fun e he => (nomatch he), fun e he => (nomatch he)⟩
    | dense =>
      refine ⟨?_, ?_, ?_⟩
      · rw [(full_fillTree fill ((n, .dense) :: ls)).1 rfl]; exact List.pairwise_lt_range
      · intro e he
        obtain ⟨i, hi, rfl⟩ := List.mem_map.1 (show e ∈ (List.range n).map (fun i => (i, fillTree fill ls)) from he)
        exact List.mem_range.1 hi
      · intro e he
        obtain ⟨i, _, rfl⟩ := List.mem_map.1 (show e ∈ (List.range n).map (fun i => (i, fillTree fill ls)) from he)
        exact ih

theorem mem_of_lookup {α : Type} {i : Nat} {c : α} : ∀ {l : List (Nat × α)}, l.lookup i = some c → (i, c) ∈ l := by
  intro l
  induction l with
  | nil => intro h; cases h
  | cons a l ih =>
    intro h
    obtain ⟨j, d⟩ := a
    rw [List.lookup_cons] at h
    split at h
    · rename_i hij
      have := beq_iff_eq.1 hij
      subst this
      cases h
      exact List.mem_cons_self
    · exact List.mem_cons_of_mem _ (ih h)

theorem sorted_norm (fill : V) : ∀ (ls : List (Nat × Kind)) (t : Tree V ls.length), visitsSorted ls t →
    visitsSorted ls (norm fill ls t) := by
  intro ls
  induction ls with
  | nil => intro _ _; trivial
  | cons l ls ih =>
    obtain ⟨n, kd⟩ := l
    rintro t ⟨h1, h2, h3⟩
    cases kd with
    | sparse =>
      have hd : entries (norm fill ((n, Kind.sparse) :: ls) t) =
          ((entries t).map (fun e => (e.1, norm fill ls e.2))).filter (fun e => !emptySlice ls e.2) := rfl
      refine ⟨?_, ?_, ?_⟩
      · rw [hd]
        refine List.Pairwise.sublist (List.Sublist.map _ List.filter_sublist) ?_
        rw [List.map_map]
        exact h1
      · intro e he
        rw [hd] at he
        obtain ⟨e0, he0, rfl⟩ := List.mem_map.1 (List.mem_filter.1 he).1
        exact h2 e0 he0
      · intro e he
        rw [hd] at he
        obtain ⟨e0, he0, rfl⟩ := List.mem_map.1 (List.mem_filter.1 he).1
        exact ih _ (h3 e0 he0)
    | dense =>
      refine ⟨?_, ?_, ?_⟩
      · rw [(full_norm fill ((n, .dense) :: ls) t).1 rfl]; exact List.pairwise_lt_range
      · intro e he
        have : e.1 ∈ (entries (norm fill ((n, Kind.dense) :: ls) t)).map Prod.fst := List.mem_map.2 ⟨e, he, rfl⟩
        rw [(full_norm fill ((n, .dense) :: ls) t).1 rfl] at this
        exact List.mem_range.1 this
      · intro e he
        obtain ⟨i, _, rfl⟩ := List.mem_map.1 (show e ∈ (List.range n).map (fun i => (i,
          (match (entries t).lookup i with | some c => norm fill ls c | none => fillTree fill ls))) from he)
        cases h : (entries t).lookup i with
        | none => simp only; exact sorted_fillTree fill ls
        | some c =>
          simp only
          exact ih c (h3 _ (mem_of_lookup h))

end Verif.Assembly
