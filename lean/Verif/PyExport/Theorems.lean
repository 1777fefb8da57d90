import Verif.PyExport.Model
import Verif.PyArray.Theorems
import Verif.Pack.Theorems
/-! C102: what Python reads back. -/
namespace Verif.PyExport
open Verif.PyArray (SpMatrix fromCsr)
open Verif.Pack
open Verif.Merge (Lvl box)

variable {V : Type}

/-! ### Iteration -/

theorem advance_filter (z : V → Bool) : ∀ l : List (Row V),
    (advance z l).map (·.1) = (l.filter fun r => !z r.2).head? ∧ (rest (advance z l)).filter (fun r => !z r.2) = (l.filter fun r => !z r.2).tail
  | [] => ⟨rfl, rfl⟩
  | r :: l => by
    unfold advance
    by_cases h : z r.2 = true
    · rw [if_pos h, List.filter_cons, if_neg (by simp [h])]
      exact advance_filter z l
    · rw [if_neg h, List.filter_cons, if_pos (by simp [h])]
      exact ⟨rfl, rfl⟩

/-- The calls of `__next__` give the components that are not zero, each once and in the order in which they are stored, and then
`StopIteration` for ever. -/
theorem iteration (z : V → Bool) : ∀ (n : Nat) (l : List (Row V)), calls z n l = (List.range n).map fun k => (l.filter fun r => !z r.2)[k]?
  | 0, _ => rfl
  | n + 1, l => by
    obtain ⟨h1, h2⟩ := advance_filter z l
    rw [calls, iteration z n, h2, h1, List.range_succ_eq_map, List.map_cons, List.map_map, List.head?_eq_getElem?]
    congr 1
    apply List.map_congr_left
    intro k _
    simp

example : calls (· == 0) 4 [([0, 1], 5), ([1, 0], 0), ([2, 2], 7)] = [some ([0, 1], 5), some ([2, 2], 7), none, none] := by decide

/-! ### Helper facts -/

theorem flatMap_congr {α β : Type} {f g : α → List β} : ∀ {l : List α}, (∀ x ∈ l, f x = g x) → l.flatMap f = l.flatMap g
  | [], _ => rfl
  | x :: l, h => by
    rw [List.flatMap_cons, List.flatMap_cons, h x (by simp), flatMap_congr fun y hy => h y (by simp [hy])]

theorem forAll_some {α : Type} {f : Nat → Option (List α)} : ∀ {l : List Nat} {out : List α}, forAll f l = some out →
    out = l.flatMap (fun q => (f q).getD []) ∧ ∀ q ∈ l, ∃ r, f q = some r
  | [], out, h => by cases h; exact ⟨rfl, fun q hq => nomatch hq⟩
  | q :: l, out, h => by
    unfold forAll at h
    cases hq : f q with
    | none => simp [hq] at h
    | some a =>
      cases hl : forAll f l with
      | none => simp [hq, hl] at h
      | some b =>
        simp [hq, hl] at h
        obtain ⟨h1, h2⟩ := forAll_some hl
        refine ⟨by rw [← h, h1, List.flatMap_cons, hq]; rfl, ?_⟩
        intro x hx
        rcases List.mem_cons.1 hx with rfl | hx
        · exact ⟨a, hq⟩
        · exact h2 x hx

theorem take_drop {α : Type} {L : List α} {a b : Nat} {h : Nat → α} (hL : ∀ q, a ≤ q → q < b → L[q]? = some (h q)) :
    (L.take b).drop a = (List.range' a (b - a)).map h := by
  apply List.ext_getElem?
  intro k
  rw [List.getElem?_drop, List.getElem?_take, List.getElem?_map]
  by_cases hk : a + k < b
  · rw [if_pos hk, hL _ (by omega) hk, List.getElem?_range' (by omega)]
    simp
  · rw [if_neg hk, List.getElem?_eq_none (by rw [List.length_range']; omega)]
    rfl

theorem walk_row {vals : List V} {pos crd : List Nat} {i : Nat} {r : List (Row V)} (h : walk vals [.comp pos crd] i = some r) :
    r = ((⟨pos, crd, vals⟩ : SpMatrix V).row i).map fun e => ([e.1], e.2) := by
  unfold walk at h
  cases ha : pos[i]? with
  | none => simp [ha] at h
  | some a =>
    cases hb : pos[i + 1]? with
    | none => simp [ha, hb] at h
    | some b =>
      simp only [ha, hb] at h
      obtain ⟨h1, h2⟩ := forAll_some h
      have key : ∀ q, a ≤ q → q < b → ∃ e : Nat × V, crd[q]? = some e.1 ∧ vals[q]? = some e.2 := by
        intro q hq1 hq2
        obtain ⟨r, hr⟩ := h2 q (List.mem_range'_1.2 ⟨hq1, by omega⟩)
        cases hc : crd[q]? with
        | none => simp [hc] at hr
        | some c =>
          cases hv : vals[q]? with
          | none => simp [hc, walk, hv] at hr
          | some v => exact ⟨(c, v), rfl, rfl⟩
      by_cases hab : a < b
      · obtain ⟨e0, _, _⟩ := key a (Nat.le_refl _) hab
        let g : Nat → Nat × V := fun q => ((crd[q]?).getD e0.1, (vals[q]?).getD e0.2)
        have hg : ∀ q, a ≤ q → q < b → crd[q]? = some (g q).1 ∧ vals[q]? = some (g q).2 := by
          intro q hq1 hq2
          obtain ⟨e, h3, h4⟩ := key q hq1 hq2
          exact ⟨by simp [g, h3], by simp [g, h4]⟩
        have hrow : (⟨pos, crd, vals⟩ : SpMatrix V).row i = (List.range' a (b - a)).map g := by
          unfold SpMatrix.row
          simp only [ha, hb, Option.getD_some]
          refine take_drop fun q hq1 hq2 => ?_
          obtain ⟨h3, h4⟩ := hg q hq1 hq2
          rw [List.getElem?_zip_eq_some]
          exact ⟨h3, h4⟩
        rw [hrow, h1, List.map_map, ← List.flatMap_singleton' (List.map _ _), List.flatMap_map]
        apply flatMap_congr
        intro q hq
        obtain ⟨hq1, hq2⟩ := List.mem_range'_1.1 hq
        obtain ⟨h3, h4⟩ := hg q hq1 (by omega)
        simp [h3, walk, h4]
      · have : b - a = 0 := by omega
        rw [this] at h1
        rw [h1]
        unfold SpMatrix.row
        simp only [ha, hb, Option.getD_some]
        rw [List.drop_eq_nil_of_le (by rw [List.length_take]; omega)]
        rfl

theorem walk_csr {vals : List V} {n : Nat} {pos crd : List Nat} {out : List (Row V)} (h : walk vals [.dense n, .comp pos crd] 0 = some out) :
    out = fromCsr n (⟨pos, crd, vals⟩ : SpMatrix V) := by
  rw [walk] at h
  obtain ⟨h1, h2⟩ := forAll_some h
  rw [h1]
  unfold fromCsr
  apply flatMap_congr
  intro i hi
  obtain ⟨r, hr⟩ := h2 i hi
  rw [hr]
  rw [Nat.zero_mul, Nat.zero_add] at hr
  obtain ⟨w, hw, rfl⟩ := Option.map_eq_some_iff.1 hr
  rw [walk_row hw, List.map_map, Option.getD_some]
  rfl

theorem mem_fromCsr {n : Nat} {s : SpMatrix V} {i j : Nat} {v : V} (hi : i < n) : ([i, j], v) ∈ fromCsr n s ↔ (j, v) ∈ s.row i := by
  unfold fromCsr
  rw [List.mem_flatMap]
  constructor
  · rintro ⟨k, _, h⟩
    obtain ⟨e, he, h⟩ := List.mem_map.1 h
    simp only [Prod.mk.injEq, List.cons.injEq, and_true] at h
    obtain ⟨⟨rfl, rfl⟩, rfl⟩ := h
    exact he
  · intro h
    exact ⟨i, List.mem_range.2 hi, List.mem_map.2 ⟨_, h, rfl⟩⟩

/-- Packing sorted rows gives a canonical matrix with the same entries. -/
theorem packed (zero : V) (n m : Nat) (rows : List (Row V)) (hs : rows.Pairwise (fun a b => lexCmp a.1 b.1 ≤ 0))
    (hr : ∀ r ∈ rows, inRange [n, m] r.1) :
    ∃ s, arrays (pack zero [(n, .dense), (m, .sparse)] rows) = some s ∧ Canonical n m s ∧
      ∀ i, i < n → ∀ j v, (j, v) ∈ s.row i ↔ ([i, j] ∈ rows.map Prod.fst ∧ v = firstAt zero rows [i, j]) := by
  obtain ⟨h1, h2, h3⟩ := pack_spec zero [(n, .dense), (m, .sparse)] rows (rowsOK_of_cmp hs hr)
  obtain ⟨ix, hix⟩ : ∃ ix, (pack zero [(n, .dense), (m, .sparse)] rows).1 = toLevels [(n, .dense), (m, .sparse)] ix := ⟨_, rfl⟩
  generalize pack zero [(n, .dense), (m, .sparse)] rows = st at h1 h2 h3 hix
  obtain ⟨ls, vals⟩ := st
  obtain ⟨pos, crd, rfl⟩ : ∃ pos crd, ls = [.dense n, .comp pos crd] := by
    dsimp only at hix h2
    rw [hix] at h2
    rcases ix with _ | ⟨x, _ | ⟨⟨pos, crd⟩, ix⟩⟩
    · simp [toLevels] at h2
    · simp [toLevels] at h2
    · exact ⟨pos, crd, by rw [hix]; simp [toLevels]⟩
  have hw := walk_csr h3
  simp only [List.map_cons, List.map_nil, List.zip_cons_cons, List.zip_nil_left, IndexWF, Nat.one_mul] at h1
  obtain ⟨_, hp, h0, hl, _, _, hb, hv⟩ := h1
  refine ⟨⟨pos, crd, vals⟩, rfl, ⟨hp, h0, hl, hv, ?_, ?_⟩, ?_⟩
  · intro i hi
    have hsort := List.Pairwise.filter (stored [.dense, .sparse] rows) (box_sorted [n, m])
    have hfst : (fromCsr n (⟨pos, crd, vals⟩ : SpMatrix V)).map Prod.fst = (box [n, m]).filter (stored [.dense, .sparse] rows) := by
      rw [← hw, List.map_map]
      exact List.map_id _
    rw [← hfst, List.pairwise_map] at hsort
    unfold fromCsr at hsort
    have := (List.pairwise_flatMap.1 hsort).1 i (List.mem_range.2 hi)
    rw [List.pairwise_map] at this ⊢
    refine this.imp ?_
    intro a b hab
    simp only [lexCmp] at hab
    simp at hab
    split at hab <;> omega
  · intro i hi e he
    unfold SpMatrix.row at he
    have := List.mem_of_mem_drop he
    have := List.mem_of_mem_take this
    exact hb _ (List.of_mem_zip this).1
  · intro i hi j v
    rw [← mem_fromCsr hi, ← hw, List.mem_map]
    have hst : ∀ c, inRange [n, m] c → (stored [.dense, .sparse] rows c = true ↔ c ∈ rows.map Prod.fst) := by
      intro c hc
      unfold stored
      simp only [keyLen, Bool.or_eq_true, List.any_eq_true, beq_iff_eq]
      constructor
      · rintro (h | ⟨r, hr', h⟩)
        · simp at h
        · refine List.mem_map.2 ⟨r, hr', ?_⟩
          have e1 : r.1.length = 2 := (hr r hr').1
          have e2 : c.length = 2 := hc.1
          simpa [List.take_of_length_le, e1, e2] using h
      · intro h
        obtain ⟨r, hr', rfl⟩ := List.mem_map.1 h
        exact Or.inr ⟨r, hr', rfl⟩
    constructor
    · rintro ⟨c, hc, h⟩
      simp only [Prod.mk.injEq] at h
      obtain ⟨rfl, rfl⟩ := h
      obtain ⟨hc1, hc2⟩ := List.mem_filter.1 hc
      exact ⟨(hst _ (mem_box.1 hc1)).1 hc2, rfl⟩
    · rintro ⟨h, rfl⟩
      have hc : inRange [n, m] [i, j] := by
        obtain ⟨r, hr', e⟩ := List.mem_map.1 h
        rw [← e]; exact hr r hr'
      exact ⟨[i, j], List.mem_filter.2 ⟨mem_box.2 hc, (hst _ hc).2 h⟩, rfl⟩

theorem permute_place (csr : Bool) (i j : Nat) : permute (ordering csr) (place csr i j) = [i, j] := by
  cases csr <;> rfl

theorem two {n m : Nat} {c : List Nat} (csr : Bool) (h : inRange [n, m] c) : ∃ i j, c = place csr i j := by
  obtain ⟨h, _⟩ := h
  match c, h with
  | [a, b], _ =>
    cases csr
    · exact ⟨b, a, rfl⟩
    · exact ⟨a, b, rfl⟩

theorem place_inj {csr : Bool} {i j i' j' : Nat} (h : place csr i j = place csr i' j') : i = i' ∧ j = j' := by
  cases csr <;> simp [place] at h <;> omega

theorem ordering_perm (csr : Bool) : (ordering csr).Perm (List.range 2) := by
  cases csr
  · exact List.Perm.swap 0 1 []
  · exact List.Perm.refl _

/-- Components that are inserted at different places into a tensor of any format come out of Python's iteration: exactly those that are not
zero, each once and in the order of storage, and then `StopIteration` for ever. The zeros that dense levels store are not seen. -/
theorem inserted_iterated {qs : List (Row V) → List (Row V)} (zero : V) (z : V → Bool) (hz : z zero = true) (dims : List Nat)
    (hq : QsortSpec dims.length qs) (kinds : List Kind) (perm : List Nat) (hk : kinds.length = dims.length)
    (hp : perm.Perm (List.range dims.length)) (buffer : List (Row V))
    (hr : ∀ r ∈ buffer, inRange dims r.1) (hd : (buffer.map Prod.fst).Nodup) :
    ∃ out l : List (Row V), iterate perm (tensorPack qs zero dims kinds perm buffer) = some out ∧
      (∀ n, calls z n out = (List.range n).map fun k => l[k]?) ∧ l.Perm (buffer.filter fun r => !z r.2) ∧
      (l.map (fun r => permute perm r.1)).Pairwise (fun a b => lexCmp a b < 0) := by
  obtain ⟨out, h1, h2, h3, h4, h5, _⟩ := tensor_pack_iterate zero dims hq kinds perm hk hp buffer hr hd
  refine ⟨out, out.filter fun r => !z r.2, h1, fun n => iteration z n out, ?_, ?_⟩
  · have n1 : out.Nodup := List.Pairwise.imp (fun h e => h (congrArg Prod.fst e)) (List.pairwise_map.1 h5)
    have n2 : buffer.Nodup := List.Pairwise.imp (fun h e => h (congrArg Prod.fst e)) (List.pairwise_map.1 hd)
    refine (List.perm_ext_iff_of_nodup (n1.sublist List.filter_sublist) (n2.sublist List.filter_sublist)).2 fun r => ?_
    rw [List.mem_filter, List.mem_filter]
    constructor
    · rintro ⟨ho, hv⟩
      rcases (h3 r ho).2 with h | ⟨h, _⟩
      · exact ⟨h, hv⟩
      · rw [h, hz] at hv; cases hv
    · rintro ⟨hb, hv⟩
      exact ⟨h2 r hb, hv⟩
  · exact h4.sublist (List.filter_sublist.map _)

example : (iterate [0, 1] (tensorPack id 0 [2, 2] [.dense, .dense] [0, 1] [([0, 1], 5), ([1, 0], 0)])).map (calls (· == 0) 3) = some [some ([0, 1], 5), none, none] := by
  decide +kernel

/-! ### SciPy matrices -/

/-- `to_sp_csr` and `to_sp_csc` give a canonical SciPy matrix whose entries are exactly the components that are not zero, for every matrix
whose components are at different places. -/
theorem to_sp_partial {qs : List (Row V) → List (Row V)} (zero : V) (z : V → Bool) (csr : Bool) (n m : Nat) (l : List (Row V))
    (hq : QsortSpec 2 qs) (hr : ∀ r ∈ l, inRange [n, m] r.1) (hd : (l.map Prod.fst).Nodup) :
    ∃ s, toSp qs zero z csr [n, m] l = some s ∧ Canonical (major csr n m) (major csr m n) s ∧
      ∀ i, i < major csr n m → ∀ j v, (j, v) ∈ s.row i ↔ ((place csr i j, v) ∈ l ∧ z v = false) := by
  let buf := l.filter fun r => !z r.2
  let pre := buf.map fun r => (permute (ordering csr) r.1, r.2)
  have hbr : ∀ r ∈ buf, inRange [n, m] r.1 := fun r h => hr r (List.mem_filter.1 h).1
  have hlen : ∀ r ∈ pre, r.1.length = 2 := by
    intro r h
    obtain ⟨b, _, rfl⟩ := List.mem_map.1 h
    rw [permute_length, (ordering_perm csr).length_eq]; rfl
  obtain ⟨hperm, hsort⟩ := hq pre hlen
  have hmem : ∀ i j v, ([i, j], v) ∈ qs pre ↔ ((place csr i j, v) ∈ l ∧ z v = false) := by
    intro i j v
    rw [hperm.mem_iff, List.mem_map]
    constructor
    · rintro ⟨b, hb, e⟩
      obtain ⟨i', j', hc⟩ := two csr (hbr b hb)
      simp only [Prod.mk.injEq] at e
      obtain ⟨e, rfl⟩ := e
      rw [hc, permute_place] at e
      simp only [List.cons.injEq, and_true] at e
      obtain ⟨rfl, rfl⟩ := e
      obtain ⟨h1, h2⟩ := List.mem_filter.1 hb
      rw [← hc]
      exact ⟨h1, by simpa using h2⟩
    · rintro ⟨h1, h2⟩
      exact ⟨(place csr i j, v), List.mem_filter.2 ⟨h1, by simp [h2]⟩, by rw [permute_place]⟩
  have hdims : permute (ordering csr) [n, m] = [major csr n m, major csr m n] := by cases csr <;> rfl
  have hrange : ∀ r ∈ qs pre, inRange [major csr n m, major csr m n] r.1 := by
    intro r h
    obtain ⟨b, hb, rfl⟩ := List.mem_map.1 (hperm.mem_iff.1 h)
    rw [← hdims]
    exact inRange_permute (ordering_perm csr) (hbr b hb)
  have hnd : ((qs pre).map Prod.fst).Nodup := by
    rw [(hperm.map Prod.fst).nodup_iff, List.map_map]
    have hbd : (buf.map Prod.fst).Nodup := hd.sublist (List.filter_sublist.map _)
    unfold List.Nodup at hbd ⊢
    rw [List.pairwise_map] at hbd ⊢
    refine hbd.imp_of_mem ?_
    intro a b ha hb hab e
    obtain ⟨i, j, h1⟩ := two csr (hbr a ha)
    obtain ⟨i', j', h2⟩ := two csr (hbr b hb)
    simp only [Function.comp, h1, h2, permute_place, List.cons.injEq, and_true] at e
    exact hab (by rw [h1, h2, e.1, e.2])
  obtain ⟨s, h1, h2, h3⟩ := packed zero _ _ (qs pre) hsort hrange
  refine ⟨s, ?_, h2, ?_⟩
  · unfold toSp
    rw [if_neg (by simp)]
    show arrays (pack zero ((permute (ordering csr) [n, m]).zip [.dense, .sparse]) (qs pre)) = _
    rw [hdims]
    exact h1
  · intro i hi j v
    rw [h3 i hi, ← hmem]
    constructor
    · rintro ⟨h, rfl⟩
      obtain ⟨r, hr', e⟩ := List.mem_map.1 h
      rw [← e, firstAt_mem hnd hr']
      exact hr'
    · intro h
      exact ⟨List.mem_map.2 ⟨_, h, rfl⟩, (firstAt_mem (fill := zero) hnd h).symm⟩

/-- Read by SciPy, the matrix has the value of the tensor everywhere. -/
theorem to_sp_value_partial {qs : List (Row V) → List (Row V)} (zero : V) (add : V → V → V) (z : V → Bool) (csr : Bool) (n m : Nat) (l : List (Row V))
    (hq : QsortSpec 2 qs) (hr : ∀ r ∈ l, inRange [n, m] r.1) (hd : (l.map Prod.fst).Nodup)
    (ha : ∀ v, add zero v = v) (hz : ∀ v, z v = true → v = zero) :
    ∃ s, toSp qs zero z csr [n, m] l = some s ∧
      ∀ i, i < major csr n m → ∀ j, s.value zero add i j = firstAt zero l (place csr i j) := by
  obtain ⟨s, h1, h2, h3⟩ := to_sp_partial zero z csr n m l hq hr hd
  refine ⟨s, h1, fun i hi j => ?_⟩
  have hnd : ((s.row i).map (·.1)).Nodup := (h2.sorted i hi).imp fun h => Nat.ne_of_lt h
  unfold SpMatrix.value
  rw [PyArray.foldl_one ha hnd]
  cases hf : (s.row i).find? fun e => e.1 == j with
  | some e =>
    obtain ⟨j', v⟩ := e
    have hj : j' = j := by simpa using List.find?_some hf
    subst hj
    have := ((h3 i hi _ _).1 (List.mem_of_find?_eq_some hf)).1
    exact (firstAt_mem (r := (place csr i j', v)) hd this).symm
  | none =>
    unfold firstAt
    cases hl : l.find? fun r => r.1 == place csr i j with
    | none => rfl
    | some r =>
      obtain ⟨c, v⟩ := r
      have hc : c = place csr i j := by simpa using List.find?_some hl
      subst hc
      cases hv : z v with
      | true => exact (hz v hv).symm
      | false =>
        have := (h3 i hi j v).2 ⟨List.mem_of_find?_eq_some hl, hv⟩
        exact absurd (List.find?_eq_none.1 hf _ this) (by simp)

theorem firstAt_none {zero : V} {l : List (Row V)} {c : List Nat} (h : c ∉ l.map Prod.fst) : firstAt zero l c = zero := by
  unfold firstAt
  cases hf : l.find? fun r => r.1 == c with
  | none => rfl
  | some r =>
    have hc : r.1 = c := by simpa using List.find?_some hf
    exact absurd (List.mem_map.2 ⟨r, List.mem_of_find?_eq_some hf, hc⟩) h

/-- Components that are inserted at different places into a matrix of any format, with any order of its modes, are the values of the SciPy
matrix that is made of it, and all other values are zero. -/
theorem inserted_to_sp {qs : List (Row V) → List (Row V)} (zero : V) (add : V → V → V) (z : V → Bool) (csr : Bool) (n m : Nat)
    (hq : QsortSpec 2 qs) (kinds : List Kind) (perm : List Nat) (hk : kinds.length = 2)
    (hp : perm.Perm (List.range 2)) (buffer : List (Row V))
    (hr : ∀ r ∈ buffer, inRange [n, m] r.1) (hd : (buffer.map Prod.fst).Nodup)
    (ha : ∀ v, add zero v = v) (hz : ∀ v, z v = true → v = zero) :
    ∃ (out : List (Row V)) (s : SpMatrix V), iterate perm (tensorPack qs zero [n, m] kinds perm buffer) = some out ∧
      toSp qs zero z csr [n, m] out = some s ∧
      ∀ i, i < major csr n m → ∀ j, s.value zero add i j = firstAt zero buffer (place csr i j) := by
  obtain ⟨out, h1, h2, h3, _, h5, _⟩ := tensor_pack_iterate zero [n, m] hq kinds perm hk hp buffer hr hd
  obtain ⟨s, h6, h7⟩ := to_sp_value_partial zero add z csr n m out hq (fun r h => (h3 r h).1) h5 ha hz
  refine ⟨out, s, h1, h6, fun i hi j => ?_⟩
  rw [h7 i hi j]
  generalize place csr i j = c
  by_cases hb : c ∈ buffer.map Prod.fst
  · obtain ⟨r, hr', rfl⟩ := List.mem_map.1 hb
    rw [firstAt_mem h5 (h2 r hr'), firstAt_mem hd hr']
  · rw [firstAt_none hb]
    by_cases ho : c ∈ out.map Prod.fst
    · obtain ⟨r, hr', rfl⟩ := List.mem_map.1 ho
      rw [firstAt_mem h5 hr']
      rcases (h3 r hr').2 with h | ⟨h, _⟩
      · exact absurd (List.mem_map.2 ⟨r, h, rfl⟩) hb
      · exact h
    · exact firstAt_none ho

example : (∀ r ∈ [([0, 1], 5), ([1, 0], 0)], inRange [2, 3] (r : Row Nat).1) ∧ ([([0, 1], 5), ([1, 0], 0)].map (Prod.fst : Row Nat → List Nat)).Nodup
    ∧ ([1, 0] : List Nat).Perm (List.range 2) ∧ (toSp id 0 (· == 0) false [2, 3] [([0, 0], 0), ([0, 1], 5), ([1, 0], 0)]).map (·.indptr) = some [0, 0, 1, 1] := by
  refine ⟨?_, by decide, List.Perm.swap 0 1 [], by decide +kernel⟩
  intro r hr
  simp only [List.mem_cons, List.not_mem_nil, or_false] at hr
  rcases hr with rfl | rfl
  · refine ⟨rfl, fun k h1 h2 => ?_⟩
    match k, h1 with
    | 0, _ => simp
    | 1, _ => simp
  · refine ⟨rfl, fun k h1 h2 => ?_⟩
    match k, h1 with
    | 0, _ => simp
    | 1, _ => simp

/-- A tensor that is not a matrix is refused. -/
theorem to_sp_order (qs : List (Row V) → List (Row V)) (zero : V) (z : V → Bool) (csr : Bool) (dims : List Nat) (l : List (Row V)) (h : dims.length ≠ 2) :
    toSp qs zero z csr dims l = none := if_pos h

theorem firstAt_fromCsr (zero : V) (n : Nat) (s : SpMatrix V) (i j : Nat) :
    firstAt zero (fromCsr n s) [i, j] = PyArray.lookup zero (fromCsr n s) [(i : Int), (j : Int)] := by
  have hp : ∀ c : List Nat, ((c.map fun x : Nat => (x : Int)) == [(i : Int), (j : Int)]) = (c == [i, j]) := by
    intro c
    rw [Bool.eq_iff_iff, beq_iff_eq, beq_iff_eq]
    match c with
    | [] => simp
    | [a] => simp
    | [a, b] => simp; omega
    | a :: b :: d :: c => simp
  unfold firstAt PyArray.lookup
  simp only [hp]
  cases (fromCsr n s).find? fun r => r.1 == [i, j] <;> rfl

/-- A SciPy matrix without repeated entries that becomes a tensor and a SciPy matrix again has the same values, whatever the order of its
entries. Missing: repeated entries (`repeated_entries_fails`). -/
theorem scipy_round_trip_partial {qs : List (Row V) → List (Row V)} (zero : V) (add : V → V → V) (z : V → Bool) (n m : Nat) (a : SpMatrix V)
    (hq : QsortSpec 2 qs) (ha : ∀ v, add zero v = v) (hz : ∀ v, z v = true → v = zero)
    (hb : ∀ i, i < n → ∀ e ∈ a.row i, e.1 < m) (hn : ∀ i, i < n → ((a.row i).map (·.1)).Nodup) :
    ∃ s, toSp qs zero z true [n, m] (fromCsr n a) = some s ∧ ∀ i, i < n → ∀ j, s.value zero add i j = a.value zero add i j := by
  have hr : ∀ r ∈ fromCsr n a, inRange [n, m] r.1 := by
    intro r h
    obtain ⟨i, hi, h⟩ := List.mem_flatMap.1 h
    obtain ⟨e, he, rfl⟩ := List.mem_map.1 h
    have hi := List.mem_range.1 hi
    have := hb i hi e he
    refine ⟨rfl, ?_⟩
    intro k h1 h2
    match k, h1 with
    | 0, _ => exact hi
    | 1, _ => exact this
  have hd : ((fromCsr n a).map Prod.fst).Nodup := by
    unfold fromCsr List.Nodup
    rw [List.pairwise_map, List.pairwise_flatMap]
    refine ⟨fun i hi => ?_, ?_⟩
    · have := hn i (List.mem_range.1 hi)
      unfold List.Nodup at this
      rw [List.pairwise_map] at this ⊢
      exact this.imp fun h e => h (by simpa using e)
    · refine List.nodup_range.imp ?_
      intro i k hik x hx y hy e
      obtain ⟨u, _, rfl⟩ := List.mem_map.1 hx
      obtain ⟨w, _, rfl⟩ := List.mem_map.1 hy
      exact hik (List.cons.inj e).1
  obtain ⟨s, h1, h2⟩ := to_sp_value_partial zero add z true n m (fromCsr n a) hq hr hd ha hz
  refine ⟨s, h1, fun i hi j => ?_⟩
  rw [h2 i hi j]
  show firstAt zero (fromCsr n a) [i, j] = _
  rw [firstAt_fromCsr, PyArray.from_csr_partial zero add ha n a i j hi (hn i hi)]

/-- The hypotheses are met by a matrix with an explicit zero and a row out of order; what remains of it is sorted already. -/
example : (let a : SpMatrix Nat := ⟨[0, 2, 3], [2, 0, 1], [5, 0, 7]⟩
    (∀ i, i < 2 → ∀ e ∈ a.row i, e.1 < 3) ∧ (∀ i, i < 2 → ((a.row i).map (·.1)).Nodup)) ∧
    (toSp id 0 (· == 0) true [2, 3] [([0, 2], 5), ([0, 0], 0), ([1, 1], 7)]).map (·.indices) = some [2, 1] := by
  decide +kernel

/-- And `qsort` can be as required. -/
example : QsortSpec 2 (sortRows (V := Nat)) := sortRows_spec 2

/-- **Entries that SciPy adds are lost on the way to taco and back**: one of the two remains, whatever the sorting does. -/
theorem repeated_entries_fails {qs : List (Row Nat) → List (Row Nat)} (hq : QsortSpec 2 qs) :
    let a : SpMatrix Nat := ⟨[0, 2], [1, 1], [5, 6]⟩
    a.value 0 (· + ·) 0 1 = 11 ∧ ∃ s, toSp qs 0 (· == 0) true [1, 2] (fromCsr 1 a) = some s ∧ (s.value 0 (· + ·) 0 1 = 5 ∨ s.value 0 (· + ·) 0 1 = 6) := by
  refine ⟨by decide, ?_⟩
  have hpre : ∀ x, qs [([0, 1], 5), ([0, 1], 6)] = x → toSp qs 0 (· == 0) true [1, 2] (fromCsr 1 (⟨[0, 2], [1, 1], [5, 6]⟩ : SpMatrix Nat)) =
      arrays (pack 0 [(1, .dense), (2, .sparse)] x) := by rintro x rfl; rfl
  have hperm := (hq [([0, 1], 5), ([0, 1], 6)] (by simp)).1
  have : qs [([0, 1], 5), ([0, 1], 6)] = [([0, 1], 5), ([0, 1], 6)] ∨ qs [([0, 1], 5), ([0, 1], 6)] = [([0, 1], 6), ([0, 1], 5)] := by
    have hlen := hperm.length_eq
    match hx : qs [([0, 1], 5), ([0, 1], 6)], hlen with
    | [x, y], _ =>
      rw [hx] at hperm
      have hx' := hperm.mem_iff (a := x)
      have hnd := hperm.nodup_iff.2 (by decide)
      have h1 : x ∈ [([0, 1], 5), ([0, 1], 6)] := hperm.mem_iff.1 (by simp)
      have h2 : y ∈ [([0, 1], 5), ([0, 1], 6)] := hperm.mem_iff.1 (by simp)
      simp only [List.mem_cons, List.not_mem_nil, or_false] at h1 h2
      rcases h1 with rfl | rfl <;> rcases h2 with rfl | rfl
      · simp at hnd
      · exact Or.inl rfl
      · exact Or.inr rfl
      · simp at hnd
  rcases this with h | h
  · rw [hpre _ h]
    exact ⟨⟨[0, 1], [1], [5]⟩, rfl, Or.inl (by decide)⟩
  · rw [hpre _ h]
    exact ⟨⟨[0, 1], [1], [6]⟩, rfl, Or.inr (by decide)⟩

end Verif.PyExport
