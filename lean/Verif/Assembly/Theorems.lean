import Verif.Assembly.PackLemmas
import Verif.Assembly.WellFormed
/-! Properties of assembly and of packing with the generated kernel. -/
namespace Verif.Assembly
open Verif.Merge (Lvl box)
open Verif.Pack (Kind Row permute unpermute iterate inRange IndexWF walk QsortSpec lexCmp)

variable {V : Type}

/-! ### C42: append assembly -/

/-- C42. For every nest of loops whose dense result levels are visited in increasing order, the emitted
append code runs without leaving its arrays or reading unwritten slots, for every positive default
capacity. Walking the arrays it leaves gives exactly what was visited, under the right parents, with fill
values where dense levels were not visited. When every loop visits increasing in-range coordinates, the
arrays are well formed. -/
theorem append_assembly (cap : Nat) (hcap : 0 < cap) (fill : V) (ls : List (Nat × Kind)) (t : Tree V ls.length)
    (hv : visitsOK ls t) :
    ∃ lv vals, run cap fill ls t = some (lv, vals) ∧ walk vals lv 0 = some (stored fill ls t) ∧
      (visitsSorted ls t → IndexWF 1 ((ls.map Prod.fst).zip lv) vals.length) := by
  refine ⟨(encode ls [norm fill ls t]).1, (encode ls [norm fill ls t]).2, run_encode cap hcap fill ls t hv, ?_, ?_⟩
  · rw [walk_encode ls [norm fill ls t] 0 (norm fill ls t) _ rfl, rows_norm]
    intro c hc
    rw [List.mem_singleton.1 hc]
    exact full_norm fill ls t
  · intro hs
    apply encode_wf ls [norm fill ls t]
    · intro c hc; rw [List.mem_singleton.1 hc]; exact full_norm fill ls t
    · intro c hc; rw [List.mem_singleton.1 hc]; exact sorted_norm fill ls t hs

/-- A compressed matrix below a dense level: row 1 is never visited, row 2 has two entries. -/
def exampleVisits : Tree Nat [(3, Kind.dense), (4, Kind.sparse)].length :=
  ([(0, ([(3, (10 : Nat))] : List _)), (2, ([(1, (20 : Nat)), (2, (30 : Nat))] : List _))] : List _)

example : visitsOK [(3, .dense), (4, .sparse)] exampleVisits ∧ visitsSorted [(3, .dense), (4, .sparse)] exampleVisits :=
  ⟨⟨fun _ => ⟨show [0, 2].Pairwise (· < ·) by decide, fun
      | _, .head _ => by decide
      | _, .tail _ (.head _) => by decide⟩,
    fun _ _ => ⟨fun hk => (nomatch hk), fun _ _ => trivial⟩⟩,
   ⟨show [0, 2].Pairwise (· < ·) by decide, fun
      | _, .head _ => by decide
      | _, .tail _ (.head _) => by decide,
    fun
      | _, .head _ => ⟨show [3].Pairwise (· < ·) by decide, fun
        | _, .head _ => by decide, fun _ _ => trivial⟩
      | _, .tail _ (.head _) => ⟨show [1, 2].Pairwise (· < ·) by decide, fun
        | _, .head _ => by decide
        | _, .tail _ (.head _) => by decide, fun _ _ => trivial⟩⟩⟩

example : run 1 0 [(3, .dense), (4, .sparse)] exampleVisits =
    some ([.dense 3, .comp [0, 1, 1, 3] [3, 1, 2]], [10, 20, 30]) := rfl

/-! ### C44: array growth -/

/-- Appending values one after the other, each guarded by `doubleSizeIfFull`. -/
def appendAll {α : Type} : Arr α → Nat → List α → Option (Arr α)
  | a, _, [] => some a
  | a, n, x :: xs => (write (doubleSizeIfFull a n) n x).bind fun a' => appendAll a' (n + 1) xs

/-- Storing values at arbitrary positions, each guarded by `atLeastDoubleSizeIfFull`. -/
def storeAll {α : Type} : Arr α → List (Nat × α) → Option (Arr α)
  | a, [] => some a
  | a, (i, x) :: xs => (write (atLeastDoubleSizeIfFull a i) i x).bind fun a' => storeAll a' xs

theorem appendAll_spec {α : Type} : ∀ (xs : List α) (a : Arr α) (n : Nat), 0 < a.length → n ≤ a.length →
    ∃ a', appendAll a n xs = some a' ∧ n + xs.length ≤ a'.length ∧
      (∀ i, i < n → a'[i]? = a[i]?) ∧ (∀ (i : Nat) (x : α), xs[i]? = some x → a'[n + i]? = some (some x)) ∧
      a'.length ≤ max a.length (2 * (n + xs.length)) := by
  intro xs
  induction xs with
  | nil => intro a n _ h; exact ⟨a, rfl, h, fun _ _ => rfl, fun i x hi => by simp at hi, by omega⟩
  | cons x xs ih =>
    intro a n h0 hn
    obtain ⟨d1, d2, d3⟩ := dbl_spec a n h0 hn
    have hlen2 : (doubleSizeIfFull a n).length ≤ max a.length (2 * (n + 1)) := by
      unfold doubleSizeIfFull realloc
      split
      · rw [List.length_append, List.length_take, List.length_replicate]; omega
      · omega
    generalize hb : doubleSizeIfFull a n = b at d1 d2 d3 hlen2
    obtain ⟨a', i1, i2, i3, i4, i5⟩ := ih (b.set n (some x)) (n + 1) (by rw [List.length_set]; omega)
      (by rw [List.length_set]; omega)
    refine ⟨a', ?_, by rw [List.length_cons]; omega, ?_, ?_, ?_⟩
    · unfold appendAll
      rw [hb, write_some d1]
      exact i1
    · intro i hi
      rw [i3 i (by omega), List.getElem?_set_ne (by omega)]
      exact d3 i (by omega)
    · intro i y hy
      cases i with
      | zero =>
        rw [List.getElem?_cons_zero] at hy
        rw [Nat.add_zero, i3 n (by omega), List.getElem?_set_self d1, Option.some.inj hy]
      | succ i =>
        rw [List.getElem?_cons_succ] at hy
        have := i4 i y hy
        rwa [show n + (i + 1) = n + 1 + i by omega]
    · rw [List.length_set] at i5
      rw [List.length_cons]
      omega

/-- C44. From any positive capacity, any number of consecutive appends guarded by the capacity check stay
inside the array; all appended values and everything before them are in the array at the end, and the
array is at most twice as long as what it holds (or its initial size). -/
theorem append_growth {α : Type} (cap : Nat) (hcap : 0 < cap) (xs : List α) :
    ∃ a, appendAll (List.replicate cap none) 0 xs = some a ∧
      (∀ (i : Nat) (x : α), xs[i]? = some x → read a i = some x) ∧ a.length ≤ max cap (2 * xs.length) := by
  obtain ⟨a, h1, _, _, h4, h5⟩ := appendAll_spec xs (List.replicate cap none) 0 (by simpa using hcap) (Nat.zero_le _)
  refine ⟨a, h1, ?_, by simpa using h5⟩
  intro i x hi
  have := h4 i x hi
  rw [Nat.zero_add] at this
  unfold read
  rw [this]; rfl

/-- The last value stored at a position. -/
def lastAt {α : Type} (xs : List (Nat × α)) (i : Nat) : Option α :=
  (xs.reverse.find? (fun e => e.1 == i)).map Prod.snd

theorem read_ald {α : Type} (a : Arr α) (k i : Nat) : read (atLeastDoubleSizeIfFull a k) i = read a i := by
  unfold atLeastDoubleSizeIfFull
  split
  · unfold read realloc
    rw [List.take_of_length_le (by omega), List.getElem?_append]
    split
    · rfl
    · rename_i hk hi
      rw [List.getElem?_eq_none (l := a) (by omega), List.getElem?_replicate]
      split <;> rfl
  · rfl

theorem read_set {α : Type} (a : Arr α) (j i : Nat) (x : α) (h : j < a.length) :
    read (a.set j (some x)) i = if j = i then some x else read a i := by
  unfold read
  by_cases hji : j = i
  · subst hji; rw [List.getElem?_set_self h, if_pos rfl]; rfl
  · rw [List.getElem?_set_ne hji, if_neg hji]

theorem storeAll_spec {α : Type} : ∀ (xs : List (Nat × α)) (a : Arr α),
    ∃ a', storeAll a xs = some a' ∧ a.length ≤ a'.length ∧ ∀ i, read a' i = (lastAt xs i).or (read a i) := by
  intro xs
  induction xs with
  | nil => intro a; exact ⟨a, rfl, Nat.le_refl _, fun i => rfl⟩
  | cons e xs ih =>
    obtain ⟨j, y⟩ := e
    intro a
    obtain ⟨d1, d2, d3⟩ := ald_spec a j
    obtain ⟨a', i1, i2, i3⟩ := ih ((atLeastDoubleSizeIfFull a j).set j (some y))
    refine ⟨a', ?_, by rw [List.length_set] at i2; omega, ?_⟩
    · unfold storeAll
      rw [write_some d1]
      exact i1
    · intro i
      rw [i3, read_set _ _ _ _ d1, read_ald]
      unfold lastAt
      rw [List.reverse_cons, List.find?_append]
      cases hf : xs.reverse.find? (fun e => e.1 == i) with
      | some z => rfl
      | none =>
        by_cases hji : j = i
        · simp [hji]
        · simp [hji]

/-- C44. Stores at arbitrary positions guarded by `atLeastDoubleSizeIfFull` stay inside the array from any
capacity, also zero, and every position holds the last value stored there. -/
theorem store_growth {α : Type} (cap : Nat) (xs : List (Nat × α)) :
    ∃ a, storeAll (List.replicate cap none) xs = some a ∧ ∀ i, read a i = lastAt xs i ∧ (i < cap → i < a.length) := by
  obtain ⟨a, h1, h2, h3⟩ := storeAll_spec xs (List.replicate cap none)
  rw [List.length_replicate] at h2
  refine ⟨a, h1, fun i => ⟨?_, fun h => by omega⟩⟩
  rw [h3]
  have : read (List.replicate cap (none : Option α)) i = none := by
    unfold read
    rw [List.getElem?_replicate]
    split <;> rfl
  rw [this, Option.or_none]

/-- C44, zero capacity: the doubled array still has no slot, and the first append is out of bounds. -/
theorem append_growth_fails : appendAll (List.replicate 0 none) 0 [7] = none := rfl

/-- C44, `doubleSizeIfFull` is for consecutive positions only: a store further away is out of bounds. -/
theorem append_growth_jump_fails : write (doubleSizeIfFull (List.replicate 1 (none : Option Nat)) 5) 5 7 = none := rfl

/-! ### C04, C01: packing with the generated kernel -/

/-- The values inserted at a coordinate. -/
def valuesAt (rows : List (Row V)) (c : List Nat) : List V := (rows.filter (fun r => r.1 == c)).map Prod.snd

theorem firstAt_summed (fill : V) (add : V → V → V) (rows : List (Row V)) (c : List Nat) :
    Pack.firstAt fill (summed fill add rows) c = sumAt fill add rows c := by
  have h : ∀ l : List (Row V), Pack.firstAt fill (l.map (fun r => (r.1, sumAt fill add rows r.1))) c =
      if c ∈ l.map Prod.fst then sumAt fill add rows c else fill := by
    intro l
    induction l with
    | nil => simp [Pack.firstAt]
    | cons r l ih =>
      unfold Pack.firstAt at ih ⊢
      rw [List.map_cons, List.find?_cons]
      by_cases hc : r.1 = c
      · simp [hc]
      · have h1 : (r.1 == c) = false := by simpa using hc
        simp only [h1, ih, List.map_cons, List.mem_cons]
        have h2 : ¬ c = r.1 := fun h => hc h.symm
        simp only [h2, false_or]
  unfold summed
  rw [h rows]
  split
  · rfl
  · rename_i hm
    unfold sumAt
    have : rows.filter (fun r => r.1 == c) = [] := by
      rw [List.filter_eq_nil_iff]
      intro r hr hrc
      exact hm (List.mem_map.2 ⟨r, hr, by simpa using hrc⟩)
    rw [this]; rfl

theorem stored_summed (fill : V) (add : V → V → V) (kinds : List Kind) (rows : List (Row V)) :
    Pack.stored kinds (summed fill add rows) = Pack.stored kinds rows := by
  funext c
  unfold Pack.stored summed
  rw [List.any_map]
  rfl

/-- The loops on a sorted buffer. -/
theorem visit_sorted (fill : V) (add : V → V → V) (dims : List Nat) (kinds : List Kind)
    (hk : kinds.length = dims.length) (h0 : dims ≠ []) (rows : List (Row V))
    (hs : rows.Pairwise (fun a b => lexCmp a.1 b.1 ≤ 0)) (hr : ∀ r ∈ rows, inRange dims r.1) :
    visit add (rows.map Prod.snd) (dims.zip kinds) (columns dims.length rows) 0 rows.length =
      some (treeOf fill add (dims.zip kinds) rows) ∧ visitsSorted (dims.zip kinds) (treeOf fill add (dims.zip kinds) rows) := by
  have hzl : (dims.zip kinds).length = dims.length := by rw [List.length_zip, hk, Nat.min_self]
  have hok : Pack.RowsOK ((dims.zip kinds).map Prod.fst) rows := by rw [Pack.zip_fst hk]; exact Pack.rowsOK_of_cmp hs hr
  have hsl : slice rows 0 rows.length = rows := by unfold slice; simp
  have hne : dims.zip kinds ≠ [] := by
    intro h
    rw [h] at hzl
    exact h0 (List.length_eq_zero_iff.1 hzl.symm)
  have hv := visit_spec fill add (rows.map Prod.snd) (dims.zip kinds) rows 0 rows.length rfl (Nat.zero_le _)
    (fun h => absurd h hne) (Nat.le_refl _) (by rw [hsl]; exact hok) (fun r h => by rw [(hr r h).1, hzl])
  rw [hsl] at hv
  have hcol : columns dims.length rows = columns (dims.zip kinds).length rows := by rw [hzl]
  rw [hcol]
  exact ⟨hv, treeOf_sorted fill add (dims.zip kinds) rows hok⟩

/-- The kernel on a sorted buffer. -/
theorem kernel_sorted (cap : Nat) (hcap : 0 < cap) (fill : V) (add : V → V → V) (dims : List Nat) (kinds : List Kind)
    (hk : kinds.length = dims.length) (h0 : dims ≠ []) (rows : List (Row V))
    (hs : rows.Pairwise (fun a b => lexCmp a.1 b.1 ≤ 0)) (hr : ∀ r ∈ rows, inRange dims r.1) :
    ∃ st, (visit add (rows.map Prod.snd) (dims.zip kinds) (columns dims.length rows) 0 rows.length).bind
        (run cap fill (dims.zip kinds)) = some st ∧
      IndexWF 1 (dims.zip st.1) st.2.length ∧ st.1.length = dims.length ∧
      walk st.2 st.1 0 = some (((box dims).filter (Pack.stored kinds rows)).map (fun c => (c, sumAt fill add rows c))) := by
  have hzl : (dims.zip kinds).length = dims.length := by rw [List.length_zip, hk, Nat.min_self]
  have hok : Pack.RowsOK ((dims.zip kinds).map Prod.fst) rows := by rw [Pack.zip_fst hk]; exact Pack.rowsOK_of_cmp hs hr
  have hne : dims.zip kinds ≠ [] := by
    intro h
    rw [h] at hzl
    exact h0 (List.length_eq_zero_iff.1 hzl.symm)
  obtain ⟨hv, hsorted⟩ := visit_sorted fill add dims kinds hk h0 rows hs hr
  obtain ⟨lv, vals, h1, h2, h3⟩ := append_assembly cap hcap fill (dims.zip kinds) (treeOf fill add (dims.zip kinds) rows)
    (visitsSorted_ok _ _ hsorted)
  have henc := run_encode cap hcap fill (dims.zip kinds) (treeOf fill add (dims.zip kinds) rows) (visitsSorted_ok _ _ hsorted)
  refine ⟨(lv, vals), ?_, ?_, ?_, ?_⟩
  · rw [hv]; exact h1
  · have := h3 hsorted
    rw [Pack.zip_fst hk] at this
    exact this
  · rw [h1] at henc
    have hl : lv = _ := congrArg Prod.fst (Option.some.inj henc)
    show lv.length = _
    rw [hl, encode_length, hzl]
  · show walk vals lv 0 = _
    rw [h2, stored_treeOf fill add _ rows hok (fun h => absurd h hne),
      Pack.expected_eq fill _ _ (RowsOK.summed fill add hok), Pack.zip_fst hk, Pack.zip_snd hk, stored_summed]
    congr 1
    apply List.map_congr_left
    intro c _
    rw [firstAt_summed]

theorem inRange_unpermute {perm dims c : List Nat} (hp : perm.Perm (List.range dims.length))
    (hc : inRange (permute perm dims) c) : inRange dims (unpermute perm c) ∧ permute perm (unpermute perm c) = c := by
  have hplen : perm.length = dims.length := by rw [hp.length_eq, List.length_range]
  refine ⟨⟨by rw [Pack.unpermute_length, hplen], ?_⟩, ?_⟩
  · intro m h1 h2
    have hmm : m ∈ perm := hp.mem_iff.2 (List.mem_range.2 h2)
    have hi : perm.idxOf m < perm.length := List.idxOf_lt_length_iff.2 hmm
    have hcl : c.length = perm.length := by rw [hc.1, Pack.permute_length]
    have := hc.2 (perm.idxOf m) (by omega) (by rw [Pack.permute_length]; exact hi)
    simp only [permute, List.getElem_map, List.getElem_idxOf, List.getD_eq_getElem?_getD,
      List.getElem?_eq_getElem h2, Option.getD_some] at this
    simp only [unpermute, List.getElem_map, List.getElem_range, List.getD_eq_getElem?_getD,
      List.getElem?_eq_getElem (show perm.idxOf m < c.length by omega), Option.getD_some]
    exact this
  · refine Pack.permute_unpermute ?_
    rw [hc.1, Pack.permute_length, hplen]; exact hp

theorem valuesAt_perm {rows buffer : List (Row V)} {perm dims : List Nat} (hp : perm.Perm (List.range dims.length))
    (hr : ∀ r ∈ buffer, inRange dims r.1)
    (hperm : rows.Perm (buffer.map (fun r => (permute perm r.1, r.2)))) {c : List Nat} (hc : inRange dims c) :
    (valuesAt rows (permute perm c)).Perm (valuesAt buffer c) := by
  unfold valuesAt
  have h1 := (hperm.filter (fun r => r.1 == permute perm c)).map Prod.snd
  refine h1.trans ?_
  rw [List.filter_map, List.map_map]
  have : buffer.filter ((fun r => r.1 == permute perm c) ∘ fun r => (permute perm r.1, r.2)) =
      buffer.filter (fun r => r.1 == c) := by
    apply List.filter_congr
    intro r hrb
    show (permute perm r.1 == permute perm c) = (r.1 == c)
    rw [Bool.eq_iff_iff, beq_iff_eq, beq_iff_eq]
    constructor
    · intro h
      rw [← Pack.unpermute_permute (perm := perm) (c := r.1) (by rw [(hr r hrb).1]; exact hp),
        ← Pack.unpermute_permute (perm := perm) (c := c) (by rw [hc.1]; exact hp), h]
    · intro h; rw [h]
  rw [this]
  exact List.Perm.refl _

/-- C04 and C01, for the generated pack kernel that `TensorBase::pack` runs. Insert components in any
order, with any duplicates, into a tensor of order at least one in any format of dense and compressed
levels under any mode ordering. Packing leaves well formed arrays, and iterating over them delivers one
component for every inserted coordinate; its value is the sum of the values inserted there, added up in
some order. Other delivered entries are zeros (`fill` below). No coordinate is delivered twice, coordinates come in
storage order, and a format of compressed levels delivers inserted coordinates only. -/
theorem pack_kernel_sums {qs : List (Row V) → List (Row V)} (cap : Nat) (hcap : 0 < cap) (fill : V) (add : V → V → V)
    (dims : List Nat) (h0 : dims ≠ []) (hq : QsortSpec dims.length qs) (kinds : List Kind) (hk : kinds.length = dims.length)
    (perm : List Nat) (hp : perm.Perm (List.range dims.length)) (buffer : List (Row V))
    (hr : ∀ r ∈ buffer, inRange dims r.1) :
    ∃ st out, packKernel qs cap fill add dims kinds perm buffer = some st ∧
      IndexWF 1 ((permute perm dims).zip st.1) st.2.length ∧
      iterate perm st = some out ∧
      (∀ r ∈ buffer, r.1 ∈ out.map Prod.fst) ∧
      (∀ r ∈ out, inRange dims r.1 ∧ ∃ vs, vs.Perm (valuesAt buffer r.1) ∧ r.2 = sumVals fill add vs) ∧
      (out.map (fun r => permute perm r.1)).Pairwise (fun a b => lexCmp a b < 0) ∧
      (out.map Prod.fst).Nodup ∧
      ((∀ k ∈ kinds, k = .sparse) → ∀ r ∈ out, r.1 ∈ buffer.map Prod.fst) := by
  have hplen : perm.length = dims.length := by rw [hp.length_eq, List.length_range]
  have hlenb : ∀ r ∈ buffer.map (fun r => (permute perm r.1, r.2)), r.1.length = dims.length := by
    intro r h
    rw [List.mem_map] at h
    obtain ⟨b, _, rfl⟩ := h
    rw [Pack.permute_length, hplen]
  have hperm := (hq _ hlenb).1
  have hsorted := (hq _ hlenb).2
  generalize hrows : qs (buffer.map (fun r => (permute perm r.1, r.2))) = rows at hperm hsorted
  have hmem : ∀ r : Row V, r ∈ rows ↔ ∃ b ∈ buffer, (permute perm b.1, b.2) = r := by
    intro r; rw [hperm.mem_iff, List.mem_map]
  have hrow : ∀ r ∈ rows, inRange (permute perm dims) r.1 := by
    intro r h
    obtain ⟨b, hb, rfl⟩ := (hmem r).1 h
    exact Pack.inRange_permute hp (hr b hb)
  have hk' : kinds.length = (permute perm dims).length := by rw [Pack.permute_length, hk, hplen]
  have h0' : permute perm dims ≠ [] := by
    intro h
    have := Pack.permute_length perm dims
    rw [h, hplen] at this
    exact h0 (List.length_eq_zero_iff.1 this.symm)
  obtain ⟨st, k1, k2, k3, k4⟩ := kernel_sorted cap hcap fill add (permute perm dims) kinds hk' h0' rows hsorted hrow
  have hback : ∀ {c}, inRange dims c → unpermute perm (permute perm c) = c := by
    intro c hc; exact Pack.unpermute_permute (by rw [hc.1]; exact hp)
  have hsort : ((((box (permute perm dims)).filter (Pack.stored kinds rows)).map
      (fun c => (unpermute perm c, sumAt fill add rows c))).map (fun r => permute perm r.1)).Pairwise
        (fun a b => lexCmp a b < 0) := by
    rw [List.map_map, List.pairwise_map]
    refine (List.Pairwise.filter _ (Pack.box_sorted _)).imp_of_mem ?_
    intro a b ha hb hab
    simp only [Function.comp]
    rw [(inRange_unpermute hp (Pack.mem_box.1 (List.mem_filter.1 ha).1)).2,
      (inRange_unpermute hp (Pack.mem_box.1 (List.mem_filter.1 hb).1)).2]
    exact hab
  refine ⟨st, ((box (permute perm dims)).filter (Pack.stored kinds rows)).map
    (fun c => (unpermute perm c, sumAt fill add rows c)), ?_, k2, ?_, ?_, ?_, hsort, ?_, ?_⟩
  · unfold packKernel
    simp only
    rw [hrows]
    rw [Pack.permute_length, hplen] at k1
    exact k1
  · unfold iterate
    rw [k4, Option.map_some, List.map_map]
    rfl
  · intro r hrb
    have hrm : (permute perm r.1, r.2) ∈ rows := (hmem _).2 ⟨r, hrb, rfl⟩
    rw [List.map_map, List.mem_map]
    refine ⟨permute perm r.1, List.mem_filter.2 ⟨Pack.mem_box.2 (hrow _ hrm), ?_⟩, hback (hr r hrb)⟩
    unfold Pack.stored
    rw [Bool.or_eq_true, List.any_eq_true]
    exact Or.inr ⟨_, hrm, by simp⟩
  · intro r hro
    rw [List.mem_map] at hro
    obtain ⟨c, hc, rfl⟩ := hro
    obtain ⟨u1, u2⟩ := inRange_unpermute hp (Pack.mem_box.1 (List.mem_filter.1 hc).1)
    refine ⟨u1, valuesAt rows c, ?_, rfl⟩
    have := valuesAt_perm hp hr hperm u1
    rw [u2] at this
    exact this
  · unfold List.Nodup
    rw [List.pairwise_map] at hsort ⊢
    refine hsort.imp ?_
    intro a b hab hc
    rw [hc, Pack.lexCmp_self] at hab
    exact absurd hab (by decide)
  · intro hall r hro
    rw [List.mem_map] at hro
    obtain ⟨c, hc, rfl⟩ := hro
    obtain ⟨hcb, hst⟩ := List.mem_filter.1 hc
    have hcr := Pack.mem_box.1 hcb
    have hkl : ∀ ks : List Kind, (∀ k ∈ ks, k = .sparse) → Pack.keyLen ks = ks.length := by
      intro ks
      induction ks with
      | nil => intro _; rfl
      | cons k ks ih =>
        intro h
        rw [h k List.mem_cons_self]
        simp only [Pack.keyLen, List.length_cons]
        rw [ih (fun k hk => h k (List.mem_cons_of_mem _ hk))]
    unfold Pack.stored at hst
    rw [hkl kinds hall, Bool.or_eq_true] at hst
    rcases hst with h1 | h1
    · rw [decide_eq_true_eq, hk, List.length_eq_zero_iff] at h1
      exact absurd h1 h0
    · rw [List.any_eq_true] at h1
      obtain ⟨x, hx, hxc⟩ := h1
      rw [beq_iff_eq, List.take_of_length_le (by rw [(hrow x hx).1]; omega),
        List.take_of_length_le (by rw [hcr.1]; omega)] at hxc
      obtain ⟨b, hb, hbx⟩ := (hmem x).1 hx
      rw [← hxc, ← hbx]
      simp only
      rw [hback (hr b hb)]
      exact List.mem_map.2 ⟨b, hb, rfl⟩

example : packKernel Pack.sortRows 1 0 (· + ·) [2, 3] [.dense, .sparse] [1, 0] [([1, 2], 5), ([0, 1], 1), ([1, 2], 7)] =
    some ([.dense 3, .comp [0, 0, 1, 2] [0, 1]], [1, 12]) := by decide

theorem valuesAt_not_mem {buffer : List (Row V)} {c : List Nat} (h : c ∉ buffer.map Prod.fst) : valuesAt buffer c = [] := by
  unfold valuesAt
  rw [List.map_eq_nil_iff, List.filter_eq_nil_iff]
  intro r hr hrc
  exact h (List.mem_map.2 ⟨r, hr, by simpa using hrc⟩)

theorem valuesAt_nodup {buffer : List (Row V)} (hd : (buffer.map Prod.fst).Nodup) {r : Row V} (hr : r ∈ buffer) :
    valuesAt buffer r.1 = [r.2] := by
  induction buffer with
  | nil => simp at hr
  | cons x xs ih =>
    rw [List.map_cons, List.nodup_cons] at hd
    unfold valuesAt at ih ⊢
    rw [List.filter_cons]
    rcases List.mem_cons.1 hr with rfl | hr
    · have := valuesAt_not_mem hd.1
      unfold valuesAt at this
      simp [this]
    · have hne : (x.1 == r.1) = false := by
        rw [beq_eq_false_iff_ne]
        intro h
        exact hd.1 (h ▸ List.mem_map.2 ⟨r, hr, rfl⟩)
      rw [hne]
      exact ih hd.2 hr

/-- C01, for the generated pack kernel of tensors whose fill value is zero (`fill` below is the zero of the
component type): distinct coordinates come back with their values, everything else is a zero at a
coordinate without component. What is missing: other fill values, see `pack_kernel_fill_fails`. -/
theorem pack_kernel_iterate_partial {qs : List (Row V) → List (Row V)} (cap : Nat) (hcap : 0 < cap) (fill : V) (add : V → V → V)
    (dims : List Nat) (h0 : dims ≠ []) (hq : QsortSpec dims.length qs) (kinds : List Kind) (hk : kinds.length = dims.length)
    (perm : List Nat) (hp : perm.Perm (List.range dims.length)) (buffer : List (Row V))
    (hr : ∀ r ∈ buffer, inRange dims r.1) (hd : (buffer.map Prod.fst).Nodup) :
    ∃ st out, packKernel qs cap fill add dims kinds perm buffer = some st ∧
      iterate perm st = some out ∧
      (∀ r ∈ buffer, r ∈ out) ∧
      (∀ r ∈ out, inRange dims r.1 ∧ (r ∈ buffer ∨ (r.2 = fill ∧ r.1 ∉ buffer.map Prod.fst))) ∧
      (out.map (fun r => permute perm r.1)).Pairwise (fun a b => lexCmp a b < 0) ∧
      (out.map Prod.fst).Nodup ∧
      ((∀ k ∈ kinds, k = .sparse) → ∀ r ∈ out, r ∈ buffer) := by
  obtain ⟨st, out, h1, _, h3, h4, h5, h6, h7, h8⟩ := pack_kernel_sums cap hcap fill add dims h0 hq kinds hk perm hp buffer hr
  have hval : ∀ r ∈ out, ∀ b ∈ buffer, b.1 = r.1 → r = b := by
    intro r hro b hb hbr
    obtain ⟨_, vs, v1, v2⟩ := h5 r hro
    rw [← hbr, valuesAt_nodup hd hb] at v1
    rw [List.perm_singleton.1 v1] at v2
    exact Prod.ext hbr.symm v2
  refine ⟨st, out, h1, h3, ?_, ?_, h6, h7, ?_⟩
  · intro b hb
    obtain ⟨r, hro, hrb⟩ := List.mem_map.1 (h4 b hb)
    rw [← hval r hro b hb hrb.symm]
    exact hro
  · intro r hro
    refine ⟨(h5 r hro).1, ?_⟩
    by_cases hm : r.1 ∈ buffer.map Prod.fst
    · obtain ⟨b, hb, hbr⟩ := List.mem_map.1 hm
      exact Or.inl (hval r hro b hb hbr ▸ hb)
    · obtain ⟨_, vs, v1, v2⟩ := h5 r hro
      rw [valuesAt_not_mem hm] at v1
      rw [List.perm_nil.1 v1] at v2
      exact Or.inr ⟨v2, hm⟩
  · intro hall r hro
    obtain ⟨b, hb, hbr⟩ := List.mem_map.1 (h8 hall r hro)
    exact hval r hro b hb hbr ▸ hb

/-! ### C03: insertion order, for the kernel -/

/-- Addition of integers, and of floating point numbers up to rounding. -/
structure Additive (add : V → V → V) : Prop where
  comm : ∀ a b, add a b = add b a
  assoc : ∀ a b c, add (add a b) c = add a (add b c)

theorem foldl_perm {add : V → V → V} (ha : Additive add) {l m : List V} (h : l.Perm m) : ∀ a, l.foldl add a = m.foldl add a := by
  induction h with
  | nil => intro a; rfl
  | cons x _ ih => intro a; exact ih _
  | swap x y l => intro a; show l.foldl add (add (add a y) x) = l.foldl add (add (add a x) y)
                  rw [ha.assoc, ha.comm y x, ← ha.assoc]
  | trans _ _ ih1 ih2 => intro a; rw [ih1, ih2]

theorem foldl_add {add : V → V → V} (ha : Additive add) : ∀ (l : List V) (a b : V), l.foldl add (add a b) = add a (l.foldl add b) := by
  intro l
  induction l with
  | nil => intro a b; rfl
  | cons x l ih => intro a b; rw [List.foldl_cons, List.foldl_cons, ha.assoc, ih]

theorem sumVals_perm {add : V → V → V} (ha : Additive add) (fill : V) {l m : List V} (h : l.Perm m) :
    sumVals fill add l = sumVals fill add m := by
  induction h with
  | nil => rfl
  | cons x h _ => exact foldl_perm ha h x
  | swap x y l => show l.foldl add (add y x) = l.foldl add (add x y); rw [ha.comm]
  | trans _ _ ih1 ih2 => rw [ih1, ih2]

theorem sub_fst (rows : List (Row V)) (j : Nat) :
    (Pack.sub rows j).map Prod.fst = (rows.map Prod.fst).filterMap (fun c => match c with | [] => none | a :: as => if a = j then some as else none) := by
  induction rows with
  | nil => rfl
  | cons r rows ih =>
    unfold Pack.sub at ih ⊢
    rw [List.map_cons, List.filterMap_cons, List.filter_cons]
    obtain ⟨c, v⟩ := r
    cases c with
    | nil => exact ih
    | cons a as =>
      by_cases h : a = j
      · have h1 : Pack.headIs j ((a :: as, v) : Row V) = true := Pack.headIs_iff.2 ⟨as, by rw [h]⟩
        rw [if_pos h1, List.map_cons, List.map_cons, ih]
        simp [h, Pack.tailRow]
      · have h1 : ¬ Pack.headIs j ((a :: as, v) : Row V) = true := by
          intro hh
          obtain ⟨cs, hc⟩ := Pack.headIs_iff.1 hh
          exact h (List.cons.inj hc).1
        rw [if_neg h1, ih]
        simp [h]

theorem treeOf_perm {add : V → V → V} (ha : Additive add) (fill : V) : ∀ (ls : List (Nat × Kind)) (r1 r2 : List (Row V)),
    r1.Perm r2 → r1.map Prod.fst = r2.map Prod.fst → treeOf fill add ls r1 = treeOf fill add ls r2 := by
  intro ls
  induction ls with
  | nil => intro r1 r2 h _; exact sumVals_perm ha fill (h.map Prod.snd)
  | cons l ls ih =>
    intro r1 r2 h he
    have hh : Pack.heads r1 = Pack.heads r2 := by
      have := congrArg (List.map (fun c : List Nat => c.headD 0)) he
      rw [List.map_map, List.map_map] at this
      exact this
    show (Pack.getUniqueEntries (Pack.heads r1)).map _ = (Pack.getUniqueEntries (Pack.heads r2)).map _
    rw [hh]
    apply List.map_congr_left
    intro j _
    rw [ih (Pack.sub r1 j) (Pack.sub r2 j) ((h.filter _).map _) (by rw [sub_fst, sub_fst, he])]

/-- C03, for the generated pack kernel, also with duplicates: inserting the same components in two
different orders gives the same arrays, also when the two packings break ties in `qsort` differently. -/
theorem pack_kernel_order {qs qs' : List (Row V) → List (Row V)} (cap : Nat) (hcap : 0 < cap) (fill : V)
    {add : V → V → V} (ha : Additive add) (dims : List Nat) (h0 : dims ≠ [])
    (hq : QsortSpec dims.length qs) (hq' : QsortSpec dims.length qs') (kinds : List Kind) (hk : kinds.length = dims.length)
    (perm : List Nat) (hp : perm.Perm (List.range dims.length)) (b1 b2 : List (Row V)) (hb : b1.Perm b2)
    (hr : ∀ r ∈ b1, inRange dims r.1) :
    ∃ st, packKernel qs cap fill add dims kinds perm b1 = some st ∧ packKernel qs' cap fill add dims kinds perm b2 = some st := by
  have hplen : perm.length = dims.length := by rw [hp.length_eq, List.length_range]
  have hlenb : ∀ (b : List (Row V)), ∀ r ∈ b.map (fun r => (permute perm r.1, r.2)), r.1.length = dims.length := by
    intro b r h
    rw [List.mem_map] at h
    obtain ⟨b, _, rfl⟩ := h
    rw [Pack.permute_length, hplen]
  have h1 := hq (b1.map (fun r => (permute perm r.1, r.2))) (hlenb b1)
  have h2 := hq' (b2.map (fun r => (permute perm r.1, r.2))) (hlenb b2)
  have hmem : ∀ r : Row V, r ∈ qs (b1.map (fun r => (permute perm r.1, r.2))) → inRange (permute perm dims) r.1 := by
    intro r h
    obtain ⟨b, hb, rfl⟩ := List.mem_map.1 (h1.1.mem_iff.1 h)
    exact Pack.inRange_permute hp (hr b hb)
  have hperm := h1.1.trans ((hb.map _).trans h2.1.symm)
  have hmem' : ∀ r : Row V, r ∈ qs' (b2.map (fun r => (permute perm r.1, r.2))) → inRange (permute perm dims) r.1 :=
    fun r h => hmem r (hperm.mem_iff.2 h)
  have hk' : kinds.length = (permute perm dims).length := by rw [Pack.permute_length, hk, hplen]
  have h0' : permute perm dims ≠ [] := by
    intro h
    have := Pack.permute_length perm dims
    rw [h, hplen] at this
    exact h0 (List.length_eq_zero_iff.1 this.symm)
  have heq : (qs (b1.map (fun r => (permute perm r.1, r.2)))).map Prod.fst =
      (qs' (b2.map (fun r => (permute perm r.1, r.2)))).map Prod.fst := by
    refine List.Perm.eq_of_pairwise (le := fun a b => lexCmp a b ≤ 0) ?_ (List.pairwise_map.2 h1.2) (List.pairwise_map.2 h2.2) (hperm.map _)
    intro a b ha' hb' hab hba
    obtain ⟨x, hx, rfl⟩ := List.mem_map.1 ha'
    obtain ⟨y, hy, rfl⟩ := List.mem_map.1 hb'
    exact Pack.lexCmp_antisymm (by rw [(hmem x hx).1, (hmem' y hy).1]) hab hba
  obtain ⟨v1, s1⟩ := visit_sorted fill add _ kinds hk' h0' _ h1.2 hmem
  obtain ⟨v2, s2⟩ := visit_sorted fill add _ kinds hk' h0' _ h2.2 hmem'
  rw [Pack.permute_length, hplen] at v1 v2
  rw [treeOf_perm ha fill _ _ _ hperm heq] at v1 s1
  have he := run_encode cap hcap fill _ _ (visitsSorted_ok _ _ s2)
  refine ⟨encode _ [norm fill _ (treeOf fill add ((permute perm dims).zip kinds) (qs' (b2.map (fun r => (permute perm r.1, r.2)))))], ?_, ?_⟩
  · unfold packKernel
    simp only
    rw [v1]
    exact he
  · unfold packKernel
    simp only
    rw [v2]
    exact he

/-! ### C56: histories of insertions and packs -/

/-- The values a history inserts at a coordinate. -/
def insertedAt (c : List Nat) : List (TensorOp V) → List V
  | [] => []
  | .insert c' v :: os => if c' = c then v :: insertedAt c os else insertedAt c os
  | .pack :: os => insertedAt c os

/-- The sum of a list of values. -/
def total (zero : V) (add : V → V → V) (l : List V) : V := l.foldl add zero

structure Monoidal (zero : V) (add : V → V → V) : Prop extends Additive add where
  zero_add : ∀ a, add zero a = a

theorem sumVals_total {zero : V} {add : V → V → V} (hm : Monoidal zero add) (l : List V) :
    sumVals zero add l = total zero add l := by
  cases l with
  | nil => rfl
  | cons v vs => show vs.foldl add v = vs.foldl add (add zero v); rw [hm.zero_add]

theorem total_append {zero : V} {add : V → V → V} (hm : Monoidal zero add) (l m : List V) :
    total zero add (l ++ m) = add (total zero add l) (total zero add m) := by
  unfold total
  rw [List.foldl_append]
  have h : ∀ (m : List V) (a : V), m.foldl add a = add a (m.foldl add zero) := by
    intro m a
    rw [← foldl_add hm.toAdditive, hm.comm, hm.zero_add]
  exact h m _

theorem total_perm {zero : V} {add : V → V → V} (hm : Monoidal zero add) {l m : List V} (h : l.Perm m) :
    total zero add l = total zero add m := foldl_perm hm.toAdditive h zero

theorem valuesAt_append (a b : List (Row V)) (c : List Nat) : valuesAt (a ++ b) c = valuesAt a c ++ valuesAt b c := by
  unfold valuesAt
  rw [List.filter_append, List.map_append]

/-- Everything a history inserts lies inside the dimensions. -/
def opsInRange (dims : List Nat) (ops : List (TensorOp V)) : Prop :=
  ∀ c v, TensorOp.insert c v ∈ ops → inRange dims c

/-- A legal tensor: order at least one, a mode ordering, a positive default capacity and a `qsort`. -/
structure EnvOK (E : TensorEnv V) : Prop where
  order : E.dims ≠ []
  cap : 0 < E.cap
  kinds : E.kinds.length = E.dims.length
  perm : E.perm.Perm (List.range E.dims.length)
  qs : QsortSpec E.dims.length E.qs

/-- What the packed storage and the buffer hold together. -/
def Holds (E : TensorEnv V) (s : TensorSt V) (f : List Nat → V) : Prop :=
  (∀ r ∈ s.buffer, inRange E.dims r.1) ∧ (s.needsPack = false → s.buffer = [] ∧ s.packed.isSome) ∧
  ∃ out, (∀ st, s.packed = some st → iterate E.perm st = some out) ∧ (s.packed = none → out = []) ∧
    (∀ r ∈ out, inRange E.dims r.1) ∧ (out.map Prod.fst).Nodup ∧
    ∀ c, inRange E.dims c → total E.zero E.add (valuesAt (s.buffer ++ out) c) = f c

theorem step_holds (E : TensorEnv V) (hE : EnvOK E) (hm : Monoidal E.zero E.add) (s : TensorSt V) (f : List Nat → V)
    (hs : Holds E s f) (o : TensorOp V) (ho : ∀ c v, o = .insert c v → inRange E.dims c) :
    ∃ s', s.step E o = some s' ∧
      Holds E s' (fun c => E.add (f c) (total E.zero E.add (insertedAt c [o]))) ∧ (o = .pack → s'.needsPack = false) := by
  obtain ⟨h1, h2, out, h3, h4, h5, h6, h7⟩ := hs
  cases o with
  | insert c v =>
    refine ⟨_, rfl, ⟨?_, fun h => (nomatch h), out, h3, h4, h5, h6, ?_⟩, fun h => (nomatch h)⟩
    · intro r hr
      rcases List.mem_append.1 hr with hr | hr
      · exact h1 r hr
      · rw [List.mem_singleton.1 hr]; exact ho c v rfl
    · intro c' hc'
      show total _ _ (valuesAt ((s.buffer ++ [(c, v)]) ++ out) c') = _
      have hperm : (valuesAt ((s.buffer ++ [(c, v)]) ++ out) c').Perm (valuesAt (s.buffer ++ out) c' ++ insertedAt c' [.insert c v]) := by
        rw [valuesAt_append, valuesAt_append, valuesAt_append, List.append_assoc, List.append_assoc]
        refine List.Perm.append_left _ ?_
        have : valuesAt [(c, v)] c' = insertedAt c' [.insert c v] := by
          unfold valuesAt insertedAt
          by_cases h : c = c' <;> simp [h, insertedAt]
        rw [this]
        exact List.perm_append_comm
      rw [total_perm hm hperm, total_append hm, h7 c' hc']
  | pack =>
    have hins : ∀ c, total E.zero E.add (insertedAt c [TensorOp.pack (V := V)]) = E.zero := fun _ => rfl
    have hright : ∀ a, E.add a E.zero = a := fun a => by rw [hm.comm, hm.zero_add]
    unfold TensorSt.step
    cases hn : s.needsPack with
    | false =>
      refine ⟨s, rfl, ⟨h1, h2, out, h3, h4, h5, h6, ?_⟩, fun _ => hn⟩
      intro c hc
      show _ = E.add (f c) (total E.zero E.add (insertedAt c [TensorOp.pack (V := V)]))
      rw [hins, hright, h7 c hc]
    | true =>
      simp only [if_true]
      have hbuf : s.reinsert E.perm = some (s.buffer ++ out) := by
        unfold TensorSt.reinsert
        cases hp : s.packed with
        | none => rw [h4 hp]; simp
        | some st => simp only; rw [h3 st hp]; rfl
      rw [hbuf]
      have hin : ∀ r ∈ s.buffer ++ out, inRange E.dims r.1 := by
        intro r hr
        rcases List.mem_append.1 hr with hr | hr
        · exact h1 r hr
        · exact h5 r hr
      obtain ⟨st, out', k1, _, k3, k4, k5, _, k7, _⟩ := pack_kernel_sums E.cap hE.cap E.zero E.add E.dims hE.order hE.qs
        E.kinds hE.kinds E.perm hE.perm (s.buffer ++ out) hin
      refine ⟨⟨some st, false, []⟩, ?_, ⟨fun r hr => (nomatch hr), fun _ => ⟨rfl, rfl⟩, out', ?_, fun h => (nomatch h), ?_, k7, ?_⟩, fun _ => rfl⟩
      · show (packKernel _ _ _ _ _ _ _ _).map _ = _
        rw [k1]; rfl
      · intro st' hst'
        rw [← Option.some.inj hst']; exact k3
      · exact fun r hr => (k5 r hr).1
      · intro c hc
        show total E.zero E.add (valuesAt ([] ++ out') c) = E.add (f c) (total E.zero E.add (insertedAt c [TensorOp.pack (V := V)]))
        rw [hins, hright, ← h7 c hc, List.nil_append]
        by_cases hmem : c ∈ out'.map Prod.fst
        · obtain ⟨r, hr, rfl⟩ := List.mem_map.1 hmem
          rw [valuesAt_nodup k7 hr]
          obtain ⟨_, vs, v1, v2⟩ := k5 r hr
          rw [v2, sumVals_total hm, total_perm hm v1]
          exact hm.zero_add _
        · rw [valuesAt_not_mem hmem, valuesAt_not_mem]
          intro hc'
          obtain ⟨r, hr, rfl⟩ := List.mem_map.1 hc'
          exact hmem (k4 r hr)

theorem insertedAt_cons (c : List Nat) (o : TensorOp V) (os : List (TensorOp V)) :
    insertedAt c (o :: os) = insertedAt c [o] ++ insertedAt c os := by
  cases o with
  | insert c' v =>
    show (if c' = c then v :: insertedAt c os else insertedAt c os) = (if c' = c then [v] else []) ++ insertedAt c os
    by_cases h : c' = c
    · rw [if_pos h, if_pos h]; rfl
    · rw [if_neg h, if_neg h]; rfl
  | pack => rfl

theorem run_holds (E : TensorEnv V) (hE : EnvOK E) (hm : Monoidal E.zero E.add) : ∀ (ops : List (TensorOp V)) (s : TensorSt V)
    (f : List Nat → V), Holds E s f → opsInRange E.dims ops →
    ∃ s', s.run E ops = some s' ∧ Holds E s' (fun c => E.add (f c) (total E.zero E.add (insertedAt c ops))) := by
  intro ops
  induction ops with
  | nil =>
    intro s f hs _
    refine ⟨s, rfl, ?_⟩
    have : (fun c => E.add (f c) (total E.zero E.add (insertedAt c ([] : List (TensorOp V))))) = f := by
      funext c
      show E.add (f c) E.zero = f c
      rw [hm.comm, hm.zero_add]
    rw [this]; exact hs
  | cons o os ih =>
    intro s f hs hr
    obtain ⟨s1, e1, h1, _⟩ := step_holds E hE hm s f hs o (fun c v h => hr c v (h ▸ List.mem_cons_self))
    obtain ⟨s2, e2, h2⟩ := ih s1 _ h1 (fun c v h => hr c v (List.mem_cons_of_mem _ h))
    refine ⟨s2, ?_, ?_⟩
    · show (s.step E o).bind _ = _
      rw [e1]; exact e2
    · have : (fun c => E.add (f c) (total E.zero E.add (insertedAt c (o :: os)))) =
          (fun c => E.add (E.add (f c) (total E.zero E.add (insertedAt c [o]))) (total E.zero E.add (insertedAt c os))) := by
        funext c
        rw [insertedAt_cons, total_append hm, hm.assoc]
      rw [this]; exact h2

theorem run_append (E : TensorEnv V) : ∀ (a b : List (TensorOp V)) (s : TensorSt V),
    s.run E (a ++ b) = (s.run E a).bind (fun s' => s'.run E b) := by
  intro a
  induction a with
  | nil => intro b s; rfl
  | cons o os ih =>
    intro b s
    show (s.step E o).bind _ = ((s.step E o).bind _).bind _
    cases s.step E o with
    | none => rfl
    | some s' => exact ih b s'

/-- C56. A tensor is filled by any sequence of insertions and packs, each
insertion inside its dimensions. After a final pack, reading the value at any coordinate gives the sum of
all values ever inserted there, regardless of how packs were interleaved. -/
theorem insert_pack_history (E : TensorEnv V) (hE : EnvOK E) (hm : Monoidal E.zero E.add) (ops : List (TensorOp V))
    (hr : opsInRange E.dims ops) :
    ∃ st, (TensorSt.new.run E (ops ++ [.pack])).map TensorSt.packed = some (some st) ∧
      ∀ c, inRange E.dims c → tensorAt E.zero E.perm st c = some (total E.zero E.add (insertedAt c ops)) := by
  have h0 : Holds E TensorSt.new (fun _ => E.zero) :=
    ⟨fun r hr => (nomatch hr), fun h => (nomatch h), [], fun st h => (nomatch h), fun _ => rfl, fun r hr => (nomatch hr),
      List.Pairwise.nil, fun c _ => rfl⟩
  obtain ⟨s1, e1, h1⟩ := run_holds E hE hm ops _ _ h0 hr
  obtain ⟨s2, e2, h2, h3⟩ := step_holds E hE hm s1 _ h1 .pack (fun c v h => (nomatch h))
  obtain ⟨_, g2, out, g3, g4, g5, g6, g7⟩ := h2
  obtain ⟨hb, hsome⟩ := g2 (h3 rfl)
  obtain ⟨st, hst⟩ := Option.isSome_iff_exists.1 hsome
  refine ⟨st, ?_, ?_⟩
  · rw [run_append, e1]
    show ((s1.step E .pack).bind (fun s => some s)).map _ = _
    rw [e2]
    show some s2.packed = _
    rw [hst]
  · intro c hc
    unfold tensorAt
    rw [g3 st hst, Option.map_some]
    congr 1
    have hv := g7 c hc
    rw [hb, List.nil_append] at hv
    have hright : ∀ a, E.add a E.zero = a := fun a => by rw [hm.comm, hm.zero_add]
    have hv' : total E.zero E.add (valuesAt out c) = total E.zero E.add (insertedAt c ops) := by
      rw [hv]
      show E.add (E.add E.zero _) E.zero = _
      rw [hright, hm.zero_add]
    rw [← hv']
    cases hf : out.find? (fun r => r.1 == c) with
    | none =>
      have : c ∉ out.map Prod.fst := by
        intro hm'
        obtain ⟨r, hr, hrc⟩ := List.mem_map.1 hm'
        have := List.find?_eq_none.1 hf r hr
        rw [hrc] at this
        simp at this
      simp only
      rw [valuesAt_not_mem this]
      rfl
    | some r =>
      have h1 := List.find?_some hf
      have h2 := List.mem_of_find?_eq_some hf
      have h1' : r.1 = c := by simpa using h1
      simp only
      rw [← h1', valuesAt_nodup g6 h2]
      exact (hm.zero_add _).symm

/-- A dense vector of length two. -/
def exampleEnv (fill : Int) : TensorEnv Int := ⟨Pack.sortRows, 2, 0, (· + ·), [2], [.dense], [0], fill⟩

example : EnvOK (exampleEnv 0) ∧ Monoidal (exampleEnv 0).zero (exampleEnv 0).add :=
  ⟨⟨by decide, by decide, rfl, List.Perm.refl _, Pack.sortRows_spec 1⟩, ⟨⟨Int.add_comm, Int.add_assoc⟩, Int.zero_add⟩⟩

example : opsInRange [2] [TensorOp.insert [0] (5 : Int), .pack, .insert [1] 3, .insert [0] 2] := by
  intro c v h
  simp only [List.mem_cons, TensorOp.insert.injEq, List.not_mem_nil, or_false] at h
  rcases h with ⟨rfl, _⟩ | h | ⟨rfl, _⟩ | ⟨rfl, _⟩ <;>
  first
  | cases h
  | exact ⟨rfl, by intro m h1 h2; simp at h1; subst h1; simp⟩

/-- C01 fails for the kernel when the fill value is not zero: the dense vector of length two with fill
value 1 and component 5 at coordinate 0 holds 0 at coordinate 1. -/
theorem pack_kernel_fill_fails :
    (exampleEnv 1).fill = 1 ∧
    (TensorSt.new.run (exampleEnv 1) [.insert [0] 5, .pack]).bind
      (fun s => s.packed.bind (fun st => iterate [0] st)) = some [([0], 5), ([1], 0)] := by decide

/-! ### C04: scalars -/

/-- C04 for scalars: all inserted values are added up. -/
theorem pack_scalar_sums {zero : V} {add : V → V → V} (hm : Monoidal zero add) (vals : List V) :
    packScalar add zero vals = some (total zero add vals) := by
  have hrows : (vals.map (fun v => (([0], v) : Row V))).map Prod.snd = vals := by
    rw [List.map_map]; exact List.map_id' _
  have hin : ∀ r ∈ vals.map (fun v => (([0], v) : Row V)), inRange [1] r.1 := by
    intro r hr
    obtain ⟨v, _, rfl⟩ := List.mem_map.1 hr
    exact ⟨rfl, by intro m h1 h2; simp at h1; subst h1; simp⟩
  have hs : (vals.map (fun v => (([0], v) : Row V))).Pairwise (fun a b => lexCmp a.1 b.1 ≤ 0) := by
    rw [List.pairwise_map]
    exact List.pairwise_of_forall (fun _ _ => by simp [lexCmp])
  have hv := (visit_sorted zero add [1] [.sparse] rfl (by decide) _ hs hin).1
  rw [hrows] at hv
  have hcol : columns [1].length (vals.map (fun v => (([0], v) : Row V))) = [vals.map (fun _ => 0)] := by
    show [(vals.map (fun v => (([0], v) : Row V))).map _] = _
    rw [List.map_map]; rfl
  rw [hcol, List.length_map] at hv
  unfold packScalar
  rw [show visit add vals [(1, .sparse)] [vals.map (fun _ => 0)] 0 vals.length = _ from hv]
  show some ((entries (treeOf zero add [(1, Kind.sparse)] (vals.map (fun v => (([0], v) : Row V))))).foldl
    (fun a e => add a (valOf e.2)) zero) = _
  congr 1
  rw [treeOf_cons]
  cases vals with
  | nil => rfl
  | cons v vs =>
    have hok : Pack.RowsOK [1] ((v :: vs).map (fun v => (([0], v) : Row V))) := Pack.rowsOK_of_cmp hs hin
    obtain ⟨u1, u2⟩ := Pack.getUniqueEntries_spec hok.heads_sorted
    have hu : Pack.getUniqueEntries (Pack.heads ((v :: vs).map (fun v => (([0], v) : Row V)))) = [0] := by
      apply Pack.sorted_ext u1 (List.pairwise_singleton _ _)
      intro x
      rw [u2]
      unfold Pack.heads
      rw [List.map_map, List.mem_map, List.mem_singleton]
      constructor
      · rintro ⟨_, _, rfl⟩; rfl
      · rintro rfl; exact ⟨v, List.mem_cons_self, rfl⟩
    rw [hu]
    show add zero (sumVals zero add ((Pack.sub ((v :: vs).map (fun v => (([0], v) : Row V))) 0).map Prod.snd)) = _
    have hsub : (Pack.sub ((v :: vs).map (fun v => (([0], v) : Row V))) 0).map Prod.snd = v :: vs := by
      unfold Pack.sub
      rw [List.filter_eq_self.2, List.map_map, List.map_map]
      · exact List.map_id' _
      · intro r hr
        obtain ⟨w, _, rfl⟩ := List.mem_map.1 hr
        exact Pack.headIs_iff.2 ⟨[], rfl⟩
    rw [hsub, hm.zero_add, sumVals_total hm]

/-! ### C57: the coordinate buffer -/

theorem BufSt.insert_ok (csize : Nat) (b : BufSt) (h1 : b.used ≤ b.size) (h2 : b.size < 2 ^ 64) :
    ∃ b', b.insert csize = some b' ∧ b'.used ≤ b'.size ∧ b'.used = b.used + csize ∧ b'.size ≤ b.size + csize := by
  have ha : (b.size + 2 ^ 64 - b.used) % 2 ^ 64 = b.size - b.used := by
    rw [show b.size + 2 ^ 64 - b.used = (b.size - b.used) + 2 ^ 64 by omega, Nat.add_mod_right,
      Nat.mod_eq_of_lt (by omega)]
  unfold BufSt.insert
  simp only [ha]
  by_cases hlt : b.size - b.used < csize
  · simp only [if_pos hlt]
    rw [if_pos (by omega)]
    exact ⟨_, rfl, by simp only; omega, rfl, by simp only; omega⟩
  · simp only [if_neg hlt]
    rw [if_pos (by omega)]
    exact ⟨_, rfl, by simp only; omega, rfl, by simp only; omega⟩

/-- The number of components a step can add to the buffer. -/
def BufOp.components : BufOp → Nat
  | .insert => 1
  | .reserve n => n
  | .pack => 0

/-- C57. For a tensor of order at least one, no history of insertions, reservations and packs writes
outside the coordinate buffer, as long as all components together fit the address space. -/
theorem buffer_safe (order csize : Nat) (h0 : order ≠ 0) (ops : List BufOp)
    (hfit : (ops.map BufOp.components).sum * csize < 2 ^ 64) :
    (BufSt.run order csize ⟨0, 0⟩ ops).isSome = true := by
  have key : ∀ (ops : List BufOp) (b : BufSt), b.used ≤ b.size → b.size + (ops.map BufOp.components).sum * csize < 2 ^ 64 →
      (BufSt.run order csize b ops).isSome = true := by
    intro ops
    induction ops with
    | nil => intro b _ _; rfl
    | cons o os ih =>
      intro b h1 h2
      rw [List.map_cons, List.sum_cons, Nat.add_mul] at h2
      cases o with
      | insert =>
        obtain ⟨b', e1, e2, _, e4⟩ := b.insert_ok csize h1 (by omega)
        show ((b.insert csize).bind _).isSome = true
        rw [e1]
        exact ih b' e2 (by simp only [BufOp.components] at h2; omega)
      | reserve n =>
        show (BufSt.run order csize (b.reserve csize n) os).isSome = true
        refine ih _ ?_ ?_
        · show b.used ≤ b.size + n * csize; omega
        · show b.size + n * csize + _ < _
          simp only [BufOp.components] at h2
          omega
      | pack =>
        have : b.afterPack order = ⟨0, 0⟩ := by unfold BufSt.afterPack; rw [if_neg h0]
        show (BufSt.run order csize (b.afterPack order) os).isSome = true
        rw [this]
        exact ih _ (Nat.le_refl _) (by simp only; omega)
  exact key ops ⟨0, 0⟩ (Nat.le_refl _) (by simpa using hfit)

example : ([BufOp.insert, .pack, .reserve 3, .insert, .insert].map BufOp.components).sum * 16 < 2 ^ 64 := by decide

/-- C57 fails for scalars: after a pack the number of used bytes is kept although the buffer is empty, and
the next insertion is written past the end of the vector. -/
theorem buffer_safe_fails : BufSt.run 0 8 ⟨0, 0⟩ [.insert, .pack, .insert] = none := by decide

end Verif.Assembly
