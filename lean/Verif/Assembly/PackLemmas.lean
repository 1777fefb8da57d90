import Verif.Assembly.PackModel
import Verif.Assembly.Final
import Verif.Pack.Theorems
/-! The loops of the pack kernel visit the groups of equal coordinates. -/
namespace Verif.Assembly
open Verif.Merge (Lvl box)
open Verif.Pack (Kind Row permute iterate headIs tailRow heads sub getUniqueEntries RowsOK inRange expected)

variable {V : Type}

/-- The sum of a list of values, or the fill value when there is none. -/
def sumVals (fill : V) (add : V → V → V) : List V → V
  | [] => fill
  | v :: vs => vs.foldl add v

/-- The sum of the values inserted at a coordinate, in the order of the list, or the fill value. -/
def sumAt (fill : V) (add : V → V → V) (rows : List (Row V)) (c : List Nat) : V :=
  sumVals fill add ((rows.filter (fun r => r.1 == c)).map Prod.snd)

def slice {α : Type} (l : List α) (p b : Nat) : List α := (l.drop p).take (b - p)

theorem slice_length {α : Type} (l : List α) {p b : Nat} (hb : b ≤ l.length) : (slice l p b).length = b - p := by
  unfold slice; rw [List.length_take, List.length_drop]; omega

theorem slice_get {α : Type} (l : List α) {p b i : Nat} (hi : i < b - p) : (slice l p b)[i]? = l[p + i]? := by
  unfold slice; rw [List.getElem?_take, if_pos hi, List.getElem?_drop]

theorem slice_map {α β : Type} (f : α → β) (l : List α) (p b : Nat) : slice (l.map f) p b = (slice l p b).map f := by
  unfold slice; rw [List.map_take, List.map_drop]

theorem slice_cons {α : Type} {l : List α} {p b : Nat} {x : α} (h : l[p]? = some x) (hp : p < b) :
    slice l p b = x :: slice l (p + 1) b := by
  unfold slice
  obtain ⟨hlt, rfl⟩ := List.getElem?_eq_some_iff.1 h
  rw [List.drop_eq_getElem_cons hlt, show b - p = (b - (p + 1)) + 1 by omega, List.take_succ_cons]

theorem slice_self {α : Type} (l : List α) (p : Nat) : slice l p p = [] := by
  unfold slice; simp

/-- The scan stops at the end of the block of equal coordinates. -/
theorem segend_spec (crd : List Nat) (x b : Nat) : ∀ (fuel p : Nat), b ≤ crd.length → p ≤ b → b - p ≤ fuel →
    p ≤ segend crd x b fuel p ∧ segend crd x b fuel p ≤ b ∧
    slice crd p (segend crd x b fuel p) = (slice crd p b).takeWhile (· == x) ∧
    slice crd (segend crd x b fuel p) b = (slice crd p b).dropWhile (· == x) := by
  intro fuel
  induction fuel with
  | zero =>
    intro p hb hp hf
    have : p = b := by omega
    subst this
    simp [segend, slice_self]
  | succ fuel ih =>
    intro p hb hp hf
    unfold segend
    rcases Nat.lt_or_ge p b with hlt | hge
    · have hx := List.getElem?_eq_getElem (show p < crd.length by omega)
      by_cases he : crd[p]'(by omega) = x
      · rw [if_pos ⟨hlt, by rw [hx, he]⟩]
        obtain ⟨h1, h2, h3, h4⟩ := ih (p + 1) hb (by omega) (by omega)
        refine ⟨by omega, h2, ?_, ?_⟩
        · rw [slice_cons hx (by omega), slice_cons hx hlt, List.takeWhile_cons, h3]
          simp [he]
        · rw [h4, slice_cons hx hlt, List.dropWhile_cons]
          simp [he]
      · rw [if_neg (by rw [hx]; simp [he])]
        refine ⟨Nat.le_refl _, hp, ?_, ?_⟩
        · rw [slice_self, slice_cons hx hlt, List.takeWhile_cons]
          simp [he]
        · rw [slice_cons hx hlt, List.dropWhile_cons]
          simp [he]
    · have : p = b := by omega
      subst this
      rw [if_neg (by omega)]
      simp [slice_self]

theorem heads_slice (rows : List (Row V)) (p b : Nat) : heads (slice rows p b) = slice (heads rows) p b := by
  unfold heads; rw [slice_map]

theorem headIs_head {r : Row V} (h : r.1 ≠ []) (j : Nat) : headIs j r = (r.1.headD 0 == j) := by
  unfold headIs
  cases hr : r.1 with
  | nil => exact absurd hr h
  | cons a as => simp [Bool.beq_eq_decide_eq]

theorem takeWhile_heads {rows : List (Row V)} (h : ∀ r ∈ rows, r.1 ≠ []) (j : Nat) :
    (rows.takeWhile (headIs j)).length = ((heads rows).takeWhile (· == j)).length := by
  induction rows with
  | nil => rfl
  | cons r rows ih =>
    show _ = ((r.1.headD 0 :: heads rows).takeWhile (· == j)).length
    rw [List.takeWhile_cons, List.takeWhile_cons, headIs_head (h r List.mem_cons_self)]
    split
    · rw [List.length_cons, List.length_cons, ih (fun r hr => h r (List.mem_cons_of_mem _ hr))]
    · rfl

theorem take_takeWhile {α : Type} (q : α → Bool) (l : List α) : l.take (l.takeWhile q).length = l.takeWhile q := by
  induction l with
  | nil => rfl
  | cons a l ih =>
    rw [List.takeWhile_cons]
    split
    · rw [List.length_cons, List.take_succ_cons, ih]
    · simp

theorem drop_takeWhile {α : Type} (q : α → Bool) (l : List α) : l.drop (l.takeWhile q).length = l.dropWhile q := by
  induction l with
  | nil => rfl
  | cons a l ih =>
    rw [List.takeWhile_cons, List.dropWhile_cons]
    split
    · rw [List.length_cons, List.drop_succ_cons, ih]
    · simp

theorem slice_take {α : Type} (l : List α) {p e b : Nat} (h1 : p ≤ e) (h2 : e ≤ b) :
    slice l p e = (slice l p b).take (e - p) := by
  unfold slice; rw [List.take_take]; congr 1; omega

theorem slice_drop {α : Type} (l : List α) {p e b : Nat} (h1 : p ≤ e) (h2 : e ≤ b) :
    slice l e b = (slice l p b).drop (e - p) := by
  unfold slice
  rw [List.drop_take, List.drop_drop]
  congr 1
  · omega
  · congr 1; omega

theorem sub_dropWhile {rows : List (Row V)} {x j : Nat} (hxj : j ≠ x)
    (h : rows.dropWhile (headIs x) = rows.filter (fun r => !headIs x r)) :
    sub (rows.dropWhile (headIs x)) j = sub rows j := by
  unfold sub
  rw [h, List.filter_filter]
  congr 1
  apply List.filter_congr
  intro r _
  cases hj : headIs j r with
  | false => rfl
  | true =>
    obtain ⟨cs, hc⟩ := Pack.headIs_iff.1 hj
    simp [headIs, hc, hxj]

/-- The loop over a level of the sorted buffer visits the distinct coordinates, each with its rows. -/
theorem visitLoop_spec {T : Type} {rows : List (Row V)} (body : Nat → Nat → Option T) (F : List (Row V) → T)
    (b : Nat) (hb : b ≤ rows.length) (hne : ∀ r ∈ rows, r.1 ≠ []) : ∀ (fuel p : Nat), p ≤ b → b - p ≤ fuel →
    (heads (slice rows p b)).Pairwise (· ≤ ·) →
    (∀ (p' e' x : Nat), p ≤ p' → p' < e' → e' ≤ b → (∀ r ∈ slice rows p' e', headIs x r = true) → body p' e' = some (F ((slice rows p' e').map tailRow))) →
    visitLoop (heads rows) body b fuel p =
      some ((getUniqueEntries (heads (slice rows p b))).map (fun j => (j, F (sub (slice rows p b) j)))) := by
  intro fuel
  induction fuel with
  | zero =>
    intro p hp hf _ _
    have : p = b := by omega
    subst this
    unfold visitLoop
    rw [if_neg (by omega), slice_self]
    rfl
  | succ fuel ih =>
    intro p hp hf hs hbody
    unfold visitLoop
    rcases Nat.lt_or_ge p b with hlt | hge
    · rw [if_pos hlt]
      have hlen : (heads rows).length = rows.length := by unfold heads; simp
      have hpx := List.getElem?_eq_getElem (show p < (heads rows).length by omega)
      rw [hpx]
      show Option.bind _ _ = _
      generalize hx : (heads rows)[p]'(by omega) = x at hpx
      obtain ⟨s1, s2, s3, s4⟩ := segend_spec (heads rows) x b (b - p) (p + 1) (by omega) (by omega) (by omega)
      generalize he : segend (heads rows) x b (b - p) (p + 1) = e at s1 s2 s3 s4
      -- the block of rows with coordinate `x`
      have hsl : heads (slice rows p b) = x :: slice (heads rows) (p + 1) b := by
        rw [heads_slice, slice_cons hpx hlt]
      have hne' : ∀ r ∈ slice rows p b, r.1 ≠ [] := fun r hr => hne r (List.mem_of_mem_drop (List.mem_of_mem_take hr))
      have hge : ∀ y ∈ heads (slice rows p b), x ≤ y := by
        intro y hy
        rw [hsl] at hy hs
        rcases List.mem_cons.1 hy with rfl | hy
        · exact Nat.le_refl _
        · exact (List.pairwise_cons.1 hs).1 y hy
      obtain ⟨t1, t2⟩ := Pack.takeWhile_headIs hs hne' hge
      have hcount : e - p = ((slice rows p b).takeWhile (headIs x)).length := by
        rw [takeWhile_heads hne', hsl, List.takeWhile_cons]
        simp only [beq_self_eq_true, if_true, List.length_cons]
        rw [← s3, slice_length _ (by omega)]
        omega
      have hblock : slice rows p e = (slice rows p b).filter (headIs x) := by
        rw [slice_take rows (show p ≤ e by omega) s2, hcount, take_takeWhile, t1]
      have hrest : slice rows e b = (slice rows p b).dropWhile (headIs x) := by
        rw [slice_drop rows (show p ≤ e by omega) s2, hcount, drop_takeWhile]
      show Option.bind (body p (segend (heads rows) x b (b - p) (p + 1))) _ = _
      rw [he, hbody p e x (Nat.le_refl _) (by omega) s2
        (by intro r hr; rw [hblock] at hr; exact (List.mem_filter.1 hr).2)]
      show Option.map _ (visitLoop (heads rows) body b fuel e) = _
      have hs' : (heads (slice rows e b)).Pairwise (· ≤ ·) := by
        rw [hrest]
        unfold heads at hs ⊢
        exact hs.sublist (List.Sublist.map _ (List.dropWhile_sublist _))
      rw [ih e s2 (by omega) hs' (fun p' e' x h1 h2 h3 => hbody p' e' x (by omega) h2 h3)]
      show some (_ :: _) = _
      congr 1
      obtain ⟨u1, u2⟩ := Pack.getUniqueEntries_spec hs
      obtain ⟨v1, v2⟩ := Pack.getUniqueEntries_spec hs'
      have hmem : ∀ y, y ∈ heads (slice rows e b) ↔ y ∈ heads (slice rows p b) ∧ y ≠ x := by
        intro y
        rw [hrest, t2]
        unfold heads
        rw [List.mem_map, List.mem_map]
        constructor
        · rintro ⟨r, hr, rfl⟩
          rw [List.mem_filter] at hr
          refine ⟨⟨r, hr.1, rfl⟩, ?_⟩
          intro hc
          have h2 := hr.2
          rw [headIs_head (hne' r hr.1), hc] at h2
          simp at h2
        · rintro ⟨⟨r, hr, rfl⟩, hyx⟩
          refine ⟨r, List.mem_filter.2 ⟨hr, ?_⟩, rfl⟩
          rw [headIs_head (hne' r hr)]
          simpa using hyx
      have huniq : getUniqueEntries (heads (slice rows p b)) = x :: getUniqueEntries (heads (slice rows e b)) := by
        apply Pack.sorted_ext u1
        · rw [List.pairwise_cons]
          refine ⟨?_, v1⟩
          intro y hy
          have hy' := (hmem y).1 ((v2 y).1 hy)
          have := hge y hy'.1
          omega
        · intro y
          rw [List.mem_cons, u2, v2, hmem]
          constructor
          · intro hy
            by_cases hyx : y = x
            · exact Or.inl hyx
            · exact Or.inr ⟨hy, hyx⟩
          · rintro (rfl | hy)
            · rw [hsl]; exact List.mem_cons_self
            · exact hy.1
      rw [huniq, List.map_cons]
      congr 1
      · rw [hblock]; rfl
      · apply List.map_congr_left
        intro j hj
        have hjx := ((hmem j).1 ((v2 j).1 hj)).2
        rw [hrest, sub_dropWhile hjx t2]
    · have : p = b := by omega
      subst this
      rw [if_neg (by omega), slice_self]
      rfl

/-- What the kernel visits for the given rows. -/
def treeOf (fill : V) (add : V → V → V) : (ls : List (Nat × Kind)) → List (Row V) → Tree V ls.length
  | [], rows => sumVals fill add (rows.map Prod.snd)
  | _ :: ls, rows => (getUniqueEntries (heads rows)).map (fun j => (j, treeOf fill add ls (sub rows j)))

theorem reduceVals_spec (fill : V) (add : V → V → V) (vals : List V) (p b : Nat) (hp : p < b) (hb : b ≤ vals.length) :
    reduceVals add vals p b = some (sumVals fill add (slice vals p b)) := by
  have key : ∀ (k q : Nat) (acc : V), q + k ≤ vals.length →
      (List.range' q k).foldlM (fun acc q => (vals[q]?).map (add acc)) acc = some ((slice vals q (q + k)).foldl add acc) := by
    intro k
    induction k with
    | zero => intro q acc _; rw [Nat.add_zero, slice_self]; rfl
    | succ k ih =>
      intro q acc hq
      have hx := List.getElem?_eq_getElem (show q < vals.length by omega)
      rw [List.range'_succ, List.foldlM_cons, hx]
      show (List.range' (q + 1) k).foldlM _ (add acc vals[q]) = _
      rw [ih (q + 1) _ (by omega), slice_cons hx (show q < q + (k + 1) by omega), List.foldl_cons,
        show q + 1 + k = q + (k + 1) by omega]
  have hx := List.getElem?_eq_getElem (show p < vals.length by omega)
  unfold reduceVals
  rw [hx]
  show (List.range' (p + 1) (b - p - 1)).foldlM _ vals[p] = _
  rw [key _ _ _ (by omega), slice_cons hx hp, show p + 1 + (b - p - 1) = b by omega]
  rfl

theorem columns_succ (n : Nat) (rows : List (Row V)) :
    columns (n + 1) rows = heads rows :: columns n (rows.map tailRow) := by
  unfold columns
  rw [List.range_succ_eq_map, List.map_cons, List.map_map]
  congr 1
  · unfold heads
    apply List.map_congr_left
    intro r _
    cases r.1 <;> rfl
  · apply List.map_congr_left
    intro d _
    show rows.map _ = (rows.map tailRow).map _
    rw [List.map_map]
    apply List.map_congr_left
    intro r _
    show r.1.getD (d + 1) 0 = r.1.tail.getD d 0
    cases r.1 <;> rfl

theorem RowsOK.slice {dims : List Nat} {rows : List (Row V)} (h : RowsOK dims rows) (p b : Nat) :
    RowsOK dims (slice rows p b) := by
  constructor
  · exact h.sorted.sublist ((List.take_sublist _ _).trans (List.drop_sublist _ _))
  · intro r hr; exact h.range r (List.mem_of_mem_drop (List.mem_of_mem_take hr))

theorem visit_spec (fill : V) (add : V → V → V) (vals : List V) : ∀ (ls : List (Nat × Kind)) (rows : List (Row V)) (p b : Nat),
    rows.map Prod.snd = vals → p ≤ b → (ls = [] → p < b) → b ≤ rows.length →
    RowsOK (ls.map Prod.fst) (slice rows p b) → (∀ r ∈ rows, r.1.length = ls.length) →
    visit add vals ls (columns ls.length rows) p b = some (treeOf fill add ls (slice rows p b)) := by
  intro ls
  induction ls with
  | nil =>
    intro rows p b hv hp hlt hb _ _
    show reduceVals add vals p b = some (sumVals fill add ((slice rows p b).map Prod.snd))
    rw [reduceVals_spec fill add vals p b (hlt rfl) (by rw [← hv, List.length_map]; exact hb), ← hv, slice_map]
  | cons l ls ih =>
    obtain ⟨n, k⟩ := l
    intro rows p b hv hp _ hb hok hlen
    have hok' : RowsOK (n :: ls.map Prod.fst) (slice rows p b) := hok
    have hcol : columns ((n, k) :: ls).length rows = heads rows :: columns ls.length (rows.map tailRow) :=
      columns_succ ls.length rows
    rw [hcol]
    show visitLoop (heads rows) (visit add vals ls (columns ls.length (rows.map tailRow))) b (b - p) p = _
    have hne : ∀ r ∈ rows, r.1 ≠ [] := by
      intro r hr hc
      have := hlen r hr
      rw [hc] at this
      simp at this
    rw [visitLoop_spec _ (treeOf fill add ls) b hb hne (b - p) p hp (Nat.le_refl _) (Pack.RowsOK.heads_sorted hok')]
    · rfl
    · intro p' e' x h1 h2 h3 hx
      have hsl : slice rows p' e' = Assembly.slice (Assembly.slice rows p b) (p' - p) (e' - p) := by
        rw [slice_take rows (show p' ≤ e' by omega) h3, slice_drop rows h1 (show p' ≤ b by omega)]
        unfold Assembly.slice
        congr 1; omega
      have hok2 : RowsOK (n :: ls.map Prod.fst) (Assembly.slice rows p' e') := by
        rw [hsl]; exact RowsOK.slice hok' _ _
      have hfil : (Assembly.slice rows p' e').filter (headIs x) = Assembly.slice rows p' e' := List.filter_eq_self.2 hx
      have hsub : (Assembly.slice rows p' e').map tailRow = Pack.sub (Assembly.slice rows p' e') x := by
        unfold Pack.sub; rw [hfil]
      have := ih (rows.map tailRow) p' e' (by rw [← hv, List.map_map]; rfl) (by omega) (fun _ => h2)
        (by rw [List.length_map]; omega) (by rw [slice_map, hsub]; exact hok2.sub x)
        (by
          intro r hr
          obtain ⟨r0, hr0, rfl⟩ := List.mem_map.1 hr
          show r0.1.tail.length = ls.length
          rw [List.length_tail, hlen r0 hr0]; rfl)
      rw [this, slice_map]

/-! ### The stored components -/

theorem treeOf_cons (fill : V) (add : V → V → V) (l : Nat × Kind) (ls : List (Nat × Kind)) (rows : List (Row V)) :
    entries (treeOf fill add (l :: ls) rows) =
      (getUniqueEntries (heads rows)).map (fun j => (j, treeOf fill add ls (sub rows j))) := rfl

theorem treeOf_fst (fill : V) (add : V → V → V) (l : Nat × Kind) (ls : List (Nat × Kind)) (rows : List (Row V)) :
    (entries (treeOf fill add (l :: ls) rows)).map Prod.fst = getUniqueEntries (heads rows) := by
  rw [treeOf_cons, List.map_map]
  exact List.map_id' _

theorem mem_heads_sub {n : Nat} {ns : List Nat} {rows : List (Row V)} (h : RowsOK (n :: ns) rows) {j : Nat} :
    j ∈ heads rows ↔ j < n ∧ sub rows j ≠ [] := by
  rw [Pack.mem_heads h]
  constructor
  · rintro ⟨r, hr, hh⟩
    obtain ⟨cs, hc⟩ := Pack.headIs_iff.1 hh
    obtain ⟨j', cs', hc', hj, _⟩ := Pack.inRange_cons.1 (h.range r hr)
    rw [hc] at hc'
    obtain ⟨rfl, _⟩ := List.cons.inj hc'
    refine ⟨hj, ?_⟩
    unfold sub
    intro he
    rw [List.map_eq_nil_iff] at he
    have : r ∈ rows.filter (headIs j) := List.mem_filter.2 ⟨hr, hh⟩
    rw [he] at this
    simp at this
  · rintro ⟨_, hs⟩
    obtain ⟨s, hs'⟩ := List.exists_mem_of_ne_nil _ hs
    obtain ⟨r, hr, h1, _⟩ := Pack.mem_sub.1 hs'
    exact ⟨r, hr, Pack.headIs_iff.2 ⟨_, h1⟩⟩

theorem treeOf_sorted (fill : V) (add : V → V → V) : ∀ (ls : List (Nat × Kind)) (rows : List (Row V)),
    RowsOK (ls.map Prod.fst) rows → visitsSorted ls (treeOf fill add ls rows) := by
  intro ls
  induction ls with
  | nil => intro _ _; trivial
  | cons l ls ih =>
    obtain ⟨n, k⟩ := l
    intro rows hok
    have hok' : RowsOK (n :: ls.map Prod.fst) rows := hok
    obtain ⟨u1, u2⟩ := Pack.getUniqueEntries_spec hok'.heads_sorted
    refine ⟨by rw [treeOf_fst]; exact u1, ?_, ?_⟩
    · intro e he
      rw [treeOf_cons] at he
      obtain ⟨j, hj, rfl⟩ := List.mem_map.1 he
      exact ((mem_heads_sub hok').1 ((u2 j).1 hj)).1
    · intro e he
      rw [treeOf_cons] at he
      obtain ⟨j, hj, rfl⟩ := List.mem_map.1 he
      exact ih _ (hok'.sub j)

theorem visitsSorted_ok : ∀ (ls : List (Nat × Kind)) (t : Tree V ls.length), visitsSorted ls t → visitsOK ls t := by
  intro ls
  induction ls with
  | nil => intro _ _; trivial
  | cons l ls ih =>
    obtain ⟨n, k⟩ := l
    rintro t ⟨h1, h2, h3⟩
    exact ⟨fun _ => ⟨h1, h2⟩, fun e he => ih e.2 (h3 e he)⟩

/-- The rows with every value replaced by the sum at its coordinate. -/
def summed (fill : V) (add : V → V → V) (rows : List (Row V)) : List (Row V) :=
  rows.map (fun r => (r.1, sumAt fill add rows r.1))

theorem sumAt_sub (fill : V) (add : V → V → V) (rows : List (Row V)) (j : Nat) (c : List Nat) :
    sumAt fill add (sub rows j) c = sumAt fill add rows (j :: c) := by
  unfold sumAt
  congr 1
  induction rows with
  | nil => rfl
  | cons r rows ih =>
    unfold sub at ih ⊢
    rw [List.filter_cons]
    cases hh : headIs j r with
    | true =>
      obtain ⟨cs, hc⟩ := Pack.headIs_iff.1 hh
      rw [if_pos rfl, List.map_cons, List.filter_cons, List.filter_cons]
      have : ((tailRow r).1 == c) = (r.1 == j :: c) := by
        simp only [tailRow, hc, List.tail_cons]
        rw [Bool.eq_iff_iff]; simp
      rw [this]
      cases r.1 == j :: c with
      | true => rw [if_pos rfl, if_pos rfl, List.map_cons, List.map_cons, ih]; rfl
      | false => exact ih
    | false =>
      rw [if_neg (by simp), List.filter_cons (x := r)]
      have : (r.1 == j :: c) = false := by
        rw [Bool.eq_false_iff]
        intro hc
        rw [beq_iff_eq] at hc
        rw [Pack.headIs_iff.2 ⟨c, hc⟩] at hh
        cases hh
      rw [this]
      exact ih

theorem sub_summed (fill : V) (add : V → V → V) (rows : List (Row V)) (j : Nat) :
    sub (summed fill add rows) j = summed fill add (sub rows j) := by
  unfold summed
  have h : ∀ l : List (Row V), sub (l.map (fun r => (r.1, sumAt fill add rows r.1))) j =
      (sub l j).map (fun r => (r.1, sumAt fill add (sub rows j) r.1)) := by
    intro l
    unfold sub
    rw [List.filter_map, List.map_map, List.map_map]
    have hf : l.filter (headIs j ∘ fun r => (r.1, sumAt fill add rows r.1)) = l.filter (headIs j) := rfl
    rw [hf]
    apply List.map_congr_left
    intro r hr
    obtain ⟨cs, hc⟩ := Pack.headIs_iff.1 (List.mem_filter.1 hr).2
    show (r.1.tail, sumAt fill add rows r.1) = (r.1.tail, sumAt fill add (sub rows j) r.1.tail)
    rw [hc, List.tail_cons, sumAt_sub]
  exact h rows

theorem heads_summed (fill : V) (add : V → V → V) (rows : List (Row V)) : heads (summed fill add rows) = heads rows := by
  unfold heads summed
  rw [List.map_map]
  rfl

theorem RowsOK.summed {dims : List Nat} {rows : List (Row V)} (fill : V) (add : V → V → V) (h : RowsOK dims rows) :
    RowsOK dims (summed fill add rows) := by
  constructor
  · unfold Assembly.summed
    rw [List.pairwise_map]
    exact h.sorted
  · intro r hr
    obtain ⟨r0, hr0, rfl⟩ := List.mem_map.1 hr
    exact h.range r0 hr0

theorem unvisited_expected (fill : V) : ∀ ls : List (Nat × Kind), unvisited fill ls = expected fill ls [] := by
  intro ls
  induction ls with
  | nil => rfl
  | cons l ls ih =>
    obtain ⟨n, k⟩ := l
    cases k with
    | dense =>
      show (List.range n).flatMap (fun i => under i (unvisited fill ls)) =
        (List.range n).flatMap (fun j => under j (expected fill ls (sub [] j)))
      rw [ih]; rfl
    | sparse => rfl

/-- What the result stores is what packing the summed rows stores. -/
theorem stored_treeOf (fill : V) (add : V → V → V) : ∀ (ls : List (Nat × Kind)) (rows : List (Row V)),
    RowsOK (ls.map Prod.fst) rows → (ls = [] → rows ≠ []) →
    stored fill ls (treeOf fill add ls rows) = expected fill ls (summed fill add rows) := by
  intro ls
  induction ls with
  | nil =>
    intro rows hok hne
    cases rows with
    | nil => exact absurd rfl (hne rfl)
    | cons r rows =>
      show [([], sumVals fill add ((r :: rows).map Prod.snd))] = [([], sumAt fill add (r :: rows) r.1)]
      unfold sumAt
      have : (r :: rows).filter (fun x => x.1 == r.1) = r :: rows := by
        rw [List.filter_eq_self]
        intro x hx
        have h1 := Pack.inRange_nil.1 (hok.range x hx)
        have h2 := Pack.inRange_nil.1 (hok.range r List.mem_cons_self)
        rw [h1, h2]; rfl
      rw [this]
  | cons l ls ih =>
    obtain ⟨n, k⟩ := l
    intro rows hok _
    have hok' : RowsOK (n :: ls.map Prod.fst) rows := hok
    obtain ⟨u1, u2⟩ := Pack.getUniqueEntries_spec hok'.heads_sorted
    have hsub : ∀ j ∈ getUniqueEntries (heads rows), sub rows j ≠ [] := by
      intro j hj
      exact ((mem_heads_sub hok').1 ((u2 j).1 hj)).2
    cases k with
    | sparse =>
      show (entries (treeOf fill add ((n, Kind.sparse) :: ls) rows)).flatMap (fun e => under e.1 (stored fill ls e.2)) =
        (getUniqueEntries (heads (summed fill add rows))).flatMap
          (fun j => under j (expected fill ls (sub (summed fill add rows) j)))
      rw [treeOf_cons, heads_summed, List.flatMap_map]
      apply flatMap_congr'
      intro j hj
      show under j (stored fill ls (treeOf fill add ls (sub rows j))) = _
      rw [ih _ (hok'.sub j) (fun _ => hsub j hj), sub_summed]
    | dense =>
      show (List.range n).flatMap (fun i => under i
          (match (entries (treeOf fill add ((n, Kind.dense) :: ls) rows)).lookup i with
            | some c => stored fill ls c
            | none => unvisited fill ls)) =
        (List.range n).flatMap (fun j => under j (expected fill ls (sub (summed fill add rows) j)))
      apply flatMap_congr'
      intro j hj
      rw [treeOf_cons, sub_summed]
      by_cases hm : j ∈ getUniqueEntries (heads rows)
      · have : ((getUniqueEntries (heads rows)).map (fun j => (j, treeOf fill add ls (sub rows j)))).lookup j =
            some (treeOf fill add ls (sub rows j)) := by
          apply lookup_mem (e := (j, treeOf fill add ls (sub rows j)))
          · rw [List.map_map]
            exact (by rw [show (Prod.fst ∘ fun j => (j, treeOf fill add ls (sub rows j))) = id from rfl, List.map_id]; exact u1)
          · exact List.mem_map.2 ⟨j, hm, rfl⟩
        rw [this]
        show under j (stored fill ls (treeOf fill add ls (sub rows j))) = _
        rw [ih _ (hok'.sub j) (fun _ => hsub j hm)]
      · have : ((getUniqueEntries (heads rows)).map (fun j => (j, treeOf fill add ls (sub rows j)))).lookup j = none := by
          apply lookup_not_mem
          rw [List.map_map]
          exact (by rw [show (Prod.fst ∘ fun j => (j, treeOf fill add ls (sub rows j))) = id from rfl, List.map_id]; exact hm)
        rw [this]
        show under j (unvisited fill ls) = _
        have hs : sub rows j = [] := by
          by_cases hs : sub rows j = []
          · exact hs
          · exact absurd ((u2 j).2 ((mem_heads_sub hok').2 ⟨List.mem_range.1 hj, hs⟩)) hm
        rw [hs, unvisited_expected]
        rfl

end Verif.Assembly
