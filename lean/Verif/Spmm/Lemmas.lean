import Verif.Spmm.Program
import Verif.EndToEnd.Dense
import Verif.Workspace.Theorems
/-! Lemmas on one execution of a `where` statement with a dense vector as temporary, and on the loops around it. -/
namespace Verif.Spmm
open Verif.Merge
open Verif.Merge.Expr
open Verif.Pack (Kind Row permute iterate)
open Verif.Assembly
open Verif.EndToEnd
open Verif.Workspace (Ws init round writesAt accumulate delivered Clean workspace_round)

variable {V : Type}

/-! ### Values delivered for a coordinate -/

/-- The sum of the assignments at a coordinate. -/
def sumAt (o : Ops V) (ups : List (Nat × V)) (c : Nat) : V := (writesAt ups c).foldl (o.bin .add) o.zero

/-- Each coordinate is assigned at most once. -/
def Once (ups : List (Nat × V)) : Prop := ∀ c, (writesAt ups c).length ≤ 1

theorem accumulate_sum {o : Ops V} (ho : ZeroLaws o) (acc : Bool) {ups : List (Nat × V)} (h : acc = false → Once ups) (c : Nat) :
    (accumulate (if acc then o.bin .add else fun _ x => x) (writesAt ups c)).getD o.zero = sumAt o ups c := by
  unfold sumAt
  cases hw : writesAt ups c with
  | nil => rfl
  | cons x xs =>
    cases acc with
    | true => simp only [if_true, accumulate, Option.getD_some, List.foldl_cons, ho.zero_add]
    | false =>
      have := h rfl c
      rw [hw] at this
      cases xs with
      | nil => simp [accumulate, ho.zero_add]
      | cons y ys => simp at this

theorem lookup_filterMap (f : Nat → Option V) (c : Nat) : ∀ (l : List Nat), l.Nodup →
    (l.filterMap fun c => (f c).map fun v => (c, v)).lookup c = if c ∈ l then f c else none := by
  intro l
  induction l with
  | nil => intro _; rfl
  | cons a l ih =>
    intro hn
    rw [List.nodup_cons] at hn
    rw [List.filterMap_cons]
    by_cases h : c = a
    · subst h
      cases hf : f c with
      | none =>
        simp only [Option.map_none, List.mem_cons, true_or, if_true]
        rw [ih hn.2, if_neg hn.1]
      | some v => simp [List.lookup_cons]
    · have hb : (c == a) = false := by simpa using h
      cases hf : f a with
      | none => simp only [Option.map_none, List.mem_cons, h, false_or]; exact ih hn.2
      | some v =>
        simp only [Option.map_some, List.lookup_cons, hb, List.mem_cons, h, false_or]
        exact ih hn.2

/-- What one execution of the `where` statement is to deliver: increasing coordinates, and the sum at every coordinate. -/
structure Delivers (o : Ops V) (n : Nat) (ups : List (Nat × V)) (out : List (Nat × V)) : Prop where
  sorted : (out.map Prod.fst).Pairwise (· < ·)
  lt : ∀ x ∈ out, x.1 < n
  value : ∀ c, c < n → (out.lookup c).getD o.zero = sumAt o ups c

theorem delivered_delivers {o : Ops V} (ho : ZeroLaws o) (n : Nat) (acc : Bool) {ups : List (Nat × V)}
    (h : acc = false → Once ups) : Delivers o n ups (delivered n (if acc then o.bin .add else fun _ x => x) ups) := by
  generalize hop : (if acc then o.bin .add else fun _ x => x) = op
  have hsub : ∀ (l : List Nat), ((l.filterMap fun c => (accumulate op (writesAt ups c)).map fun v => (c, v)).map Prod.fst).Sublist l := by
    intro l
    induction l with
    | nil => exact List.Sublist.slnil
    | cons a l ih =>
      rw [List.filterMap_cons]
      cases accumulate op (writesAt ups a) with
      | none => exact ih.cons _
      | some v => exact ih.cons_cons _
  refine ⟨?_, ?_, ?_⟩
  · exact List.Pairwise.sublist (hsub _) List.pairwise_lt_range
  · intro x hx
    exact List.mem_range.1 ((hsub _).subset (List.mem_map.2 ⟨x, hx, rfl⟩))
  · intro c hc
    unfold delivered
    rw [lookup_filterMap _ _ _ List.nodup_range, if_pos (List.mem_range.2 hc), ← hop]
    exact accumulate_sum ho acc h c

theorem denseUpdates (acc : Bool) (o : Ops V) (n : Nat) : ∀ (ups : List (Nat × V)), (∀ u ∈ ups, u.1 < n) →
    ∀ (g : Nat → V), ∃ g' : Nat → V, ups.foldlM (denseUpdate acc o) ((List.range n).map (fun c => some (g c))) =
        some ((List.range n).map (fun c => some (g' c))) ∧
      ∀ c, g' c = (writesAt ups c).foldl (fun x y => if acc then o.bin .add x y else y) (g c) := by
  intro ups
  induction ups with
  | nil => intro _ g; exact ⟨g, rfl, fun _ => rfl⟩
  | cons u ups ih =>
    intro hu g
    have hu0 : u.1 < n := hu u List.mem_cons_self
    have hlen : u.1 < ((List.range n).map (fun c => some (g c))).length := by simpa using hu0
    let g1 : Nat → V := fun c => if c = u.1 then (if acc then o.bin .add (g c) u.2 else u.2) else g c
    have hset : ((List.range n).map (fun c => some (g c))).set u.1 (some (if acc then o.bin .add (g u.1) u.2 else u.2)) =
        (List.range n).map (fun c => some (g1 c)) := by
      apply List.ext_getElem
      · simp
      · intro i h1 h2
        rw [List.getElem_set]
        simp only [List.getElem_map, List.getElem_range, g1]
        by_cases h : u.1 = i
        · subst h; simp
        · have h' : ¬ i = u.1 := fun e => h e.symm
          simp [h, h']
    obtain ⟨g', h1, h2⟩ := ih (fun x hx => hu x (List.mem_cons_of_mem _ hx)) g1
    refine ⟨g', ?_, ?_⟩
    · rw [List.foldlM_cons]
      have hstep : denseUpdate acc o ((List.range n).map (fun c => some (g c))) u = some ((List.range n).map (fun c => some (g1 c))) := by
        unfold denseUpdate
        have hr : read ((List.range n).map (fun c => some (g c))) u.1 = some (g u.1) := by
          unfold Verif.Assembly.read
          simp [hu0]
        cases acc with
        | true =>
          rw [if_pos rfl, hr, Option.bind_some, write_some hlen]
          simp only [if_true] at hset
          rw [hset]
        | false =>
          rw [if_neg (by simp), write_some hlen]
          simp only [Bool.false_eq_true, if_false] at hset
          rw [hset]
      rw [hstep]
      exact h1
    · intro c
      rw [h2 c]
      unfold writesAt
      rw [List.filter_cons]
      by_cases h : u.1 = c
      · subst h
        simp only [beq_self_eq_true, if_true, List.map_cons, List.foldl_cons, g1]
      · have hb : (u.1 == c) = false := by simpa using h
        have h' : ¬ c = u.1 := fun e => h e.symm
        simp only [hb, Bool.false_eq_true, if_false, g1, h']

theorem zip_lookup (n : Nat) (g : Nat → V) (c : Nat) (h : c < n) : ((List.range n).map (fun c => (c, g c))).lookup c = some (g c) := by
  have := lookup_filterMap (fun c => some (g c)) c (List.range n) List.nodup_range
  rw [if_pos (List.mem_range.2 h)] at this
  rw [← this]
  congr 1
  rw [← List.filterMap_eq_map]
  rfl

theorem denseRound_delivers {o : Ops V} (ho : ZeroLaws o) (n : Nat) (acc : Bool) (w : Ws V) {ups : List (Nat × V)}
    (hu : ∀ u ∈ ups, u.1 < n) (h : acc = false → Once ups) :
    ∃ w' out, denseRound acc o n w ups = some (w', out) ∧ Delivers o n ups out ∧
      out = (List.range n).map (fun c => (c, sumAt o ups c)) := by
  obtain ⟨g', h1, h2⟩ := denseUpdates acc o n ups hu (fun _ => o.zero)
  have hrep : (List.range n).map (fun _ => some o.zero) = List.replicate n (some o.zero) := by
    rw [List.map_const', List.length_range]
  rw [hrep] at h1
  have hg : ∀ c, g' c = sumAt o ups c := by
    intro c
    rw [h2]
    unfold sumAt
    cases acc with
    | true => simp
    | false =>
      have := h rfl c
      cases hw : writesAt ups c with
      | nil => rfl
      | cons x xs =>
        rw [hw] at this
        cases xs with
        | nil => simp [ho.zero_add]
        | cons y ys => simp at this
  have hread : readAll ((List.range n).map (fun c => some (g' c))) n = some ((List.range n).map g') := by
    unfold Verif.Assembly.readAll
    rw [if_pos (by simp), List.take_of_length_le (by simp)]
    have := Verif.Assembly.mapM_id_some ((List.range n).map g')
    rwa [List.map_map] at this
  have hzip : (List.range n).zip ((List.range n).map g') = (List.range n).map (fun c => (c, sumAt o ups c)) := by
    rw [List.zip_map_right]
    generalize List.range n = l
    induction l with
    | nil => rfl
    | cons a l ih => simp [List.zip_cons_cons, ih, hg]
  refine ⟨{ w with vals := (List.range n).map (fun c => some (g' c)) }, (List.range n).map (fun c => (c, sumAt o ups c)), ?_, ⟨?_, ?_, ?_⟩, rfl⟩
  · unfold denseRound
    rw [h1, Option.bind_some, hread, Option.map_some, hzip]
  · rw [List.map_map]
    have : (Prod.fst ∘ fun c => (c, sumAt o ups c)) = id := rfl
    rw [this, List.map_id]
    exact List.pairwise_lt_range
  · intro x hx
    obtain ⟨c, hc, rfl⟩ := List.mem_map.1 hx
    exact List.mem_range.1 hc
  · intro c hc
    rw [zip_lookup n _ c hc, Option.getD_some]

/-! ### The `where` statement -/

/-- Workspaces that can be used. -/
def Ready (tp : Temp) (w : Ws V) : Prop := tp.accel = true → Clean tp.n w

theorem init_ready (tp : Temp) : Ready tp (init tp.n : Ws V) := by
  intro _
  refine ⟨?_, ?_, rfl⟩ <;> simp [init]

/-- What the producer's loops contribute at a coordinate. -/
def partSum (o : Ops V) (tp : Temp) (dims : List Nat) (f : List Nat → V) (c : Nat) : V :=
  ((box dims).filter (fun x => coordOf tp.mid x tp.v == c)).foldl (fun a x => o.bin .add a (f x)) o.zero

theorem partSum_congr {o : Ops V} {tp : Temp} {dims : List Nat} {f g : List Nat → V} {c : Nat}
    (h : ∀ x ∈ box dims, f x = g x) : partSum o tp dims f c = partSum o tp dims g c := by
  unfold partSum
  have : ∀ (l : List (List Nat)) (a : V), (∀ x ∈ l, f x = g x) →
      l.foldl (fun a x => o.bin .add a (f x)) a = l.foldl (fun a x => o.bin .add a (g x)) a := by
    intro l
    induction l with
    | nil => intro a _; rfl
    | cons y l ih =>
      intro a h
      rw [List.foldl_cons, List.foldl_cons, h y List.mem_cons_self]
      exact ih _ (fun z hz => h z (List.mem_cons_of_mem _ hz))
  exact this _ _ (fun x hx => h x (List.mem_filter.1 hx).1)

theorem partSum_zero {o : Ops V} (ho : ZeroLaws o) (tp : Temp) (dims : List Nat) (c : Nat) :
    partSum o tp dims (fun _ => o.zero) c = o.zero := by
  unfold partSum
  generalize (box dims).filter _ = l
  induction l with
  | nil => rfl
  | cons x l ih => rw [List.foldl_cons, ho.add_zero]; exact ih

/-- What is delivered for the coordinates `n` of the temporary. -/
structure RowIs (o : Ops V) (n : Nat) (f : Nat → V) (out : List (Nat × V)) : Prop where
  sorted : (out.map Prod.fst).Pairwise (· < ·)
  lt : ∀ x ∈ out, x.1 < n
  value : ∀ c, c < n → (out.lookup c).getD o.zero = f c

theorem whereBody_spec (o : Ops V) (ho : ZeroLaws o) {srt : List Point → List Point} (hs : SortSpec srt)
    (vals : Nat → List V) (tp : Temp) (hsort : Verif.Workspace.SortSpec tp.sort) (ls : List Loop) (pos : Nat → Nat) (e : Expr V)
    (hlen : ls.length = tp.mid.length)
    (hv : ∀ x ∈ box (ls.map Loop.n), coordOf tp.mid x tp.v < tp.n)
    (honce : tp.acc = false → ∀ x ∈ box (ls.map Loop.n), ∀ y ∈ box (ls.map Loop.n),
      coordOf tp.mid x tp.v = coordOf tp.mid y tp.v → x = y)
    (hcons : ∀ l ∈ ls, Consistent (ctxOf l) e) (hin : Inside vals ls pos e) :
    ∃ out, RowIs o tp.n (partSum o tp (ls.map Loop.n) (evalAtPath o vals ls pos e)) out ∧
      ∀ w, Ready tp w → ∃ w', whereBody o srt vals tp ls w pos e = some (w', out) ∧ Ready tp w' := by
  obtain ⟨size, hwf⟩ := hin
  obtain ⟨h1, h2⟩ := kernel_spec o ho hs vals ls pos e size hcons hwf
  generalize hvis : visited o ls pos e = vis at h1 h2
  let val := evalAtPath o vals ls pos e
  let evs := ((box (ls.map Loop.n)).filter vis).map (fun path => (path, val path))
  let ups := evs.map (fun ev => (loopCoord tp.mid ev.1 tp.v, ev.2))
  have hpl : ∀ x ∈ box (ls.map Loop.n), x.length = tp.mid.length := by
    intro x hx
    rw [(Pack.mem_box.1 hx).1, List.length_map, hlen]
  have hups : ups = ((box (ls.map Loop.n)).filter vis).map (fun x => (coordOf tp.mid x tp.v, val x)) := by
    show List.map _ (List.map _ _) = _
    rw [List.map_map]
    apply List.map_congr_left
    intro x hx
    simp only [Function.comp]
    rw [loopCoord_eq (hpl x (List.mem_filter.1 hx).1)]
  have hlt : ∀ u ∈ ups, u.1 < tp.n := by
    intro u hu
    rw [hups] at hu
    obtain ⟨x, hx, rfl⟩ := List.mem_map.1 hu
    exact hv x (List.mem_filter.1 hx).1
  have hwr : ∀ c, writesAt ups c = (((box (ls.map Loop.n)).filter vis).filter (fun x => coordOf tp.mid x tp.v == c)).map val := by
    intro c
    unfold writesAt
    rw [hups, List.filter_map, List.map_map]
    rfl
  have hboxnd : (box (ls.map Loop.n)).Nodup := by
    refine (Pack.box_sorted _).imp ?_
    intro a b h heq
    rw [heq, Pack.lexCmp_self] at h; omega
  have hon : tp.acc = false → Once ups := by
    intro ha c
    rw [hwr, List.length_map]
    have hnd := (hboxnd.filter vis).filter (fun x => coordOf tp.mid x tp.v == c)
    match hl : ((box (ls.map Loop.n)).filter vis).filter (fun x => coordOf tp.mid x tp.v == c) with
    | [] => simp
    | [_] => simp
    | x :: y :: rest =>
      exfalso
      have hx : x ∈ ((box (ls.map Loop.n)).filter vis).filter (fun x => coordOf tp.mid x tp.v == c) := by rw [hl]; simp
      have hy : y ∈ ((box (ls.map Loop.n)).filter vis).filter (fun x => coordOf tp.mid x tp.v == c) := by rw [hl]; simp
      rw [List.mem_filter, List.mem_filter, beq_iff_eq] at hx hy
      rw [hl, List.pairwise_cons] at hnd
      exact hnd.1 y List.mem_cons_self (honce ha x hx.1.1 y hy.1.1 (hx.2.trans hy.2.symm))
  have hsum : ∀ c, sumAt o ups c = partSum o tp (ls.map Loop.n) val c := by
    intro c
    unfold sumAt partSum
    rw [hwr, List.foldl_map, List.filter_filter]
    have : (box (ls.map Loop.n)).filter (fun a => (coordOf tp.mid a tp.v == c) && vis a) =
        ((box (ls.map Loop.n)).filter (fun x => coordOf tp.mid x tp.v == c)).filter vis := by
      rw [List.filter_filter]
      apply List.filter_congr
      intro a _
      rw [Bool.and_comm]
    rw [this]
    exact foldl_filter_zero o ho val vis _ _ (fun x hx hn => h2 x (List.mem_filter.1 hx).1 hn)
  have hrow : ∀ {out}, Delivers o tp.n ups out → RowIs o tp.n (partSum o tp (ls.map Loop.n) val) out :=
    fun h => ⟨h.sorted, h.lt, fun c hc => (h.value c hc).trans (hsum c)⟩
  have hbody : ∀ w, whereBody o srt vals tp ls w pos e = if tp.accel then round (if tp.acc then o.bin .add else fun _ x => x) tp.sort w ups
      else denseRound tp.acc o tp.n w ups := by
    intro w
    unfold whereBody
    rw [h1]
    rfl
  cases hac : tp.accel with
  | true =>
    refine ⟨_, hrow (delivered_delivers ho tp.n tp.acc hon), ?_⟩
    intro w hw
    obtain ⟨w', h3, h4⟩ := workspace_round tp.n (if tp.acc then o.bin .add else fun _ x => x) tp.sort hsort w (hw hac) ups hlt
    refine ⟨w', ?_, fun _ => h4⟩
    rw [hbody, hac, if_pos rfl, h3]
  | false =>
    obtain ⟨_, out, _, h4, h5⟩ := denseRound_delivers ho tp.n tp.acc (init tp.n) hlt hon
    refine ⟨out, hrow h4, ?_⟩
    intro w _
    obtain ⟨w', out', h6, h7, h8⟩ := denseRound_delivers ho tp.n tp.acc w hlt hon
    refine ⟨w', ?_, fun h => by rw [hac] at h; cases h⟩
    rw [hbody, hac, if_neg (by simp), h6, h8, h5]

/-! ### The loops around it -/

theorem thread_spec {tp : Temp} (f : Ws V → Event V → Option (Ws V × List (Nat × V))) (P : Event V → List (Nat × V) → Prop) :
    ∀ (evs : List (Event V)), (∀ ev ∈ evs, ∃ out, P ev out ∧ ∀ w, Ready tp w → ∃ w', f w ev = some (w', out) ∧ Ready tp w') →
    ∀ w, Ready tp w → ∃ ys, thread f w evs = some ys ∧ ys.map Prod.fst = evs.map (fun v => v.coord) ∧
      ∀ y ∈ ys, ∃ ev ∈ evs, y.1 = ev.coord ∧ P ev y.2 := by
  intro evs
  induction evs with
  | nil => intro _ w _; exact ⟨[], rfl, rfl, by simp⟩
  | cons ev evs ih =>
    intro h w hw
    obtain ⟨out, hP, hf⟩ := h ev List.mem_cons_self
    obtain ⟨w', hf1, hw'⟩ := hf w hw
    obtain ⟨ys, h1, h2, h3⟩ := ih (fun x hx => h x (List.mem_cons_of_mem _ hx)) w' hw'
    refine ⟨(ev.coord, out) :: ys, ?_, ?_, ?_⟩
    · simp only [thread, hf1, Option.bind_some, h1, Option.map_some]
    · simp [h2]
    · intro y hy
      rcases List.mem_cons.1 hy with rfl | hy
      · exact ⟨ev, List.mem_cons_self, rfl, hP⟩
      · obtain ⟨x, hx, h⟩ := h3 y hy
        exact ⟨x, List.mem_cons_of_mem _ hx, h⟩

theorem treeVal_one (z : V) (out : List (Nat × V)) (c : Nat) : treeVal z 1 (out : Tree V 1) [c] = (out.lookup c).getD z := by
  refine (treeVal_cons z 0 (out : Tree V 1) c []).trans ?_
  show (out.lookup c).elim z _ = _
  cases out.lookup c <;> rfl

theorem wsTree_spec (o : Ops V) (ho : ZeroLaws o) {srt : List Point → List Point} (hs : SortSpec srt)
    (vals : Nat → List V) (tp : Temp) (hsort : Verif.Workspace.SortSpec tp.sort) (l2 : List Loop)
    (hlen : l2.length = tp.mid.length)
    (hv : ∀ x ∈ box (l2.map Loop.n), coordOf tp.mid x tp.v < tp.n)
    (honce : tp.acc = false → ∀ x ∈ box (l2.map Loop.n), ∀ y ∈ box (l2.map Loop.n),
      coordOf tp.mid x tp.v = coordOf tp.mid y tp.v → x = y) :
    ∀ (rl : List (Nat × Kind)) (l1 : List Loop) (pos : Nat → Nat) (e : Expr V),
    rl.map Prod.fst = l1.map Loop.n ++ [tp.n] → (∀ l ∈ l1 ++ l2, Consistent (ctxOf l) e) → Inside vals (l1 ++ l2) pos e →
    ∃ t, wsTree o srt vals tp rl.length (l1 ++ l2) pos e = some t ∧ visitsSorted rl t ∧
      ∀ path ∈ box (l1.map Loop.n), ∀ c, c < tp.n → treeVal o.zero rl.length t (path ++ [c]) =
        partSum o tp (l2.map Loop.n) (fun x => evalAtPath o vals (l1 ++ l2) pos e (path ++ x)) c := by
  intro rl
  induction rl with
  | nil => intro l1 pos e hl; simp at hl
  | cons x rl ih =>
    obtain ⟨n, k⟩ := x
    intro l1 pos e hl hcons hin
    cases l1 with
    | nil =>
      have hrl : rl = [] ∧ n = tp.n := by
        cases rl with
        | nil => simpa using hl
        | cons _ _ => simp at hl
      obtain ⟨rfl, rfl⟩ := hrl
      obtain ⟨out, hrow, hout⟩ := whereBody_spec o ho hs vals tp hsort l2 pos e hlen hv honce hcons hin
      obtain ⟨w', hw, _⟩ := hout (init tp.n) (init_ready tp)
      refine ⟨(out : List (Nat × V)), ?_, ⟨hrow.sorted, hrow.lt, fun _ _ => trivial⟩, ?_⟩
      · show (whereBody o srt vals tp ([] ++ l2) (init tp.n) pos e).map _ = _
        rw [List.nil_append, hw]
        rfl
      · intro path hp c hc
        have hp' : path = [] := by simpa [box] using hp
        subst hp'
        refine (treeVal_one o.zero out c).trans ?_
        rw [hrow.value c hc]
        rfl
    | cons l l1 =>
      rw [List.map_cons, List.map_cons, List.cons_append, List.cons.injEq] at hl
      obtain ⟨hn, hl⟩ := hl
      simp only at hn
      rw [List.cons_append] at hcons hin ⊢
      obtain ⟨hsegs, hrun, hsupp, hnsupp⟩ := loop_step o ho hs vals l (l1 ++ l2) pos e hcons hin
      generalize hev : evAt (ctxOf l) e ⟨crdOf l pos e.leaves, l.n⟩ = ev at hrun hsupp
      have hcoord : ∀ c, (ev c).coord = c := by intro c; rw [← hev]; rfl
      generalize hsp : (fun c => supp (ctxOf l) (present ⟨crdOf l pos e.leaves, l.n⟩ c) e) = sp at hrun
      have hspc : ∀ c, supp (ctxOf l) (present ⟨crdOf l pos e.leaves, l.n⟩ c) e = sp c := fun c => by rw [← hsp]
      simp only [hspc] at hsupp hnsupp
      -- the subtrees
      have hsub : ∃ ys : List (Nat × Tree V rl.length),
          wsTree o srt vals tp (rl.length + 1) (l :: (l1 ++ l2)) pos e = some ys ∧
          ys.map Prod.fst = (((List.range l.n).filter sp).map ev).map (fun v => v.coord) ∧
          ∀ y ∈ ys, ∃ v ∈ ((List.range l.n).filter sp).map ev, y.1 = v.coord ∧ (visitsSorted rl y.2 ∧
            ∀ path ∈ box (l1.map Loop.n), ∀ c, c < tp.n → treeVal o.zero rl.length y.2 (path ++ [c]) =
              partSum o tp (l2.map Loop.n) (fun x => evalAtPath o vals (l :: (l1 ++ l2)) pos e (v.coord :: (path ++ x))) c) := by
        match rl, ih, hl with
        | [], _, hl => simp at hl
        | [x1], _, hl =>
          have hl1 : l1 = [] := by
            cases l1 with
            | nil => rfl
            | cons _ _ => simp at hl
          subst hl1
          have hx1 : x1.1 = tp.n := by simpa using hl
          obtain ⟨ys, h1, h2, h3⟩ := thread_spec (tp := tp)
            (fun w v => v.stmt.bind (fun e' => whereBody o srt vals tp l2 w (nextPos l pos v) e'))
            (fun v out => RowIs o tp.n (partSum o tp (l2.map Loop.n) (fun x => evalAtPath o vals (l :: l2) pos e (v.coord :: x))) out)
            (((List.range l.n).filter sp).map ev) (by
              intro v hv'
              rw [List.mem_map] at hv'
              obtain ⟨c, hc, rfl⟩ := hv'
              rw [List.mem_filter, List.mem_range] at hc
              obtain ⟨e', h1, h2, h3, h4⟩ := hsupp c hc.1 hc.2
              obtain ⟨out, hrow, hout⟩ := whereBody_spec o ho hs vals tp hsort l2 (nextPos l pos (ev c)) e' hlen hv honce h2 h3
              refine ⟨out, ⟨hrow.sorted, hrow.lt, ?_⟩, ?_⟩
              · intro c' hc'
                rw [hrow.value c' hc']
                apply partSum_congr
                intro x _
                rw [hcoord]
                exact h4 x
              · intro w hw
                obtain ⟨w', hw1, hw2⟩ := hout w hw
                exact ⟨w', by simp only [h1, Option.bind_some]; exact hw1, hw2⟩) (init tp.n) (init_ready tp)
          refine ⟨(ys : List (Nat × List (Nat × V))), ?_, h2, ?_⟩
          · show (if segsOk l pos e.leaves then _ else none) = _
            rw [if_pos hsegs]
            simp only [List.nil_append] at hrun ⊢
            rw [hrun]
            exact h1
          · intro y hy
            obtain ⟨v, hv1, hv2, hv3⟩ := h3 y hy
            refine ⟨v, hv1, hv2, ⟨hv3.sorted, fun z hz => by rw [hx1]; exact hv3.lt z hz, fun _ _ => trivial⟩, ?_⟩
            intro path hp c hc
            have hp' : path = [] := by simpa [box] using hp
            subst hp'
            refine (treeVal_one o.zero y.2 c).trans ?_
            rw [hv3.value c hc]
            rfl
        | x1 :: x2 :: rl, ih, hl =>
          obtain ⟨ys, h1, h2, h3⟩ := mapM_keys (fun v : Event V => v.coord)
            (fun (v : Event V) => v.stmt.bind (fun e' =>
              (wsTree o srt vals tp (rl.length + 2) (l1 ++ l2) (nextPos l pos v) e').map (fun t => (v.coord, t))))
            (fun v t => visitsSorted (x1 :: x2 :: rl) t ∧ ∀ path ∈ box (l1.map Loop.n), ∀ c, c < tp.n →
              treeVal o.zero (rl.length + 2) t (path ++ [c]) =
              partSum o tp (l2.map Loop.n) (fun x => evalAtPath o vals (l :: (l1 ++ l2)) pos e (v.coord :: (path ++ x))) c)
            (((List.range l.n).filter sp).map ev) (by
              intro v hv'
              rw [List.mem_map] at hv'
              obtain ⟨c, hc, rfl⟩ := hv'
              rw [List.mem_filter, List.mem_range] at hc
              obtain ⟨e', h1, h2, h3, h4⟩ := hsupp c hc.1 hc.2
              obtain ⟨t, ht1, ht2, ht3⟩ := ih l1 (nextPos l pos (ev c)) e' hl h2 h3
              refine ⟨t, ?_, ht2, ?_⟩
              · rw [h1, Option.bind_some]
                have ht1' : wsTree o srt vals tp (rl.length + 2) (l1 ++ l2) (nextPos l pos (ev c)) e' = some t := ht1
                rw [ht1']; rfl
              · intro path hp c' hc'
                refine (ht3 path hp c' hc').trans ?_
                apply partSum_congr
                intro x _
                rw [h4, hcoord])
          refine ⟨ys, ?_, h2, h3⟩
          show (if segsOk l pos e.leaves then _ else none) = _
          rw [if_pos hsegs]
          simp only
          rw [hrun]
          exact congrArg (Option.map _) h1
      obtain ⟨ys, hy1, hy2, hy3⟩ := hsub
      have hkeys : ys.map Prod.fst = (List.range l.n).filter sp := by
        rw [hy2, List.map_map]
        have : (fun v : Event V => v.coord) ∘ ev = id := by funext c; exact hcoord c
        rw [this, List.map_id]
      have hsorted : (ys.map Prod.fst).Pairwise (· < ·) := by
        rw [hkeys]; exact List.pairwise_lt_range.filter _
      refine ⟨ys, hy1, ?_, ?_⟩
      · refine ⟨hsorted, ?_, ?_⟩
        · intro y hy
          have : y.1 ∈ ys.map Prod.fst := List.mem_map.2 ⟨y, hy, rfl⟩
          rw [hkeys, List.mem_filter, List.mem_range] at this
          rw [hn]; exact this.1
        · intro y hy
          obtain ⟨v, _, _, hv', _⟩ := hy3 y hy
          exact hv'
      · intro path hp c' hc'
        simp only [List.map_cons, box, List.mem_flatMap, List.mem_range, List.mem_map] at hp
        obtain ⟨c, hc, cs, hcs, rfl⟩ := hp
        rw [List.cons_append]
        refine (treeVal_cons o.zero rl.length ys c (cs ++ [c'])).trans ?_
        show (ys.lookup c).elim o.zero (fun t' => treeVal o.zero rl.length t' (cs ++ [c'])) = _
        cases hsc : sp c with
        | true =>
          have hmem : c ∈ ys.map Prod.fst := by rw [hkeys, List.mem_filter, List.mem_range]; exact ⟨hc, hsc⟩
          obtain ⟨y, hy, rfl⟩ := List.mem_map.1 hmem
          rw [Assembly.lookup_mem hsorted hy]
          simp only [Option.elim]
          obtain ⟨v, _, hv1, _, hv2⟩ := hy3 y hy
          rw [hv2 cs hcs c' hc', ← hv1]
          rfl
        | false =>
          have hmem : c ∉ ys.map Prod.fst := by
            rw [hkeys, List.mem_filter]
            intro h; rw [hsc] at h; cases h.2
          rw [Assembly.lookup_not_mem hmem]
          simp only [Option.elim]
          rw [← partSum_zero ho tp (l2.map Loop.n) c']
          apply partSum_congr
          intro x _
          rw [List.cons_append]
          exact (hnsupp c hc hsc _).symm

end Verif.Spmm
