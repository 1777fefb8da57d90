import Verif.Query.Lemmas
import Verif.EndToEnd.Theorems
import Verif.Assembly.InsertTheorems
import Verif.Init.Spec
/-!
C70: the sizes that are computed before a result is assembled by insertion are the sizes the insertion needs, and
the program computes its expression.
-/
namespace Verif.Query
open Verif.Merge
open Verif.Merge.Expr
open Verif.EndToEnd
open Verif.Init (Holds)
open Verif.Pack (Kind Row permute unpermute iterate inRange walk QsortSpec sortRows)
open Verif.Assembly (Cell insertRun insertRunWith insertOutput insert_assembly_order toComps ofParent nnzQuery volume)

variable {V : Type}

/-! ### Packed operands -/

/-- What the loops get from the packed operands. -/
theorem operands_spec (o : Ops V) (ho : ZeroLaws o) (ha : AddLaws o) {qs : List (Row V) → List (Row V)} (hq : ∀ n, QsortSpec n qs)
    (cap : Nat) (hcap : 0 < cap) (size : Nat → Nat) (ops : List (Operand V)) (e : Expr V) (r : Result) (red : List Nat)
    (hnd : (r.vars ++ red).Nodup) (hp : r.perm.Perm (List.range r.vars.length))
    (hops : ∀ a ∈ ops, OperandOK size (permute r.perm r.vars ++ red) a)
    (hrep : RepeatsAreFactors ops e) (hlt : ∀ k ∈ e.leaves, k < ops.length) :
    ∃ sts, ops.mapM (Operand.storage qs cap o size) = some sts ∧
      (∀ l ∈ loops size ops sts (permute r.perm r.vars) ++ loops size ops sts red, Consistent (ctxOf l) e) ∧
      Inside (fun k => (sts[k]?.getD ([], [])).2) (loops size ops sts (permute r.perm r.vars) ++ loops size ops sts red) (fun _ => 0) e ∧
      ∀ c, inRange (r.vars.map size) c → ∀ x ∈ box (red.map size),
        evalAtPath o (fun k => (sts[k]?.getD ([], [])).2) (loops size ops sts (permute r.perm r.vars) ++ loops size ops sts red)
          (fun _ => 0) e (permute r.perm c ++ x) = exprVal o ops e (r.vars ++ red) (c ++ x) := by
  have hplen : r.perm.length = r.vars.length := by rw [hp.length_eq, List.length_range]
  obtain ⟨sts, hsts, hget⟩ := mapM_get (l := ops) (f := Operand.storage qs cap o size) (fun a h => operand_storage ho ha hq hcap (hops a h))
  have hopk : ∀ k ∈ e.leaves, ∃ a, ops[k]? = some a := fun k hk => ⟨_, List.getElem?_eq_getElem (hlt k hk)⟩
  refine ⟨sts, hsts, ?_⟩
  generalize hvals : (fun k : Nat => (sts[k]?.getD ([], [])).2) = vals
  have hL : loops size ops sts (permute r.perm r.vars) ++ loops size ops sts red = loops size ops sts (permute r.perm r.vars ++ red) := by
    simp [loops]
  rw [hL]
  generalize hvs : permute r.perm r.vars ++ red = vs at hops hget
  have hvnd : vs.Nodup := by
    rw [← hvs]; exact ((permute_perm hp).append_right red).nodup_iff.2 hnd
  have hlv : ∀ us k a st, ops[k]? = some a → sts[k]? = some st →
      levelsOf (loops size ops sts us) k = us.map (levelAt a.storageVars st.1) ∧
      dimLevels (loops size ops sts us) k = us.map (fun v => (size v, levelAt a.storageVars st.1 v)) := by
    intro us k a st h1 h2
    simp [levelsOf, dimLevels, loops, Function.comp, h1, h2]
  refine ⟨consistent_loops hrep (fun a h => (hops a h).perm), ?_, ?_⟩
  · refine ⟨fun _ => 1, ?_⟩
    intro k hk
    obtain ⟨a, hak⟩ := hopk k hk
    obtain ⟨st, hst, h1, h2, _⟩ := hget k a hak
    refine ⟨Nat.zero_lt_one, ?_⟩
    rw [(hlv vs k a st hak hst).2]
    have hvk : vals k = st.2 := by rw [← hvals]; simp [hst]
    rw [hvk]
    exact wfLevels_gaps size vs a.storageVars st.1 1 _ hvnd (hops a (List.mem_of_getElem? hak)).order h1.symm h2
  · intro c hc x hx
    have hp' : r.perm.Perm (List.range (r.vars.map size).length) := by rw [List.length_map]; exact hp
    have hcl : c.length = r.vars.length := by rw [hc.1]; simp
    have hpc : inRange ((permute r.perm r.vars).map size) (permute r.perm c) := by
      rw [← permute_map hp]; exact Pack.inRange_permute hp' hc
    have hx' := Pack.mem_box.1 hx
    unfold evalAtPath exprVal
    apply eval_congr
    intro k hk
    obtain ⟨a, hak⟩ := hopk k hk
    obtain ⟨st, hst, h1, _, h3⟩ := hget k a hak
    have hok := hops a (List.mem_of_getElem? hak)
    have hvk : vals k = st.2 := by rw [← hvals]; simp [hst]
    have hpath : inRange (vs.map size) (permute r.perm c ++ x) := by rw [← hvs]; exact inRange_map_append hpc hx'
    rw [hvk, (hlv vs k a st hak hst).1, valueAt_gaps o.zero st.2 vs a.storageVars st.1 _ 0 hvnd hok.order h1.symm
      (by rw [hpath.1]; simp), hak]
    simp only
    have hcoord : ∀ v ∈ vs, coordOf vs (permute r.perm c ++ x) v = coordOf (r.vars ++ red) (c ++ x) v := by
      intro v hv
      rw [← hvs] at hv ⊢
      have hl1 : (permute r.perm r.vars).length = (permute r.perm c).length := by
        rw [Pack.permute_length, Pack.permute_length]
      by_cases hmem : v ∈ r.vars
      · rw [coordOf_append_left hl1 _ _ ((mem_permute hp).2 hmem), coordOf_append_left hcl.symm _ _ hmem,
          coordOf_permute hp (List.nodup_append.1 hnd).1 hmem]
      · rw [coordOf_append_right hl1 _ _ (fun h => hmem ((mem_permute hp).1 h)), coordOf_append_right hcl.symm _ _ hmem]
    have hsub : ∀ v ∈ a.vars, v ∈ vs := fun v hv => hok.order.subset ((mem_permute hok.perm).2 hv)
    have hvars : a.vars.map (coordOf vs (permute r.perm c ++ x)) = a.vars.map (coordOf (r.vars ++ red) (c ++ x)) :=
      List.map_congr_left (fun v hv => hcoord v (hsub v hv))
    rw [← hvars]
    show valueAt o.zero st.2 (st.1.map some) ((permute a.perm a.vars).map (coordOf vs (permute r.perm c ++ x))) 0 = _
    rw [← permute_map hok.perm]
    apply h3
    refine ⟨by simp, ?_⟩
    intro m hm hm'
    simp only [List.getElem_map]
    exact coordOf_lt hpath (hsub _ (List.getElem_mem (by simpa using hm)))

/-! ### Counting -/

theorem flagOf_true {β : Type} : ∀ (evs : List (List Nat × β)), flagOf (asTrue evs) = !evs.isEmpty := by
  have hstep : ∀ (evs : List (List Nat × CVal)) (b : Bool), (∀ x ∈ evs, x.2 = truth true) →
      evs.foldl (fun b ev => if ev.2.ty = .bool then b || ev.2.isTrue else (truth b).val + ev.2.val != 0) b = (b || !evs.isEmpty) := by
    intro evs
    induction evs with
    | nil => intro b _; simp
    | cons x evs ih =>
      intro b h
      have hx := h x (by simp)
      rw [List.foldl_cons, ih _ (fun y hy => h y (by simp [hy])), hx]
      have h1 : (truth true).isTrue = true := by decide +kernel
      have h2 : (truth true).ty = .bool := rfl
      simp [h1, h2]
  intro evs
  unfold flagOf
  rw [hstep]
  · simp [asTrue]
  · intro x hx
    obtain ⟨y, _, rfl⟩ := List.mem_map.1 hx
    rfl

theorem countOf_true {red : List Loop} {evs : List (List Nat × V)} (h : red = [] → evs.length = 1) :
    countOf red (asTrue evs) = if guardOf red evs then 1 else 0 := by
  cases red with
  | nil =>
    match evs, h rfl with
    | [ev], _ =>
      show toInt (truth true).val = _
      have : toInt (truth true).val = 1 := by decide +kernel
      rw [this]; rfl
  | cons l ls =>
    show (if flagOf (asTrue evs) then (1 : Int) else 0) = _
    rw [flagOf_true]
    rfl

theorem countRow_true {red : List Loop} {p : Nat} : ∀ {vs : List (List Nat × List (List Nat × V))}, (∀ v ∈ vs, red = [] → v.2.length = 1) →
    countRow red (vs.map (fun v => (v.1, asTrue v.2))) p = ((vs.filter (fun v => guardOf red v.2)).filter (fun v => v.1.head? == some p)).length := by
  intro vs
  induction vs with
  | nil => intro _; rfl
  | cons v vs ih =>
    intro h
    have hih := ih (fun w hw => h w (by simp [hw]))
    have hc := countOf_true (h v (by simp))
    unfold countRow at hih ⊢
    rw [List.map_cons, List.filter_cons, List.filter_cons]
    simp only
    by_cases h1 : (v.1.head? == some p) = true
    · rw [if_pos h1, List.map_cons, List.sum_cons, hih, hc]
      by_cases h2 : guardOf red v.2 = true
      · rw [if_pos h2, if_pos h2, List.filter_cons, if_pos h1]; simp; omega
      · rw [if_neg h2, if_neg h2]; simp
    · rw [if_neg h1, hih]
      by_cases h2 : guardOf red v.2 = true
      · rw [if_pos h2, List.filter_cons, if_neg h1]
      · rw [if_neg h2]

/-! ### Insertion with the counted sizes -/

theorem foldlM_congr {α β : Type} {f g : β → α → Option β} : ∀ {l : List α}, (∀ x ∈ l, ∀ b, f b x = g b x) → ∀ b, l.foldlM f b = l.foldlM g b := by
  intro l
  induction l with
  | nil => intro _ b; rfl
  | cons x l ih =>
    intro h b
    rw [List.foldlM_cons, List.foldlM_cons, h x (by simp)]
    congr 1
    funext b'
    exact ih (fun y hy => h y (by simp [hy])) b'

theorem insertRunWith_eq {dims : List Nat} {m : Nat} {nnz : Nat → Nat} {cells : List (Cell V)}
    (h : ∀ p, p < volume dims → nnz p = nnzQuery m (toComps dims cells) p) : insertRunWith dims nnz cells = insertRun dims m cells := by
  unfold insertRun
  change insertRunWith dims nnz cells = insertRunWith dims (nnzQuery m (toComps dims cells)) cells
  unfold insertRunWith
  have he : ∀ pos, Assembly.insertEdges nnz dims 0 pos = Assembly.insertEdges (nnzQuery m (toComps dims cells)) dims 0 pos := by
    intro pos
    rw [Assembly.insertEdges_eq, Assembly.insertEdges_eq]
    apply foldlM_congr
    intro p hp b
    rw [Nat.zero_mul, List.mem_range'_1] at hp
    unfold Assembly.insertEdge
    rw [h p (by omega)]
  simp only [he]

theorem box_two {n m : Nat} {c : List Nat} (h : c ∈ box [n, m]) : ∃ i j, c = [i, j] ∧ i < n ∧ j < m := by
  simp only [box, List.mem_flatMap, List.mem_range, List.mem_map, List.mem_singleton] at h
  obtain ⟨i, hi, _, ⟨j, hj, _, rfl, rfl⟩, rfl⟩ := h
  exact ⟨i, j, rfl, hi, hj⟩

/-! ### C70 -/

/-- C70. A matrix with a dense and a compressed level, in either mode ordering, is assembled by insertion: the
query kernel counts the components of each row, the arrays are allocated with that size, and the
compute kernel inserts. For all expressions of accesses, additions, multiplications, divisions and square
roots, all inserted components, all operand formats of dense and compressed levels and all dimensions, no write
leaves the arrays, no slot stays unwritten, no coordinate is stored twice, and the result holds at every coordinate the
sum over the summation variables of the expression. Missing: the expressions of the `_fails` theorems
below, other formats of the result. -/
theorem counted_sizes_partial (o : Ops V) (ho : ZeroLaws o) (ha : AddLaws o) {srt : List Point → List Point}
    (hs : SortSpec srt) {qs : List (Row V) → List (Row V)} (hq : ∀ n, QsortSpec n qs) (cap : Nat) (hcap : 0 < cap)
    {sq : Rat → Rat} (hsq : sq 1 = 1) (lit : V → CVal)
    (size : Nat → Nat) (ops : List (Operand V)) (e : Expr V) (r : Result) (red : List Nat)
    (hplain : Plain e) (hnd : (r.vars ++ red).Nodup) (hk : r.kinds = [.dense, .sparse]) (hv : r.vars.length = 2)
    (hp : r.perm.Perm (List.range r.vars.length))
    (hops : ∀ a ∈ ops, OperandOK size (permute r.perm r.vars ++ red) a)
    (hrep : RepeatsAreFactors ops e) (hlt : ∀ k ∈ e.leaves, k < ops.length) :
    ∃ out, computeInsert qs srt cap o sq lit size ops e r red = some out ∧
      Holds o.zero (r.vars.map size) (meaning o size ops e r red) out := by
  have hplen : r.perm.length = r.vars.length := by rw [hp.length_eq, List.length_range]
  obtain ⟨sts, hsts, hcons, hin, hval⟩ := operands_spec o ho ha hq cap hcap size ops e r red hnd hp hops hrep hlt
  have hn : ∀ us, (loops size ops sts us).map Loop.n = us.map size := by
    intro us; simp [loops, Function.comp]
  generalize hL1 : loops size ops sts (permute r.perm r.vars) = L1 at hcons hin hval
  generalize hL2 : loops size ops sts red = L2 at hcons hin hval
  generalize hvals : (fun k : Nat => (sts[k]?.getD ([], [])).2) = vals at hin hval
  have hn1 : L1.map Loop.n = (permute r.perm r.vars).map size := by rw [← hL1, hn]
  have hn2 : L2.map Loop.n = red.map size := by rw [← hL2, hn]
  have hlen1 : L1.length = 2 := by
    have := congrArg List.length hn1
    rw [List.length_map, List.length_map, Pack.permute_length, hplen, hv] at this
    exact this
  have hdims : ∃ n m, (permute r.perm r.vars).map size = [n, m] := by
    have hl : ((permute r.perm r.vars).map size).length = 2 := by rw [← hn1, List.length_map, hlen1]
    match (permute r.perm r.vars).map size, hl with
    | [n, m], _ => exact ⟨n, m, rfl⟩
  obtain ⟨n, m, hnm⟩ := hdims
  obtain ⟨vs, v1, v2, v3, v4, v5⟩ := visits_spec (vals := vals) ho hs hsq lit (returnsTrue lit) L2 L1 (fun _ => 0) e hcons hin hplain
  rw [hlen1] at v1 v2
  rw [hn1, hnm] at v4 v5
  -- the inserted components
  generalize hcv : vs.filter (fun v => guardOf L2 v.2) = cvs
  have hcm : ∀ v ∈ cvs, v ∈ vs ∧ guardOf L2 v.2 = true := by
    intro v hv'; rw [← hcv] at hv'; exact List.mem_filter.1 hv'
  have hcell : ∀ v ∈ cvs, ∃ i j, v.1 = [i, j] ∧ i < n ∧ j < m ∧ cellOf o L2 v = ⟨[i], j, leafOf o L2 v.2⟩ := by
    intro v hv'
    obtain ⟨i, j, h1, h2, h3⟩ := box_two (v4 v (hcm v hv').1).1
    refine ⟨i, j, h1, h2, h3, ?_⟩
    unfold cellOf; rw [h1]; rfl
  have hrange : Assembly.cellsInRange [n] m (cvs.map (cellOf o L2)) := by
    intro c hc
    obtain ⟨v, hv', rfl⟩ := List.mem_map.1 hc
    obtain ⟨i, j, _, h2, h3, h4⟩ := hcell v hv'
    rw [h4]
    refine ⟨?_, h3⟩
    apply Pack.mem_box.1
    simp only [box, List.mem_flatMap, List.mem_range, List.mem_map, List.mem_singleton]
    exact ⟨i, h2, [], rfl, rfl⟩
  have hdist : Assembly.cellsDistinct (cvs.map (cellOf o L2)) := by
    unfold Assembly.cellsDistinct List.Nodup
    rw [List.map_map, List.pairwise_map]
    have hnd' : cvs.Pairwise (fun a b => a.1 ≠ b.1) := by
      rw [← hcv]
      apply List.Pairwise.filter
      unfold List.Nodup at v3
      rw [List.pairwise_map] at v3
      exact v3
    refine hnd'.imp_of_mem ?_
    intro a b hma hmb hab heq
    obtain ⟨i, j, h1, _, _, h4⟩ := hcell a hma
    obtain ⟨i', j', h1', _, _, h4'⟩ := hcell b hmb
    simp only [Function.comp, h4, h4', Prod.mk.injEq, List.cons.injEq, and_true] at heq
    apply hab
    rw [h1, h1', heq.1, heq.2]
  have hvol : volume [n] = n := by rw [Assembly.volume_cons]; simp [volume, box]
  -- the counts
  have hcount : ∀ p, countRow L2 (vs.map (fun v => (v.1, asTrue v.2))) p = (ofParent (toComps [n] (cvs.map (cellOf o L2))) p).length := by
    intro p
    rw [countRow_true (fun v hv' => (v4 v hv').2.1), hcv]
    unfold ofParent toComps
    rw [List.filter_map, List.length_map, List.filter_map, List.length_map]
    congr 2
    apply List.filter_congr
    intro v hv'
    obtain ⟨i, j, h1, _, _, h4⟩ := hcell v hv'
    simp only [Function.comp, h4, h1, List.head?_cons, Assembly.locate, Nat.zero_mul, Nat.zero_add]
    rfl
  have hq1 : queryKernel sq lit srt n L1 L2 e = some (fun p => (ofParent (toComps [n] (cvs.map (cellOf o L2))) p).length) := by
    unfold queryKernel
    rw [v2]
    simp only
    rw [if_pos]
    · congr 1
      funext p
      rw [hcount]; simp
    · rw [List.all_eq_true]
      intro p _
      rw [hcount]
      simp
  have hq2 : cellsKernel o srt vals L1 L2 e = some (cvs.map (cellOf o L2)) := by
    unfold cellsKernel
    rw [v1, Option.map_some, hcv]
  obtain ⟨pos, crd, avals, _, _, rows, _, a1, _, a2, _, _, a3⟩ := insert_assembly_order [n] m (cvs.map (cellOf o L2)) _ hrange hdist (List.Perm.refl _)
  rw [← insertRunWith_eq (nnz := fun p => (ofParent (toComps [n] (cvs.map (cellOf o L2))) p).length)
    (fun p hp' => (Assembly.nnzQuery_eq hrange hdist hp').symm)] at a1
  have hrows : rows.Perm (cvs.map (fun v => (v.1, leafOf o L2 v.2))) := by
    refine a3.trans (List.Perm.of_eq ?_)
    rw [List.map_map]
    apply List.map_congr_left
    intro v hv'
    obtain ⟨i, j, h1, _, _, h4⟩ := hcell v hv'
    simp only [Function.comp, h4, h1, List.cons_append, List.nil_append]
  refine ⟨rows.map (fun x => (unpermute r.perm x.1, x.2)), ?_, ?_⟩
  · unfold computeInsert
    rw [hsts, hnm, hk]
    simp only
    rw [hvals, hL1, hL2, hq1, Option.bind_some, hq2, Option.bind_some]
    have hb : ∀ (X : Option (Assembly.InsSt V)) (f : List Nat × List Nat × List V → Option (List (Row V))),
        X.bind insertOutput = some (pos, crd, avals) → (X.bind fun s => (insertOutput s).bind f) = f (pos, crd, avals) := by
      intro X f h
      cases X with
      | none => cases h
      | some s => rw [Option.bind_some] at h ⊢; rw [h]; rfl
    rw [hb _ _ a1]
    unfold iterate
    simp only
    have a2' : walk avals [.dense n, .comp pos crd] 0 = some rows := a2
    rw [a2']
    rfl
  · have hp' : r.perm.Perm (List.range (r.vars.map size).length) := by rw [List.length_map]; exact hp
    have hdim : permute r.perm (r.vars.map size) = [n, m] := by rw [permute_map hp, hnm]
    -- a coordinate of the loops and its coordinate of the result
    have hback : ∀ c ∈ box [n, m], inRange (r.vars.map size) (unpermute r.perm c) ∧ permute r.perm (unpermute r.perm c) = c := by
      intro c hc
      refine Assembly.inRange_unpermute hp' ?_
      rw [hdim]; exact Pack.mem_box.1 hc
    have hmean : ∀ c, inRange (r.vars.map size) c → meaning o size ops e r red c =
        sumBox o (L2.map Loop.n) (fun x => evalAtPath o vals (L1 ++ L2) (fun _ => 0) e (permute r.perm c ++ x)) := by
      intro c hc
      unfold meaning
      rw [hn2]
      apply sumBox_congr
      intro x hx
      exact (hval c hc x hx).symm
    have hmem : ∀ x, x ∈ rows.map (fun x => (unpermute r.perm x.1, x.2)) ↔ ∃ v ∈ cvs, x = (unpermute r.perm v.1, leafOf o L2 v.2) := by
      intro x
      rw [List.mem_map]
      constructor
      · rintro ⟨y, hy, rfl⟩
        obtain ⟨v, hv', rfl⟩ := List.mem_map.1 (hrows.mem_iff.1 hy)
        exact ⟨v, hv', rfl⟩
      · rintro ⟨v, hv', rfl⟩
        exact ⟨(v.1, leafOf o L2 v.2), hrows.mem_iff.2 (List.mem_map.2 ⟨v, hv', rfl⟩), rfl⟩
    refine ⟨?_, ?_, ?_⟩
    · rw [List.map_map]
      have hpr := hrows.map (fun x => unpermute r.perm x.1)
      refine (List.Perm.nodup_iff hpr).2 ?_
      rw [List.map_map]
      unfold List.Nodup
      rw [List.pairwise_map]
      have hnd' : cvs.Pairwise (fun a b => a.1 ≠ b.1) := by
        rw [← hcv]
        apply List.Pairwise.filter
        unfold List.Nodup at v3
        rw [List.pairwise_map] at v3
        exact v3
      refine hnd'.imp_of_mem ?_
      intro a b hma hmb hab heq
      apply hab
      simp only [Function.comp] at heq
      rw [← (hback a.1 (v4 a (hcm a hma).1).1).2, heq, (hback b.1 (v4 b (hcm b hmb).1).1).2]
    · intro x hx
      obtain ⟨v, hv', rfl⟩ := (hmem x).1 hx
      obtain ⟨b1, _, b3⟩ := v4 v (hcm v hv').1
      obtain ⟨c1, c2⟩ := hback v.1 b1
      refine ⟨c1, ?_⟩
      simp only
      rw [hmean _ c1, c2]
      exact b3
    · intro c hc hnot
      rw [hmean c hc]
      have hbx : permute r.perm c ∈ box [n, m] := by
        apply Pack.mem_box.2; rw [← hdim]; exact Pack.inRange_permute hp' hc
      have hcl : c.length = r.vars.length := by rw [hc.1]; simp
      have hcu : unpermute r.perm (permute r.perm c) = c := Pack.unpermute_permute (by rw [hcl]; exact hp)
      by_cases hvis : permute r.perm c ∈ vs.map Prod.fst
      · obtain ⟨v, hv', hve⟩ := List.mem_map.1 hvis
        have hg : guardOf L2 v.2 = false := by
          cases hg : guardOf L2 v.2 with
          | false => rfl
          | true =>
            exfalso
            apply hnot
            refine List.mem_map.2 ⟨_, (hmem _).2 ⟨v, by rw [← hcv]; exact List.mem_filter.2 ⟨hv', hg⟩, rfl⟩, ?_⟩
            simp only
            rw [hve, hcu]
        have hb := (v4 v hv').2.2
        rw [hve] at hb
        rw [← hb]
        unfold guardOf at hg
        simp only [Bool.or_eq_false_iff, Bool.not_eq_false'] at hg
        cases L2 with
        | nil => cases hg.1
        | cons l ls =>
          have : v.2 = [] := List.isEmpty_iff.1 hg.2
          rw [this]; rfl
      · rw [sumBox_congr (g := fun _ => o.zero) (fun x _ => v5 _ hbx hvis x)]
        exact sumBox_zero ho _

/-! ### Examples -/

/-- Rational numbers; division by zero is zero, and the square root is left out. -/
def ratOps : Ops Rat := ⟨0, fun u x => match u with | .neg => -x | .sqrt => x | .cast => x, fun b x y => match b with
  | .add => x + y | .sub => x - y | .mul => x * y | .div => if y = 0 then 0 else x / y⟩

/-- Literals are floating-point numbers. -/
def fltLit (v : Rat) : CVal := ⟨.flt, v⟩

def size3 : Nat → Nat := fun _ => 3

/-- `B(i,k)` and `C(k,j)`, the second stored by columns. -/
def exOps : List (Operand Nat) :=
  [⟨[0, 2], [.dense, .sparse], [0, 1], [([0, 0], 1), ([0, 2], 2), ([2, 1], 3), ([2, 0], 4)]⟩,
   ⟨[2, 1], [.dense, .sparse], [1, 0], [([0, 2], 10), ([2, 2], 20), ([0, 1], 30)]⟩]

/-- A matrix with a dense level of rows and a compressed level. -/
def csr : Result := ⟨[0, 1], [.dense, .sparse], [0, 1]⟩

def natLit (v : Nat) : CVal := ⟨.int, v⟩

theorem exOps_ok : ∀ a ∈ exOps, OperandOK size3 [0, 1, 2] a := by
  have hr : ∀ (d c : List Nat), c ∈ box d → inRange d c := fun d c h => Pack.mem_box.1 h
  intro a ha
  simp only [exOps, List.mem_cons, List.not_mem_nil, or_false] at ha
  rcases ha with rfl | rfl
  · refine ⟨rfl, by decide, by decide, ?_⟩
    intro r h
    simp only [List.mem_cons, List.not_mem_nil, or_false] at h
    rcases h with rfl | rfl | rfl | rfl <;> exact hr _ _ (by decide)
  · refine ⟨rfl, by decide, by decide, ?_⟩
    intro r h
    simp only [List.mem_cons, List.not_mem_nil, or_false] at h
    rcases h with rfl | rfl | rfl <;> exact hr _ _ (by decide)

/-- `A(i,j) = sum(k, B(i,k) * C(k,j))`. -/
example : ∃ out, computeInsert sortRows isort 4 natOps id natLit size3 exOps (.bin .mul (.acc 0) (.acc 1)) csr [2] = some out ∧
    Holds 0 [3, 3] (meaning natOps size3 exOps (.bin .mul (.acc 0) (.acc 1)) csr [2]) out :=
  counted_sizes_partial natOps natOps_laws natOps_add isort_spec (fun n => Pack.sortRows_spec n) 4 (by decide) rfl natLit size3 exOps _ csr [2]
    ⟨trivial, trivial⟩ (by decide) rfl rfl (by decide) exOps_ok (repeats_of_nodup _ (by decide)) (by decide)

example : computeInsert sortRows isort 4 natOps id natLit size3 exOps (.bin .mul (.acc 0) (.acc 1)) csr [2] =
    some [([0, 1], 30), ([0, 2], 50), ([2, 1], 120), ([2, 2], 40)] := by decide +kernel

/-- The sum of two matrices: a merge loop with the test `returnsTrue`. -/
def addOps : List (Operand Rat) :=
  [⟨[0, 1], [.dense, .sparse], [0, 1], [([0, 0], 1), ([0, 2], 2), ([2, 1], 3)]⟩,
   ⟨[0, 1], [.sparse, .sparse], [0, 1], [([0, 0], 10), ([2, 2], 20)]⟩]

theorem addOps_ok : ∀ a ∈ addOps, OperandOK size3 [0, 1] a := by
  have hr : ∀ (d c : List Nat), c ∈ box d → inRange d c := fun d c h => Pack.mem_box.1 h
  intro a ha
  simp only [addOps, List.mem_cons, List.not_mem_nil, or_false] at ha
  rcases ha with rfl | rfl
  · refine ⟨rfl, by decide, by decide, ?_⟩
    intro r h
    simp only [List.mem_cons, List.not_mem_nil, or_false] at h
    rcases h with rfl | rfl | rfl <;> exact hr _ _ (by decide)
  · refine ⟨rfl, by decide, by decide, ?_⟩
    intro r h
    simp only [List.mem_cons, List.not_mem_nil, or_false] at h
    rcases h with rfl | rfl <;> exact hr _ _ (by decide)

theorem ratOps_laws : ZeroLaws ratOps := by
  constructor
  · intro u; cases u <;> simp [ratOps]
  all_goals intros; simp [ratOps, Rat.sub_eq_add_neg, Rat.div_def, Rat.zero_add, Rat.add_zero]

theorem ratOps_add : AddLaws ratOps := ⟨fun a b => Rat.add_comm a b, fun a b c => Rat.add_assoc a b c⟩

example : ∃ out, computeInsert sortRows isort 4 ratOps id fltLit size3 addOps (.bin .add (.acc 0) (.acc 1)) csr [] = some out ∧
    Holds 0 [3, 3] (meaning ratOps size3 addOps (.bin .add (.acc 0) (.acc 1)) csr []) out :=
  counted_sizes_partial ratOps ratOps_laws ratOps_add isort_spec (fun n => Pack.sortRows_spec n) 4 (by decide) rfl fltLit size3 addOps _ csr []
    ⟨trivial, trivial⟩ (by decide) rfl rfl (by decide) addOps_ok (repeats_of_nodup _ (by decide)) (by decide)

example : computeInsert sortRows isort 4 ratOps id fltLit size3 addOps (.bin .add (.acc 0) (.acc 1)) csr [] =
    some [([0, 0], 11), ([0, 2], 2), ([2, 1], 3), ([2, 2], 20)] := by decide +kernel

/-! ### Expressions whose components are not counted -/

/-- C70 fails for negation. `C(i,j) = -A(i,j)`: the query adds `!1` for every component, all rows are counted as
empty, and the first insertion writes outside the array. Append assembly computes the negation. -/
theorem negation_fails :
    computeInsert sortRows isort 4 ratOps id fltLit size3 addOps (.un .neg (.acc 0)) csr [] = none ∧
    compute sortRows isort 4 ratOps size3 addOps (.un .neg (.acc 0)) csr [] = some [([0, 0], -1), ([0, 2], -2), ([2, 1], -3)] := by
  decide +kernel

/-- C70 fails for subtraction. `C(i,j) = A(i,j) - B(i,j)`: a component of both operands adds `1 - 1` and a
component of the second adds `!1`. -/
theorem subtraction_fails :
    computeInsert sortRows isort 4 ratOps id fltLit size3 addOps (.bin .sub (.acc 0) (.acc 1)) csr [] = none ∧
    compute sortRows isort 4 ratOps size3 addOps (.bin .sub (.acc 0) (.acc 1)) csr [] =
      some [([0, 0], -9), ([0, 2], 2), ([2, 1], 3), ([2, 2], -20)] := by
  decide +kernel

/-- C70 fails for a factor other than one. `C(i,j) = 2*A(i,j)` counts two for every component, so that the rows do not
begin where they should, and `C(i,j) = 1/2*A(i,j)` counts none. -/
theorem literal_factor_fails :
    (∀ f : Rat, f = 2 ∨ f = 1/2 →
      computeInsert sortRows isort 4 ratOps id fltLit size3 addOps (.bin .mul (.lit f) (.acc 0)) csr [] = none) ∧
    compute sortRows isort 4 ratOps size3 addOps (.bin .mul (.lit 2) (.acc 0)) csr [] = some [([0, 0], 2), ([0, 2], 4), ([2, 1], 6)] := by
  refine ⟨?_, by decide +kernel⟩
  rintro f (rfl | rfl) <;> decide +kernel

def redOps : List (Operand Rat) :=
  [⟨[0, 2], [.dense, .sparse], [0, 1], [([0, 0], 1), ([0, 2], 2)]⟩,
   ⟨[2, 1], [.dense, .sparse], [1, 0], [([0, 1], 3), ([2, 1], 4)]⟩]

/-- C70 fails for a factor under a sum. `C(i,j) = sum(k, -1*B(i,k)*C(k,j))`: an even number of products leaves the
flag of the component false. -/
theorem factor_in_sum_fails :
    computeInsert sortRows isort 4 ratOps id fltLit size3 redOps (.bin .mul (.lit (-1)) (.bin .mul (.acc 0) (.acc 1))) csr [2] = none ∧
    meaning ratOps size3 redOps (.bin .mul (.lit (-1)) (.bin .mul (.acc 0) (.acc 1))) csr [2] [0, 1] = -11 := by
  decide +kernel

/-- C70 fails without a write outside the arrays. `C(i,j) = -A(i,j) + B(i,j)` is counted as long as both operands have
components left in a row, because all cases of the merge have one body, but not in the loop over the rest of `A`. The
next row begins too early: its first component overwrites the last one of the row before, and is delivered for both. -/
theorem negated_operand_fails :
    computeInsert sortRows isort 4 ratOps id fltLit size3 addOps (.bin .add (.un .neg (.acc 0)) (.acc 1)) csr [] =
      some [([0, 0], 9), ([0, 1], -3), ([2, 1], -3), ([2, 2], 20)] ∧
    meaning ratOps size3 addOps (.bin .add (.un .neg (.acc 0)) (.acc 1)) csr [] [0, 1] = 0 ∧
    meaning ratOps size3 addOps (.bin .add (.un .neg (.acc 0)) (.acc 1)) csr [] [0, 2] = -2 := by
  decide +kernel

end Verif.Query
