import Verif.EndToEnd.DenseModel
import Verif.EndToEnd.Theorems
import Verif.Assembly.InsertTheorems
/-!
C63 for results of dense levels: any order of the loops.
-/
namespace Verif.EndToEnd
open Verif.Merge
open Verif.Merge.Expr
open Verif.Pack (Kind Row permute unpermute iterate firstAt inRange walk IndexWF lexCmp QsortSpec sortRows)
open Verif.Assembly

variable {V : Type}

/-! ### Coordinates -/

theorem coordOf_map {A : List Nat} (g : Nat → Nat) {v : Nat} (hv : v ∈ A) : coordOf A (A.map g) v = g v := by
  unfold coordOf
  have hi := List.idxOf_lt_length_of_mem hv
  rw [List.getD_eq_getElem?_getD, List.getElem?_map, List.getElem?_eq_getElem hi]
  simp

theorem map_coordOf {A p : List Nat} (hnd : A.Nodup) (hl : p.length = A.length) : A.map (coordOf A p) = p := by
  apply List.ext_getElem
  · simp [hl]
  · intro i h1 h2
    rw [List.getElem_map, coordOf_get hnd p (by omega), List.getD_eq_getElem?_getD, List.getElem?_eq_getElem h2]
    rfl

theorem loopCoord_eq : ∀ {vs path : List Nat}, path.length = vs.length → ∀ v, loopCoord vs path v = coordOf vs path v := by
  intro vs
  induction vs with
  | nil => intro path hl v; cases path with
    | nil => rfl
    | cons _ _ => simp at hl
  | cons w vs ih =>
    intro path hl v
    cases path with
    | nil => simp at hl
    | cons c path =>
      unfold loopCoord
      rw [List.zip_cons_cons, List.lookup_cons]
      by_cases h : v = w
      · subst h
        rw [coordOf_cons_self]; simp
      · have hb : (v == w) = false := by simpa using h
        rw [hb, coordOf_cons_ne h]
        exact ih (by simpa using hl) v

theorem inRange_map {A : List Nat} {size g : Nat → Nat} (h : ∀ v ∈ A, g v < size v) : inRange (A.map size) (A.map g) := by
  refine ⟨by simp, ?_⟩
  intro m h1 h2
  simp only [List.getElem_map]
  exact h _ (List.getElem_mem _)

/-- The iterations at one coordinate of the result. -/
theorem iterations_at (size : Nat → Nat) {vs rv red : List Nat} (hnd : (rv ++ red).Nodup) (hperm : vs.Perm (rv ++ red))
    {c : List Nat} (hc : inRange (rv.map size) c) :
    ((box (vs.map size)).filter (fun path => rv.map (coordOf vs path) == c)).Perm
      ((box (red.map size)).map (fun x => vs.map (coordOf (rv ++ red) (c ++ x)))) := by
  have hvnd : vs.Nodup := hperm.nodup_iff.2 hnd
  have hcl : c.length = rv.length := by rw [hc.1]; simp
  have hboxnd : ∀ d : List Nat, (box d).Nodup := by
    intro d
    refine (Pack.box_sorted d).imp ?_
    intro a b h heq
    rw [heq, Pack.lexCmp_self] at h; omega
  have hxl : ∀ x ∈ box (red.map size), (c ++ x).length = (rv ++ red).length := by
    intro x hx
    rw [List.length_append, List.length_append, hcl, (Pack.mem_box.1 hx).1]; simp
  apply (List.perm_ext_iff_of_nodup ((hboxnd _).filter _) ?_).2
  · intro path
    rw [List.mem_filter, List.mem_map, Pack.mem_box, beq_iff_eq]
    constructor
    · rintro ⟨hp, hpc⟩
      have hpl : path.length = vs.length := by rw [hp.1]; simp
      refine ⟨red.map (coordOf vs path), Pack.mem_box.2 (inRange_map (fun v hv =>
        coordOf_lt hp (hperm.mem_iff.2 (List.mem_append_right _ hv)))), ?_⟩
      rw [← hpc, ← List.map_append]
      refine Eq.trans ?_ (map_coordOf hvnd hpl)
      apply List.map_congr_left
      intro v hv
      exact coordOf_map _ (hperm.mem_iff.1 hv)
    · rintro ⟨x, hx, rfl⟩
      have hx' := Pack.mem_box.1 hx
      have hr := inRange_map_append hc hx'
      refine ⟨inRange_map (fun v hv => coordOf_lt hr (hperm.mem_iff.1 hv)), ?_⟩
      have h1 : rv.map (coordOf vs (vs.map (coordOf (rv ++ red) (c ++ x)))) = rv.map (coordOf (rv ++ red) (c ++ x)) := by
        apply List.map_congr_left
        intro v hv
        exact coordOf_map _ (hperm.mem_iff.2 (List.mem_append_left _ hv))
      rw [h1]
      have h2 := map_coordOf hnd (hxl x hx)
      rw [List.map_append] at h2
      exact (List.append_inj h2 (by simp [hcl])).1
  · unfold List.Nodup
    rw [List.pairwise_map]
    refine (hboxnd (red.map size)).imp_of_mem ?_
    intro x y hx hy hne heq
    apply hne
    have h3 : (rv ++ red).map (coordOf (rv ++ red) (c ++ x)) = (rv ++ red).map (coordOf (rv ++ red) (c ++ y)) := by
      apply List.map_congr_left
      intro v hv
      exact (List.map_inj_left.1 heq) v (hperm.mem_iff.2 hv)
    rw [map_coordOf hnd (hxl x hx), map_coordOf hnd (hxl y hy)] at h3
    exact List.append_cancel_left h3

/-! ### Stores -/

theorem foldl_mul (l : List Nat) : ∀ a, l.foldl (· * ·) a = a * volume l := by
  induction l with
  | nil => intro a; show a = a * volume []; simp [volume, box]
  | cons d ds ih => intro a; rw [List.foldl_cons, ih, volume_cons, Nat.mul_assoc]

theorem storeAll_spec (acc : Bool) (o : Ops V) (dims : List Nat) : ∀ (evs : List (List Nat × V)) (vals : List V),
    vals.length = volume dims → (∀ ev ∈ evs, ev.1 ∈ box dims) →
    ∃ vals', storeAll acc o dims evs vals = some vals' ∧ vals'.length = volume dims ∧
      ∀ c ∈ box dims, ∀ x, vals[Assembly.locate dims 0 c]? = some x →
        vals'[Assembly.locate dims 0 c]? = some ((evs.filter (fun ev => ev.1 == c)).foldl
          (fun x ev => if acc then o.bin .add x ev.2 else ev.2) x) := by
  intro evs
  induction evs with
  | nil => intro vals hl _; exact ⟨vals, rfl, hl, fun c _ x h => h⟩
  | cons ev evs ih =>
    obtain ⟨c0, v⟩ := ev
    intro vals hl hev
    have hc0 : c0 ∈ box dims := hev (c0, v) List.mem_cons_self
    have hlt : Assembly.locate dims 0 c0 < vals.length := by rw [hl]; exact locate_lt hc0
    simp only [storeAll]
    rw [List.getElem?_eq_getElem hlt]
    simp only
    obtain ⟨vals', h1, h2, h3⟩ := ih (vals.set (Assembly.locate dims 0 c0)
      (if acc then o.bin .add vals[Assembly.locate dims 0 c0] v else v)) (by simpa using hl)
      (fun e he => hev e (List.mem_cons_of_mem _ he))
    refine ⟨vals', h1, h2, ?_⟩
    intro c hc x hx
    rw [List.filter_cons]
    by_cases h : c0 = c
    · subst h
      simp only [beq_self_eq_true, if_true, List.foldl_cons]
      apply h3 c0 hc
      rw [List.getElem?_set_self hlt]
      rw [List.getElem?_eq_getElem hlt, Option.some.injEq] at hx
      rw [hx]
    · have hb : (c0 == c) = false := by simpa using h
      simp only [hb, Bool.false_eq_true, if_false]
      apply h3 c hc
      rw [List.getElem?_set_ne (fun heq => h (locate_inj hc0 hc heq))]
      exact hx

theorem mapM_map {α β : Type} (f : α → Option β) (g : α → β) : ∀ (l : List α), (∀ x ∈ l, f x = some (g x)) → l.mapM f = some (l.map g) :=
  fun _ h => mapM_eq_some_map h

/-- Iterating over dense levels. -/
theorem walk_dense (dims : List Nat) (vals : List V) (hl : vals.length = volume dims) (f : List Nat → V)
    (hf : ∀ c ∈ box dims, vals[Assembly.locate dims 0 c]? = some (f c)) :
    walk vals (dims.map Lvl.dense) 0 = some ((box dims).map (fun c => (c, f c))) := by
  have := walk_dense_box vals [] (fun c => [([], f c)]) dims 0 (by
    intro c hc
    simp only [walk]
    rw [hf c hc])
  rw [List.append_nil] at this
  rw [this]
  congr 1
  simp only [List.map_cons, List.map_nil, List.append_nil]
  rw [List.flatMap_def]
  generalize box dims = l
  induction l with
  | nil => rfl
  | cons a l ih => simp [ih]

/-- The value the loops compute from the packed operands. -/
theorem expr_value {o : Ops V} {size : Nat → Nat} {ops : List (Operand V)} {sts : List (List Lvl × List V)} {vs : List Nat}
    {e : Expr V} (hvnd : vs.Nodup) (hops : ∀ a ∈ ops, OperandOK size vs a) (hlt : ∀ k ∈ e.leaves, k < ops.length)
    (hget : ∀ (k : Nat) (a : Operand V), ops[k]? = some a → ∃ st, sts[k]? = some st ∧ (st.1.length = a.storageVars.length ∧
      IndexWF 1 ((a.storageVars.map size).zip st.1) st.2.length ∧
      ∀ c, inRange (a.vars.map size) c → valueAt o.zero st.2 (st.1.map some) (permute a.perm c) 0 = inserted o a c)) :
    Inside (fun k : Nat => (sts[k]?.getD ([], [])).2) (loops size ops sts vs) (fun _ => 0) e ∧
    ∀ path, inRange (vs.map size) path →
      evalAtPath o (fun k : Nat => (sts[k]?.getD ([], [])).2) (loops size ops sts vs) (fun _ => 0) e path = exprVal o ops e vs path := by
  have hopk : ∀ k ∈ e.leaves, ∃ a, ops[k]? = some a := fun k hk => ⟨_, List.getElem?_eq_getElem (hlt k hk)⟩
  have hlv : ∀ k a st, ops[k]? = some a → sts[k]? = some st →
      levelsOf (loops size ops sts vs) k = vs.map (levelAt a.storageVars st.1) ∧
      dimLevels (loops size ops sts vs) k = vs.map (fun v => (size v, levelAt a.storageVars st.1 v)) := by
    intro k a st h1 h2
    simp [levelsOf, dimLevels, loops, Function.comp, h1, h2]
  constructor
  · refine ⟨fun _ => 1, ?_⟩
    intro k hk
    obtain ⟨a, hak⟩ := hopk k hk
    obtain ⟨st, hst, h1, h2, _⟩ := hget k a hak
    refine ⟨Nat.zero_lt_one, ?_⟩
    rw [(hlv k a st hak hst).2]
    simp only [hst, Option.getD_some]
    exact wfLevels_gaps size vs a.storageVars st.1 1 _ hvnd (hops a (List.mem_of_getElem? hak)).order h1.symm h2
  · intro path hpath
    unfold evalAtPath exprVal
    apply eval_congr
    intro k hk
    obtain ⟨a, hak⟩ := hopk k hk
    obtain ⟨st, hst, h1, _, h3⟩ := hget k a hak
    have hok := hops a (List.mem_of_getElem? hak)
    rw [(hlv k a st hak hst).1]
    simp only [hst, hak, Option.getD_some]
    rw [valueAt_gaps o.zero st.2 vs a.storageVars st.1 _ 0 hvnd hok.order h1.symm (by rw [hpath.1]; simp)]
    have hsub : ∀ v ∈ a.vars, v ∈ vs := fun v hv => hok.order.subset ((mem_permute hok.perm).2 hv)
    show valueAt o.zero st.2 (st.1.map some) ((permute a.perm a.vars).map (coordOf vs path)) 0 = _
    rw [← permute_map hok.perm]
    exact h3 _ (inRange_map (fun v hv => coordOf_lt hpath (hsub v hv)))

/-- C63 for a result of dense levels: the loops can be in any order in which every operand is stored, so
summation loops need not be innermost. Iteration delivers all coordinates in storage order, each with the
sum over the summation variables of the expression on the inserted components. -/
theorem compute_dense_partial (o : Ops V) (ho : ZeroLaws o) (ha : AddLaws o) {srt : List Point → List Point}
    (hs : SortSpec srt) {qs : List (Row V) → List (Row V)} (hq : ∀ n, QsortSpec n qs) (cap : Nat) (hcap : 0 < cap)
    (size : Nat → Nat) (ops : List (Operand V)) (e : Expr V) (r : Result) (red vs : List Nat)
    (hnd : (r.vars ++ red).Nodup) (hvs : vs.Perm (r.vars ++ red)) (hp : r.perm.Perm (List.range r.vars.length))
    (hops : ∀ a ∈ ops, OperandOK size vs a)
    (hrep : RepeatsAreFactors ops e) (hlt : ∀ k ∈ e.leaves, k < ops.length) :
    ∃ out, computeDense qs srt cap o size ops e r vs = some out ∧
      out.map (fun x => permute r.perm x.1) = box ((permute r.perm r.vars).map size) ∧
      ∀ x ∈ out, inRange (r.vars.map size) x.1 ∧ x.2 = meaning o size ops e r red x.1 := by
  have hvnd : vs.Nodup := hvs.nodup_iff.2 hnd
  have hm := monoidal ho ha
  obtain ⟨sts, hsts, hget⟩ := mapM_get (l := ops) (f := Operand.storage qs cap o size) (fun a h => operand_storage ho ha hq hcap (hops a h))
  obtain ⟨⟨size', hwf⟩, hval⟩ := expr_value (e := e) hvnd hops hlt hget
  generalize hvals : (fun k : Nat => (sts[k]?.getD ([], [])).2) = vals at hwf hval
  generalize hL : loops size ops sts vs = L at hwf hval
  have hn : L.map Loop.n = vs.map size := by rw [← hL]; simp [loops, Function.comp]
  obtain ⟨hk1, hk2⟩ := kernel_spec o ho hs vals L (fun _ => 0) e size' (by rw [← hL]; exact consistent_loops hrep (fun a h => (hops a h).perm)) hwf
  rw [hn] at hk1 hk2
  let sv := permute r.perm r.vars
  let dims := sv.map size
  let acc := vs.any (fun v => !r.vars.contains v)
  let vis := visited o L (fun _ => 0) e
  let val := fun path => evalAtPath o vals L (fun _ => 0) e path
  let evs := (((box (vs.map size)).filter vis).map (fun path => (path, val path))).map
    (fun ev => (sv.map (loopCoord vs ev.1), ev.2))
  have hevs : evs = ((box (vs.map size)).filter vis).map (fun path => (sv.map (coordOf vs path), val path)) := by
    show List.map _ (List.map _ _) = _
    rw [List.map_map]
    apply List.map_congr_left
    intro path hp
    have hpl : path.length = vs.length := by rw [(Pack.mem_box.1 (List.mem_filter.1 hp).1).1]; simp
    simp only [Function.comp]
    congr 1
    apply List.map_congr_left
    intro v _
    exact loopCoord_eq hpl v
  have hsub : ∀ v ∈ sv, v ∈ vs := fun v hv => hvs.mem_iff.2 (List.mem_append_left _ ((mem_permute hp).1 hv))
  have hbox : ∀ ev ∈ evs, ev.1 ∈ box dims := by
    intro ev hev
    rw [hevs] at hev
    obtain ⟨path, hpath, rfl⟩ := List.mem_map.1 hev
    exact Pack.mem_box.2 (inRange_map (fun v hv => coordOf_lt (Pack.mem_box.1 (List.mem_filter.1 hpath).1) (hsub v hv)))
  have hvol : dims.foldl (· * ·) 1 = volume dims := by rw [foldl_mul, Nat.one_mul]
  obtain ⟨vals', hst1, hst2, hst3⟩ := storeAll_spec acc o dims evs (List.replicate (dims.foldl (· * ·) 1) o.zero)
    (by rw [List.length_replicate, hvol]) hbox
  have hp' : r.perm.Perm (List.range (r.vars.map size).length) := by rw [List.length_map]; exact hp
  have hdims : dims = permute r.perm (r.vars.map size) := (permute_map hp size).symm
  -- the value at a coordinate
  have hvalue : ∀ c, inRange (r.vars.map size) c → (evs.filter (fun ev => ev.1 == permute r.perm c)).foldl
      (fun x ev => if acc then o.bin .add x ev.2 else ev.2) o.zero = meaning o size ops e r red c := by
    intro c hc
    have hcl : c.length = r.vars.length := by rw [hc.1]; simp
    have hfilter : evs.filter (fun ev => ev.1 == permute r.perm c) =
        (((box (vs.map size)).filter (fun path => r.vars.map (coordOf vs path) == c)).filter vis).map
          (fun path => (sv.map (coordOf vs path), val path)) := by
      rw [hevs, List.filter_map, List.filter_filter, List.filter_filter]
      congr 1
      apply List.filter_congr
      intro path _
      simp only [Function.comp]
      rw [Bool.and_comm]
      congr 1
      show ((permute r.perm r.vars).map (coordOf vs path) == permute r.perm c) = _
      rw [← permute_map hp, Bool.eq_iff_iff, beq_iff_eq, beq_iff_eq]
      constructor
      · intro h
        have h' := congrArg (unpermute r.perm) h
        rwa [Pack.unpermute_permute (by rw [List.length_map]; exact hp), Pack.unpermute_permute (by rw [hcl]; exact hp)] at h'
      · intro h; rw [h]
    have hperm := iterations_at size hnd hvs hc
    have hvalx : ∀ x ∈ box (red.map size), val (vs.map (coordOf (r.vars ++ red) (c ++ x))) = exprVal o ops e (r.vars ++ red) (c ++ x) := by
      intro x hx
      have hr := inRange_map_append hc (Pack.mem_box.1 hx)
      show evalAtPath _ _ _ _ _ _ = _
      rw [hval _ (inRange_map (fun v hv => coordOf_lt hr (hvs.mem_iff.1 hv)))]
      unfold exprVal
      apply eval_congr
      intro k hk
      rw [List.getElem?_eq_getElem (hlt k hk)]
      simp only
      congr 1
      have hok := hops _ (List.getElem_mem (hlt k hk))
      apply List.map_congr_left
      intro v hv
      exact coordOf_map _ (hok.order.subset ((mem_permute hok.perm).2 hv))
    -- addition
    have hsum : (((box (vs.map size)).filter (fun path => r.vars.map (coordOf vs path) == c)).filter vis).foldl
        (fun x path => o.bin .add x (val path)) o.zero = meaning o size ops e r red c := by
      rw [foldl_filter_zero o ho val vis _ _ (fun path hpath hv => hk2 path (List.mem_filter.1 hpath).1 hv)]
      have h1 : ∀ (l : List (List Nat)), l.foldl (fun x path => o.bin .add x (val path)) o.zero =
          total o.zero (o.bin .add) (l.map val) := by
        intro l; unfold total; rw [List.foldl_map]
      rw [h1, total_perm hm (hperm.map val), List.map_map]
      unfold meaning sumBox total
      rw [List.foldl_map]
      exact sumBox_congr (o := o) (dims := red.map size) (f := fun x => val (vs.map (coordOf (r.vars ++ red) (c ++ x)))) hvalx
    rw [hfilter, List.foldl_map]
    by_cases hacc : acc = true
    · simp only [hacc, if_true]; exact hsum
    · have hacc' : acc = false := by simpa using hacc
      -- without summation variables there is one iteration
      have hred : red = [] := by
        cases red with
        | nil => rfl
        | cons v red =>
          exfalso
          have hv : v ∈ vs := hvs.mem_iff.2 (by simp)
          have hnr : v ∉ r.vars := fun h => (List.nodup_append.1 hnd).2.2 v h v List.mem_cons_self rfl
          have := List.any_eq_false.1 hacc' v hv
          simp [hnr] at this
      rw [← hsum]
      subst hred
      have hone : ∃ path, (box (vs.map size)).filter (fun path => r.vars.map (coordOf vs path) == c) = [path] := by
        have := hperm.length_eq
        simp only [List.map_nil, box, List.map_cons, List.length_cons, List.length_nil] at this
        obtain ⟨p, hp⟩ := List.length_eq_one_iff.1 this
        exact ⟨p, hp⟩
      obtain ⟨path, hpath⟩ := hone
      rw [hpath, List.filter_cons]
      cases vis path with
      | true => simp [hacc', ho.zero_add]
      | false => rfl
  let f : List Nat → V := fun c => meaning o size ops e r red (unpermute r.perm c)
  have hf : ∀ c ∈ box dims, vals'[Assembly.locate dims 0 c]? = some (f c) := by
    intro c hc
    have hlt' : Assembly.locate dims 0 c < volume dims := locate_lt hc
    obtain ⟨h1, h2⟩ := inRange_unpermute hp' (hdims ▸ Pack.mem_box.1 hc)
    rw [hst3 c hc o.zero (by rw [List.getElem?_replicate, if_pos (by rw [hvol]; exact hlt')])]
    congr 1
    have := hvalue (unpermute r.perm c) h1
    rw [h2] at this
    exact this
  refine ⟨((box dims).map (fun c => (c, f c))).map (fun x => (unpermute r.perm x.1, x.2)), ?_, ?_, ?_⟩
  · unfold computeDense
    rw [hsts]
    simp only
    rw [hvals, hL, hk1]
    simp only
    show (storeAll acc o dims evs (List.replicate (dims.foldl (· * ·) 1) o.zero)).bind _ = _
    rw [hst1]
    show iterate r.perm (dims.map Lvl.dense, vals') = _
    unfold iterate
    simp only
    rw [walk_dense dims vals' hst2 f hf]
    rfl
  · rw [List.map_map, List.map_map]
    refine Eq.trans ?_ (List.map_id _)
    apply List.map_congr_left
    intro c hc
    simp only [Function.comp, id]
    exact (inRange_unpermute hp' (hdims ▸ Pack.mem_box.1 hc)).2
  · intro x hx
    obtain ⟨y, hy, rfl⟩ := List.mem_map.1 hx
    obtain ⟨c, hc, rfl⟩ := List.mem_map.1 hy
    exact ⟨(inRange_unpermute hp' (hdims ▸ Pack.mem_box.1 hc)).1, rfl⟩

/-! ### Example: a matrix in CSC, column by column -/

def cscOps : List (Operand Nat) :=
  [⟨[0, 1], [.dense, .sparse], [1, 0], [([2, 1], 5), ([0, 3], 1), ([2, 0], 7), ([0, 3], 2)]⟩,
   ⟨[1], [.sparse], [0], [([3], 10), ([0], 100)]⟩]

theorem cscOps_ok : ∀ a ∈ cscOps, OperandOK exSize [1, 0] a := by
  have hr : ∀ (d c : List Nat), c ∈ box d → inRange d c := fun d c h => Pack.mem_box.1 h
  intro a ha
  simp only [cscOps, List.mem_cons, List.not_mem_nil, or_false] at ha
  rcases ha with rfl | rfl
  · refine ⟨rfl, by decide, by decide, ?_⟩
    intro r h
    simp only [List.mem_cons, List.not_mem_nil, or_false] at h
    rcases h with rfl | rfl | rfl | rfl <;> exact hr _ _ (by decide)
  · refine ⟨rfl, by decide, by decide, ?_⟩
    intro r h
    simp only [List.mem_cons, List.not_mem_nil, or_false] at h
    rcases h with rfl | rfl <;> exact hr _ _ (by decide)

example : ∃ out, computeDense sortRows isort 4 natOps exSize cscOps (.bin .mul (.acc 0) (.acc 1)) ⟨[0], [.dense], [0]⟩ [1, 0] = some out ∧
    ∀ x ∈ out, inRange [3] x.1 ∧ x.2 = meaning natOps exSize cscOps (.bin .mul (.acc 0) (.acc 1)) ⟨[0], [.dense], [0]⟩ [1] x.1 := by
  obtain ⟨out, h1, _, h2⟩ := compute_dense_partial natOps natOps_laws natOps_add isort_spec
    (fun n => Pack.sortRows_spec n) 4 (by decide) exSize cscOps (.bin .mul (.acc 0) (.acc 1)) ⟨[0], [.dense], [0]⟩ [1] [1, 0]
    (by decide) (by decide) (by decide) cscOps_ok (repeats_of_nodup _ (by decide)) (by decide)
  exact ⟨out, h1, h2⟩

example : computeDense sortRows isort 4 natOps exSize cscOps (.bin .mul (.acc 0) (.acc 1)) ⟨[0], [.dense], [0]⟩ [1, 0] =
    some [([0], 30), ([1], 0), ([2], 700)] := by decide +kernel

end Verif.EndToEnd
