import Verif.EndToEnd.Lemmas
/-!
C63: a compiled assignment computes its expression, from the inserted components to the components that
iterating over the result delivers.
-/
namespace Verif.EndToEnd
open Verif.Merge
open Verif.Merge.Expr
open Verif.Pack (Kind Row permute unpermute iterate firstAt inRange walk IndexWF lexCmp QsortSpec sortRows)
open Verif.Assembly

variable {V : Type}

theorem monoidal {o : Ops V} (ho : ZeroLaws o) (ha : AddLaws o) : Monoidal o.zero (o.bin .add) :=
  ⟨⟨ha.comm, ha.assoc⟩, ho.zero_add⟩

theorem inserted_total (o : Ops V) (a : Operand V) (c : List Nat) :
    inserted o a c = total o.zero (o.bin .add) (valuesAt a.comps c) := by
  unfold inserted total valuesAt
  rw [List.foldl_map]

theorem mapM_get {α β : Type} {f : α → Option β} {P : α → β → Prop} : ∀ {l : List α},
    (∀ x ∈ l, ∃ y, f x = some y ∧ P x y) →
    ∃ ys, l.mapM f = some ys ∧ ∀ (k : Nat) (x : α), l[k]? = some x → ∃ y, ys[k]? = some y ∧ P x y := by
  intro l
  induction l with
  | nil => intro _; exact ⟨[], rfl, by simp⟩
  | cons x l ih =>
    intro h
    obtain ⟨y, h1, h2⟩ := h x List.mem_cons_self
    obtain ⟨ys, h3, h4⟩ := ih (fun z hz => h z (List.mem_cons_of_mem _ hz))
    refine ⟨y :: ys, by simp [List.mapM_cons, h1, h3], ?_⟩
    intro k z hk
    cases k with
    | zero => simp only [List.getElem?_cons_zero, Option.some.injEq] at hk; subst hk; exact ⟨y, rfl, h2⟩
    | succ k => exact h4 k z (by simpa using hk)

/-- What packing an operand delivers to the loops. -/
theorem operand_storage {o : Ops V} (ho : ZeroLaws o) (ha : AddLaws o) {qs : List (Row V) → List (Row V)}
    (hq : ∀ n, QsortSpec n qs) {cap : Nat} (hcap : 0 < cap) {size : Nat → Nat} {vs : List Nat} {a : Operand V}
    (hok : OperandOK size vs a) :
    ∃ st, a.storage qs cap o size = some st ∧ st.1.length = a.storageVars.length ∧
      IndexWF 1 ((a.storageVars.map size).zip st.1) st.2.length ∧
      ∀ c, inRange (a.vars.map size) c → valueAt o.zero st.2 (st.1.map some) (permute a.perm c) 0 = inserted o a c := by
  have hm := monoidal ho ha
  unfold Operand.storage Operand.storageVars
  by_cases hv : a.vars = []
  · rw [if_pos hv, pack_scalar_sums hm]
    have hpe : a.perm = [] := by
      have := hok.perm
      rw [hv] at this
      exact List.Perm.eq_nil this
    refine ⟨_, rfl, ?_, ?_, ?_⟩
    · simp [hpe, permute]
    · simp [hpe, permute, IndexWF]
    · intro c hc
      rw [hv] at hc
      have hc0 : c = [] := Pack.inRange_nil.1 hc
      subst hc0
      rw [inserted_total]
      show total _ _ _ = _
      congr 1
      unfold valuesAt
      congr 1
      symm
      rw [List.filter_eq_self]
      intro r hr
      have := hok.range r hr
      rw [hv] at this
      have h0 : r.1 = [] := Pack.inRange_nil.1 this
      simp [h0]
  · rw [if_neg hv]
    have hlen : (a.vars.map size).length = a.vars.length := by simp
    have hperm : a.perm.Perm (List.range (a.vars.map size).length) := by rw [hlen]; exact hok.perm
    have hplen : a.perm.length = a.vars.length := by rw [hok.perm.length_eq, List.length_range]
    obtain ⟨st, out, h1, h2, h3, h4, h5, h6, h7, _⟩ := pack_kernel_sums cap hcap o.zero (o.bin .add) (a.vars.map size)
      (by simpa using hv) (hq _) a.kinds (by rw [hok.kinds, hlen]) a.perm hperm a.comps hok.range
    have hstl := packKernel_length h1
    rw [List.length_zip, Pack.permute_length, hok.kinds, hplen, Nat.min_self] at hstl
    refine ⟨st, h1, ?_, ?_, ?_⟩
    · rw [hstl, Pack.permute_length, hplen]
    · rw [← permute_map hok.perm]; exact h2
    · intro c hc
      have hcl : c.length = a.vars.length := by rw [hc.1, hlen]
      simp only [iterate, Option.map_eq_some_iff] at h3
      obtain ⟨w, hw, hout⟩ := h3
      have hwl := walk_length hw
      have hpc : inRange (permute a.perm (a.vars.map size)) (permute a.perm c) := Pack.inRange_permute hperm hc
      rw [valueAt_walk o.zero st.2 (permute a.perm (a.vars.map size)) st.1 1 0 w (permute a.perm c)
        (by rw [Pack.permute_length, hplen, hstl]) h2 (by omega) hpc hw,
        ← firstAt_iterate o.zero (by rw [hcl]; exact hok.perm) w (fun r hr => by rw [hwl r hr, hstl, hcl]), hout]
      by_cases hmem : c ∈ out.map Prod.fst
      · obtain ⟨r, hr, rfl⟩ := List.mem_map.1 hmem
        rw [Pack.firstAt_mem h7 hr]
        obtain ⟨_, vs', hvs, hval⟩ := h5 r hr
        rw [hval, sumVals_total hm, total_perm hm hvs, inserted_total]
      · rw [Pack.firstAt_not_mem hmem]
        unfold inserted
        have : a.comps.filter (fun r => r.1 == c) = [] := by
          rw [List.filter_eq_nil_iff]
          intro r hr hrc
          have : r.1 = c := by simpa using hrc
          exact hmem (this ▸ h4 r hr)
        rw [this]; rfl

theorem inRange_map_append {vs us : List Nat} {size : Nat → Nat} {c x : List Nat} (h1 : inRange (vs.map size) c)
    (h2 : inRange (us.map size) x) : inRange ((vs ++ us).map size) (c ++ x) := by
  rw [List.map_append]
  refine ⟨by simp [h1.1, h2.1], ?_⟩
  intro m hm hm'
  rw [List.getElem_append, List.getElem_append]
  have e1 := h1.1
  by_cases h : m < c.length
  · rw [dif_pos h, dif_pos (by omega)]
    exact h1.2 m h (by omega)
  · rw [dif_neg h, dif_neg (by omega)]
    have e3 : m - c.length = m - (List.map size vs).length := by omega
    simp only [e3]
    exact h2.2 _ (by rw [List.length_append] at hm; omega) (by rw [List.length_append] at hm'; omega)

theorem coordOf_lt {vs path : List Nat} {size : Nat → Nat} (h : inRange (vs.map size) path) {v : Nat} (hv : v ∈ vs) :
    coordOf vs path v < size v := by
  have hi := List.idxOf_lt_length_of_mem hv
  have hl : path.length = vs.length := by rw [h.1]; simp
  have h2 := h.2 (vs.idxOf v) (by omega) (by simpa using hi)
  unfold coordOf
  rw [List.getD_eq_getElem?_getD, List.getElem?_eq_getElem (by omega)]
  simp only [List.getElem_map, List.getElem_idxOf] at h2
  simpa using h2

/-- C63: packing the operands, compiling and running the assignment `result(vars) = sum(red, e)` and
iterating over the result succeeds - no load or store outside an array - for all formats of dense and
compressed levels, all mode orderings that agree with the loop order, all inserted components
(duplicates included, in any order) and all dimensions. Iteration delivers no coordinate twice, in storage
order, and the result has at every coordinate the sum over the summation variables of the expression on
the inserted components; a coordinate that is not delivered stands for zero. Missing: repeated
accesses that are not factors, repeated index variables in one access, other level formats, scheduled
statements. -/
theorem compute_meaning_partial (o : Ops V) (ho : ZeroLaws o) (ha : AddLaws o) {srt : List Point → List Point}
    (hs : SortSpec srt) {qs : List (Row V) → List (Row V)} (hq : ∀ n, QsortSpec n qs) (cap : Nat) (hcap : 0 < cap)
    (size : Nat → Nat) (ops : List (Operand V)) (e : Expr V) (r : Result) (red : List Nat)
    (hnd : (r.vars ++ red).Nodup) (hk : r.kinds.length = r.vars.length) (hp : r.perm.Perm (List.range r.vars.length))
    (hops : ∀ a ∈ ops, OperandOK size (permute r.perm r.vars ++ red) a)
    (hrep : RepeatsAreFactors ops e) (hlt : ∀ k ∈ e.leaves, k < ops.length) :
    ∃ out, compute qs srt cap o size ops e r red = some out ∧
      (out.map (fun x => permute r.perm x.1)).Pairwise (fun a b => lexCmp a b < 0) ∧ (out.map Prod.fst).Nodup ∧
      (∀ x ∈ out, inRange (r.vars.map size) x.1) ∧
      ∀ c, inRange (r.vars.map size) c → firstAt o.zero out c = meaning o size ops e r red c := by
  have hplen : r.perm.length = r.vars.length := by rw [hp.length_eq, List.length_range]
  -- operands
  obtain ⟨sts, hsts, hget⟩ := mapM_get (l := ops) (f := Operand.storage qs cap o size) (fun a h => operand_storage ho ha hq hcap (hops a h))
  have hopk : ∀ k ∈ e.leaves, ∃ a, ops[k]? = some a := fun k hk => ⟨_, List.getElem?_eq_getElem (hlt k hk)⟩
  generalize hvals : (fun k : Nat => (sts[k]?.getD ([], [])).2) = vals
  generalize hvs : permute r.perm r.vars ++ red = vs at hops hget
  have hvnd : vs.Nodup := by
    rw [← hvs]; exact ((permute_perm hp).append_right red).nodup_iff.2 hnd
  let L1 := loops size ops sts (permute r.perm r.vars)
  let L2 := loops size ops sts red
  have hL : loops size ops sts vs = L1 ++ L2 := by rw [← hvs]; simp [loops, L1, L2]
  have hn : ∀ us, (loops size ops sts us).map Loop.n = us.map size := by
    intro us; simp [loops, Function.comp]
  have hlv : ∀ us k a st, ops[k]? = some a → sts[k]? = some st →
      levelsOf (loops size ops sts us) k = us.map (levelAt a.storageVars st.1) ∧
      dimLevels (loops size ops sts us) k = us.map (fun v => (size v, levelAt a.storageVars st.1 v)) := by
    intro us k a st h1 h2
    simp [levelsOf, dimLevels, loops, Function.comp, h1, h2]
  have hin : Inside vals (L1 ++ L2) (fun _ => 0) e := by
    refine ⟨fun _ => 1, ?_⟩
    intro k hk
    obtain ⟨a, hak⟩ := hopk k hk
    obtain ⟨st, hst, h1, h2, _⟩ := hget k a hak
    refine ⟨Nat.zero_lt_one, ?_⟩
    rw [← hL, (hlv vs k a st hak hst).2]
    have hvk : vals k = st.2 := by rw [← hvals]; simp [hst]
    rw [hvk]
    exact wfLevels_gaps size vs a.storageVars st.1 1 _ hvnd (hops a (List.mem_of_getElem? hak)).order h1.symm h2
  let rl := ((permute r.perm r.vars).map size).zip r.kinds
  have hrl : rl.map Prod.fst = L1.map Loop.n := by
    rw [hn]
    exact Pack.zip_fst (by rw [hk, List.length_map, Pack.permute_length, hplen])
  obtain ⟨t, ht1, ht2, ht3⟩ := kernelTree_spec o ho hs vals L2 rl L1 (fun _ => 0) e hrl
    (by rw [← hL]; exact consistent_loops hrep (fun a h => (hops a h).perm)) hin
  -- assembly
  have hvok : visitsOK rl t := by
    have : ∀ (ls : List (Nat × Kind)) (t : Tree V ls.length), visitsSorted ls t → visitsOK ls t := by
      intro ls
      induction ls with
      | nil => intro _ _; trivial
      | cons x ls ih =>
        obtain ⟨n, k⟩ := x
        intro t h
        exact ⟨fun _ => ⟨h.1, h.2.1⟩, fun e he => ih e.2 (h.2.2 e he)⟩
    exact this rl t ht2
  obtain ⟨lv, rv, hrun, hwalk, _⟩ := append_assembly cap hcap o.zero rl t hvok
  have hrm : rl.map Prod.fst = permute r.perm (r.vars.map size) := by rw [hrl, hn, permute_map hp]
  have hp' : r.perm.Perm (List.range (r.vars.map size).length) := by rw [List.length_map]; exact hp
  obtain ⟨hsort, hrange⟩ := stored_sorted o.zero rl t ht2
  rw [hrm] at hrange
  have hmapsort : ((stored o.zero rl t).map (fun x => permute r.perm (unpermute r.perm x.1))).Pairwise
      (fun a b => lexCmp a b < 0) := by
    have : (stored o.zero rl t).map (fun x => permute r.perm (unpermute r.perm x.1)) = (stored o.zero rl t).map Prod.fst := by
      apply List.map_congr_left
      intro x hx
      exact (inRange_unpermute hp' (hrange x hx)).2
    rw [this]; exact hsort
  refine ⟨(stored o.zero rl t).map (fun x => (unpermute r.perm x.1, x.2)), ?_, ?_, ?_, ?_, ?_⟩
  · unfold compute
    rw [hsts]
    simp only
    rw [hvals, hvs, hL]
    show (match kernelTree o srt vals rl.length (L1 ++ L2) (fun _ => 0) e with
      | none => none
      | some t => (run cap o.zero rl t).bind (iterate r.perm)) = _
    rw [ht1]
    simp only
    rw [hrun]
    show iterate r.perm (lv, rv) = _
    unfold iterate
    simp only
    rw [hwalk]; rfl
  · rw [List.map_map]; exact hmapsort
  · rw [List.map_map]
    unfold List.Nodup
    rw [List.pairwise_map] at hmapsort ⊢
    refine hmapsort.imp ?_
    intro x y h heq
    simp only [Function.comp] at heq
    rw [heq, Pack.lexCmp_self] at h
    omega
  · intro x hx
    obtain ⟨y, hy, rfl⟩ := List.mem_map.1 hx
    exact (inRange_unpermute hp' (hrange y hy)).1
  · intro c hc
    have hcl : c.length = r.vars.length := by rw [hc.1]; simp
    have hpc : inRange ((permute r.perm r.vars).map size) (permute r.perm c) := by
      rw [← permute_map hp]; exact Pack.inRange_permute hp' hc
    rw [firstAt_iterate o.zero (by rw [hcl]; exact hp) _ (fun x hx => by
      rw [(hrange x hx).1, Pack.permute_length, hcl, hplen])]
    have hbox : permute r.perm c ∈ box (rl.map Prod.fst) := by
      rw [hrm, permute_map hp]; exact Pack.mem_box.2 hpc
    rw [firstAt_stored o.zero rl t _ ht2 hbox, ht3 _ (by rw [← hrl]; exact hbox)]
    unfold meaning
    rw [hn]
    apply sumBox_congr
    intro x hx
    have hx' := Pack.mem_box.1 hx
    unfold evalAtPath exprVal
    apply eval_congr
    intro k hk
    obtain ⟨a, hak⟩ := hopk k hk
    obtain ⟨st, hst, h1, _, h3⟩ := hget k a hak
    have hok := hops a (List.mem_of_getElem? hak)
    have hvk : vals k = st.2 := by rw [← hvals]; simp [hst]
    have hpath : inRange (vs.map size) (permute r.perm c ++ x) := by rw [← hvs]; exact inRange_map_append hpc hx'
    rw [hvk, ← hL, (hlv vs k a st hak hst).1, valueAt_gaps o.zero st.2 vs a.storageVars st.1 _ 0 hvnd hok.order h1.symm
      (by rw [hpath.1]; simp), hak]
    simp only
    -- coordinates
    have hcoord : ∀ v ∈ vs, coordOf vs (permute r.perm c ++ x) v = coordOf (r.vars ++ red) (c ++ x) v := by
      intro v hv
      rw [← hvs] at hv ⊢
      have hl1 : (permute r.perm r.vars).length = (permute r.perm c).length := by
        rw [Pack.permute_length, Pack.permute_length]
      by_cases hmem : v ∈ r.vars
      · rw [coordOf_append_left hl1 _ _ ((mem_permute hp).2 hmem), coordOf_append_left hcl.symm _ _ hmem,
          coordOf_permute hp (List.nodup_append.1 hnd).1 hmem]
      · rw [coordOf_append_right hl1 _ _ (fun h => hmem ((mem_permute hp).1 h)), coordOf_append_right hcl.symm _ _ hmem]
    have hsub : ∀ v ∈ a.vars, v ∈ vs := fun v hv => hok.order.subset ((mem_permute hok.perm).2 hv)
    have hvars : a.vars.map (coordOf vs (permute r.perm c ++ x)) = a.vars.map (coordOf (r.vars ++ red) (c ++ x)) :=
      List.map_congr_left (fun v hv => hcoord v (hsub v hv))
    rw [← hvars]
    show valueAt o.zero st.2 (st.1.map some) ((permute a.perm a.vars).map (coordOf vs (permute r.perm c ++ x))) 0 = _
    rw [← permute_map hok.perm]
    apply h3
    refine ⟨by simp, ?_⟩
    intro m hm hm'
    simp only [List.getElem_map]
    exact coordOf_lt hpath (hsub _ (List.getElem_mem (by simpa using hm)))

/-- C63: what a program computes does not depend on formats, mode orderings, capacities or sorting. Two
programs that insert the same components and evaluate the same expression agree at every coordinate. -/
theorem formats_do_not_matter_partial (o : Ops V) (ho : ZeroLaws o) (ha : AddLaws o) {srt srt' : List Point → List Point}
    (hs : SortSpec srt) (hs' : SortSpec srt') {qs qs' : List (Row V) → List (Row V)} (hq : ∀ n, QsortSpec n qs)
    (hq' : ∀ n, QsortSpec n qs') (cap cap' : Nat) (hcap : 0 < cap) (hcap' : 0 < cap') (size : Nat → Nat)
    (ops ops' : List (Operand V)) (e : Expr V) (r r' : Result) (red : List Nat)
    (hnd : (r.vars ++ red).Nodup) (hr : r'.vars = r.vars) (hk : r.kinds.length = r.vars.length)
    (hk' : r'.kinds.length = r.vars.length) (hp : r.perm.Perm (List.range r.vars.length))
    (hp' : r'.perm.Perm (List.range r.vars.length))
    (hops : ∀ a ∈ ops, OperandOK size (permute r.perm r.vars ++ red) a)
    (hops' : ∀ a ∈ ops', OperandOK size (permute r'.perm r.vars ++ red) a)
    (hsame : ops'.map (fun a => (a.vars, a.comps)) = ops.map (fun a => (a.vars, a.comps)))
    (hrep : RepeatsAreFactors ops e) (hlt : ∀ k ∈ e.leaves, k < ops.length) :
    ∃ out out', compute qs srt cap o size ops e r red = some out ∧ compute qs' srt' cap' o size ops' e r' red = some out' ∧
      ∀ c, inRange (r.vars.map size) c → firstAt o.zero out c = firstAt o.zero out' c := by
  have hlen : ops'.length = ops.length := by simpa using congrArg List.length hsame
  obtain ⟨out, h1, _, _, _, h2⟩ := compute_meaning_partial o ho ha hs hq cap hcap size ops e r red hnd hk hp hops hrep hlt
  obtain ⟨out', h1', _, _, _, h2'⟩ := compute_meaning_partial o ho ha hs' hq' cap' hcap' size ops' e r' red (by rw [hr]; exact hnd)
    (by rw [hr]; exact hk') (by rw [hr]; exact hp') (by rw [hr]; exact hops') (repeats_congr (by have h := congrArg (List.map Prod.fst) hsame; rw [List.map_map, List.map_map] at h; exact h) hrep) (by rw [hlen]; exact hlt)
  refine ⟨out, out', h1, h1', ?_⟩
  intro c hc
  rw [h2 c hc, h2' c (by rw [hr]; exact hc)]
  unfold meaning
  rw [hr]
  congr 1
  funext x
  unfold exprVal
  congr 1
  funext k
  have hk := congrArg (fun l => l[k]?) hsame
  simp only [List.getElem?_map] at hk
  cases h : ops[k]? with
  | none =>
    rw [h] at hk
    cases h' : ops'[k]? with
    | none => rfl
    | some a' => rw [h'] at hk; cases hk
  | some a =>
    rw [h] at hk
    cases h' : ops'[k]? with
    | none => rw [h'] at hk; cases hk
    | some a' =>
      rw [h'] at hk
      simp only [Option.map_some, Option.some.injEq, Prod.mk.injEq] at hk
      simp only [inserted, hk.1, hk.2]

/-! ### Examples -/

/-- `y(i) = sum(j, A(i,j) * x(j) * s)` with `A` doubly compressed, filled with a duplicate, `x` compressed, `s` a
scalar and a compressed result. -/
def exOps : List (Operand Nat) :=
  [⟨[0, 1], [.sparse, .sparse], [0, 1], [([2, 1], 5), ([0, 3], 1), ([2, 0], 7), ([0, 3], 2)]⟩,
   ⟨[1], [.sparse], [0], [([3], 10), ([0], 100)]⟩,
   ⟨[], [], [], [([], 1), ([], 1)]⟩]

def exSize : Nat → Nat := fun v => if v = 0 then 3 else 4

def exExpr : Expr Nat := .bin .mul (.bin .mul (.acc 0) (.acc 1)) (.acc 2)

def exResult : Result := ⟨[0], [.sparse], [0]⟩

theorem natOps_add : AddLaws natOps := ⟨fun a b => Nat.add_comm a b, fun a b c => Nat.add_assoc a b c⟩

theorem exOps_ok : ∀ a ∈ exOps, OperandOK exSize (permute exResult.perm exResult.vars ++ [1]) a := by
  have hr : ∀ (d c : List Nat), c ∈ box d → inRange d c := fun d c h => Pack.mem_box.1 h
  intro a ha
  simp only [exOps, List.mem_cons, List.not_mem_nil, or_false] at ha
  rcases ha with rfl | rfl | rfl
  · refine ⟨rfl, by decide, by decide, ?_⟩
    intro r h
    simp only [List.mem_cons, List.not_mem_nil, or_false] at h
    rcases h with rfl | rfl | rfl | rfl <;> exact hr _ _ (by decide)
  · refine ⟨rfl, by decide, by decide, ?_⟩
    intro r h
    simp only [List.mem_cons, List.not_mem_nil, or_false] at h
    rcases h with rfl | rfl <;> exact hr _ _ (by decide)
  · refine ⟨rfl, by decide, by decide, ?_⟩
    intro r h
    simp only [List.mem_cons, List.not_mem_nil, or_false] at h
    rcases h with rfl | rfl <;> exact hr _ _ (by decide)

example : ∃ out, compute sortRows isort 4 natOps exSize exOps exExpr exResult [1] = some out ∧
    ∀ c, inRange [3] c → firstAt 0 out c = meaning natOps exSize exOps exExpr exResult [1] c := by
  obtain ⟨out, h1, _, _, _, h2⟩ := compute_meaning_partial natOps natOps_laws natOps_add isort_spec
    (fun n => Pack.sortRows_spec n) 4 (by decide) exSize exOps exExpr exResult [1] (by decide) rfl (by decide) exOps_ok
    (repeats_of_nodup _ (by decide)) (by decide)
  exact ⟨out, h1, h2⟩

example : compute sortRows isort 4 natOps exSize exOps exExpr exResult [1] = some [([0], 60), ([2], 1400)] := by
  decide +kernel

example : meaning natOps exSize exOps exExpr exResult [1] [2] = 1400 := by decide +kernel

/-- A dense result. -/
example : compute sortRows isort 4 natOps exSize exOps exExpr ⟨[0], [.dense], [0]⟩ [1] =
    some [([0], 60), ([1], 0), ([2], 1400)] := by decide +kernel

/-- The same components in other formats. -/
def exOps' : List (Operand Nat) :=
  [⟨[0, 1], [.dense, .sparse], [0, 1], [([2, 1], 5), ([0, 3], 1), ([2, 0], 7), ([0, 3], 2)]⟩,
   ⟨[1], [.dense], [0], [([3], 10), ([0], 100)]⟩,
   ⟨[], [], [], [([], 1), ([], 1)]⟩]

example : ∃ out out', compute sortRows isort 4 natOps exSize exOps exExpr exResult [1] = some out ∧
    compute sortRows isort 1 natOps exSize exOps' exExpr ⟨[0], [.dense], [0]⟩ [1] = some out' ∧
    ∀ c, inRange [3] c → firstAt 0 out c = firstAt 0 out' c :=
  formats_do_not_matter_partial natOps natOps_laws natOps_add isort_spec isort_spec (fun n => Pack.sortRows_spec n)
    (fun n => Pack.sortRows_spec n) 4 1 (by decide) (by decide) exSize exOps exOps' exExpr exResult ⟨[0], [.dense], [0]⟩ [1]
    (by decide) rfl rfl rfl (by decide) (by decide) exOps_ok (by
      intro a ha
      simp only [exOps', List.mem_cons, List.not_mem_nil, or_false] at ha
      have h := exOps_ok
      rcases ha with rfl | rfl | rfl
      · exact ⟨rfl, by decide, by decide, (h ⟨[0, 1], [.sparse, .sparse], [0, 1], _⟩ (by simp [exOps])).range⟩
      · exact ⟨rfl, by decide, by decide, (h ⟨[1], [.sparse], [0], _⟩ (by simp [exOps])).range⟩
      · exact ⟨rfl, by decide, by decide, (h ⟨[], [], [], _⟩ (by simp [exOps])).range⟩)
    rfl (repeats_of_nodup _ (by decide)) (by decide)

/-- Repeated accesses: `y(i) = sum(j, A(i,j)*x(j) + A(i,j)*s)`. -/
def exTwice : Expr Nat := .bin .add (.bin .mul (.acc 0) (.acc 1)) (.bin .mul (.acc 0) (.acc 2))

theorem exTwice_ok : RepeatsAreFactors exOps exTwice := by
  refine ⟨⟨trivial, trivial, ?_⟩, ⟨trivial, trivial, ?_⟩, ?_⟩ <;>
    intro k hk hk' _ <;> simp only [leaves, List.mem_append, List.mem_singleton] at hk hk' <;>
    simp only [factor, Bool.or_eq_true, beq_iff_eq] <;> omega

example : ∃ out, compute sortRows isort 4 natOps exSize exOps exTwice exResult [1] = some out ∧
    ∀ c, inRange [3] c → firstAt 0 out c = meaning natOps exSize exOps exTwice exResult [1] c := by
  obtain ⟨out, h1, _, _, _, h2⟩ := compute_meaning_partial natOps natOps_laws natOps_add isort_spec
    (fun n => Pack.sortRows_spec n) 4 (by decide) exSize exOps exTwice exResult [1] (by decide) rfl (by decide) exOps_ok
    exTwice_ok (by decide)
  exact ⟨out, h1, h2⟩

example : compute sortRows isort 4 natOps exSize exOps exTwice exResult [1] = some [([0], 36), ([2], 724)] := by
  decide +kernel

/-- The program `y(i) = c(i) + a(i)*b(i) + a(i)`: access 0 is `a`, 1 is `b` (empty) and 2 is `c`. -/
def repOps : List (Operand Nat) :=
  [⟨[0], [.sparse], [0], [([1], 10), ([6], 20)]⟩, ⟨[0], [.sparse], [0], []⟩, ⟨[0], [.sparse], [0], [([2], 10), ([6], 20)]⟩]

/-- C63 is false when a repeated access is not a factor: in `y(i) = c(i) + a(i)*b(i) + a(i)` the component
`a(6) + c(6)` of the result is lost; `y(6)` is delivered twice, with `a(6)` and with `c(6)`. -/
theorem compute_repeated_fails :
    ∃ (size : Nat → Nat) (ops : List (Operand Nat)) (e : Expr Nat) (r : Result) (out : List (Row Nat)),
      (∀ a ∈ ops, OperandOK size (permute r.perm r.vars) a) ∧ (∀ k ∈ e.leaves, k < ops.length) ∧
      compute sortRows isort 4 natOps size ops e r [] = some out ∧ ¬ (out.map Prod.fst).Nodup ∧
      ∃ c, inRange (r.vars.map size) c ∧ firstAt 0 out c ≠ meaning natOps size ops e r [] c := by
  have h : compute sortRows isort 4 natOps (fun _ => 8) repOps repE ⟨[0], [.sparse], [0]⟩ [] =
      some [([1], 10), ([6], 20), ([2], 10), ([6], 20)] := by decide +kernel
  refine ⟨fun _ => 8, repOps, repE, ⟨[0], [.sparse], [0]⟩, _, ?_, by decide, h, by decide, [6],
    Pack.mem_box.1 (by decide), by decide +kernel⟩
  have hr : ∀ (d c : List Nat), c ∈ box d → inRange d c := fun d c h => Pack.mem_box.1 h
  intro a ha
  simp only [repOps, List.mem_cons, List.not_mem_nil, or_false] at ha
  rcases ha with rfl | rfl | rfl
  · refine ⟨rfl, by decide, by decide, ?_⟩
    intro r h
    simp only [List.mem_cons, List.not_mem_nil, or_false] at h
    rcases h with rfl | rfl <;> exact hr _ _ (by decide)
  · exact ⟨rfl, by decide, by decide, fun r h => by cases h⟩
  · refine ⟨rfl, by decide, by decide, ?_⟩
    intro r h
    simp only [List.mem_cons, List.not_mem_nil, or_false] at h
    rcases h with rfl | rfl <;> exact hr _ _ (by decide)

/-- A union with a column-major result: `C(i,j) = A(i,j) + B(i,j)`, everything stored by columns. -/
example : compute sortRows isort 1 natOps (fun _ => 3)
    [⟨[0, 1], [.sparse, .sparse], [1, 0], [([2, 1], 5), ([0, 2], 1)]⟩, ⟨[0, 1], [.dense, .sparse], [1, 0], [([1, 1], 7), ([0, 2], 3)]⟩]
    (.bin .add (.acc 0) (.acc 1)) ⟨[0, 1], [.dense, .sparse], [1, 0]⟩ [] = some [([1, 1], 7), ([2, 1], 5), ([0, 2], 4)] := by
  decide +kernel

end Verif.EndToEnd
