import Verif.Spmm.Lemmas
/-!
C71: a compiled assignment whose last level is computed in a temporary computes its expression.
-/
namespace Verif.Spmm
open Verif.Merge
open Verif.Merge.Expr
open Verif.Pack (Kind Row permute unpermute iterate firstAt inRange walk IndexWF lexCmp QsortSpec sortRows)
open Verif.Assembly
open Verif.EndToEnd

variable {V : Type}

theorem visitsSorted_ok : ∀ (ls : List (Nat × Kind)) (t : Tree V ls.length), visitsSorted ls t → visitsOK ls t := by
  intro ls
  induction ls with
  | nil => intro _ _; trivial
  | cons x ls ih =>
    obtain ⟨n, k⟩ := x
    intro t h
    exact ⟨fun _ => ⟨h.1, h.2.1⟩, fun e he => ih e.2 (h.2.2 e he)⟩

/-- C71: packing the operands, running the loops over the outer levels of the result with a `where` statement that computes the
last level in a dense temporary, and iterating over the result succeeds - no load or store outside an array, no load of an unset
slot - and computes the assignment `result(vars) = sum(red, e)`: the loops `mid` of the producer can be in any order, so summation
loops need not be innermost although the last level may be compressed. Iteration delivers no coordinate twice, in storage
order; a coordinate that is not delivered stands for zero. Missing: what is missing in `compute_meaning_partial`, and results
whose inspected level (`canAccelerateDenseTemp`) is compressed while the last level is dense. -/
theorem compute_temporary_partial (o : Ops V) (ho : ZeroLaws o) (ha : AddLaws o) {srt : List Point → List Point}
    (hs : SortSpec srt) {qs : List (Row V) → List (Row V)} (hq : ∀ n, QsortSpec n qs) {sort : List Nat → List Nat}
    (hsort : Verif.Workspace.SortSpec sort) (cap : Nat) (hcap : 0 < cap)
    (size : Nat → Nat) (ops : List (Operand V)) (e : Expr V) (r : Result) (red mid : List Nat) (outer : List Nat) (v : Nat)
    (hnd : (r.vars ++ red).Nodup) (hk : r.kinds.length = r.vars.length) (hp : r.perm.Perm (List.range r.vars.length))
    (hlast : permute r.perm r.vars = outer ++ [v]) (hmid : mid.Perm (v :: red))
    (hacc : r.kinds.getLast? = some .dense → accelerates r v = false)
    (hops : ∀ a ∈ ops, OperandOK size (outer ++ mid) a)
    (hrep : RepeatsAreFactors ops e) (hlt : ∀ k ∈ e.leaves, k < ops.length) :
    ∃ out, computeWs qs srt sort cap o size ops e r mid = some out ∧
      (out.map (fun x => permute r.perm x.1)).Pairwise (fun a b => lexCmp a b < 0) ∧ (out.map Prod.fst).Nodup ∧
      (∀ x ∈ out, inRange (r.vars.map size) x.1) ∧
      ∀ c, inRange (r.vars.map size) c → firstAt o.zero out c = meaning o size ops e r red c := by
  have hm := monoidal ho ha
  have hplen : r.perm.length = r.vars.length := by rw [hp.length_eq, List.length_range]
  obtain ⟨sts, hsts, hget⟩ := mapM_get (l := ops) (f := Operand.storage qs cap o size) (fun a h => operand_storage ho ha hq hcap (hops a h))
  have hsvnd : (outer ++ [v] ++ red).Nodup := by
    rw [← hlast]; exact ((permute_perm hp).append_right red).nodup_iff.2 hnd
  have hvr : (v :: red).Nodup := by
    rw [List.append_assoc] at hsvnd
    exact (List.nodup_append.1 hsvnd).2.1
  have hmidnd : mid.Nodup := hmid.nodup_iff.2 hvr
  have hvnd : (outer ++ mid).Nodup := by
    have : (outer ++ mid).Perm (outer ++ [v] ++ red) := by
      rw [List.append_assoc]; exact hmid.append_left outer
    exact this.nodup_iff.2 hsvnd
  obtain ⟨hin, hval⟩ := expr_value (e := e) hvnd hops hlt hget
  generalize hvals : (fun k : Nat => (sts[k]?.getD ([], [])).2) = vals at hin hval
  let L1 := loops size ops sts outer
  let L2 := loops size ops sts mid
  have hL : loops size ops sts (outer ++ mid) = L1 ++ L2 := by simp [loops, L1, L2]
  have hn : ∀ us, (loops size ops sts us).map Loop.n = us.map size := by
    intro us; simp [loops, Function.comp]
  have hvm : v ∈ mid := hmid.mem_iff.2 List.mem_cons_self
  let tp : Temp := ⟨sort, v, size v, mid, mid.any (· != v), accelerates r v⟩
  let rl := ((permute r.perm r.vars).map size).zip r.kinds
  have hrl0 : rl.map Prod.fst = (permute r.perm r.vars).map size :=
    Pack.zip_fst (by rw [hk, List.length_map, Pack.permute_length, hplen])
  have hrl : rl.map Prod.fst = L1.map Loop.n ++ [tp.n] := by
    rw [hrl0, hlast, List.map_append]
    show _ = (loops size ops sts outer).map Loop.n ++ _
    rw [hn]; rfl
  have hvc : ∀ x ∈ box (L2.map Loop.n), coordOf tp.mid x tp.v < tp.n := by
    intro x hx
    rw [hn] at hx
    exact coordOf_lt (Pack.mem_box.1 hx) hvm
  have honce : tp.acc = false → ∀ x ∈ box (L2.map Loop.n), ∀ y ∈ box (L2.map Loop.n),
      coordOf tp.mid x tp.v = coordOf tp.mid y tp.v → x = y := by
    intro hacc' x hx y hy hxy
    rw [hn] at hx hy
    have hx' := Pack.mem_box.1 hx
    have hy' := Pack.mem_box.1 hy
    rw [← map_coordOf hmidnd (by rw [hx'.1]; simp : x.length = mid.length),
      ← map_coordOf hmidnd (by rw [hy'.1]; simp : y.length = mid.length)]
    apply List.map_congr_left
    intro u hu
    have := List.any_eq_false.1 hacc' u hu
    have huv : u = v := by simpa using this
    rw [huv]; exact hxy
  obtain ⟨t, ht1, ht2, ht3⟩ := wsTree_spec o ho hs vals tp hsort L2 (by simp [L2, loops, tp]) hvc honce rl L1 (fun _ => 0) e hrl
    (by rw [← hL]; exact consistent_loops hrep (fun a h => (hops a h).perm)) (by rw [← hL]; exact hin)
  obtain ⟨lv, rv, hrun, hwalk, _⟩ := append_assembly cap hcap o.zero rl t (visitsSorted_ok rl t ht2)
  have hrm : rl.map Prod.fst = permute r.perm (r.vars.map size) := by rw [hrl0, permute_map hp]
  have hp' : r.perm.Perm (List.range (r.vars.map size).length) := by rw [List.length_map]; exact hp
  obtain ⟨hsrt, hrange⟩ := stored_sorted o.zero rl t ht2
  rw [hrm] at hrange
  have hmapsort : ((stored o.zero rl t).map (fun x => permute r.perm (unpermute r.perm x.1))).Pairwise
      (fun a b => lexCmp a b < 0) := by
    have : (stored o.zero rl t).map (fun x => permute r.perm (unpermute r.perm x.1)) = (stored o.zero rl t).map Prod.fst := by
      apply List.map_congr_left
      intro x hx
      exact (inRange_unpermute hp' (hrange x hx)).2
    rw [this]; exact hsrt
  refine ⟨(stored o.zero rl t).map (fun x => (unpermute r.perm x.1, x.2)), ?_, ?_, ?_, ?_, ?_⟩
  · unfold computeWs
    rw [hsts, Option.bind_some]
    simp only
    rw [hlast, List.getLast?_concat, Option.bind_some, if_neg (by rintro ⟨h1, h2⟩; rw [hacc h2] at h1; cases h1)]
    rw [List.dropLast_concat, hvals, hL, ← hlast]
    show (wsTree o srt vals tp rl.length (L1 ++ L2) (fun _ => 0) e).bind _ = _
    rw [ht1, Option.bind_some]
    show (run cap o.zero rl t).bind _ = _
    rw [hrun]
    show iterate r.perm (lv, rv) = _
    unfold iterate
    simp only
    rw [hwalk]; rfl
  · rw [List.map_map]; exact hmapsort
  · rw [List.map_map]
    unfold List.Nodup
    rw [List.pairwise_map] at hmapsort ⊢
    refine hmapsort.imp ?_
    intro x y h heq
    simp only [Function.comp] at heq
    rw [heq, Pack.lexCmp_self] at h
    omega
  · intro x hx
    obtain ⟨y, hy, rfl⟩ := List.mem_map.1 hx
    exact (inRange_unpermute hp' (hrange y hy)).1
  · intro c hc
    have hcl : c.length = r.vars.length := by rw [hc.1]; simp
    have hpc : inRange ((permute r.perm r.vars).map size) (permute r.perm c) := by
      rw [← permute_map hp]; exact Pack.inRange_permute hp' hc
    rw [firstAt_iterate o.zero (by rw [hcl]; exact hp) _ (fun x hx => by
      rw [(hrange x hx).1, Pack.permute_length, hcl, hplen])]
    have hbox : permute r.perm c ∈ box (rl.map Prod.fst) := by
      rw [hrm, permute_map hp]; exact Pack.mem_box.2 hpc
    rw [firstAt_stored o.zero rl t _ ht2 hbox]
    -- the storage coordinate is that of the outer levels and of the last
    have hpl : (permute r.perm c).length = (outer ++ [v]).length := by rw [hpc.1, hlast]; simp
    obtain ⟨path, cv, hpath⟩ : ∃ path cv, permute r.perm c = path ++ [cv] := by
      have hne : permute r.perm c ≠ [] := by
        intro h; rw [h] at hpl; simp at hpl
      exact ⟨_, _, (List.dropLast_concat_getLast hne).symm⟩
    have hpathl : path.length = outer.length := by
      rw [hpath] at hpl; simpa using hpl
    have hpo : inRange (outer.map size) path ∧ inRange ([v].map size) [cv] := by
      rw [hlast, hpath] at hpc
      obtain ⟨h1, h2⟩ := hpc
      constructor
      · refine ⟨by simp [hpathl], ?_⟩
        intro m hm1 hm2
        have := h2 m (by rw [List.length_append]; omega) (by simp at hm2 ⊢; omega)
        simpa [List.getElem_append, hm1, hpathl ▸ hm1] using this
      · refine ⟨rfl, ?_⟩
        intro m hm1 hm2
        have hm0 : m = 0 := by simpa using hm1
        subst hm0
        have := h2 outer.length (by rw [List.length_append]; simp; omega) (by simp)
        simpa [List.getElem_append, hpathl] using this
    have hcv : cv < tp.n := by
      have := hpo.2.2 0 (by simp) (by simp)
      simpa using this
    rw [hpath, ht3 path (by rw [hn]; exact Pack.mem_box.2 hpo.1) cv hcv]
    -- the sum
    rw [hn]
    unfold meaning partSum
    have hfil : (box (mid.map size)).filter (fun x => coordOf tp.mid x tp.v == cv) =
        (box (mid.map size)).filter (fun x => [v].map (coordOf mid x) == [cv]) := by
      apply List.filter_congr
      intro x _
      show (coordOf mid x v == cv) = ([coordOf mid x v] == [cv])
      rw [Bool.eq_iff_iff, beq_iff_eq, beq_iff_eq]
      simp
    rw [hfil]
    have hiter := iterations_at size (vs := mid) (rv := [v]) (red := red) hvr hmid hpo.2
    let f : List Nat → V := fun x => evalAtPath o vals (L1 ++ L2) (fun _ => 0) e (path ++ x)
    have h1 : ∀ (l : List (List Nat)), l.foldl (fun a x => o.bin .add a (f x)) o.zero =
        total o.zero (o.bin .add) (l.map f) := by
      intro l; unfold total; rw [List.foldl_map]
    show List.foldl (fun a x => o.bin .add a (f x)) o.zero _ = _
    rw [h1, total_perm hm (hiter.map f), List.map_map]
    unfold sumBox total
    rw [List.foldl_map]
    refine sumBox_congr (o := o) (dims := red.map size) (f := fun x => f (mid.map (coordOf ([v] ++ red) ([cv] ++ x)))) ?_
    intro x hx
    have hx' := Pack.mem_box.1 hx
    have hr2 := inRange_map_append hpo.2 hx'
    have hmx : inRange (mid.map size) (mid.map (coordOf ([v] ++ red) ([cv] ++ x))) :=
      inRange_map (fun u hu => coordOf_lt hr2 (hmid.mem_iff.1 hu))
    show evalAtPath o vals (L1 ++ L2) (fun _ => 0) e (path ++ mid.map (coordOf ([v] ++ red) ([cv] ++ x))) = _
    rw [← hL, hval _ (inRange_map_append hpo.1 hmx)]
    unfold exprVal
    apply eval_congr
    intro k hk
    rw [List.getElem?_eq_getElem (hlt k hk)]
    simp only
    congr 1
    have hok := hops _ (List.getElem_mem (hlt k hk))
    apply List.map_congr_left
    intro u hu
    have huv : u ∈ outer ++ mid := hok.order.subset ((mem_permute hok.perm).2 hu)
    by_cases huo : u ∈ outer
    · have hur : u ∈ r.vars := (mem_permute hp).1 (by rw [hlast]; exact List.mem_append_left _ huo)
      rw [coordOf_append_left hpathl.symm _ _ huo, coordOf_append_left hcl.symm _ _ hur,
        ← coordOf_permute hp (List.nodup_append.1 hnd).1 hur, hlast, hpath, coordOf_append_left hpathl.symm _ _ huo]
    · have hum : u ∈ mid := (List.mem_append.1 huv).resolve_left huo
      rw [coordOf_append_right hpathl.symm _ _ huo, coordOf_map _ hum]
      by_cases huv' : u = v
      · subst huv'
        have hur : u ∈ r.vars := (mem_permute hp).1 (by rw [hlast]; simp)
        rw [coordOf_append_left (by rfl) _ _ (by simp), coordOf_append_left hcl.symm _ _ hur,
          ← coordOf_permute hp (List.nodup_append.1 hnd).1 hur, hlast, hpath, coordOf_append_right hpathl.symm _ _ huo]
      · have hur : u ∉ r.vars := by
          intro h
          have := (mem_permute hp).2 h
          rw [hlast] at this
          rcases List.mem_append.1 this with h | h
          · exact huo h
          · exact huv' (by simpa using h)
        rw [coordOf_append_right (by rfl) _ _ (by simpa using huv'), coordOf_append_right hcl.symm _ _ hur]

end Verif.Spmm
