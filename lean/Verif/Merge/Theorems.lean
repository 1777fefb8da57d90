import Verif.Merge.Kernel
import Verif.Merge.Sort
/-!
Properties C10, C11, C12 and C22: co-iteration of sparse and dense operands.

All theorems about lattices and loops quantify over every sort by decreasing size (`SortSpec`), since
`std::sort` may order ties in any way.  The suffix `_partial` marks the restriction to statements in
which repeated accesses are `consistent`: whenever both operands of an operator are present at a
coordinate, an access that occurs in both is left in both or in neither.  It holds when no access is
repeated (`linear_Consistent`) and when an access used on both sides of an operator is a factor of both
(`sharedFactors_Consistent`); `*_fails` show that the generated loops are wrong without it.
-/
namespace Verif.Merge
open Expr

variable {V : Type}

/-! ### C22: the zero rewriter -/

/-- C22. Removing accesses that are zero does not change the value of an expression (the undefined
expression stands for zero). -/
theorem zero_rewriter_sound (o : Ops V) (ho : ZeroLaws o) (val : Nat → V) (z : Nat → Bool) (e : Expr V)
    (hz : ∀ k ∈ e.leaves, z k = true → val k = o.zero) :
    evalOpt o val (e.zeroOut z) = e.eval o val :=
  evalOpt_zeroOut o ho val z e hz

/-- A value type in which nothing cancels: subtraction adds and division multiplies. -/
def natOps : Ops Nat := ⟨0, fun _ x => x, fun b x y => match b with
  | .add => x + y | .sub => x + y | .mul => x * y | .div => x * y⟩

theorem natOps_laws : ZeroLaws natOps := by
  constructor <;> intros <;> simp [natOps]

/-- All literals of the expression are nonzero. -/
def litsNonzero : Expr Nat → Prop
  | .acc _ => True
  | .lit v => v ≠ 0
  | .un _ a => litsNonzero a
  | .bin _ l r => litsNonzero l ∧ litsNonzero r

/-- C22. An expression is dropped exactly when it is zero for every value of the accesses that are
not known to be zero and every interpretation of the operators that obeys the zero laws. -/
theorem zero_rewriter_drops_iff (z : Nat → Bool) (e : Expr Nat) (hl : litsNonzero e) :
    e.zeroOut z = none ↔
      ∀ o : Ops Nat, ZeroLaws o → o.zero = 0 → ∀ val : Nat → Nat, (∀ k, z k = true → val k = 0) →
        e.eval o val = 0 := by
  constructor
  · intro h o ho h0 val hval
    rw [← evalOpt_zeroOut o ho val z e (fun k _ hk => by rw [h0]; exact hval k hk), h]
    exact h0
  · intro h
    have := h natOps natOps_laws rfl (fun k => if z k then 0 else 1) (fun k hk => by simp [hk])
    apply Classical.byContradiction
    intro hne
    have key : ∀ e : Expr Nat, litsNonzero e → e.zeroOut z ≠ none →
        0 < e.eval natOps (fun k => if z k then 0 else 1) := by
      intro e
      induction e with
      | acc k =>
        intro _ hn
        simp only [zeroOut] at hn
        cases hzk : z k <;> simp_all [eval]
      | lit v => intro hv _; exact Nat.pos_of_ne_zero hv
      | un u a ih =>
        intro hv hn
        simp only [zeroOut] at hn
        have : a.zeroOut z ≠ none := by intro hc; rw [hc] at hn; exact hn rfl
        exact ih hv this
      | bin b l r ihl ihr =>
        intro hv hn
        cases hzl : l.zeroOut z <;> cases hzr : r.zeroOut z <;>
          cases b <;> simp only [zeroOut, hzl, hzr, ne_eq, not_true_eq_false, reduceCtorEq,
            not_false_eq_true] at hn <;> simp only [eval, natOps]
        · exact Nat.lt_of_lt_of_le (ihr hv.2 (by rw [hzr]; simp)) (Nat.le_add_left _ _)
        · exact Nat.lt_of_lt_of_le (ihr hv.2 (by rw [hzr]; simp)) (Nat.le_add_left _ _)
        · exact Nat.lt_of_lt_of_le (ihl hv.1 (by rw [hzl]; simp)) (Nat.le_add_right _ _)
        · exact Nat.lt_of_lt_of_le (ihl hv.1 (by rw [hzl]; simp)) (Nat.le_add_right _ _)
        · exact Nat.lt_of_lt_of_le (ihl hv.1 (by rw [hzl]; simp)) (Nat.le_add_right _ _)
        · exact Nat.lt_of_lt_of_le (ihl hv.1 (by rw [hzl]; simp)) (Nat.le_add_right _ _)
        · exact Nat.mul_pos (ihl hv.1 (by rw [hzl]; simp)) (ihr hv.2 (by rw [hzr]; simp))
        · exact Nat.mul_pos (ihl hv.1 (by rw [hzl]; simp)) (ihr hv.2 (by rw [hzr]; simp))
    have h1 := key e hl hne
    omega

/-- `a0 * a1 - (a2 + 3)` with `a1` exhausted becomes `-(a2 + 3)`. -/
example : (Expr.bin .sub (.bin .mul (.acc 0) (.acc 1)) (.bin .add (.acc 2) (.lit 3)) : Expr Nat).zeroOut
    (fun k => k == 1) = some (.un .neg (.bin .add (.acc 2) (.lit 3))) := rfl

/-- The laws are needed: the rewriter turns `1 / x` into zero when `x` is zero, whatever the division
does there. -/
theorem zero_rewriter_division_fails :
    ∃ (o : Ops Int) (val : Nat → Int) (e : Expr Int) (z : Nat → Bool),
      o = ⟨0, fun u x => match u with | .neg => -x | _ => x, fun b x y => match b with
        | .add => x + y | .sub => x - y | .mul => x * y | .div => if y = 0 then 7 else x / y⟩ ∧
      (∀ k, z k = true → val k = o.zero) ∧ evalOpt o val (e.zeroOut z) ≠ e.eval o val :=
  ⟨_, fun _ => 0, .bin .div (.lit 1) (.acc 0), fun _ => true, rfl, fun _ _ => rfl, by decide⟩

/-! ### C12: the lattice covers every combination of present operands -/

/-- All position iterators of a lattice point are in the set of present operands. -/
def pointPresent (R : Nat → Bool) (p : Point) : Bool :=
  p.iters.all (fun x => match x with | .dim => true | .lev k => R k)

/-- C12. Let `R` be the compressed operands that store a coordinate. If no lattice point has all its
iterators present, the expression is zero there; otherwise the first such point, in the order of the
generated cases, has the value of the full expression once the other operands are removed. -/
theorem lattice_covers_partial (o : Ops V) (ho : ZeroLaws o) {K : Ctx} (hin : InTree K)
    {srt : List Point → List Point} (hs : SortSpec srt) {e : Expr V} (hlin : consistent K e)
    (R : Nat → Bool) (val : Nat → V)
    (hval : ∀ k, K k = some compressedAttr → R k = false → val k = o.zero) :
    (match (makeLattice K srt e).find? (pointPresent R) with
     | some p => evalOpt o val (e.zeroOut (exhausted (makeLattice K srt e) p))
     | none => o.zero) = e.eval o val := by
  have h : LoopOK K e (makeLattice K srt e) := (latOK_build hin hs e hlin).loop
  have hpp : ∀ p, pointPresent R p = true ↔ spSub p R := by
    intro p
    unfold pointPresent spSub
    rw [List.all_eq_true]
    constructor
    · intro hall k hk; exact hall _ hk
    · intro hsp x hx
      cases x with
      | dim => rfl
      | lev k => exact hsp k hx
  have hz : ∀ k ∈ e.leaves, zAbs K R k = true → val k = o.zero := by
    intro k _ hk
    simp only [zAbs, Bool.and_eq_true, decide_eq_true_eq, Bool.not_eq_true'] at hk
    exact hval k hk.1 hk.2
  cases hf : (makeLattice K srt e).find? (pointPresent R) with
  | none =>
    simp only
    rw [List.find?_eq_none] at hf
    have : supp K R e = false := by
      cases hsu : supp K R e with
      | false => rfl
      | true =>
        obtain ⟨m, hm, m1, _⟩ := h.cover R hsu
        exact absurd ((hpp m).2 m1) (hf m hm)
    rw [← evalOpt_zeroOut o ho val (zAbs K R) e hz, zeroOut_dead_abs hin this]
    rfl
  | some p =>
    simp only
    have hp := List.mem_of_find?_eq_some hf
    have hsp := (hpp p).1 (List.find?_some hf)
    obtain ⟨m, hm, m1, m3, m4⟩ := h.cover R (h.sound p hp R hsp)
    have hpm := m4 p hp hsp
    have heq : p = m := by
      rw [List.find?_eq_some_iff_append] at hf
      obtain ⟨_, as, bs, happ, hnot⟩ := hf
      have hm' := hm
      rw [happ, List.mem_append] at hm'
      rcases hm' with hma | hmb
      · have := hnot m hma
        rw [(hpp m).2 m1] at this
        cases this
      · rcases List.mem_cons.1 hmb with hmq | hmb
        · exact hmq.symm
        · have hsorted := h.sorted
          rw [happ] at hsorted
          exact h.eq_of_size hp hm hpm
            ((List.pairwise_cons.1 (List.pairwise_append.1 hsorted).2.1).1 m hmb)
    rw [zeroOut_congr (fun k hk => exhausted_eq h hp hk), heq, m3]
    exact evalOpt_zeroOut o ho val (zAbs K R) e hz

/-- Two compressed operands, one dense operand and a scalar: `(a0 + a1) * a2 + a3`. -/
def exK : Ctx := fun k => if k < 2 then some compressedAttr else if k = 2 then some denseAttr else none

def exE : Expr Nat := .bin .add (.bin .mul (.bin .add (.acc 0) (.acc 1)) (.acc 2)) (.acc 3)

theorem exK_inTree : InTree exK := by
  intro k a h
  unfold exK at h
  split at h
  · exact Or.inr (Option.some.inj h).symm
  · split at h
    · exact Or.inl (Option.some.inj h).symm
    · cases h

example : consistent exK exE := by
  refine linear_consistent ⟨⟨⟨trivial, trivial, ?_⟩, trivial, ?_⟩, trivial, ?_⟩ <;> simp [leaves]

/-- Repeated accesses: `a*b - a*c*a`, with `a`, `b`, `c` the accesses 0, 1 and 2, whatever is sparse. -/
def twiceE : Expr Nat := .bin .sub (.bin .mul (.acc 0) (.acc 1)) (.bin .mul (.bin .mul (.acc 0) (.acc 2)) (.acc 0))

theorem twiceE_Consistent (K : Ctx) : Consistent K twiceE := by
  apply sharedFactors_Consistent
  refine ⟨⟨trivial, trivial, ?_⟩, ⟨⟨trivial, trivial, ?_⟩, trivial, ?_⟩, ?_⟩ <;>
    intro k hk hk' _ <;> simp only [leaves, List.mem_append, List.mem_singleton] at hk hk' <;>
    simp only [factor, Bool.or_eq_true, beq_iff_eq] <;> omega

example : consistent exK twiceE := (twiceE_Consistent exK).self

/-- An access that is not a factor of both sides can be harmless as well: `(d + a) * a` with `d` dense. -/
example : consistent (fun k => if k = 0 then some denseAttr else some compressedAttr)
    (.bin .mul (.bin .add (.acc 0) (.acc 1)) (.acc 1) : Expr Nat) := by
  refine ⟨⟨trivial, trivial, fun R l' r' hl hr k hk hk' _ => ?_⟩, trivial, fun R l' r' hl hr k hk hk' _ => ?_⟩
  · simp only [leaves, List.mem_singleton] at hk hk'; omega
  · simp only [leaves, List.mem_singleton] at hk'
    subst hk'
    cases hR : R 1 <;>
      simp_all [Expr.zeroOut, zAbs, denseAttr, compressedAttr, leaves] <;> subst hl <;> subst hr <;> simp [leaves]

/-! ### C11: order, uniqueness and termination -/

/-- The number of stored coordinates of the compressed accesses of the statement, or the size of the
dimension when the dimension itself is iterated. -/
def iterationBound (K : Ctx) (srt : List Point → List Point) (I : Input) (e : Expr V) : Nat :=
  if (latIters (makeLattice K srt e)).any It.isDim then I.n
  else ((e.leaves.filter (fun k => decide (K k = some compressedAttr))).map
    (fun k => (I.crd k).length)).sum

theorem potential_bound {K : Ctx} (hin : InTree K) {srt : List Point → List Point} (hs : SortSpec srt)
    {e : Expr V} (hlin : consistent K e) (I : Input) :
    potential K e I ⟨fun _ => 0, 0⟩ 0 = iterationBound K srt I e := by
  have h : LoopOK K e (makeLattice K srt e) := (latOK_build hin hs e hlin).loop
  obtain ⟨r, rs, hL, hr, hroot⟩ := h.root
  have hrL : r ∈ makeLattice K srt e := by rw [hL]; exact List.mem_cons_self
  have : (latIters (makeLattice K srt e)).any It.isDim = supp K (fun _ => false) e := by
    rw [hL]
    simp only [latIters]
    rw [Bool.eq_iff_iff, List.any_eq_true, ← h.flag r hrL]
    constructor
    · rintro ⟨x, hx, hd⟩; rw [isDim_iff] at hd; subst hd; exact hx
    · intro hd; exact ⟨.dim, hd, rfl⟩
  unfold potential iterationBound
  rw [this]
  rfl

/-- C11. The merge loops terminate within `iterationBound` iterations, never load a coordinate outside
a segment, and execute bodies at strictly increasing coordinates inside the dimension. -/
theorem merge_loops_ordered_partial {K : Ctx} (hin : InTree K) {srt : List Point → List Point}
    (hs : SortSpec srt) {e : Expr V} (hlin : consistent K e) {I : Input} (hI : InputOK K I) :
    ∃ evs, runForall K srt I (iterationBound K srt I e) e = some evs ∧
      (evs.map Event.coord).Pairwise (· < ·) ∧ ∀ c ∈ evs.map Event.coord, c < I.n := by
  refine ⟨_, forall_spec hin hs hlin hI (Nat.le_of_eq (potential_bound hin hs hlin I)), ?_, ?_⟩
  · have : (spanEvents K e I 0 I.n).map Event.coord =
        (List.range' 0 I.n).filter (fun x => supp K (present I x) e) := by
      unfold spanEvents
      rw [List.map_map]
      exact List.map_id'' (fun _ => rfl) _
    rw [this]
    exact List.Pairwise.filter _ List.pairwise_lt_range'
  · intro c hc
    rw [List.mem_map] at hc
    obtain ⟨ev, hev, rfl⟩ := hc
    unfold spanEvents at hev
    rw [List.mem_map] at hev
    obtain ⟨x, hx, rfl⟩ := hev
    rw [List.mem_filter, List.mem_range'_1] at hx
    show x < I.n
    omega

/-- C10/C11. Exactly the coordinates at which the expression is not structurally zero are visited;
the statement executed there is the expression without the absent operands, and it reads every
compressed operand at the position that stores the coordinate. -/
theorem merge_loops_events_partial {K : Ctx} (hin : InTree K) {srt : List Point → List Point}
    (hs : SortSpec srt) {e : Expr V} (hlin : consistent K e) {I : Input} (hI : InputOK K I) :
    runForall K srt I (iterationBound K srt I e) e =
      some (((List.range I.n).filter (fun x => supp K (present I x) e)).map (fun x =>
        ⟨x, e.zeroOut (zAbs K (present I x)),
          readsOf K (fun k => (I.crd k).idxOf x) (e.zeroOut (zAbs K (present I x)))⟩)) := by
  rw [forall_spec hin hs hlin hI (Nat.le_of_eq (potential_bound hin hs hlin I)), List.range_eq_range']
  rfl

/-- Segments `[1,3]` and `[0,3,5]` of a dimension of size 6 meet the hypothesis on inputs. -/
example : InputOK exK ⟨fun k => if k = 0 then [1, 3] else if k = 1 then [0, 3, 5] else [], 6⟩ := by
  intro k _
  dsimp only
  split
  · decide
  · split <;> simp

/-! ### C10: the value of the result -/

/-- Execute the writes of a kernel into a zero-initialized array: plain assignment. -/
def storeAll (zero : V) (evs : List (List Nat × V)) : List Nat → V :=
  evs.foldl (fun y ev => fun p => if p = ev.1 then ev.2 else y p) (fun _ => zero)

/-- Execute the updates of a kernel: `y[proj coords] += value`. -/
def accumulateAll (o : Ops V) (proj : List Nat → List Nat) (evs : List (List Nat × V)) : List Nat → V :=
  evs.foldl (fun y ev => fun r => if r = proj ev.1 then o.bin .add (y r) ev.2 else y r) (fun _ => o.zero)

theorem storeAll_eq (zero : V) (f : List Nat → V) : ∀ (ps : List (List Nat)) (y : List Nat → V) (p : List Nat),
    (ps.map (fun q => (q, f q))).foldl (fun y ev => fun p => if p = ev.1 then ev.2 else y p) y p =
      if p ∈ ps then f p else y p := by
  intro ps
  induction ps with
  | nil => intro y p; simp
  | cons q qs ih =>
    intro y p
    rw [List.map_cons, List.foldl_cons, ih]
    by_cases h1 : p ∈ qs
    · simp [h1]
    · by_cases h2 : p = q
      · subst h2; simp
      · simp [h1, h2]

theorem accumulateAll_eq (o : Ops V) (proj : List Nat → List Nat) (f : List Nat → V) :
    ∀ (ps : List (List Nat)) (y : List Nat → V) (r : List Nat),
    (ps.map (fun q => (q, f q))).foldl
        (fun y ev => fun r => if r = proj ev.1 then o.bin .add (y r) ev.2 else y r) y r =
      (ps.filter (fun q => decide (proj q = r))).foldl (fun acc q => o.bin .add acc (f q)) (y r) := by
  intro ps
  induction ps with
  | nil => intro y r; rfl
  | cons q qs ih =>
    intro y r
    rw [List.map_cons, List.foldl_cons, ih, List.filter_cons]
    by_cases h : proj q = r
    · subst h; simp
    · have h' : ¬ r = proj q := fun hc => h hc.symm
      simp [h, h']

theorem foldl_filter_zero {α : Type} (o : Ops V) (ho : ZeroLaws o) (f : α → V) (vis : α → Bool) :
    ∀ (ps : List α) (acc : V), (∀ p ∈ ps, vis p = false → f p = o.zero) →
    (ps.filter vis).foldl (fun acc q => o.bin .add acc (f q)) acc =
      ps.foldl (fun acc q => o.bin .add acc (f q)) acc := by
  intro ps
  induction ps with
  | nil => intros; rfl
  | cons p ps ih =>
    intro acc h
    rw [List.filter_cons, List.foldl_cons]
    have ih' := fun acc => ih acc (fun q hq => h q (List.mem_cons_of_mem _ hq))
    cases hv : vis p with
    | true => simp only [if_true, List.foldl_cons]; exact ih' _
    | false =>
      simp only [Bool.false_eq_true, if_false]
      rw [ih', h p List.mem_cons_self hv, ho.add_zero]

/-- The value of the expression at a coordinate tuple: every operand looked up in its storage. -/
def exprAt (o : Ops V) (vals : Nat → List V) (ls : List Loop) (e : Expr V) (path : List Nat) : V :=
  e.eval o (fun k => valueAt o.zero (vals k) (levelsOf ls k) path 0)

/-- Every operand of the statement has well-formed storage for the dimensions of the loops. -/
def storageOK (vals : Nat → List V) (ls : List Loop) (e : Expr V) : Prop :=
  ∀ k ∈ e.leaves, wfLevels 1 (dimLevels ls k) (vals k).length

/-- C10 (element-wise). For every loop nest, every well-formed storage of the operands and every
expression, the kernel runs to completion without loads out of bounds, and afterwards the result has,
at every coordinate tuple, the value of the expression on the operands there. -/
theorem kernel_elementwise_partial (o : Ops V) (ho : ZeroLaws o) {srt : List Point → List Point}
    (hs : SortSpec srt) (vals : Nat → List V) (ls : List Loop) (e : Expr V)
    (hlin : ∀ l ∈ ls, Consistent (ctxOf l) e) (hwf : storageOK vals ls e) :
    ∃ evs, kernel o srt vals ls (fun _ => 0) e = some evs ∧
      ∀ path ∈ box (ls.map Loop.n), storeAll o.zero evs path = exprAt o vals ls e path := by
  obtain ⟨h1, h2⟩ := kernel_spec o ho hs vals ls (fun _ => 0) e (fun _ => 1) hlin
    (fun k hk => ⟨Nat.zero_lt_one, hwf k hk⟩)
  refine ⟨_, h1, ?_⟩
  intro path hp
  unfold storeAll
  refine (storeAll_eq o.zero (exprAt o vals ls e) _ _ _).trans ?_
  split
  · rfl
  · rename_i hn
    rw [List.mem_filter] at hn
    symm
    apply h2 path hp
    cases hv : visited o ls (fun _ => 0) e path with
    | false => rfl
    | true => exact absurd ⟨hp, hv⟩ hn

/-- C10 (reductions). Accumulating into the coordinates selected by `proj` gives, at every result
coordinate, the sum over all coordinate tuples that map to it, in lexicographic order. -/
theorem kernel_reduction_partial (o : Ops V) (ho : ZeroLaws o) {srt : List Point → List Point}
    (hs : SortSpec srt) (vals : Nat → List V) (ls : List Loop) (e : Expr V)
    (hlin : ∀ l ∈ ls, Consistent (ctxOf l) e) (hwf : storageOK vals ls e) (proj : List Nat → List Nat) :
    ∃ evs, kernel o srt vals ls (fun _ => 0) e = some evs ∧
      ∀ r, accumulateAll o proj evs r =
        ((box (ls.map Loop.n)).filter (fun path => decide (proj path = r))).foldl
          (fun acc path => o.bin .add acc (exprAt o vals ls e path)) o.zero := by
  obtain ⟨h1, h2⟩ := kernel_spec o ho hs vals ls (fun _ => 0) e (fun _ => 1) hlin
    (fun k hk => ⟨Nat.zero_lt_one, hwf k hk⟩)
  refine ⟨_, h1, ?_⟩
  intro r
  unfold accumulateAll
  refine (accumulateAll_eq o proj (exprAt o vals ls e) _ _ _).trans ?_
  rw [List.filter_filter]
  have : ((box (ls.map Loop.n)).filter (fun a => decide (proj a = r) && visited o ls (fun _ => 0) e a)) =
      (((box (ls.map Loop.n)).filter (fun a => decide (proj a = r))).filter (visited o ls (fun _ => 0) e)) := by
    rw [List.filter_filter]
    apply List.filter_congr
    intro a _; rw [Bool.and_comm]
  rw [this]
  apply foldl_filter_zero o ho
  intro p hp hv
  exact h2 p (List.mem_filter.1 hp).1 hv

/-- C11 for the whole nest: the executed statements are at distinct coordinate tuples, a subsequence
of the lexicographic order of the iteration space. -/
theorem kernel_visits_once_partial (o : Ops V) (ho : ZeroLaws o) {srt : List Point → List Point}
    (hs : SortSpec srt) (vals : Nat → List V) (ls : List Loop) (e : Expr V)
    (hlin : ∀ l ∈ ls, Consistent (ctxOf l) e) (hwf : storageOK vals ls e) :
    ∃ evs, kernel o srt vals ls (fun _ => 0) e = some evs ∧
      (evs.map Prod.fst).Sublist (box (ls.map Loop.n)) := by
  obtain ⟨h1, _⟩ := kernel_spec o ho hs vals ls (fun _ => 0) e (fun _ => 1) hlin
    (fun k hk => ⟨Nat.zero_lt_one, hwf k hk⟩)
  refine ⟨_, h1, ?_⟩
  rw [List.map_map]
  have : (Prod.fst ∘ fun path => (path, e.eval o (fun k =>
      valueAt o.zero (vals k) (levelsOf ls k) path 0))) = (id : List Nat → List Nat) := rfl
  rw [this, List.map_id]
  exact List.filter_sublist

/-- Sparse matrix times sparse vector: access 0 is a CSR matrix (3×4), access 1 a compressed vector. -/
def spmspv : List Loop :=
  [⟨3, fun k => if k = 0 then some (.dense 3) else none⟩,
   ⟨4, fun k => if k = 0 then some (.comp [0, 2, 2, 3] [0, 3, 1]) else if k = 1 then some (.comp [0, 2] [1, 3]) else none⟩]

def spmspvVals : Nat → List Nat := fun k => if k = 0 then [5, 6, 7] else [10, 20]

def spmspvE : Expr Nat := .bin .mul (.acc 0) (.acc 1)

example : ∀ l ∈ spmspv, Consistent (ctxOf l) spmspvE := by
  intro l _; exact linear_Consistent ⟨trivial, trivial, by simp [leaves]⟩

theorem spmspv_wf : storageOK spmspvVals spmspv spmspvE := by
  intro k hk
  simp only [spmspvE, leaves, List.mem_append, List.mem_singleton] at hk
  rcases hk with rfl | rfl
  · simp only [dimLevels, spmspv, List.map_cons, List.map_nil, if_true, wfLevels, spmspvVals]
    refine ⟨trivial, ?_, by decide⟩
    intro p hp
    have : p = 0 ∨ p = 1 ∨ p = 2 := by omega
    rcases this with rfl | rfl | rfl
    · exact ⟨0, [0, 3], rfl, by decide, by decide⟩
    · exact ⟨2, [], rfl, by decide, by decide⟩
    · exact ⟨2, [1], rfl, by decide, by decide⟩
  · have h1 : ((1 : Nat) = 0) = False := by simp
    simp only [dimLevels, spmspv, List.map_cons, List.map_nil, if_true, wfLevels, spmspvVals, h1, if_false]
    refine ⟨?_, by decide⟩
    intro p hp
    have : p = 0 := by omega
    subst this
    exact ⟨0, [1, 3], rfl, by decide, by decide⟩

/-- The kernel for `y(i) += A(i,j) * x(j)` on this storage. -/
example : kernel natOps isort spmspvVals spmspv (fun _ => 0) spmspvE =
    some [([0, 3], 120), ([2, 1], 70)] := by decide +kernel

/-! ### Repeated operands

`combos` drops a combination when one side lacks an iterator that occurs elsewhere in that side's
lattice (merge_lattice.cpp 566-588, 641-668).  For `c + a*b + a` this drops the point `{c, a}`. -/

def repK : Ctx := fun k => if k < 3 then some compressedAttr else if k = 3 then some denseAttr else none

/-- `c + a*b + a`, with `a`, `b`, `c` the accesses 0, 1, 2. -/
def repE : Expr Nat := .bin .add (.bin .add (.acc 2) (.bin .mul (.acc 0) (.acc 1))) (.acc 0)

def repI : Input := ⟨fun k => if k = 0 then [1, 6] else if k = 2 then [2, 6] else [], 8⟩

theorem repK_inTree : InTree repK := by
  intro k a h
  unfold repK at h
  split at h
  · exact Or.inr (Option.some.inj h).symm
  · split at h
    · exact Or.inl (Option.some.inj h).symm
    · cases h

theorem repI_ok : InputOK repK repI := by
  intro k _
  simp only [repI]
  split
  · decide
  · split <;> simp

/-- C11 is false for repeated operands: coordinate 6 is visited twice and the order goes back. -/
theorem merge_loops_order_fails :
    ∃ (K : Ctx) (srt : List Point → List Point) (e : Expr Nat) (I : Input) (evs : List (Event Nat)),
      InTree K ∧ SortSpec srt ∧ InputOK K I ∧ runForall K srt I 4 e = some evs ∧
      ¬ (evs.map Event.coord).Pairwise (· < ·) := by
  have hr : (runForall repK isort repI 4 repE).map (fun evs => evs.map Event.coord) = some [1, 6, 2, 6] := by
    decide +kernel
  cases h : runForall repK isort repI 4 repE with
  | none => rw [h] at hr; cases hr
  | some evs =>
    rw [h] at hr
    simp only [Option.map_some, Option.some.injEq] at hr
    exact ⟨repK, isort, repE, repI, evs, repK_inTree, isort_spec, repI_ok, h, by rw [hr]; decide⟩

/-- C12 is false for repeated operands: with `a` and `c` present and `b` absent, the first case of
`c + a*b + a` computes `a`. -/
theorem lattice_covers_fails :
    ∃ (K : Ctx) (srt : List Point → List Point) (e : Expr Nat) (R : Nat → Bool) (val : Nat → Nat),
      InTree K ∧ SortSpec srt ∧ (∀ k, K k = some compressedAttr → R k = false → val k = 0) ∧
      (match (makeLattice K srt e).find? (pointPresent R) with
       | some p => evalOpt natOps val (e.zeroOut (exhausted (makeLattice K srt e) p))
       | none => 0) ≠ e.eval natOps val :=
  ⟨repK, isort, repE, fun k => k != 1, fun k => if k = 1 then 0 else 1, repK_inTree, isort_spec,
    (by intro k _ hk; have : k = 1 := by simpa using hk
        simp [this]), by decide +kernel⟩

/-- The vectors of the counterexample as a one-loop kernel. -/
def repLoops : List Loop :=
  [⟨8, fun k => if k = 0 then some (.comp [0, 2] [1, 6]) else if k = 1 then some (.comp [0, 0] [])
    else if k = 2 then some (.comp [0, 2] [2, 6]) else none⟩]

def repVals : Nat → List Nat := fun k => if k = 1 then [] else [10, 20]

/-- C10 is false for repeated operands: `y(i) = c(i) + a(i)*b(i) + a(i)` with `a(6) = c(6) = 20` and `b`
empty stores 20, not 40, at coordinate 6. -/
theorem kernel_elementwise_fails :
    ∃ (srt : List Point → List Point) (vals : Nat → List Nat) (ls : List Loop) (e : Expr Nat)
      (evs : List (List Nat × Nat)), SortSpec srt ∧ storageOK vals ls e ∧
      kernel natOps srt vals ls (fun _ => 0) e = some evs ∧
      ∃ path ∈ box (ls.map Loop.n), storeAll 0 evs path ≠ exprAt natOps vals ls e path := by
  have hr : kernel natOps isort repVals repLoops (fun _ => 0) repE =
    some [([1], 10), ([6], 20), ([2], 10), ([6], 20)] := by decide +kernel
  refine ⟨isort, repVals, repLoops, repE, _, isort_spec, ?_, hr, [6], by decide, by decide⟩
  intro k hk
  have hk' : k = 0 ∨ k = 1 ∨ k = 2 := by
    simp only [repE, leaves, List.mem_append, List.mem_singleton] at hk; omega
  have h10 : ((1 : Nat) = 0) = False := by simp
  have h20 : ((2 : Nat) = 0) = False := by simp
  have h21 : ((2 : Nat) = 1) = False := by simp
  have h01 : ((0 : Nat) = 1) = False := by simp
  rcases hk' with rfl | rfl | rfl <;>
    simp only [dimLevels, repLoops, List.map_cons, List.map_nil, if_true, if_false, wfLevels, repVals,
      h10, h20, h21, h01]
  · refine ⟨?_, by decide⟩
    intro p hp
    have : p = 0 := by omega
    subst this
    exact ⟨0, [1, 6], rfl, by decide, by decide⟩
  · refine ⟨?_, by decide⟩
    intro p hp
    have : p = 0 := by omega
    subst this
    exact ⟨0, [], rfl, by decide, by decide⟩
  · refine ⟨?_, by decide⟩
    intro p hp
    have : p = 0 := by omega
    subst this
    exact ⟨0, [2, 6], rfl, by decide, by decide⟩

/-- `d + (c + a*b + a)` with a dense vector `d`. -/
def divE : Expr Nat := .bin .add (.acc 3) repE

def divI : Input := ⟨fun k => if k = 0 then [2] else if k = 2 then [1] else [], 4⟩

/-- A loop over the dimension and a sparse iterator that is behind the dimension never ends. -/
theorem behind_diverges {K : Ctx} {I : Input} {lat : List Point} {p : Point} {s : Option (Expr V)}
    {k : Nat} (hK : K k = some compressedAttr) (hp : p.iters = [.dim, .lev k]) :
    ∀ (fuel : Nat) (st : St) (x : Nat), (I.crd k)[st.pos k]? = some x → x < st.i →
      runWhile K I lat p s fuel st = none := by
  have hr : p.rangers K = [.lev k] := by
    simp [Point.rangers, hp, It.isFull, hK, compressedAttr]
  have hm : p.mergers K = [.dim] := by
    simp [Point.mergers, hp, It.isFull, hK, compressedAttr]
  intro fuel
  induction fuel with
  | zero =>
    intro st x hx hlt
    have hlen := (List.getElem?_eq_some_iff.1 hx).1
    simp [runWhile, hr, unexhausted, hlen]
  | succ fuel ih =>
    intro st x hx hlt
    have hlen := (List.getElem?_eq_some_iff.1 hx).1
    have hu : unexhausted I st (p.rangers K) = true := by simp [hr, unexhausted, hlen]
    have hl : loadsOk I st p = true := by simp [loadsOk, hp, coordOf, hx]
    unfold runWhile
    rw [hu, hl, hm]
    simp only [if_true, resolve, coordOf]
    have hadv : advance K I st st.i p = ⟨fun j => if .lev j ∈ [It.dim, .lev k] then incIter K I st st.i j
        else st.pos j, st.i + 1⟩ := by
      unfold advance
      rw [hp]
      simp
    have hpos : (advance K I st st.i p).pos k = st.pos k := by
      rw [hadv]
      simp only [List.mem_cons, List.not_mem_nil, or_false, reduceCtorEq, false_or, if_true]
      unfold incIter
      have h1 : It.isFull K (.lev k) = false := by simp [It.isFull, hK, compressedAttr]
      have h2 : (coordOf I st (.lev k) == some st.i) = false := by
        simp only [coordOf, hx]
        simp; omega
      rw [h1, h2]; simp
    rw [ih (advance K I st st.i p) x (by rw [hpos]; exact hx) (by rw [hadv]; simp only; omega)]

/-- The lattice of `d + (c + a*b + a)`. -/
def divLat : List Point :=
  [⟨[.dim, .lev 2, .lev 0, .lev 1], [.lev 3], false⟩, ⟨[.dim, .lev 0, .lev 1], [.lev 3], false⟩,
   ⟨[.dim, .lev 0], [.lev 3], false⟩, ⟨[.dim, .lev 2], [.lev 3], false⟩, ⟨[.dim], [.lev 3], false⟩]

theorem divLat_eq : makeLattice repK isort divE = divLat := by decide +kernel

theorem runPoints_none {K : Ctx} {I : Input} {lat : List Point} {e : Expr V} {fuel : Nat} {p front : Point}
    {ps rest : List Point} {st : St} (hsub : subLattice lat p = front :: rest)
    (h : runWhile K I (front :: rest) front (e.zeroOut (exhausted lat p)) fuel st = none) :
    runPoints K I lat e fuel (p :: ps) st = none := by
  unfold runPoints
  rw [hsub]
  simp only
  rw [h]

theorem runPoints_next {K : Ctx} {I : Input} {lat : List Point} {e : Expr V} {fuel : Nat} {p front : Point}
    {ps rest : List Point} {st : St} {out : Out V} (hsub : subLattice lat p = front :: rest)
    (h : runWhile K I (front :: rest) front (e.zeroOut (exhausted lat p)) fuel st = some out)
    (hn : runPoints K I lat e out.fuel ps out.st = none) :
    runPoints K I lat e fuel (p :: ps) st = none := by
  unfold runPoints
  rw [hsub]
  simp only
  rw [h]
  simp only
  rw [hn]

theorem runWhile_skip {K : Ctx} {I : Input} {lat : List Point} {p : Point} {s : Option (Expr V)} {st : St}
    (h : unexhausted I st (p.rangers K) = false) (fuel : Nat) :
    runWhile K I lat p s fuel st = some ⟨st, fuel, []⟩ := by
  cases fuel <;> simp [runWhile, h]

theorem runWhile_step {K : Ctx} {I : Input} {lat : List Point} {p : Point} {s : Option (Expr V)} {st : St}
    {c : Nat} (hu : unexhausted I st (p.rangers K) = true) (hl : loadsOk I st p = true)
    (hr : resolve I st (p.mergers K) = some c) (fuel : Nat) :
    runWhile K I lat p s (fuel + 1) st = (runWhile K I lat p s fuel (advance K I st c p)).map
      (fun out => { out with evs := mergeCases K I st c lat s ++ out.evs }) := by
  have hd : runWhile K I lat p s (fuel + 1) st =
    if unexhausted I st (p.rangers K) then
      if loadsOk I st p then
        match resolve I st (p.mergers K) with
        | none => none
        | some c =>
          match runWhile K I lat p s fuel (advance K I st c p) with
          | none => none
          | some out => some { out with evs := mergeCases K I st c lat s ++ out.evs }
      else none
    else some ⟨st, fuel + 1, []⟩ := rfl
  rw [hd, hu, hl, hr]
  simp only [if_true]
  cases runWhile K I lat p s fuel (advance K I st c p) <;> rfl

/-- C11 is false for repeated operands: with a dense operand the loops do not terminate, for any
iteration budget. -/
theorem merge_loops_terminate_fails :
    ∃ (K : Ctx) (srt : List Point → List Point) (e : Expr Nat) (I : Input),
      InTree K ∧ SortSpec srt ∧ InputOK K I ∧ ∀ fuel, runForall K srt I fuel e = none := by
  refine ⟨repK, isort, divE, divI, repK_inTree, isort_spec, ?_, ?_⟩
  · intro k _
    simp only [divI]
    split
    · decide
    · split <;> simp
  · intro fuel
    have hl : getLoopLattice repK divLat = divLat := by decide +kernel
    have hrun : runForall repK isort divI fuel divE = runPoints repK divI divLat divE fuel divLat ⟨fun _ => 0, 0⟩ := by
      unfold runForall
      rw [divLat_eq]
      simp only
      rw [hl]
      rfl
    rw [hrun]
    let st0 : St := ⟨fun _ => 0, 0⟩
    refine runPoints_next (front := divLat[0]) (rest := divLat.tail) (by decide +kernel)
      (runWhile_skip (show unexhausted divI st0 _ = false by decide +kernel) fuel) ?_
    refine runPoints_next (front := divLat[1]) (rest := subLattice divLat divLat[1] |>.tail) (by decide +kernel)
      (runWhile_skip (show unexhausted divI st0 _ = false by decide +kernel) fuel) ?_
    show runPoints repK divI divLat divE fuel [divLat[2], divLat[3], divLat[4]] st0 = none
    match fuel with
    | 0 => exact runPoints_none (front := divLat[2]) (rest := subLattice divLat divLat[2] |>.tail) (by decide +kernel) rfl
    | 1 => exact runPoints_none (front := divLat[2]) (rest := subLattice divLat divLat[2] |>.tail) (by decide +kernel) rfl
    | 2 => exact runPoints_none (front := divLat[2]) (rest := subLattice divLat divLat[2] |>.tail) (by decide +kernel) rfl
    | f + 3 =>
      let st1 := advance repK divI st0 0 divLat[2]
      let st2 := advance repK divI st1 1 divLat[2]
      let st3 := advance repK divI st2 2 divLat[2]
      have h3 := runWhile_skip (K := repK) (I := divI) (lat := subLattice divLat divLat[2])
        (p := divLat[2]) (s := divE.zeroOut (exhausted divLat divLat[2])) (st := st3) (by decide +kernel) f
      have h2 := runWhile_step (K := repK) (I := divI) (lat := subLattice divLat divLat[2])
        (p := divLat[2]) (s := divE.zeroOut (exhausted divLat divLat[2])) (st := st2) (c := 2)
        (by decide +kernel) (by decide +kernel) (by decide +kernel) f
      have h1 := runWhile_step (K := repK) (I := divI) (lat := subLattice divLat divLat[2])
        (p := divLat[2]) (s := divE.zeroOut (exhausted divLat divLat[2])) (st := st1) (c := 1)
        (by decide +kernel) (by decide +kernel) (by decide +kernel) (f + 1)
      have h0 := runWhile_step (K := repK) (I := divI) (lat := subLattice divLat divLat[2])
        (p := divLat[2]) (s := divE.zeroOut (exhausted divLat divLat[2])) (st := st0) (c := 0)
        (by decide +kernel) (by decide +kernel) (by decide +kernel) (f + 2)
      rw [show advance repK divI st0 0 divLat[2] = st1 from rfl, h1,
        show advance repK divI st1 1 divLat[2] = st2 from rfl, h2,
        show advance repK divI st2 2 divLat[2] = st3 from rfl, h3] at h0
      simp only [Option.map_some] at h0
      have hsub : subLattice divLat divLat[2] = divLat[2] :: (subLattice divLat divLat[2]).tail := by
        decide +kernel
      rw [hsub] at h0
      refine runPoints_next hsub h0 ?_
      refine runPoints_none (front := divLat[3]) (rest := (subLattice divLat divLat[3]).tail) (by decide +kernel) ?_
      exact behind_diverges (k := 2) rfl rfl f st3 1 (by decide +kernel) (by decide +kernel)

end Verif.Merge
