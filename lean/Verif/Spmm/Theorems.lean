import Verif.Spmm.Spec
import Verif.Spmm.Rewrite
import Verif.Spmm.Compute
/-!
C71: temporaries that the compiler inserts do not change what is computed, and programs with them compute their expression.
-/
namespace Verif.Spmm

section Statements
open Verif.Kernel

variable {V : Type}

theorem extent_same (shape : Nat → List Nat) (cd : Codes) {w i k j A B C : Nat} (a1 a2 a3 : Attrs) (op : Option Nat) (f : Nat)
    (hA : (shape A).length = 2) :
    extent shape (withTemporary cd w i k j A B C) =
    extent shape (.loop i a1 (.loop k a2 (.loop j a3 (.assign A false [i, j] (plainModes [i, j]) op
      (.bin f (.acc B false [i, k] (plainModes [i, k])) (.acc C false [k, j] (plainModes [k, j]))))))) := by
  obtain ⟨d0, d1, hd⟩ : ∃ d0 d1, shape A = [d0, d1] := by
    match hs : shape A with
    | [d0, d1] => exact ⟨d0, d1, rfl⟩
    | [] => rw [hs] at hA; simp at hA
    | [_] => rw [hs] at hA; simp at hA
    | _ :: _ :: _ :: _ => rw [hs] at hA; simp at hA
  funext v
  unfold extent withTemporary
  simp only [Stmt.accs, Expr.accs, plainModes, List.map_cons, List.map_nil, List.cons_append, List.nil_append, List.findSome?_cons, hd, extentOf]
  by_cases h1 : i = v
  · simp only [if_pos h1]
  · by_cases h2 : j = v
    · simp only [if_neg h1, if_pos h2]
    · simp only [if_neg h1, if_neg h2]
      cases shape w <;> simp [extentOf, h2]

/-- C71: `insertTemporaries` does not change what a statement computes, down to the order in which sums are added up: for every
statement, all formats, all dimensions and contents of the tensors and any meaning of the operators, in which a plain
assignment stores its right-hand side. The temporary `w` is a new tensor with the fill value of the result. Missing: windows,
strides, index sets and reductions other than sums, for which the statement does not hold (`windows_are_dropped_fails`,
`index_sets_are_dropped_fails`, `reductions_become_sums_fails`). -/
theorem insert_temporaries_partial (S : Sem V) (info : Nat → Info) (shape : Nat → List Nat) (cd : Codes) (fmt : Nat → Fmt)
    (w : Nat) (s : Stmt) (σ : Store V) (hs : Plain shape cd.add [] s) (hw : w ∉ s.tensors)
    (hfill : ∀ t ∈ s.results, S.fill (info w).fill = S.fill (info t).fill)
    (hupd : ∀ x y, S.upd none x y = y) (hview : ∀ x, S.view false x = x) :
    run S info shape (insertTemporaries cd fmt w s) σ = run S info shape s σ := by
  unfold insertTemporaries optimizeSpMM
  split
  · rename_i i a1 k a2 j a3 A sA isA mA op f B sB isB mB C sC isC mC
    split
    · rename_i h
      obtain ⟨rfl, rfl, rfl, rfl, -⟩ := h
      obtain ⟨-, hk, hj, ⟨rfl, hlA, rfl⟩, ⟨⟨rfl, -, rfl⟩, ⟨rfl, -, rfl⟩⟩, hAe, hop⟩ := hs
      simp only [List.mem_cons, List.not_mem_nil, or_false, not_or] at hk hj
      simp only [Expr.accs, List.map_cons, List.map_nil, List.cons_append, List.nil_append, List.mem_cons, List.not_mem_nil, or_false, not_or] at hAe
      simp only [Stmt.tensors, Stmt.accs, Expr.accs, List.map_cons, List.map_nil, List.cons_append, List.nil_append, List.mem_cons, List.not_mem_nil, or_false, not_or] at hw
      have hop' : op = some cd.add := by
        refine hop.resolve_left (fun h => ?_)
        have := h k (by simp)
        simp only [List.mem_cons, List.not_mem_nil, or_false] at this
        rcases this with e | e
        · exact hk e
        · exact hj.1 e.symm
      subst hop'
      unfold run
      rw [show List.map (fun _ => Mode.plain) [i, j] = plainModes [i, j] from rfl,
        show List.map (fun _ => Mode.plain) [i, k] = plainModes [i, k] from rfl,
        show List.map (fun _ => Mode.plain) [k, j] = plainModes [k, j] from rfl,
        extent_same shape cd a1 a2 a3 (some cd.add) cd.mul (by rw [← hlA]; rfl)]
      refine (rows_same S info _ cd a1 a2 a3 (fun e => hk e.symm) (fun e => hj.2 e.symm) (fun e => hj.1 e.symm) hAe.1 hAe.2
        hw.1 hw.2.1 hw.2.2 hupd hview (hfill A (by simp [Stmt.results])) _ _ ?_).symm
      intro x y
      simp [clear, withTemporary, Stmt.results]
    · rfl
  · rfl

/-- The matrix product `A(i,j) = sum(k, B(i,k)*C(k,j))`, as it is compiled; `i`, `k`, `j` are 0, 1, 2 and `A`, `B`, `C` too. -/
def product (mB : List Mode) (op : Nat) : Stmt :=
  .loop 0 plainLoop (.loop 1 plainLoop (.loop 2 plainLoop (.assign 0 false [0, 2] [.plain, .plain] (some op)
    (.bin 0 (.acc 1 false [0, 1] mB) (.acc 2 false [1, 2] [.plain, .plain])))))

/-- Rows in a dense and columns in a compressed level. -/
def csr : Fmt := ⟨[⟨.dense, true⟩, ⟨.compressed, true⟩], [0, 1]⟩

/-- Addition (0) and maximum (1), and multiplication. -/
def sem : Sem Nat where
  lit c := c
  idx i := i
  view _ x := x
  un _ x := x
  bin _ x y := x * y
  red _ xs := xs.sum
  upd
    | none, _, y => y
    | some 0, x, y => x + y
    | some _, x, y => max x y
  fill _ := 0

def noInfo : Nat → Info := fun _ => ⟨0, [], 0, 0⟩

/-- `A` is 2x2, `B` 4x2 in the windowed examples and 2x2 otherwise, `C` 2x2. -/
def contents : Store Nat := fun t c => match t, c with
  | 1, [a, b] => 10 * a + b + 1
  | 2, [a, b] => a + 2 * b + 1
  | _, _ => 0

/-- The hypotheses of `insert_temporaries_partial` are met, and the statement is changed. -/
example : Plain (fun _ => [2, 2]) 0 [] (product [.plain, .plain] 0) ∧ 3 ∉ (product [.plain, .plain] 0).tensors ∧
    (∀ x y, sem.upd none x y = y) ∧ (∀ x, sem.view false x = x) ∧
    insertTemporaries ⟨0, 0⟩ (fun _ => csr) 3 (product [.plain, .plain] 0) ≠ product [.plain, .plain] 0 := by
  refine ⟨?_, by decide, fun _ _ => rfl, fun _ => rfl, by decide⟩
  refine ⟨by simp, by simp, by simp, ⟨rfl, rfl, rfl⟩, ⟨⟨rfl, rfl, rfl⟩, ⟨rfl, rfl, rfl⟩⟩, by decide, Or.inr rfl⟩

/-- What a product computes with rows from a window of `B` that begins in row 2. -/
theorem windows_are_dropped_fails :
    run sem noInfo (fun t => if t = 1 then [4, 2] else [2, 2]) (product [.window 2 4 1, .plain] 0) contents 0 [0, 0] = 65 ∧
    run sem noInfo (fun t => if t = 1 then [4, 2] else [2, 2])
      (insertTemporaries ⟨0, 0⟩ (fun _ => csr) 3 (product [.window 2 4 1, .plain] 0)) contents 0 [0, 0] = 5 := by
  decide

/-- The same with an index set of rows. -/
theorem index_sets_are_dropped_fails :
    run sem noInfo (fun t => if t = 1 then [4, 2] else [2, 2]) (product [.indexSet [3, 1], .plain] 0) contents 0 [0, 0] = 95 ∧
    run sem noInfo (fun t => if t = 1 then [4, 2] else [2, 2])
      (insertTemporaries ⟨0, 0⟩ (fun _ => csr) 3 (product [.indexSet [3, 1], .plain] 0)) contents 0 [0, 0] = 5 := by
  decide

/-- A reduction with the maximum of the products is compiled as their sum. -/
theorem reductions_become_sums_fails :
    run sem noInfo (fun _ => [2, 2]) (product [.plain, .plain] 1) contents 0 [1, 1] = 48 ∧
    run sem noInfo (fun _ => [2, 2]) (insertTemporaries ⟨0, 0⟩ (fun _ => csr) 3 (product [.plain, .plain] 1)) contents 0 [1, 1] = 81 := by
  decide

end Statements

section Programs
open Verif.Merge
open Verif.Pack (Kind Row permute firstAt inRange lexCmp QsortSpec sortRows)
open Verif.Assembly
open Verif.EndToEnd

variable {V : Type}

/-- C71: the product of two sparse matrices, from the inserted components to the components of the result: with the temporary of
`optimizeSpMM` (`withTemporary`), operands stored by rows in any levels, dense or compressed, and the result in a dense
and a compressed level, every component is the sum of the products of the inserted components. `i`, `k` and `j` are 0, 1
and 2. -/
theorem spmm_product (o : Ops V) (ho : ZeroLaws o) (ha : AddLaws o) {srt : List Point → List Point}
    (hs : SortSpec srt) {qs : List (Row V) → List (Row V)} (hq : ∀ n, QsortSpec n qs) {sort : List Nat → List Nat}
    (hsort : Verif.Workspace.SortSpec sort) (cap : Nat) (hcap : 0 < cap) (m l n : Nat) (kB kC : List Kind)
    (hkB : kB.length = 2) (hkC : kC.length = 2) (B C : List (Row V)) (hB : ∀ x ∈ B, inRange [m, l] x.1)
    (hC : ∀ x ∈ C, inRange [l, n] x.1) :
    ∃ out, computeWs qs srt sort cap o (fun v => [m, l, n].getD v 0) [⟨[0, 1], kB, [0, 1], B⟩, ⟨[1, 2], kC, [0, 1], C⟩]
        (.bin .mul (.acc 0) (.acc 1)) ⟨[0, 2], [.dense, .sparse], [0, 1]⟩ [1, 2] = some out ∧
      (out.map Prod.fst).Pairwise (fun a b => lexCmp a b < 0) ∧ (∀ x ∈ out, inRange [m, n] x.1) ∧
      ∀ a b, a < m → b < n → firstAt o.zero out [a, b] = (List.range l).foldl (fun s x => o.bin .add s
        (o.bin .mul (inserted o ⟨[0, 1], kB, [0, 1], B⟩ [a, x]) (inserted o ⟨[1, 2], kC, [0, 1], C⟩ [x, b]))) o.zero := by
  obtain ⟨out, h1, h2, -, h4, h5⟩ := compute_temporary_partial o ho ha hs hq hsort cap hcap (fun v => [m, l, n].getD v 0)
    [⟨[0, 1], kB, [0, 1], B⟩, ⟨[1, 2], kC, [0, 1], C⟩] (.bin .mul (.acc 0) (.acc 1)) ⟨[0, 2], [.dense, .sparse], [0, 1]⟩ [1] [1, 2] [0] 2
    (by decide) rfl (by decide) (by decide) (by decide) (by intro h; cases h)
    (by
      intro a ha
      simp only [List.mem_cons, List.not_mem_nil, or_false] at ha
      rcases ha with rfl | rfl
      · exact ⟨hkB, by show List.Perm [0, 1] [0, 1]; decide, by show List.Sublist [0, 1] [0, 1, 2]; decide, hB⟩
      · exact ⟨hkC, by show List.Perm [0, 1] [0, 1]; decide, by show List.Sublist [1, 2] [0, 1, 2]; decide, hC⟩)
    (repeats_of_nodup _ (by show List.Nodup [0, 1]; decide)) (by show ∀ k ∈ [0, 1], k < 2; decide)
  have hr : ∀ x ∈ out, inRange [m, n] x.1 := h4
  refine ⟨out, h1, ?_, hr, ?_⟩
  · have : out.map (fun x => permute [0, 1] x.1) = out.map Prod.fst := by
      apply List.map_congr_left
      intro x hx
      have hl := (hr x hx).1
      match hx1 : x.1 with
      | [a, b] => rfl
      | [] => rw [hx1] at hl; simp at hl
      | [_] => rw [hx1] at hl; simp at hl
      | _ :: _ :: _ :: _ => rw [hx1] at hl; simp at hl
    rw [this] at h2
    exact h2
  · intro a b hab hb
    rw [h5 [a, b] (Pack.mem_box.1 (by
      show [a, b] ∈ box [m, n]
      simp [box, hab, hb]))]
    unfold meaning sumBox
    have hbox : box (List.map (fun v => [m, l, n].getD v 0) [1]) = (List.range l).map (fun x => [x]) := by
      simp [box]
      rw [← List.map_eq_flatMap]
    rw [hbox, List.foldl_map]
    rfl

/-! ### Example: both operands in CSR, with a component inserted twice -/

def mB : List (Row Nat) := [([2, 1], 5), ([0, 3], 1), ([2, 0], 7), ([0, 3], 2)]
def mC : List (Row Nat) := [([3, 1], 10), ([0, 2], 100), ([1, 2], 1000), ([1, 0], 3)]

def sortNat (l : List Nat) : List Nat := l.foldr (fun a l => l.takeWhile (· < a) ++ a :: l.dropWhile (· < a)) []

example : computeWs sortRows isort sortNat 4 natOps (fun v => [3, 4, 3].getD v 0)
    [⟨[0, 1], [.dense, .sparse], [0, 1], mB⟩, ⟨[1, 2], [.dense, .sparse], [0, 1], mC⟩]
    (.bin .mul (.acc 0) (.acc 1)) ⟨[0, 2], [.dense, .sparse], [0, 1]⟩ [1, 2] =
    some [([0, 1], 30), ([2, 0], 15), ([2, 2], 5700)] := by decide +kernel

/-- The hypotheses of `spmm_product` are met. -/
example : ∃ out, computeWs sortRows isort (fun l => l.mergeSort (fun a b => decide (a ≤ b))) 4 natOps (fun v => [3, 4, 3].getD v 0)
    [⟨[0, 1], [.dense, .sparse], [0, 1], mB⟩, ⟨[1, 2], [.dense, .sparse], [0, 1], mC⟩]
    (.bin .mul (.acc 0) (.acc 1)) ⟨[0, 2], [.dense, .sparse], [0, 1]⟩ [1, 2] = some out ∧ ∀ x ∈ out, inRange [3, 3] x.1 := by
  have hr : ∀ (d c : List Nat), c ∈ box d → inRange d c := fun d c h => Pack.mem_box.1 h
  obtain ⟨out, h1, -, h2, -⟩ := spmm_product natOps natOps_laws natOps_add isort_spec (fun n => Pack.sortRows_spec n)
    Verif.Workspace.mergeSort_spec 4 (by decide) 3 4 3 [.dense, .sparse] [.dense, .sparse] rfl rfl mB mC
    (by
      intro x hx
      simp only [mB, List.mem_cons, List.not_mem_nil, or_false] at hx
      rcases hx with rfl | rfl | rfl | rfl <;> exact hr _ _ (by decide))
    (by
      intro x hx
      simp only [mC, List.mem_cons, List.not_mem_nil, or_false] at hx
      rcases hx with rfl | rfl | rfl | rfl <;> exact hr _ _ (by decide))
  exact ⟨out, h1, h2⟩

/-- The temporary without accelerator, for a result of dense levels. -/
example : computeWs sortRows isort sortNat 4 natOps (fun v => [3, 4, 3].getD v 0)
    [⟨[0, 1], [.sparse, .sparse], [0, 1], mB⟩, ⟨[1, 2], [.dense, .sparse], [0, 1], mC⟩]
    (.bin .mul (.acc 0) (.acc 1)) ⟨[0, 2], [.sparse, .dense], [0, 1]⟩ [1, 2] =
    some [([0, 0], 0), ([0, 1], 30), ([0, 2], 0), ([2, 0], 15), ([2, 1], 0), ([2, 2], 5700)] := by decide +kernel

end Programs
end Verif.Spmm
