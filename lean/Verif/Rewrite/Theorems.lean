import Verif.Rewrite.Kept
/-!
# Rewriting low-level code

Every pass over the generated code (simplification, sizes of workspaces) is built on `IRRewriter`.
-/
namespace Verif.Rewrite
open Verif.Types Model

/-- A node is reported as kept only if it is the old one: passes never lose a change by comparing addresses. All
trees and all passes. -/
theorem kept_is_same (f : Expr → Option Expr) (g : Stmt → Option Stmt) (s : Stmt) (h : (rwS f g s).2 = true) :
    (rwS f g s).1 = s := rwS_same s h

/-- A pass that has nothing to replace returns the old statement. All trees. -/
theorem nothing_to_do (f : Expr → Option Expr) (g : Stmt → Option Stmt) (s : Stmt) (h : FreeS f g s) :
    rwS f g s = (s, true) := rwS_free s h

/-- Expressions: the result is the tree in which exactly the nodes of the pass are replaced. For passes that keep
types and replace nothing inside of `BinOp` nodes. -/
theorem expr_replaced_partial (f : Expr → Option Expr) (e : Expr) (hf : KeepsTypes f) (hb : BuiltE e)
    (hk : KeptE f e) : (rwE f e).1 = replE f e := rwE_eq hf e hb hk

/-- Statements: the result is the tree in which exactly the nodes of the pass are replaced, with all flags. For
passes that keep types and replace nothing in the places that the code overlooks (`KeptS`). -/
theorem stmt_replaced_partial (f : Expr → Option Expr) (g : Stmt → Option Stmt) (s : Stmt) (hf : KeepsTypes f)
    (hb : BuiltS s) (hk : KeptS f g s) : (rwS f g s).1 = replS f g s := rwS_eq hf s hb hk

/-- A pass that replaces expressions by others with the same value keeps the value of every expression, whatever the
operators mean. -/
theorem value_kept {V : Type} (M : Meaning V) (σ : Nat → V) (f : Expr → Option Expr) (hf : KeepsTypes f)
    (hv : ∀ e e', f e = some e' → value M σ e' = value M σ e) (e : Expr) (hb : BuiltE e) :
    value M σ (rwE f e).1 = value M σ e :=
  (rwE_value (fun e e' hb h => ⟨(hf e e' hb h).1, fun _ => (hf e e' hb h).2, hv e e' h⟩) e hb).val

/-- A pass over expressions keeps all statements, in their order and with their flags: kinds, parallel units,
unrolling and widths of loops, atomic updates, reallocation, clearing, comments, texts. -/
theorem statements_kept (f : Expr → Option Expr) (s : Stmt) (hb : BuiltS s) :
    outline (rwS f nothing s).1 = outline s := (rwS_outline s hb).out

/-- Copy propagation: after the variable `x` is replaced by `r` and its declaration is removed, it does not occur any
more. For statements in which it does not occur in a place that the code overlooks. -/
theorem variable_gone_partial (x : Nat) (r : Expr) (s : Stmt) (hr : occE x (typeOf r) r = false) (hu : r ≠ .undef)
    (hb : BuiltS s) (hk : KeptS (instead x r) (undeclare x (typeOf r)) s) :
    occS x (typeOf r) (rwS (instead x r) (undeclare x (typeOf r)) s).1 = false := by
  rw [rwS_eq (instead_types hu) s hb hk]
  exact replS_gone hr (undeclare_clean _ _ _ _) s

/-- Dimensions of workspaces are replaced by their sizes. -/
theorem workspace_size (ts : List Temp) (t : Temp) (es : List Expr) (e : Expr) (id mode : Nat) (ty : Kind)
    (ht : t ∈ ts) (hd : ts.Pairwise (fun a b => a.name ≠ b.name)) (hs : t.sizes = some es) (he : es[mode]? = some e) :
    (rwE (wsDim ts) (makeDimension id ty t.name mode)).1 = e := by
  have h : wsDim ts (makeDimension id ty t.name mode) = some e := findTemp_some ht hs he hd
  unfold makeDimension at h ⊢
  unfold rwE
  rw [h]; rfl

/-- Dimensions of tensors that have no workspace's name stay. -/
theorem other_size_partial (ts : List Temp) (id mode : Nat) (ty : Kind) (name : String)
    (h : ∀ t ∈ ts, t.name ≠ name) :
    (rwE (wsDim ts) (makeDimension id ty name mode)).1 = makeDimension id ty name mode := by
  have h' : FreeE (wsDim ts) (makeDimension id ty name mode) := ⟨findTemp_none h, rfl⟩
  rw [rwE_free _ h']

/-- The sizes of workspaces are put into a statement, and nothing else changes. -/
theorem workspaces_partial (ts : List Temp) (s : Stmt)
    (hs : ∀ t ∈ ts, ∀ es, t.sizes = some es → ∀ e ∈ es, typeOf e = .int32 ∧ e ≠ .undef)
    (hb : BuiltS s) (hk : KeptS (wsDim ts) nothing s) : rewriteTemporaryGP ts s = replS (wsDim ts) nothing s :=
  rwS_eq (wsDim_types hs) s hb hk

/-! ### A kernel -/

/-- `i` -/
def vi : Expr := .var 1 .int32 "i"
/-- `iB`, the position in `B`. -/
def viB : Expr := .var 2 .int32 "iB"
/-- `B_vals[iB]` -/
def loadB : Expr := .bin .load .float64 (.var 3 .float64 "B_vals") viB
/-- `for (i = 0; i < B1_dimension; i++) { int32_t iB = i; A_vals[iB] = data; }` with vectors of width 8. -/
def kernel (data : Expr) : Stmt :=
  .loop vi (.lit .int32 0) (makeDimension 7 .float64 "B" 0) (.lit .int32 1)
    (.scope (.block [.decl viB vi, .store (.var 4 .float64 "A_vals") viB data false .notParallel]))
    .vectorized .cpuVector 0 8
/-- `-B_vals[iB]` -/
def plain : Expr := .un .neg .float64 loadB
/-- `B_vals[iB] >> 2`, made by a user-defined operator. -/
def shift : Expr := .bin (.text "" " >> " "") .float64 loadB (.lit .float64 2)

theorem vi_ne : vi ≠ .undef := by simp [vi]

theorem kernel_built (d : Expr) (hd : BuiltE d) : BuiltS (kernel d) := by
  simp [kernel, BuiltS, BuiltSs, BuiltE, hd, Empty, isScope, viB, vi, makeDimension]

example : BuiltS (kernel plain) ∧ BuiltS (kernel shift) :=
  ⟨kernel_built _ (by simp [plain, BuiltE, unType, biType, typeOf, loadB, viB]),
   kernel_built _ (by simp [shift, BuiltE, biType, typeOf, loadB, viB])⟩

/-- The hypotheses of the theorems hold for copy propagation in the kernel, which has much to replace. -/
theorem plain_kept : KeptS (instead 2 vi) (undeclare 2 .int32) (kernel plain) := by
  simp [kernel, plain, KeptS, KeptSs, KeptE, loadB, isText, undeclare, viB, vi, makeDimension]

example : (rwS (instead 2 vi) (undeclare 2 .int32) (kernel plain)).1 =
    .loop vi (.lit .int32 0) (makeDimension 7 .float64 "B" 0) (.lit .int32 1)
      (.scope (.block [.store (.var 4 .float64 "A_vals") vi
        (.un .neg .float64 (.bin .load .float64 (.var 3 .float64 "B_vals") vi)) false .notParallel]))
      .vectorized .cpuVector 0 8 := rfl

example : occS 2 .int32 (kernel plain) = true ∧ occS 2 .int32 (rwS (instead 2 vi) (undeclare 2 .int32) (kernel plain)).1 = false :=
  ⟨rfl, variable_gone_partial 2 vi _ rfl vi_ne
    (kernel_built _ (by simp [plain, BuiltE, unType, biType, typeOf, loadB, viB])) plain_kept⟩

/-- Values: `iB` and `i` are equal. -/
example (M : Meaning Int) : value M (fun _ => 5) (rwE (instead 2 vi) plain).1 = value M (fun _ => 5) plain :=
  value_kept M _ _ (instead_types vi_ne) (by
    intro e e' h
    cases e with
    | var y ty n =>
      simp only [instead] at h
      split at h
      · cases h; rfl
      · cases h
    | _ => cases h) _ (by simp [plain, BuiltE, unType, biType, typeOf, loadB, viB])

/-- Nothing to replace. -/
example : FreeS (instead 9 vi) nothing (kernel plain) := by
  simp [kernel, plain, FreeS, FreeSs, FreeE, loadB, viB, vi, makeDimension, instead, nothing]

/-- Two workspaces with sizes. -/
def temps : List Temp := [⟨"w", some [.var 20 .int32 "n", .var 21 .int32 "m"]⟩, ⟨"v", some [.var 22 .int32 "k"]⟩]

example : (rwE (wsDim temps) (makeDimension 30 .float64 "w" 1)).1 = .var 21 .int32 "m" :=
  workspace_size temps ⟨"w", some [.var 20 .int32 "n", .var 21 .int32 "m"]⟩ _ _ 30 1 .float64 List.mem_cons_self
    (by simp [temps]) rfl rfl

example : ∀ t ∈ temps, t.name ≠ "B" := by simp [temps]

example : ∀ t ∈ temps, ∀ es, t.sizes = some es → ∀ e ∈ es, typeOf e = .int32 ∧ e ≠ .undef := by
  simp [temps, typeOf]

/-! ### Failures -/

/-- The operands of user-defined operators (`BinOp`) are not replaced. Copy propagation removes the declaration of a
variable that the result still uses: the generated code does not compile. -/
theorem operator_fails : ∃ (x : Nat) (r : Expr) (s : Stmt), BuiltS s ∧ r ≠ .undef ∧ occE x (typeOf r) r = false ∧
    declS x (typeOf r) s = true ∧
    declS x (typeOf r) (rwS (instead x r) (undeclare x (typeOf r)) s).1 = false ∧
    occS x (typeOf r) (rwS (instead x r) (undeclare x (typeOf r)) s).1 = true :=
  ⟨2, vi, kernel shift, kernel_built _ (by simp [shift, BuiltE, biType, typeOf, loadB, viB]), vi_ne, rfl,
    rfl, rfl, rfl⟩

/-- Coordinates of yielded components are not replaced. -/
theorem yield_fails : ∃ (x : Nat) (r : Expr) (s : Stmt), BuiltS s ∧ r ≠ .undef ∧ occE x (typeOf r) r = false ∧
    occS x (typeOf r) (rwS (instead x r) nothing s).1 = true :=
  ⟨2, vi, .yield [viB] loadB, by simp [BuiltS, BuiltL, BuiltE, biType, typeOf, loadB, viB], vi_ne, rfl, rfl⟩

/-- The old size of a reallocated array is not replaced. -/
theorem old_size_fails : ∃ (x : Nat) (r : Expr) (s : Stmt), BuiltS s ∧ r ≠ .undef ∧ occE x (typeOf r) r = false ∧
    occS x (typeOf r) (rwS (instead x r) nothing s).1 = true :=
  ⟨2, vi, .alloc (.var 5 .int32 "A2_crd") (.bin .mul .int32 viB (.lit .int32 2)) viB true false,
    by simp [BuiltS, BuiltE, biType, typeOf, viB, maxType], vi_ne, rfl, rfl⟩

/-- An update that is atomic in the unit of warps becomes one that is atomic in no unit. -/
theorem atomic_unit_fails : ∃ (x : Nat) (r : Expr) (arr loc d arr' loc' d' : Expr), r ≠ .undef ∧
    (rwS (instead x r) nothing (.store arr loc d true .gpuWarp)).1 = .store arr' loc' d' true .notParallel :=
  ⟨2, vi, .var 4 .float64 "A_vals", viB, loadB, _, _, _, vi_ne, rfl⟩

/-- The type of a minimum of operands of different types changes, although the replacement has the same type. -/
theorem minimum_type_fails : ∃ (x : Nat) (r e : Expr), r ≠ .undef ∧ KeepsTypes (instead x r) ∧
    typeOf (rwE (instead x r) e).1 ≠ typeOf e :=
  ⟨2, vi, .many .min .int64 [viB, .lit .int64 7], vi_ne, instead_types vi_ne, by decide⟩

/-- Workspaces are recognised by their names: the dimension of a tensor with the name of a workspace becomes the size
of the workspace. -/
theorem workspace_name_fails : ∃ (ts : List Temp) (id mode : Nat) (ty : Kind) (name : String) (other : Expr),
    (rwE (wsDim ts) (makeDimension id ty name mode)).1 = other ∧ other ≠ makeDimension id ty name mode :=
  ⟨temps, 7, 0, .float64, "w", .var 20 .int32 "n", rfl, (fun h => nomatch h)⟩

end Verif.Rewrite
