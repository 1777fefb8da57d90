import Verif.Merge.Run
import Verif.Merge.Spec
import Verif.Util
/-!
A whole loop nest over compressed and dense operands: every `forall` is lowered through its merge
lattice, the body of each case is lowered with the rewritten statement
(`lowerForall`/`lowerForallBody`, lowerer_impl_imperative.cpp 647-897, 2070-2145).

Simplifications: the level order of every operand agrees with the loop order; no derived variables;
operands are dense or compressed; the right-hand side is evaluated for the innermost statement and
its value is an event of the kernel.
-/
namespace Verif.Merge
open Expr

/-- A loop: the size of its dimension and the level of each access at its variable. -/
structure Loop where
  n : Nat
  lvl : Nat → Option Lvl

/-- Properties of the mode formats (mode_format_dense.cpp 10-18, mode_format_compressed.cpp 14-25). -/
def attrOf : Lvl → Attr
  | .dense _ => denseAttr
  | .comp _ _ => compressedAttr

def ctxOf (l : Loop) : Ctx := fun k => (l.lvl k).map attrOf

/-- The coordinates of the segment of an access (`posIterBounds`, mode_format_compressed.cpp 80-86);
only the accesses of the statement have iterators. -/
def crdOf (l : Loop) (pos : Nat → Nat) (leaves : List Nat) (k : Nat) : List Nat :=
  if k ∈ leaves then
    match l.lvl k with
    | some (.comp P C) => match segment P C (pos k) with
      | some (_, seg) => seg
      | none => []
    | _ => []
  else []

/-- Are all the bounds loads of the loop inside the arrays? -/
def segsOk (l : Loop) (pos : Nat → Nat) (leaves : List Nat) : Bool :=
  leaves.all (fun k => match l.lvl k with
    | some (.comp P C) => (segment P C (pos k)).isSome
    | _ => true)

/-- The position variables inside the body: unchanged when the access is not indexed by the loop
variable, `parent*width + coord` for dense (mode_format_dense.cpp 50-55), the position variable of
the iterator for compressed. -/
def nextPos {V : Type} (l : Loop) (pos : Nat → Nat) (ev : Event V) (k : Nat) : Nat :=
  match l.lvl k with
  | none => pos k
  | some (.dense nd) => pos k * nd + ev.coord
  | some (.comp P _) => (P[pos k]?).getD 0 + (ev.reads.lookup k).getD 0

/-- Evaluate the right-hand side, loading every access from its value array
(`lowerAccess`, lowerer_impl_imperative.cpp 2688-2740). `none`: out of bounds. -/
def evalAt {V : Type} (o : Ops V) (vals : Nat → List V) (pos : Nat → Nat) : Expr V → Option V
  | .acc k => (vals k)[pos k]?
  | .lit v => some v
  | .un u a => (evalAt o vals pos a).map (o.un u)
  | .bin b l r => match evalAt o vals pos l, evalAt o vals pos r with
    | some x, some y => some (o.bin b x y)
    | _, _ => none

/-- The loop nest. The budget of a merge is the dimension size plus the number of stored
coordinates of its segments. The result is the list of executed scalar statements: coordinates and
value. `none`: a load out of bounds or a loop that exceeds its budget. -/
def kernel {V : Type} (o : Ops V) (srt : List Point → List Point) (vals : Nat → List V) :
    List Loop → (Nat → Nat) → Expr V → Option (List (List Nat × V))
  | [], pos, e => (evalAt o vals pos e).map (fun v => [([], v)])
  | l :: ls, pos, e =>
    if segsOk l pos e.leaves then
      let I : Input := ⟨crdOf l pos e.leaves, l.n⟩
      match runForall (ctxOf l) srt I (l.n + (e.leaves.map (fun k => (I.crd k).length)).sum) e with
      | none => none
      | some evs =>
        (evs.mapM (fun (ev : Event V) => match ev.stmt with
          | none => some []
          | some e' => (kernel o srt vals ls (nextPos l pos ev) e').map
              (List.map (fun (cv : List Nat × V) => (ev.coord :: cv.1, cv.2))))).map List.flatten
    else none

/-! ### the kernel meets the specification -/

variable {V : Type}

theorem inTree_ctxOf (l : Loop) : InTree (ctxOf l) := by
  intro k a h
  unfold ctxOf at h
  cases hl : l.lvl k with
  | none => rw [hl] at h; cases h
  | some x =>
    rw [hl] at h
    cases x with
    | dense n => left; cases h; rfl
    | comp P C => right; cases h; rfl

theorem linear_zeroOut {K : Ctx} {z : Nat → Bool} {e e' : Expr V} (hl : linear K e)
    (h : e.zeroOut z = some e') : linear K e' := by
  induction e generalizing e' with
  | acc k =>
    simp only [zeroOut] at h
    split at h
    · cases h
    · cases h; trivial
  | lit v => simp only [zeroOut, Option.some.injEq] at h; subst h; trivial
  | un u a ih =>
    simp only [zeroOut] at h
    cases ha : a.zeroOut z with
    | none => rw [ha] at h; cases h
    | some a' => rw [ha] at h; cases h; exact (ih hl ha : linear K a')
  | bin b l r ihl ihr =>
    obtain ⟨h1, h2, h3⟩ := hl
    cases b <;> simp only [zeroOut] at h <;> cases hl : l.zeroOut z <;> cases hr : r.zeroOut z <;>
      rw [hl, hr] at h <;> simp only [Option.some.injEq, reduceCtorEq] at h <;> subst h
    all_goals
      first
        | exact ihl h1 hl
        | exact ihr h2 hr
        | exact (ihr h2 hr : linear K _)
        | exact (show linear K _ ∧ linear K _ ∧ _ from ⟨ihl h1 hl, ihr h2 hr, fun k hk hk' => h3 k (leaves_zeroOut hl k hk).1 (leaves_zeroOut hr k hk').1⟩)

/-- The repeated accesses of the expression are harmless, and they stay harmless in every statement that
outer loops can leave of it. -/
def Consistent (K : Ctx) (e : Expr V) : Prop :=
  ∀ (z : Nat → Bool) (e' : Expr V), e.zeroOut z = some e' → consistent K e'

theorem Consistent.zeroOut {K : Ctx} {z : Nat → Bool} {e e' : Expr V} (hc : Consistent K e)
    (h : e.zeroOut z = some e') : Consistent K e' := by
  intro z' e'' h'
  apply hc (fun k => z k || z' k) e''
  rw [← zeroOutOpt_zeroOut, h]
  exact h'

theorem Consistent.self {K : Ctx} {e : Expr V} (hc : Consistent K e) : consistent K e :=
  hc (fun _ => false) e (zeroOut_none (fun _ _ => rfl))

theorem linear_Consistent {K : Ctx} {e : Expr V} (hl : linear K e) : Consistent K e :=
  fun _ _ h => linear_consistent (linear_zeroOut hl h)

/-- Every access that occurs in both operands of an operator is a factor of both. -/
def sharedFactors (K : Ctx) : Expr V → Prop
  | .acc _ => True
  | .lit _ => True
  | .un _ a => sharedFactors K a
  | .bin _ l r => sharedFactors K l ∧ sharedFactors K r ∧
    ∀ k ∈ l.leaves, k ∈ r.leaves → K k ≠ none → factor k l = true ∧ factor k r = true

theorem factor_zeroOut {k : Nat} {z : Nat → Bool} {e e' : Expr V} (hf : factor k e = true)
    (h : e.zeroOut z = some e') : factor k e' = true := by
  induction e generalizing e' with
  | acc j =>
    simp only [Expr.zeroOut] at h
    split at h
    · cases h
    · cases h; exact hf
  | lit v => cases hf
  | un u a ih =>
    simp only [Expr.zeroOut] at h
    cases ha : a.zeroOut z with
    | none => rw [ha] at h; cases h
    | some a' => rw [ha] at h; cases h; exact (ih hf ha : factor k a' = true)
  | bin b l r ihl ihr =>
    cases b <;> simp only [Expr.zeroOut] at h <;> cases hl : l.zeroOut z <;> cases hr : r.zeroOut z <;>
      rw [hl, hr] at h <;> simp only [Option.some.injEq, reduceCtorEq] at h <;> subst h <;>
      simp only [factor, Bool.or_eq_true, Bool.and_eq_true] at hf ⊢
    all_goals
      first
        | exact ⟨ihl hf.1 hl, ihr hf.2 hr⟩
        | exact hf.imp (fun x => ihl x hl) (fun x => ihr x hr)
        | exact ihl hf.1 hl
        | exact ihr hf.2 hr

theorem factor_leaf {k : Nat} : ∀ {e : Expr V}, factor k e = true → k ∈ e.leaves
  | .acc j, h => by simp only [factor, beq_iff_eq] at h; simp [leaves, h]
  | .lit _, h => by cases h
  | .un _ a, h => by simpa [leaves] using factor_leaf (e := a) h
  | .bin b l r, h => by
    rw [leaves_bin]
    cases b <;> simp only [factor, Bool.or_eq_true, Bool.and_eq_true] at h
    · exact Or.inl (factor_leaf h.1)
    · exact Or.inl (factor_leaf h.1)
    · exact h.imp factor_leaf factor_leaf
    · exact h.imp factor_leaf factor_leaf

theorem sharedFactors_zeroOut {K : Ctx} {z : Nat → Bool} {e e' : Expr V} (hl : sharedFactors K e)
    (h : e.zeroOut z = some e') : sharedFactors K e' := by
  induction e generalizing e' with
  | acc k =>
    simp only [Expr.zeroOut] at h
    split at h
    · cases h
    · cases h; trivial
  | lit v => simp only [Expr.zeroOut, Option.some.injEq] at h; subst h; trivial
  | un u a ih =>
    simp only [Expr.zeroOut] at h
    cases ha : a.zeroOut z with
    | none => rw [ha] at h; cases h
    | some a' => rw [ha] at h; cases h; exact (ih hl ha : sharedFactors K a')
  | bin b l r ihl ihr =>
    obtain ⟨h1, h2, h3⟩ := hl
    cases b <;> simp only [Expr.zeroOut] at h <;> cases hl : l.zeroOut z <;> cases hr : r.zeroOut z <;>
      rw [hl, hr] at h <;> simp only [Option.some.injEq, reduceCtorEq] at h <;> subst h
    all_goals
      first
        | exact ihl h1 hl
        | exact ihr h2 hr
        | exact (ihr h2 hr : sharedFactors K _)
        | exact (show sharedFactors K _ ∧ sharedFactors K _ ∧ _ from ⟨ihl h1 hl, ihr h2 hr, fun k hk hk' hK =>
            have := h3 k (leaves_zeroOut hl k hk).1 (leaves_zeroOut hr k hk').1 hK
            ⟨factor_zeroOut this.1 hl, factor_zeroOut this.2 hr⟩⟩)

theorem sharedFactors_consistent {K : Ctx} {e : Expr V} (h : sharedFactors K e) : consistent K e := by
  induction e with
  | acc k => trivial
  | lit v => trivial
  | un u a ih => exact ih h
  | bin b l r ihl ihr =>
    refine ⟨ihl h.1, ihr h.2.1, fun _ _ _ hl hr k hk hk' hK => ?_⟩
    have := h.2.2 k hk hk' hK
    exact iff_of_true (factor_leaf (factor_zeroOut this.1 hl)) (factor_leaf (factor_zeroOut this.2 hr))

/-- A syntactic condition under which repeated accesses are harmless: an access used on both sides of an
operator is a factor of both sides. -/
theorem sharedFactors_Consistent {K : Ctx} {e : Expr V} (h : sharedFactors K e) : Consistent K e :=
  fun _ _ hz => sharedFactors_consistent (sharedFactors_zeroOut h hz)

/-- The coordinates of a tuple that the loops visit. -/
def visited (o : Ops V) : List Loop → (Nat → Nat) → Expr V → List Nat → Bool
  | [], _, _, _ => true
  | _ :: _, _, _, [] => false
  | l :: ls, pos, e, c :: cs =>
    let I : Input := ⟨crdOf l pos e.leaves, l.n⟩
    supp (ctxOf l) (present I c) e &&
      (match e.zeroOut (zAbs (ctxOf l) (present I c)) with
       | none => false
       | some e' => visited o ls (nextPos l pos (evAt (ctxOf l) e I c)) e' cs)

theorem mapM_eq_some_map {α β : Type} {f : α → Option β} {g : α → β} : ∀ {l : List α},
    (∀ x ∈ l, f x = some (g x)) → l.mapM f = some (l.map g)
  | [], _ => rfl
  | a :: as, h => by
    have h1 := h a List.mem_cons_self
    have h2 := mapM_eq_some_map (l := as) (fun x hx => h x (List.mem_cons_of_mem _ hx))
    simp [List.mapM_cons, h1, h2]

theorem eval_congr {o : Ops V} {val val' : Nat → V} {e : Expr V} (h : ∀ k ∈ e.leaves, val k = val' k) :
    e.eval o val = e.eval o val' := by
  induction e with
  | acc k => exact h k (by simp [leaves])
  | lit v => rfl
  | un u a ih => simp only [eval]; rw [ih (fun k hk => h k (by simpa [leaves] using hk))]
  | bin b l r ihl ihr =>
    simp only [eval]
    rw [ihl (fun k hk => h k (by simp [leaves, hk])), ihr (fun k hk => h k (by simp [leaves, hk]))]

theorem evalAt_eq {o : Ops V} {vals : Nat → List V} {pos : Nat → Nat} {e : Expr V}
    (h : ∀ k ∈ e.leaves, pos k < (vals k).length) :
    evalAt o vals pos e = some (e.eval o (fun k => (vals k).getD (pos k) o.zero)) := by
  induction e with
  | acc k =>
    have := h k (by simp [leaves])
    simp [evalAt, eval, List.getD_eq_getElem?_getD, List.getElem?_eq_getElem this]
  | lit v => rfl
  | un u a ih =>
    simp only [evalAt]; rw [ih (fun k hk => h k (by simpa [leaves] using hk))]; rfl
  | bin b l r ihl ihr =>
    simp only [evalAt]
    rw [ihl (fun k hk => h k (by simp [leaves, hk])), ihr (fun k hk => h k (by simp [leaves, hk]))]; rfl

theorem lookup_map {l : List Nat} {f : Nat → Nat} {k : Nat} (h : k ∈ l) :
    (l.map (fun k => (k, f k))).lookup k = some (f k) := by
  induction l with
  | nil => cases h
  | cons a as ih =>
    rw [List.map_cons, List.lookup_cons]
    by_cases hak : k = a
    · subst hak; simp
    · have : (k == a) = false := by simpa using hak
      rw [this]
      simp only
      rcases List.mem_cons.1 h with h | h
      · exact absurd h hak
      · exact ih h

/-- The storage of access `k`, loop by loop. -/
def levelsOf (ls : List Loop) (k : Nat) : List (Option Lvl) := ls.map (fun l => l.lvl k)

def dimLevels (ls : List Loop) (k : Nat) : List (Nat × Option Lvl) := ls.map (fun l => (l.n, l.lvl k))

theorem segsOk_of {l : Loop} {pos : Nat → Nat} {leaves : List Nat}
    (h : ∀ k ∈ leaves, ∀ P C, l.lvl k = some (.comp P C) → (segment P C (pos k)).isSome) :
    segsOk l pos leaves = true := by
  unfold segsOk
  rw [List.all_eq_true]
  intro k hk
  split
  · rename_i P C hl; exact h k hk P C hl
  · rfl

theorem kernel_spec (o : Ops V) (ho : ZeroLaws o) {srt : List Point → List Point} (hs : SortSpec srt)
    (vals : Nat → List V) (ls : List Loop) :
    ∀ (pos : Nat → Nat) (e : Expr V) (size : Nat → Nat),
      (∀ l ∈ ls, Consistent (ctxOf l) e) →
      (∀ k ∈ e.leaves, pos k < size k ∧ wfLevels (size k) (dimLevels ls k) (vals k).length) →
      kernel o srt vals ls pos e =
        some (((box (ls.map Loop.n)).filter (visited o ls pos e)).map
          (fun path => (path, e.eval o (fun k => valueAt o.zero (vals k) (levelsOf ls k) path (pos k))))) ∧
      ∀ path ∈ box (ls.map Loop.n), visited o ls pos e path = false →
        e.eval o (fun k => valueAt o.zero (vals k) (levelsOf ls k) path (pos k)) = o.zero := by
  induction ls with
  | nil =>
    intro pos e size _ hwf
    constructor
    · simp only [kernel, List.map_nil, box]
      rw [evalAt_eq (fun k hk => by
        have := hwf k hk
        simp only [dimLevels, List.map_nil, wfLevels] at this
        omega)]
      simp [visited, levelsOf, valueAt]
    · intro path _ hv; simp [visited] at hv
  | cons l ls ih =>
    intro pos e size hlin hwf
    -- segments
    have hcomp : ∀ k ∈ e.leaves, ∀ P C, l.lvl k = some (.comp P C) →
        ∃ a seg, segment P C (pos k) = some (a, seg) ∧ seg.Pairwise (· < ·) ∧ (∀ x ∈ seg, x < l.n) ∧
          wfLevels C.length (dimLevels ls k) (vals k).length := by
      intro k hk P C hl
      obtain ⟨h1, h2⟩ := hwf k hk
      simp only [dimLevels, List.map_cons, hl, wfLevels] at h2
      obtain ⟨a, seg, hseg, h3, h4⟩ := h2.1 (pos k) h1
      exact ⟨a, seg, hseg, h3, h4, h2.2⟩
    have hsegs : segsOk l pos e.leaves = true := segsOk_of (fun k hk P C hl => by
      obtain ⟨a, seg, hseg, _⟩ := hcomp k hk P C hl; rw [hseg]; rfl)
    have hctx : ∀ k, ctxOf l k = some compressedAttr ↔ ∃ P C, l.lvl k = some (.comp P C) := by
      intro k
      unfold ctxOf
      cases hl : l.lvl k with
      | none => simp
      | some x => cases x <;> simp [attrOf, denseAttr, compressedAttr]
    let I : Input := ⟨crdOf l pos e.leaves, l.n⟩
    have hcrd : ∀ k ∈ e.leaves, ∀ P C a seg, l.lvl k = some (.comp P C) →
        segment P C (pos k) = some (a, seg) → I.crd k = seg := by
      intro k hk P C a seg hl hseg
      simp only [I, crdOf, hk, if_true, hl, hseg]
    have hI : InputOK (ctxOf l) I := by
      intro k hK
      by_cases hk : k ∈ e.leaves
      · obtain ⟨P, C, hl⟩ := (hctx k).1 hK
        obtain ⟨a, seg, hseg, h3, h4, _⟩ := hcomp k hk P C hl
        rw [hcrd k hk P C a seg hl hseg]
        exact ⟨h3, h4⟩
      · have : I.crd k = [] := by simp only [I, crdOf, hk, if_false]
        rw [this]; simp
    have hpot : potential (ctxOf l) e I ⟨fun _ => 0, 0⟩ 0 ≤
        l.n + (e.leaves.map (fun k => (I.crd k).length)).sum := by
      unfold potential
      split
      · show l.n - 0 ≤ _; omega
      · have : ∀ (L : List Nat) (p : Nat → Bool) (f : Nat → Nat), ((L.filter p).map f).sum ≤ (L.map f).sum := by
          intro L p f
          induction L with
          | nil => simp
          | cons a as ih => rw [List.filter_cons]; split <;> simp <;> omega
        have := this e.leaves (fun k => decide (ctxOf l k = some compressedAttr)) (fun k => (I.crd k).length)
        simp only [Nat.sub_zero]
        omega
    have hrun := forall_spec (inTree_ctxOf l) hs (hlin l List.mem_cons_self).self hI hpot
    -- the body at a coordinate
    have hbody : ∀ c, c < l.n → supp (ctxOf l) (present I c) e = true →
        ∃ e', e.zeroOut (zAbs (ctxOf l) (present I c)) = some e' ∧
          kernel o srt vals ls (nextPos l pos (evAt (ctxOf l) e I c)) e' =
            some (((box (ls.map Loop.n)).filter (visited o ls (nextPos l pos (evAt (ctxOf l) e I c)) e')).map
              (fun path => (path, e.eval o (fun k =>
                valueAt o.zero (vals k) (levelsOf (l :: ls) k) (c :: path) (pos k))))) ∧
          ∀ path ∈ box (ls.map Loop.n), visited o ls (nextPos l pos (evAt (ctxOf l) e I c)) e' path = false →
            e.eval o (fun k => valueAt o.zero (vals k) (levelsOf (l :: ls) k) (c :: path) (pos k)) = o.zero := by
      intro c hc hsu
      obtain ⟨e', he'⟩ := zeroOut_of_supp (inTree_ctxOf l) hsu
      -- positions of the accesses that are left
      have hloc : ∀ k ∈ e'.leaves, locate (l.lvl k) (pos k) c = some (nextPos l pos (evAt (ctxOf l) e I c) k) := by
        intro k hk
        obtain ⟨hke, hz⟩ := leaves_zeroOut he' k hk
        unfold nextPos
        cases hl : l.lvl k with
        | none => rfl
        | some x =>
          cases x with
          | dense nd => rfl
          | comp P C =>
            obtain ⟨a, seg, hseg, h3, h4, _⟩ := hcomp k hke P C hl
            have hK := (hctx k).2 ⟨P, C, hl⟩
            have hmem : c ∈ seg := by
              rw [zAbs, hK] at hz
              simp only [decide_true, Bool.true_and, Bool.not_eq_false'] at hz
              rw [← hcrd k hke P C a seg hl hseg]
              simpa [present] using hz
            simp only [locate, hseg, if_pos hmem]
            have hr : (evAt (ctxOf l) e I c).reads.lookup k = some (seg.idxOf c) := by
              simp only [evAt, he', readsOf]
              rw [lookup_map, hcrd k hke P C a seg hl hseg]
              rw [List.mem_filter]
              exact ⟨hk, by rw [hK]; rfl⟩
            rw [hr]
            have hP : P[pos k]? = some a := by
              unfold segment at hseg
              split at hseg
              · rename_i a' b' ha hb
                split at hseg
                · cases hseg; exact ha
                · cases hseg
              · cases hseg
            rw [hP]; rfl
      -- sizes of the next level
      let size' : Nat → Nat := fun k => match l.lvl k with
        | none => size k
        | some (.dense nd) => size k * nd
        | some (.comp _ C) => C.length
      have hwf' : ∀ k ∈ e'.leaves, nextPos l pos (evAt (ctxOf l) e I c) k < size' k ∧
          wfLevels (size' k) (dimLevels ls k) (vals k).length := by
        intro k hk
        obtain ⟨hke, _⟩ := leaves_zeroOut he' k hk
        have hlo := hloc k hk
        obtain ⟨h1, h2⟩ := hwf k hke
        simp only [dimLevels, List.map_cons] at h2
        simp only [size']
        cases hl : l.lvl k with
        | none =>
          rw [hl] at hlo h2
          simp only [locate, Option.some.injEq] at hlo
          simp only [wfLevels] at h2
          exact ⟨by rw [← hlo]; exact h1, h2⟩
        | some x =>
          cases x with
          | dense nd =>
            rw [hl] at hlo h2
            simp only [locate, Option.some.injEq] at hlo
            simp only [wfLevels] at h2
            refine ⟨?_, h2.2⟩
            rw [← hlo]
            have hnd := h2.1
            subst hnd
            calc pos k * l.n + c < pos k * l.n + l.n := by omega
              _ = (pos k + 1) * l.n := by rw [Nat.add_mul, Nat.one_mul]
              _ ≤ size k * l.n := Nat.mul_le_mul_right _ h1
          | comp P C =>
            obtain ⟨a, seg, hseg, h3, h4, h5⟩ := hcomp k hke P C hl
            rw [hl] at hlo
            simp only [locate, hseg] at hlo
            split at hlo
            · rename_i hmem
              simp only [Option.some.injEq] at hlo
              refine ⟨?_, h5⟩
              rw [← hlo]
              have hidx := List.idxOf_lt_length_of_mem hmem
              unfold segment at hseg
              split at hseg
              · split at hseg
                · cases hseg
                  rw [List.length_take, List.length_drop] at hidx
                  show _ < C.length
                  omega
                · cases hseg
              · cases hseg
            · cases hlo
      obtain ⟨i1, i2⟩ := ih (nextPos l pos (evAt (ctxOf l) e I c)) e' size'
        (fun l' hl' => Consistent.zeroOut (hlin l' (List.mem_cons_of_mem _ hl')) he') hwf'
      -- values agree
      have hval : ∀ path, e'.eval o (fun k => valueAt o.zero (vals k) (levelsOf ls k) path
            (nextPos l pos (evAt (ctxOf l) e I c) k)) =
          e.eval o (fun k => valueAt o.zero (vals k) (levelsOf (l :: ls) k) (c :: path) (pos k)) := by
        intro path
        rw [← evalOpt_zeroOut o ho _ (zAbs (ctxOf l) (present I c)) e, he']
        · simp only [evalOpt]
          apply eval_congr
          intro k hk
          simp only [levelsOf, List.map_cons, valueAt, hloc k hk]
        · intro k hk hz
          simp only [zAbs, Bool.and_eq_true, decide_eq_true_eq, Bool.not_eq_true'] at hz
          obtain ⟨P, C, hl⟩ := (hctx k).1 hz.1
          obtain ⟨a, seg, hseg, _⟩ := hcomp k hk P C hl
          have hn : c ∉ seg := by
            rw [← hcrd k hk P C a seg hl hseg]
            simpa [present] using hz.2
          simp only [levelsOf, List.map_cons, valueAt, hl, locate, hseg, if_neg hn]
      refine ⟨e', he', ?_, ?_⟩
      · rw [i1]
        congr 1
        apply List.map_congr_left
        intro path _
        rw [hval]
      · intro path hp hv
        rw [← hval]; exact i2 path hp hv
    constructor
    · unfold kernel
      rw [if_pos hsegs]
      simp only
      rw [hrun]
      simp only
      unfold spanEvents
      rw [mapM_eq_some_map (g := fun ev => ((box (ls.map Loop.n)).filter
          (fun cs => visited o (l :: ls) pos e (ev.coord :: cs))).map
          (fun path => (ev.coord :: path, e.eval o (fun k =>
            valueAt o.zero (vals k) (levelsOf (l :: ls) k) (ev.coord :: path) (pos k)))))]
      · simp only [Option.map_some, List.map_map]
        congr 1
        rw [List.map_cons]
        simp only [box]
        rw [List.filter_flatMap, List.map_flatMap, ← List.range_eq_range', ← List.flatMap_def]
        -- both sides range over the coordinates
        rw [flatMap_filter]
        apply Verif.flatMap_congr'
        intro c hc
        simp only [Function.comp]
        split
        · rw [List.filter_map, List.map_map]
          rfl
        · rename_i hsu
          symm
          rw [List.map_eq_nil_iff, List.filter_eq_nil_iff]
          intro path hp hv
          rw [List.mem_map] at hp
          obtain ⟨cs, _, rfl⟩ := hp
          simp only [visited, Bool.and_eq_true] at hv
          exact hsu hv.1
      · intro ev hev
        rw [List.mem_map] at hev
        obtain ⟨c, hc, rfl⟩ := hev
        rw [List.mem_filter, List.mem_range'_1] at hc
        obtain ⟨e', he', hk, _⟩ := hbody c (by simpa [I] using hc.1.2) hc.2
        have : (evAt (ctxOf l) e I c).stmt = some e' := he'
        rw [this]
        simp only
        rw [hk]
        simp only [Option.map_some, List.map_map]
        congr 1
        have hvis : ∀ cs, visited o (l :: ls) pos e (c :: cs) =
            visited o ls (nextPos l pos (evAt (ctxOf l) e I c)) e' cs := by
          intro cs
          have : visited o (l :: ls) pos e (c :: cs) =
            (supp (ctxOf l) (present I c) e &&
            (match e.zeroOut (zAbs (ctxOf l) (present I c)) with
             | none => false
             | some e' => visited o ls (nextPos l pos (evAt (ctxOf l) e I c)) e' cs)) := rfl
          rw [this, hc.2, he']; rfl
        have hco : (evAt (ctxOf l) e I c).coord = c := rfl
        simp only [hco]
        have : (fun cs => visited o (l :: ls) pos e (c :: cs)) =
          visited o ls (nextPos l pos (evAt (ctxOf l) e I c)) e' := funext hvis
        rw [this]
        rfl
    · intro path hp hv
      simp only [List.map_cons, box, List.mem_flatMap, List.mem_range, List.mem_map] at hp
      obtain ⟨c, hc, cs, hcs, rfl⟩ := hp
      have hvis : visited o (l :: ls) pos e (c :: cs) =
        (supp (ctxOf l) (present I c) e &&
        (match e.zeroOut (zAbs (ctxOf l) (present I c)) with
         | none => false
         | some e' => visited o ls (nextPos l pos (evAt (ctxOf l) e I c)) e' cs)) := rfl
      cases hsu : supp (ctxOf l) (present I c) e with
      | true =>
        obtain ⟨e', he', _, hz⟩ := hbody c hc hsu
        rw [hvis, hsu, he'] at hv
        exact hz cs hcs (by simpa using hv)
      | false =>
        rw [← evalOpt_zeroOut o ho _ (zAbs (ctxOf l) (present I c)) e,
          zeroOut_dead_abs (inTree_ctxOf l) hsu]
        · rfl
        · intro k hk hz
          simp only [zAbs, Bool.and_eq_true, decide_eq_true_eq, Bool.not_eq_true'] at hz
          obtain ⟨P, C, hl⟩ := (hctx k).1 hz.1
          obtain ⟨a, seg, hseg, _⟩ := hcomp k hk P C hl
          have hn : c ∉ seg := by
            rw [← hcrd k hk P C a seg hl hseg]
            simpa [present] using hz.2
          simp only [levelsOf, List.map_cons, valueAt, hl, locate, hseg, if_neg hn]
where
  flatMap_filter {α β : Type} {l : List α} {p : α → Bool} {f : α → List β} :
      (l.filter p).flatMap f = l.flatMap (fun x => if p x then f x else []) := by
    induction l with
    | nil => rfl
    | cons a as ih =>
      rw [List.filter_cons, List.flatMap_cons]
      split
      · rw [List.flatMap_cons, ih]
      · rw [ih]; rfl

end Verif.Merge
