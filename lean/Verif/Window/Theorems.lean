import Verif.Window.Forall
import Verif.Merge.Sort
import Verif.Merge.Theorems
/-!
Property C41: windowed and strided accesses.

The loops over a window are exact when the stride divides the length of the window; otherwise the
emitted code works with the rounded-down size `(hi-lo)/stride`, and the serial and the parallel loop
differ (`*_fails`).
-/
namespace Verif.Window
open Verif.Search Verif.Merge Verif.Merge.Expr

/-! ### one compressed level -/

/-- C41. The loop parallelized over CPU threads visits exactly the stored coordinates of the window,
in order, for every stride. -/
theorem window_thread_loop_exact (a : List Int) (s e : Nat) (w : Window) (hs : 1 ≤ w.stride) (hse : s ≤ e)
    (hl : s < a.length) (hlen : e ≤ a.length) (hsz : e ≤ 1073741824) (hsort : StrictOn a s e) :
    ∃ out, threadLoop a s e w = some out ∧ VisitsWindow a s e w.lo w.hi w.stride out :=
  threadLoop_spec s hs hse hl hlen hsz hsort

/-- C41. The serial loop visits exactly the stored coordinates of the window, in order, when the
stride divides the length of the window. -/
theorem window_serial_loop_partial (a : List Int) (s e : Nat) (w : Window) (hs : 1 ≤ w.stride)
    (hd : w.stride ∣ w.hi - w.lo) (hse : s ≤ e) (hl : s < a.length) (hlen : e ≤ a.length)
    (hsz : e ≤ 1073741824) (hsort : StrictOn a s e) :
    ∃ out, serialLoop a s e w = some out ∧ VisitsWindow a s e w.lo w.hi w.stride out := by
  obtain ⟨out, h1, h2, h3⟩ := serialLoop_spec (w := w) s hs hse hl hlen hsz hsort
  refine ⟨out, h1, h2, ?_⟩
  intro p k
  rw [h3]
  constructor
  · rintro ⟨q1, q2, ⟨x, hx, hk, hxe⟩, q4⟩
    exact ⟨q1, q2, x, hx, (selected_iff_size hs hd).2 ⟨hk, hxe, q4⟩⟩
  · rintro ⟨q1, q2, x, hx, hsel⟩
    obtain ⟨hk, hxe, q4⟩ := (selected_iff_size hs hd).1 hsel
    exact ⟨q1, q2, ⟨x, hx, hk, hxe⟩, q4⟩

/-- What the serial loop visits for any stride: coordinate `lo + k*stride` for `k` below the size
of the window rounded down, so the last, partial step of the window is left out. -/
theorem window_serial_loop_rounds_down (a : List Int) (s e : Nat) (w : Window) (hs : 1 ≤ w.stride)
    (hse : s ≤ e) (hl : s < a.length) (hlen : e ≤ a.length) (hsz : e ≤ 1073741824) (hsort : StrictOn a s e) :
    ∃ out, serialLoop a s e w = some out ∧ Ascending out ∧
      ∀ p k, (p, k) ∈ out ↔ s ≤ p ∧ p < e ∧
        ∃ x, a[p]? = some x ∧ 0 ≤ k ∧ x = w.lo + k * w.stride ∧ w.lo + (k + 1) * w.stride ≤ w.hi := by
  obtain ⟨out, h1, h2, h3⟩ := serialLoop_spec (w := w) s hs hse hl hlen hsz hsort
  refine ⟨out, h1, h2, ?_⟩
  intro p k
  rw [h3]
  constructor
  · rintro ⟨q1, q2, ⟨x, hx, hk, hxe⟩, q4⟩
    exact ⟨q1, q2, x, hx, hk, hxe, (lt_size hs hk).1 q4⟩
  · rintro ⟨q1, q2, x, hx, hk, hxe, q4⟩
    exact ⟨q1, q2, ⟨x, hx, hk, hxe⟩, (lt_size hs hk).2 q4⟩

/-- Row `[1,2,5,7,8,9]` of an array with two rows, window `(2, 8, 3)`: coordinates 2 and 5. -/
example : StrictOn [0, 3, 1, 2, 5, 7, 8, 9] 2 8 ∧ (3 : Int) ∣ 8 - 2 ∧
    serialLoop [0, 3, 1, 2, 5, 7, 8, 9] 2 8 ⟨2, 8, 3⟩ = some [(3, 0), (4, 1)] ∧
    threadLoop [0, 3, 1, 2, 5, 7, 8, 9] 2 8 ⟨2, 8, 3⟩ = some [(3, 0), (4, 1)] := by
  refine ⟨StrictOn.of_pairwise (by decide), by decide, by decide +kernel, by decide +kernel⟩

/-- C41 is false of the serial loop: with stride 2 the window `(0,5)` selects coordinates 0, 2 and 4,
all stored, but 4 is not visited. -/
theorem window_stride_fails :
    ∃ (a : List Int) (w : Window), StrictOn a 0 5 ∧ 1 ≤ w.stride ∧ w.lo ≤ w.hi ∧
      ∃ out, serialLoop a 0 5 w = some out ∧ ¬ VisitsWindow a 0 5 w.lo w.hi w.stride out := by
  refine ⟨[0, 1, 2, 3, 4], ⟨0, 5, 2⟩, StrictOn.of_pairwise (by decide), by decide, by decide,
    [(0, 0), (2, 1)], by decide +kernel, ?_⟩
  rintro ⟨_, h⟩
  have := (h 4 2).2 ⟨by decide, by decide, 4, rfl, by decide, by decide, by decide⟩
  exact absurd this (by decide)

/-- The loop over CPU threads and the serial loop over the same window differ, and the former
reports a coordinate outside the dimension `(hi-lo)/stride` that the result was checked to have. -/
theorem window_thread_dimension_fails :
    ∃ (a : List Int) (w : Window) (out : List (Nat × Int)), StrictOn a 0 5 ∧ 1 ≤ w.stride ∧
      threadLoop a 0 5 w = some out ∧ serialLoop a 0 5 w ≠ some out ∧ ∃ pk ∈ out, w.size ≤ pk.2 := by
  refine ⟨[0, 1, 2, 3, 4], ⟨0, 5, 2⟩, [(0, 0), (2, 1), (4, 2)], StrictOn.of_pairwise (by decide), by decide,
    by decide +kernel, by decide +kernel, (4, 2), by decide, by decide⟩

/-- An empty segment at the end of the coordinate array (an empty last row) makes the search for the
window read past the end of the array, whatever the window. -/
theorem window_empty_segment_fails (a : List Int) (w : Window) :
    serialLoop a a.length a.length w = none ∧ threadLoop a a.length a.length w = none := by
  unfold serialLoop threadLoop
  rw [binarySearchAfter_empty_segment_fails, binarySearchAfter_empty_segment_fails]
  simp

/-! ### a dense level -/

/-- C41. The loop over the window of a dense level locates exactly the coordinates of the window, in
order, all inside the dimension, when the stride divides the length of the window. -/
theorem window_dense_loop_partial (w : Window) (dim : Int) (hs : 1 ≤ w.stride) (hd : w.stride ∣ w.hi - w.lo)
    (hlo : 0 ≤ w.lo) (hhi : w.hi ≤ dim) :
    ∃ out, denseLoop w = some out ∧ (∀ x k, (x, k) ∈ out ↔ Selected w.lo w.hi w.stride x k) ∧
      out.Pairwise (fun a b => a.2 < b.2) ∧ ∀ x k, (x, k) ∈ out → 0 ≤ x ∧ x < dim := by
  have hmem : ∀ x k, (x, k) ∈ (List.range w.size.toNat).map (fun (c : Nat) => (w.unproject (c : Int), (c : Int))) ↔
      Selected w.lo w.hi w.stride x k := by
    intro x k
    rw [selected_iff_size hs hd, List.mem_map]
    unfold Window.unproject
    constructor
    · rintro ⟨c, hc, he⟩
      rw [List.mem_range] at hc
      simp only [Prod.mk.injEq] at he
      obtain ⟨rfl, rfl⟩ := he
      exact ⟨by omega, by omega, by omega⟩
    · rintro ⟨h1, h2, h3⟩
      refine ⟨k.toNat, List.mem_range.2 (by omega), ?_⟩
      have : ((k.toNat : Nat) : Int) = k := by omega
      rw [this, h2, Int.add_comm]
  refine ⟨_, ?_, hmem, ?_, ?_⟩
  · unfold denseLoop; rw [if_neg (by omega)]
  · rw [List.pairwise_map]
    exact List.pairwise_lt_range.imp (fun h => by simpa using h)
  · intro x k hx
    obtain ⟨h1, h2, h3⟩ := (hmem x k).1 hx
    have : 0 ≤ k * w.stride := Int.mul_nonneg h1 (by omega)
    omega

example : denseLoop ⟨1, 9, 4⟩ = some [(1, 0), (5, 1)] := by decide

/-- A window of a dense level whose length is not a multiple of the stride loses its last coordinate. -/
theorem window_dense_stride_fails :
    ∃ (w : Window) (out : List (Int × Int)), 1 ≤ w.stride ∧ 0 ≤ w.lo ∧ denseLoop w = some out ∧
      Selected w.lo w.hi w.stride 4 2 ∧ (4, 2) ∉ out := by
  refine ⟨⟨0, 5, 2⟩, [(0, 0), (2, 1)], by decide, by decide, by decide, ?_, by decide⟩
  exact ⟨by decide, by decide, by decide⟩

/-! ### merging windows -/

variable {V : Type}

/-- C41 with C10 and C11. Loops that merge windows of compressed operands (with each other, with whole
operands and with dense ones) terminate within the budget and visit, in increasing order, exactly the
coordinates `x` at which the expression is not structurally zero, where operand `k` has coordinate `x`
when it stores `lo + x*stride`. The statement executed is the expression without the absent operands,
and it reads operand `k` at the position that stores `lo + x*stride`.

The dimension check makes the size of each window the dimension of the loop (`AccOK.win`). Partial:
repeated operands are `consistent`. -/
theorem window_merge_events_partial {K : Ctx} (hin : InTree K) {srt : List Point → List Point}
    (hs : SortSpec srt) {e : Expr V} (hlin : consistent K e) {W : WInput}
    (hW : ∀ k, K k = some compressedAttr → AccOK (W.acc k) W.n) {fuel : Nat}
    (hfuel : budget K srt W e ≤ fuel) :
    runForallW K srt W fuel e =
      some (((List.range W.n).filter (fun x => supp K (fun k => (W.acc k).stores x) e)).map (fun x =>
        ⟨x, e.zeroOut (zAbs K (fun k => (W.acc k).stores x)),
          readsOf K (fun k => (W.acc k).posOf x) (e.zeroOut (zAbs K (fun k => (W.acc k).stores x)))⟩)) := by
  have hI : InputOK K (absInput W) := by
    intro k hk
    refine ⟨?_, ?_⟩
    · show ((sel (W.acc k)).map Prod.snd).Pairwise (· < ·)
      rw [List.pairwise_map]
      exact (sel_sorted (hW k hk)).imp (fun h => h.2)
    · intro x hx
      obtain ⟨⟨p, c⟩, hm, rfl⟩ := List.mem_map.1 hx
      exact ((mem_sel (hW k hk)).1 hm).2.2.2
  rw [forallW_sim hin hs hlin (fun k hk => hW k (mem_compLeaves.1 hk).2) hI hfuel]
  have hpres : ∀ x, x < W.n → ∀ k, K k = some compressedAttr →
      present (absInput W) x k = (W.acc k).stores x := by
    intro x hx k hk
    unfold present
    rw [Bool.eq_iff_iff, decide_eq_true_eq]
    exact (stores_iff (hW k hk) hx).symm
  have hsupp : ∀ (e : Expr V) x, x < W.n → supp K (present (absInput W) x) e =
      supp K (fun k => (W.acc k).stores x) e := by
    intro e x hx
    induction e with
    | acc k =>
      simp only [supp]
      cases hK : K k with
      | none => rfl
      | some a =>
        rcases hin k a hK with rfl | rfl
        · rfl
        · simp only; rw [hpres x hx k hK]
    | lit v => rfl
    | un u a ih => exact ih
    | bin b l r ihl ihr => cases b <;> simp only [supp, ihl, ihr]
  have hz : ∀ x, x < W.n → e.zeroOut (zAbs K (present (absInput W) x)) =
      e.zeroOut (zAbs K (fun k => (W.acc k).stores x)) := by
    intro x hx
    apply zeroOut_congr
    intro k _
    unfold zAbs
    by_cases hK : K k = some compressedAttr
    · rw [hpres x hx k hK]
    · simp [hK]
  unfold spanEvents
  rw [List.map_map, ← List.range_eq_range']
  have hfil : (List.range W.n).filter (fun x => supp K (present (absInput W) x) e) =
      (List.range W.n).filter (fun x => supp K (fun k => (W.acc k).stores x) e) := by
    apply List.filter_congr
    intro x hx
    exact hsupp e x (List.mem_range.1 hx)
  rw [hfil]
  congr 1
  apply List.map_congr_left
  intro x hx
  have hx := List.mem_range.1 (List.mem_filter.1 hx).1
  unfold evAt raise
  simp only [Function.comp, Event.mk.injEq, true_and]
  refine ⟨hz x hx, ?_⟩
  rw [hz x hx]
  cases hzo : e.zeroOut (zAbs K (fun k => (W.acc k).stores x)) with
  | none => rfl
  | some e' =>
    simp only [readsOf, List.map_map]
    apply List.map_congr_left
    intro k hk
    rw [List.mem_filter] at hk
    simp only [Function.comp, Prod.mk.injEq, true_and]
    cases hKk : K k with
    | none => rw [hKk] at hk; simp at hk
    | some a =>
      rw [hKk] at hk
      rcases hin k a hKk with rfl | rfl
      · cases hk.2
      · obtain ⟨_, hzk⟩ := leaves_zeroOut hzo k hk.1
        have hst : (W.acc k).stores x = true := by
          unfold zAbs at hzk
          simpa [hKk] using hzk
        exact sel_idxOf (hW k hKk) ((stores_iff (hW k hKk) hx).1 hst)

/-! `y(i) = a(i(1,7,2)) + b(i)` with `a` storing 0,1,2,5,6,8 and `b` storing 0,2. -/

def wK : Ctx := fun k => if k ≤ 1 then some compressedAttr else none
def wW : WInput where
  acc k := if k = 0 then ⟨[0, 1, 2, 5, 6, 8], 0, 6, some ⟨1, 7, 2⟩⟩ else ⟨[9, 0, 2], 1, 3, none⟩
  n := 3

theorem wK_inTree : InTree wK := by
  intro k a h
  unfold wK at h
  split at h
  · cases h; exact Or.inr rfl
  · cases h

theorem wW_ok : ∀ k, wK k = some compressedAttr → AccOK (wW.acc k) wW.n := by
  intro k hk
  by_cases h0 : k = 0
  · subst h0
    refine ⟨by decide, by decide, StrictOn.of_pairwise (by decide), by intro h; simp [wW] at h, ?_⟩
    intro w hw
    simp only [wW, if_true, Option.some.injEq] at hw
    subst hw
    decide
  · have ha : wW.acc k = ⟨[9, 0, 2], 1, 3, none⟩ := by simp [wW, h0]
    rw [ha]
    refine ⟨by decide, by decide, StrictOn.of_pairwise (by decide), ?_, by intro w hw; cases hw⟩
    intro _ p x h1 h2 hx
    simp only at h1 h2 hx
    have : p = 1 ∨ p = 2 := by omega
    rcases this with rfl | rfl <;> (simp at hx; subst hx; decide)

/-- The hypotheses are met, and the loop sees `a` at 0 and 2 (coordinates 1 and 5) and `b` at 0 and 2. -/
example : InTree wK ∧ SortSpec isort ∧ consistent wK (.bin .add (.acc 0) (.acc 1) : Expr Nat) ∧
    budget wK isort wW (.bin .add (.acc 0) (.acc 1) : Expr Nat) ≤ 30 ∧
    (runForallW wK isort wW 30 (.bin .add (.acc 0) (.acc 1) : Expr Nat)).map
      (List.map (fun ev => (ev.coord, ev.reads))) = some [(0, [(0, 1), (1, 1)]), (2, [(0, 3), (1, 2)])] := by
  refine ⟨wK_inTree, isort_spec, linear_consistent ⟨trivial, trivial, ?_⟩, by decide +kernel, by decide +kernel⟩
  intro k hk hk'
  simp [leaves] at hk hk'
  omega

end Verif.Window
