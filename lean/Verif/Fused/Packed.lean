import Verif.Fused.Theorems
import Verif.Pack.Theorems
/-!
Packed tensors have no empty segments below compressed levels, so the conditions of the theorems on
fused loops are met by what `pack` produces.
-/
namespace Verif.Fused
open Verif.Merge (Lvl)
open Verif.Pack

variable {V : Type}

/-- The arrays while packing: `pos` ends with the number of coordinates, and no segment is empty below
a sparse level (`b`). -/
def Full (b : Bool) : List (Nat × Kind) → Ix → Prop
  | (_, .dense) :: ls, _ :: ixs => Full false ls ixs
  | (_, .sparse) :: ls, (pos, crd) :: ixs =>
    pos.getLast? = some crd.length ∧ (b = true → NoEmpty pos) ∧ Full true ls ixs
  | _, _ => True

theorem noEmpty_snoc {pos : List Nat} {x y : Nat} (h : NoEmpty pos) (hx : pos.getLast? = some x) (hy : x < y) :
    NoEmpty (pos ++ [y]) := by
  intro p a b ha hb
  rw [List.getLast?_eq_getElem?] at hx
  have hl := (List.getElem?_eq_some_iff.1 hb).1
  rw [List.length_append, List.length_singleton] at hl
  rw [List.getElem?_append_left (by omega)] at ha
  rcases Nat.lt_or_ge (p + 1) pos.length with h1 | h1
  · rw [List.getElem?_append_left h1] at hb
    exact h p a b ha hb
  · rw [List.getElem?_append_right h1, show p + 1 - pos.length = 0 by omega] at hb
    have : pos.length - 1 = p := by omega
    rw [this, ha] at hx
    have h1 := Option.some.inj hx
    have h2 : y = b := Option.some.inj hb
    omega

theorem foldl_inv {α β : Type} (P : β → Prop) (f : β → α → β) : ∀ (l : List α) (b : β), P b →
    (∀ a ∈ l, ∀ b, P b → P (f b a)) → P (l.foldl f b) := by
  intro l
  induction l with
  | nil => intro b h _; exact h
  | cons a l ih =>
    intro b h hs
    exact ih (f b a) (hs a List.mem_cons_self b h) (fun x hx => hs x (List.mem_cons_of_mem _ hx))

theorem full_pack (fill : V) : ∀ (ls : List (Nat × Kind)) (b : Bool) (rows : List (Row V)) (ixs : Ix) (vals : List V),
    RowsOK (ls.map Prod.fst) rows → (b = true → rows ≠ []) → Full b ls ixs →
    Full b ls (packTensor fill ls rows (ixs, vals)).1 := by
  intro ls
  induction ls with
  | nil => intro b rows ixs vals _ _ _; unfold Full; trivial
  | cons l ls ih =>
    obtain ⟨n, k⟩ := l
    intro b rows ixs vals hr hb hf
    have hne : ∀ r ∈ rows, r.1 ≠ [] := by
      intro r hrm
      obtain ⟨j, cs, hc, _⟩ := inRange_cons.1 (hr.range r hrm)
      rw [hc]; simp
    cases ixs with
    | nil =>
      have : packTensor fill ((n, k) :: ls) rows ([], vals) = ([], vals) := by cases k <;> rfl
      rw [this]; exact hf
    | cons ix ixs =>
      cases k with
      | dense =>
        rw [packTensor_dense, packSegs_eq _ _ _ _ List.pairwise_lt_range hr.heads_sorted hne]
        · exact foldl_inv (fun st : Ix × List V => Full false ls st.1) _ _ _ hf
            (fun j _ st h => ih false (sub rows j) st.1 st.2 (hr.sub j) (fun h => by cases h) h)
        · intro x hx
          rw [mem_heads hr] at hx
          obtain ⟨r, hrm, hh⟩ := hx
          obtain ⟨j, cs, hc, hj, _⟩ := inRange_cons.1 (hr.range r hrm)
          simp only [headIs, hc, List.head?_cons, beq_iff_eq, Option.some.injEq] at hh
          rw [List.mem_range]; omega
      | sparse =>
        obtain ⟨pos, crd⟩ := ix
        obtain ⟨f1, f2, f3⟩ := hf
        have hu := getUniqueEntries_spec hr.heads_sorted
        rw [packTensor_sparse, packSegs_eq _ _ _ _ hu.1 hr.heads_sorted hne (fun x hx => (hu.2 x).2 hx)]
        refine ⟨?_, ?_, ?_⟩
        · rw [List.getLast?_append, List.length_append]; rfl
        · intro hbt
          refine noEmpty_snoc (f2 hbt) f1 ?_
          have hrn := hb hbt
          cases rows with
          | nil => exact absurd rfl hrn
          | cons r rows =>
            have : 0 < (getUniqueEntries (heads (r :: rows))).length := by
              unfold heads; rw [List.map_cons]; unfold getUniqueEntries; simp
            omega
        · refine foldl_inv (fun st : Ix × List V => Full true ls st.1) _ _ _ f3 ?_
          intro j hj st h
          refine ih true (sub rows j) st.1 st.2 (hr.sub j) ?_ h
          intro _ he
          exact (sub_eq_nil hr).1 he ((hu.2 j).1 hj)

theorem full_init : ∀ (ls : List (Nat × Kind)) (b : Bool), Full b ls (initIx ls) := by
  intro ls
  induction ls with
  | nil => intro b; trivial
  | cons l ls ih =>
    obtain ⟨n, k⟩ := l
    intro b
    cases k with
    | dense => exact ih false
    | sparse =>
      refine ⟨rfl, ?_, ih true⟩
      intro _ p a b _ hb
      have := (List.getElem?_eq_some_iff.1 hb).1
      simp at this

theorem full_levels : ∀ (ls : List (Nat × Kind)) (b : Bool) (ixs : Ix), Full b ls ixs →
    NoEmptyBelow (toLevels ls ixs) ∧ (b = true → NoEmptyBelow (.comp [] [] :: toLevels ls ixs)) := by
  intro ls
  induction ls with
  | nil => intro b ixs _; exact ⟨trivial, fun _ => trivial⟩
  | cons l ls ih =>
    obtain ⟨n, k⟩ := l
    intro b ixs h
    cases ixs with
    | nil => cases k <;> exact ⟨trivial, fun _ => trivial⟩
    | cons ix ixs =>
      cases k with
      | dense => exact ⟨(ih false ixs h).1, fun _ => (ih false ixs h).1⟩
      | sparse =>
        obtain ⟨pos, crd⟩ := ix
        obtain ⟨_, h2, h3⟩ := h
        obtain ⟨g1, g2⟩ := ih true ixs h3
        have : NoEmptyBelow (.comp pos crd :: toLevels ls ixs) := by
          have g2 := g2 rfl
          cases hl : toLevels ls ixs with
          | nil => trivial
          | cons x xs =>
            rw [hl] at g2
            cases x <;> exact g2
        exact ⟨this, fun hb => ⟨h2 hb, this⟩⟩

/-- C02, C54. In a packed tensor no segment below a compressed level is empty, whatever is packed. -/
theorem pack_no_empty (fill : V) (dims : List Nat) (kinds : List Kind) (hk : kinds.length = dims.length)
    (rows : List (Row V)) (hs : rows.Pairwise (fun a b => lexCmp a.1 b.1 ≤ 0)) (hr : ∀ r ∈ rows, inRange dims r.1) :
    NoEmptyBelow (pack fill (dims.zip kinds) rows).1 :=
  (full_levels _ false _ (full_pack fill (dims.zip kinds) false rows _ [] (by rw [zip_fst hk]; exact rowsOK_of_cmp hs hr)
    (fun h => by cases h) (full_init _ _))).1

theorem toLevels_sparse : ∀ (dims : List Nat) (ixs : Ix), ∀ x ∈ toLevels (dims.zip (dims.map (fun _ => Kind.sparse))) ixs,
    ∃ pos crd, x = Lvl.comp pos crd := by
  intro dims
  induction dims with
  | nil => intro ixs x hx; cases hx
  | cons d dims ih =>
    intro ixs x hx
    cases ixs with
    | nil => cases hx
    | cons ix ixs =>
      obtain ⟨pos, crd⟩ := ix
      have hx : x ∈ Lvl.comp pos crd :: toLevels (dims.zip (dims.map (fun _ => Kind.sparse))) ixs := hx
      rcases List.mem_cons.1 hx with rfl | hx
      · exact ⟨pos, crd, rfl⟩
      · exact ih ixs x hx

/-- C54. A loop over the fused positions of a packed tensor whose levels are all sparse, in chunks: the
chunks together visit what the loops over the levels visit. -/
theorem fused_packed_split (fill : V) (dims : List Nat) (hk : 2 ≤ dims.length) (rows : List (Row V))
    (hs : rows.Pairwise (fun a b => lexCmp a.1 b.1 ≤ 0)) (hr : ∀ r ∈ rows, inRange dims r.1) {lv : List Lvl}
    (hlv : lv = (pack fill (dims.zip (dims.map (fun _ => Kind.sparse))) rows).1)
    (hb : ∀ ns, parentSizes lv = some ns → ∀ n ∈ ns, n ≤ 1073741823) {s : Nat} (hsp : 0 < s) :
    ∃ out, unfused lv = some out ∧ splitChunks lv s = some out := by
  have hkl : (dims.map (fun _ => Kind.sparse)).length = dims.length := by simp
  have hlen := (pack_spec fill (dims.zip (dims.map (fun _ => Kind.sparse))) rows (by rw [zip_fst hkl]; exact rowsOK_of_cmp hs hr)).2.1
  have hlen : lv.length = dims.length := by
    rw [hlv]; rw [hlen]; simp
  have hcomp : ∀ x ∈ lv, ∃ pos crd, x = Lvl.comp pos crd := by
    rw [hlv]
    exact toLevels_sparse dims _
  have hwf := pack_well_formed fill dims _ hkl rows hs hr
  have hne := pack_no_empty fill dims _ hkl rows hs hr
  rw [← hlv] at hwf hne
  refine fused_split_partial hlen.symm hwf ?_ hne ?_ hb hsp
  · cases lv with
    | nil => simp at hlen; omega
    | cons l ls =>
      cases ls with
      | nil => simp at hlen; omega
      | cons l2 ls => exact fun x hx => hcomp x (List.mem_cons_of_mem _ hx)
  · cases lv with
    | nil => trivial
    | cons l ls =>
      obtain ⟨pos, crd, rfl⟩ := hcomp l List.mem_cons_self
      trivial

example : splitChunks (pack 0 ([3, 3, 4].zip [Kind.sparse, .sparse, .sparse])
    [([1, 0, 2], 5), ([1, 2, 0], 6), ([1, 2, 3], 7), ([2, 0, 0], 8)]).1 3 =
    some [([1, 0, 2], 0), ([1, 2, 0], 1), ([1, 2, 3], 2), ([2, 0, 0], 3)] := by decide +kernel

end Verif.Fused
