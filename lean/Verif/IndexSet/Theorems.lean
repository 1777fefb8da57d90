import Verif.IndexSet.Lemmas
/-!
C65. `A(i({s0, s1, ...}))` reads the component of `A` at `sk` at loop coordinate `k`.
-/
namespace Verif.IndexSet
open Verif.Search

/-! ### The packed set -/

/-- C65. The packed index set lists the members of the set in increasing order, each once. -/
theorem packed_set (s : List Int) : SortedVersion s (packSet s) := packSet_sortedVersion s

/-- C65. A list that is increasing is packed as it is. -/
theorem packed_increasing (s : List Int) (h : Increasing s) : packSet s = s := increasing_packSet h

example : Increasing [1, 3, 5] := by unfold Increasing; decide

/-! ### Dense modes -/

theorem increasing_length : ∀ (s : List Int) (lo hi : Int), lo ≤ hi → Increasing s →
    (∀ x ∈ s, lo ≤ x ∧ x < hi) → (s.length : Int) ≤ hi - lo
  | [], lo, hi, h, _, _ => by simp; omega
  | x :: s, lo, hi, _, hinc, hr => by
    have h1 := List.pairwise_cons.1 hinc
    have hx := hr x (List.mem_cons_self ..)
    have := increasing_length s (x + 1) hi (by omega) h1.2 (fun y hy => by
      have := h1.1 y hy
      have := (hr y (List.mem_cons_of_mem _ hy)).2
      omega)
    simp only [List.length_cons]
    omega

theorem denseLoop_map {V : Type} (vals : List V) (crd : List Int) (cs : List Nat)
    (hc : ∀ c ∈ cs, c < crd.length) (hr : ∀ x ∈ crd, 0 ≤ x ∧ x < vals.length) (d : V) :
    denseLoop vals crd cs = some (cs.map (fun c => (vals[(crd[c]?.getD 0).toNat]?).getD d)) := by
  induction cs with
  | nil => rfl
  | cons c cs ih =>
    have h1 := hc c (List.mem_cons_self ..)
    have h2 := hr crd[c] (List.getElem_mem h1)
    have h3 : crd[c].toNat < vals.length := by omega
    have h4 : crd[c]? = some crd[c] := List.getElem?_eq_getElem h1
    have h5 : vals[crd[c].toNat]? = some vals[crd[c].toNat] := List.getElem?_eq_getElem h3
    simp only [denseLoop, locate, readAt, ih (fun c' h => hc c' (List.mem_cons_of_mem _ h)), List.map_cons, h4,
      if_pos h2.1, h5, Option.getD_some]

/-- C65, dense modes.  The result of `a(i) = b(i({s0, s1, ...}))` is `b(s0), b(s1), ...` for an increasing
list of indices of `b`.  Missing: lists that are not increasing, for which it does not hold. -/
theorem dense_partial {V : Type} (vals : List V) (s : List Int) (hinc : Increasing s)
    (hr : ∀ x ∈ s, 0 ≤ x ∧ x < vals.length) (d : V) :
    denseProgram vals s = some (s.map (fun x => (vals[x.toNat]?).getD d)) := by
  have hlen := increasing_length s 0 vals.length (by omega) hinc hr
  have hp := increasing_packSet hinc
  simp only [denseProgram, access, if_pos (show s.length ≤ vals.length by omega), hp, loopDim]
  rw [denseLoop_map vals s _ (by intro c hc; simpa using hc) hr d]
  congr 1
  apply List.ext_getElem (by simp)
  intro i h1 h2
  simp only [List.getElem_map, List.getElem_range]
  have : i < s.length := by simpa using h2
  rw [List.getElem?_eq_getElem this]
  rfl

example : denseProgram [10, 11, 12, 13, 14, 15] [1, 3, 5] = some [11, 13, 15] := by decide

/-- C65 does not hold of lists in another order: `b(i({4, 1}))` is `b(1), b(4)`. -/
theorem dense_order_fails :
    ∃ (vals : List Int) (s : List Int), (∀ x ∈ s, 0 ≤ x ∧ x < vals.length) ∧ s.Nodup ∧
      ∃ r, denseProgram vals s = some r ∧ r ≠ s.map (fun x => (vals[x.toNat]?).getD 0) :=
  ⟨[10, 11, 12, 13, 14, 15], [4, 1], by decide, by decide, [11, 14], by decide, by decide⟩

theorem denseLoop_none {V : Type} (vals : List V) (crd : List Int) (cs : List Nat)
    (h : ∃ c ∈ cs, crd.length ≤ c ∨ ∃ x, crd[c]? = some x ∧ ¬ (0 ≤ x ∧ x < vals.length)) :
    denseLoop vals crd cs = none := by
  induction cs with
  | nil => obtain ⟨c, hc, _⟩ := h; cases hc
  | cons c cs ih =>
    obtain ⟨c', hc', h'⟩ := h
    rcases List.mem_cons.1 hc' with heq | hc'
    · subst heq
      rcases h' with h' | ⟨x, h1, h2⟩
      · simp only [denseLoop, locate, List.getElem?_eq_none h']
      · have hr : readAt vals x = none := by
          unfold readAt
          split
          · exact List.getElem?_eq_none (by omega)
          · rfl
        simp only [denseLoop, locate, h1, hr]
    · simp only [denseLoop, ih ⟨c', hc', h'⟩]
      split
      · rfl
      · split
        · rename_i h; cases h
        · rfl

theorem increasing_nodup {s : List Int} (h : Increasing s) : s.Nodup :=
  List.Pairwise.imp (fun hab => Int.ne_of_lt hab) h

theorem nodup_length_le : ∀ {a b : List Int}, a.Nodup → (∀ x ∈ a, x ∈ b) → a.length ≤ b.length
  | [], _, _, _ => Nat.zero_le _
  | x :: a, b, ha, h => by
    have ha' := List.nodup_cons.1 ha
    have hx := h x (List.mem_cons_self ..)
    have := nodup_length_le (a := a) (b := b.erase x) ha'.2 (fun y hy => by
      have hne : y ≠ x := fun e => ha'.1 (e ▸ hy)
      exact (List.mem_erase_of_ne hne).2 (h y (List.mem_cons_of_mem _ hy)))
    rw [List.length_erase_of_mem hx] at this
    have := List.length_pos_of_mem hx
    simp only [List.length_cons]
    omega

theorem nodup_of_length : ∀ {a b : List Int}, b.Nodup → (∀ x ∈ b, x ∈ a) → b.length = a.length → a.Nodup
  | a, [], _, _, h => by
    have : a = [] := List.length_eq_zero_iff.1 h.symm
    subst this; exact List.nodup_nil
  | a, x :: b, hb, h, hl => by
    have hb' := List.nodup_cons.1 hb
    have hx := h x (List.mem_cons_self ..)
    have hrec := nodup_of_length (a := a.erase x) (b := b) hb'.2 (fun y hy => by
      have hne : y ≠ x := fun e => hb'.1 (e ▸ hy)
      exact (List.mem_erase_of_ne hne).2 (h y (List.mem_cons_of_mem _ hy)))
      (by rw [List.length_erase_of_mem hx]; simp only [List.length_cons] at hl; omega)
    refine (List.Perm.nodup_iff (List.perm_cons_erase hx)).2 (List.nodup_cons.2 ⟨?_, hrec⟩)
    intro hmem
    -- a would have the members of b only, which are fewer
    have hle := nodup_length_le (a := x :: b) (b := a.erase x) hb (fun y hy => by
      rcases List.mem_cons.1 hy with e | hy
      · rw [e]; exact hmem
      · have hne : y ≠ x := fun e => hb'.1 (e ▸ hy)
        exact (List.mem_erase_of_ne hne).2 (h y (List.mem_cons_of_mem _ hy)))
    rw [List.length_erase_of_mem hx, hl] at hle
    have := List.length_pos_of_mem hx
    omega

/-- A list with a repeated index is packed into fewer coordinates. -/
theorem packSet_shorter {s : List Int} (h : ¬ s.Nodup) : (packSet s).length < s.length := by
  have h1 := packSet_length s
  by_cases he : (packSet s).length = s.length
  · exact absurd (nodup_of_length (increasing_nodup (packSet_sortedVersion s).1)
      (fun x hx => ((packSet_sortedVersion s).2 x).1 hx) he) h
  · omega

/-- C65 does not hold of lists with a repeated index: the packed set has fewer coordinates than the loop has
iterations, and the loop reads past its end. -/
theorem dense_repeated_fails {V : Type} (vals : List V) (s : List Int) (h : ¬ s.Nodup) :
    denseProgram vals s = none := by
  unfold denseProgram access
  split
  · rfl
  · rename_i crd hcrd
    split at hcrd
    · cases hcrd
      have := packSet_shorter h
      exact denseLoop_none _ _ _ ⟨(packSet s).length, List.mem_range.2 this, Or.inl (Nat.le_refl _)⟩
    · cases hcrd

example : ¬ [2, 2, (3 : Int)].Nodup := by decide

/-- An accepted list with an index that `b` does not have reads outside of `b`: only the length of the list
is checked. -/
theorem dense_outside_fails {V : Type} (vals : List V) (s : List Int) (x : Int) (hx : x ∈ s)
    (hr : ¬ (0 ≤ x ∧ x < vals.length)) : denseProgram vals s = none := by
  unfold denseProgram access
  split
  · rfl
  · rename_i crd hcrd
    split at hcrd
    · cases hcrd
      obtain ⟨c, hc, he⟩ := List.getElem_of_mem (((packSet_sortedVersion s).2 x).2 hx)
      have := packSet_length s
      exact denseLoop_none _ _ _ ⟨c, List.mem_range.2 (show c < s.length by omega),
        Or.inr ⟨x, by rw [List.getElem?_eq_getElem hc, he], hr⟩⟩
    · cases hcrd

/-- The check of the access accepts such a list. -/
example : access 6 [1, 9] = some [1, 9] ∧ denseProgram [10, 11, 12, 13, 14, 15] [1, 9] = none := by decide

/-! ### Compressed modes -/

theorem increasing_strictOn {s : List Int} (h : Increasing s) : StrictOn s 0 s.length :=
  StrictOn.of_pairwise (by
    rw [List.take_length, List.drop_zero]; exact h)

theorem level_spec {o o' : Operand} (hs : Sorted1 o o') (hseg : Segment o) (hacc : Accepted o) :
    ∃ l, o.level = some l ∧ Inv ⟨l, l.s, 0⟩ ∧ (∀ c p, Rem ⟨l, l.s, 0⟩ c p ↔ Stores o' c p) ∧
      size1 ⟨l, l.s, 0⟩ ≤ (o.e - o.s) + (match o.set with | none => 0 | some s => s.length) := by
  obtain ⟨h1, h2, h3, h4⟩ := hs
  have hstrict : StrictOn o.crd o.s o.e := hseg.sorted
  cases hset : o.set with
  | none =>
    rw [hset] at h4
    cases hset' : o'.set with
    | some t => rw [hset'] at h4; exact h4.elim
    | none =>
      refine ⟨⟨o.crd, o.s, o.e, none⟩, by simp only [Operand.level, hset], ?_, ?_, ?_⟩
      · exact ⟨hseg.bounds, hseg.inside, hseg.small, hstrict, fun s h => by cases h⟩
      · intro c p
        simp only [Rem, Stores, hset', h1, h2, h3]
      · simp [size1]
  | some s =>
    rw [hset] at h4
    cases hset' : o'.set with
    | none => rw [hset'] at h4; exact h4.elim
    | some t =>
      rw [hset'] at h4
      have ht := sortedVersion_unique h4
      obtain ⟨a1, a2⟩ := hacc s hset
      have hl := packSet_length s
      refine ⟨⟨o.crd, o.s, o.e, some t⟩, ?_, ?_, ?_, ?_⟩
      · simp only [Operand.level, hset, access, if_pos a1, ht, Option.map_some]
      · refine ⟨hseg.bounds, hseg.inside, hseg.small, hstrict, ?_⟩
        intro s' h
        cases h
        refine ⟨Nat.zero_le _, ?_, increasing_strictOn h4.1⟩
        rw [ht]; omega
      · intro c p
        simp only [Rem, Stores, hset', h1, h2, h3, Nat.zero_le, true_and]
      · simp only [size1, Nat.sub_zero]
        rw [ht]; omega

theorem levels_spec : ∀ {os os' : List Operand}, SortedAll os os' → (∀ o ∈ os, Segment o ∧ Accepted o) →
    ∃ ls, levels os = some ls ∧ (∀ x ∈ init ls, Inv x) ∧
      (∀ c ps, AllRem c (init ls) ps ↔ AllStore c os' ps) ∧ size (init ls) ≤ entries os ∧
      ls.length = os.length
  | [], [], _, _ => ⟨[], rfl, by simp [init], by
      intro c ps
      cases ps <;> exact Iff.rfl, by simp [init, size], rfl⟩
  | [], _ :: _, h, _ => h.elim
  | _ :: _, [], h, _ => h.elim
  | o :: os, o' :: os', h, hok => by
    obtain ⟨h1, h2⟩ := hok o (List.mem_cons_self ..)
    obtain ⟨l, a1, a2, a3, a4⟩ := level_spec h.1 h1 h2
    obtain ⟨ls, b1, b2, b3, b4, b5⟩ := levels_spec h.2 (fun x hx => hok x (List.mem_cons_of_mem _ hx))
    refine ⟨l :: ls, by simp only [levels, a1, b1], ?_, ?_, ?_, by simp [b5]⟩
    · intro x hx
      rcases List.mem_cons.1 hx with rfl | hx
      · exact a2
      · exact b2 x hx
    · intro c ps
      cases ps with
      | nil => exact Iff.rfl
      | cons p ps => exact and_congr (a3 c p) (b3 c ps)
    · have e1 : entries (o :: os) =
          ((o.e - o.s) + (match o.set with | none => 0 | some s => s.length)) + entries os := rfl
      have e2 : size (init (l :: ls)) = size1 ⟨l, l.s, 0⟩ + size (init ls) := rfl
      rw [e1, e2]
      exact Nat.add_le_add a4 b4

/-- C65, compressed modes: what index sets do, for all lists.  The loop of a product executes its body at the
loop coordinates `c` for which every operand stores the `c`-th smallest member of its index set, in increasing
order and with the right positions. -/
theorem product_sorted (os os' : List Operand) (hne : os ≠ []) (hs : SortedAll os os')
    (hok : ∀ o ∈ os, Segment o ∧ Accepted o) (n : Nat) (hn : entries os ≤ n) :
    ∃ evs, run n os = some evs ∧ Visits os' evs := by
  obtain ⟨ls, h1, h2, h3, h4, h5⟩ := levels_spec hs hok
  have hne' : init ls ≠ [] := by
    intro h
    have : (init ls).length = ls.length := by simp [init]
    rw [h, h5] at this
    exact hne (List.length_eq_zero_iff.1 this.symm)
  obtain ⟨evs, g1, g2, g3⟩ := loop_spec n (init ls) (by omega) hne' h2
  exact ⟨evs, by simp only [run, h1, g1], g2, fun c ps => (g3 c ps).trans (h3 c ps)⟩

theorem sortedAll_refl : ∀ {os : List Operand}, (∀ o ∈ os, ∀ s, o.set = some s → Increasing s) →
    SortedAll os os
  | [], _ => trivial
  | o :: os, h => by
    refine ⟨⟨rfl, rfl, rfl, ?_⟩, sortedAll_refl (fun x hx => h x (List.mem_cons_of_mem _ hx))⟩
    cases hset : o.set with
    | none => trivial
    | some s => exact ⟨h o (List.mem_cons_self ..) s hset, fun _ => Iff.rfl⟩

/-- C65, compressed modes.  With increasing lists of indices, the loop of a product of accesses, some with
index sets, executes its body exactly at the loop coordinates `c` at which every operand stores its component:
at `c`, or at the `c`-th index of its list.  Missing: other lists; unions; index sets together with windows or
duplicates. -/
theorem product_partial (os : List Operand) (hne : os ≠ []) (hok : ∀ o ∈ os, Segment o ∧ Accepted o)
    (hinc : ∀ o ∈ os, ∀ s, o.set = some s → Increasing s) (n : Nat) (hn : entries os ≤ n) :
    ∃ evs, run n os = some evs ∧ Visits os evs :=
  product_sorted os os hne (sortedAll_refl hinc) hok n hn

/-- The hypotheses hold of `a(i) = b(i({1, 3, 5})) * c(i)` for a `b` that stores 0, 3, 4 and 5 and a `c` that
stores 1 and 2; the body is executed for the loop coordinates 1 and 2. -/
example :
    let os : List Operand := [⟨[0, 3, 4, 5], 0, 4, 6, some [1, 3, 5]⟩, ⟨[1, 2], 0, 2, 3, none⟩]
    (∀ o ∈ os, Segment o ∧ Accepted o) ∧ (∀ o ∈ os, ∀ s, o.set = some s → Increasing s) ∧
      run (entries os) os = some [(1, [1, 0]), (2, [3, 1])] := by
  intro os
  refine ⟨?_, ?_, by decide +kernel⟩
  · intro o ho
    rcases List.mem_cons.1 ho with rfl | ho
    · refine ⟨⟨by decide, by decide, by decide, StrictOn.of_pairwise (by decide)⟩, ?_⟩
      intro s h; cases h; decide
    · rw [List.mem_singleton] at ho
      subst ho
      refine ⟨⟨by decide, by decide, by decide, StrictOn.of_pairwise (by decide)⟩, ?_⟩
      intro s h; cases h
  · intro o ho s h
    rcases List.mem_cons.1 ho with rfl | ho
    · cases h; unfold Increasing; decide
    · rw [List.mem_singleton] at ho
      subst ho; cases h

/-- C65 does not hold of lists in another order, nor of lists with a repeated index: `b(i({5, 1}))` has the
component `b(1)` first, and `b(i({1, 1, 5}))` has `b(5)` at 1. -/
theorem sparse_order_fails :
    (∃ (o : Operand) (s : List Int), o.set = some s ∧ s.Nodup ∧ Segment o ∧ Accepted o ∧
      ∃ evs, run (entries [o]) [o] = some evs ∧ ¬ Visits [o] evs) ∧
    (∃ (o : Operand) (s : List Int), o.set = some s ∧ s.Pairwise (· ≤ ·) ∧ Segment o ∧ Accepted o ∧
      ∃ evs, run (entries [o]) [o] = some evs ∧ ¬ Visits [o] evs) := by
  constructor
  · refine ⟨⟨[1, 5], 0, 2, 6, some [5, 1]⟩, [5, 1], rfl, by decide,
      ⟨by decide, by decide, by decide, StrictOn.of_pairwise (by decide)⟩, ?_, [(0, [0]), (1, [1])],
      by decide +kernel, ?_⟩
    · intro s h; cases h; decide
    · intro h
      obtain ⟨⟨_, _, _, v, h1, h2⟩, _⟩ := (h.2 0 [0]).1 (by decide)
      revert h1 h2
      intro h1 h2
      have e1 : v = 5 := by simpa using h1.symm
      have e2 : v = 1 := by simpa using h2.symm
      omega
  · refine ⟨⟨[1, 5], 0, 2, 6, some [1, 1, 5]⟩, [1, 1, 5], rfl, by decide,
      ⟨by decide, by decide, by decide, StrictOn.of_pairwise (by decide)⟩, ?_, [(0, [0]), (1, [1])],
      by decide +kernel, ?_⟩
    · intro s h; cases h; decide
    · intro h
      obtain ⟨⟨_, _, _, v, h1, h2⟩, _⟩ := (h.2 1 [1]).1 (by decide)
      have e1 : v = 1 := by simpa using h1.symm
      have e2 : v = 5 := by simpa using h2.symm
      omega

end Verif.IndexSet
