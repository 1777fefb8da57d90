import Verif.Numpy.Lemmas

/-!
# Python lists, boxes and axes
-/

namespace Verif.Numpy

/-! ### Boxes -/

theorem inBox_nil : InBox [] [] := ⟨rfl, fun _ _ _ h => nomatch h⟩

theorem inBox_cons {n x : Nat} {s c : List Nat} : InBox (n :: s) (x :: c) ↔ x < n ∧ InBox s c := by
  constructor
  · rintro ⟨h1, h2⟩
    exact ⟨h2 0 x n rfl rfl, Nat.succ.inj h1, fun i y m hy hm => h2 (i + 1) y m hy hm⟩
  · rintro ⟨h1, h2, h3⟩
    refine ⟨congrArg Nat.succ h2, fun i y m hy hm => ?_⟩
    cases i with
    | zero =>
      cases hy
      cases hm
      exact h1
    | succ i => exact h3 i y m hy hm

theorem inBox_append : ∀ {s c : List Nat} {s' c' : List Nat}, c.length = s.length →
    (InBox (s ++ s') (c ++ c') ↔ InBox s c ∧ InBox s' c')
  | [], [], _, _, _ => ⟨fun h => ⟨inBox_nil, h⟩, fun h => h.2⟩
  | [], _ :: _, _, _, h => nomatch h
  | _ :: _, [], _, _, h => nomatch h
  | n :: s, x :: c, s', c', h => by
    rw [List.cons_append, List.cons_append, inBox_cons, inBox_cons, inBox_append (Nat.succ.inj h), and_assoc]

theorem inBox_one {n x : Nat} : InBox [n] [x] ↔ x < n := by
  rw [inBox_cons]
  exact ⟨fun h => h.1, fun h => ⟨h, inBox_nil⟩⟩

theorem inBox_last {s out r : List Nat} (hs : s <:+ out) (hr : InBox out r) : InBox s (last s.length r) := by
  obtain ⟨p, rfl⟩ := hs
  have hl := hr.1
  rw [List.length_append] at hl
  have hsplit : r = r.take p.length ++ r.drop p.length := (List.take_append_drop _ _).symm
  rw [hsplit] at hr
  have h1 : (r.take p.length).length = p.length := by
    rw [List.length_take]
    omega
  have := ((inBox_append h1).1 hr).2
  unfold last
  have hd : r.length - s.length = p.length := by omega
  rw [hd]
  exact this

theorem last_map {α β : Type} (f : α → β) (n : Nat) (l : List α) : (last n l).map f = last n (l.map f) := by
  unfold last
  rw [List.map_drop, List.length_map]

theorem last_of_suffix {α : Type} {s out : List α} (h : s <:+ out) : last s.length out = s :=
  (List.suffix_iff_eq_drop.1 h).symm

theorem last_length {α : Type} (l : List α) : last l.length l = l := by
  unfold last
  rw [Nat.sub_self]
  rfl

theorem last_append {α : Type} {n : Nat} {l t : List α} (h : n ≤ l.length) :
    last (n + t.length) (l ++ t) = last n l ++ t := by
  unfold last
  rw [List.length_append, show l.length + t.length - (n + t.length) = l.length - n by omega,
    List.drop_append_of_le_length (by omega)]

theorem length_last {α : Type} {n : Nat} {l : List α} (h : n ≤ l.length) : (last n l).length = n := by
  unfold last
  rw [List.length_drop]
  omega

/-! ### Broadcasting -/

theorem zip_all : ∀ {a b : List Nat}, (a.zip b).all (fun p => decide (p.1 = p.2)) = true ↔ a <+: b ∨ b <+: a
  | [], b => ⟨fun _ => .inl (List.nil_prefix), fun _ => rfl⟩
  | _ :: _, [] => ⟨fun _ => .inr (List.nil_prefix), fun _ => rfl⟩
  | x :: a, y :: b => by
    rw [List.zip_cons_cons, List.all_cons, Bool.and_eq_true, zip_all, decide_eq_true_eq, List.cons_prefix_cons,
      List.cons_prefix_cons]
    constructor
    · rintro ⟨h0, h⟩
      replace h0 : x = y := h0
      subst h0
      rcases h with h | h
      · exact .inl ⟨rfl, h⟩
      · exact .inr ⟨rfl, h⟩
    · rintro (⟨rfl, h⟩ | ⟨rfl, h⟩)
      · exact ⟨rfl, .inl h⟩
      · exact ⟨rfl, .inr h⟩

theorem isBroadcastable_iff {a b : List Nat} : isBroadcastable a b = true ↔ Fits a b := by
  unfold isBroadcastable Fits
  rw [zip_all, List.reverse_prefix, List.reverse_prefix]

theorem Fits.left {a b : List Nat} (h : Fits a b) : a <:+ longer a b := by
  unfold longer
  split
  · exact List.suffix_rfl
  · rename_i hl
    rcases h with h | h
    · exact h
    · exact absurd h.length_le hl

theorem Fits.right {a b : List Nat} (h : Fits a b) : b <:+ longer a b := by
  unfold longer
  split
  · rename_i hl
    rcases h with h | h
    · have := h.eq_of_length_le hl
      rw [this]
      exact List.suffix_rfl
    · exact h
  · exact List.suffix_rfl

theorem length_longer {α : Type} (a b : List α) : (longer a b).length = max a.length b.length := by
  unfold longer
  split <;> omega

/-! ### Slices -/

theorem bound_neg {n : Nat} {k : Nat} (hk : 0 < k) : bound n (-(k : Int)) = n - k := by
  unfold bound
  rw [if_pos (by omega)]
  omega

theorem sliceFrom_neg {α : Type} {l : List α} {k : Nat} (hk : 0 < k) : sliceFrom l (-(k : Int)) = last k l := by
  unfold sliceFrom last
  rw [bound_neg hk]

theorem sliceFrom_sub {α : Type} {l : List α} {k : Nat} (hk : k ≤ l.length) :
    sliceFrom l ((l.length : Int) - k) = last k l := by
  unfold sliceFrom last bound
  rw [if_neg (by omega), show ((l.length : Int) - k).toNat = l.length - k by omega]

theorem sliceTo_append {α : Type} {l t : List α} (ht : 0 < t.length) : sliceTo (l ++ t) (-(t.length : Int)) = l := by
  unfold sliceTo
  rw [bound_neg ht, List.length_append, Nat.add_sub_cancel, List.take_left]

theorem sliceTo_one {α : Type} {l : List α} {x : α} : sliceTo (l ++ [x]) (-1) = l := sliceTo_append (t := [x]) (by simp)

theorem sliceTo_two {α : Type} {l : List α} {x y : α} : sliceTo (l ++ [x, y]) (-2) = l :=
  sliceTo_append (t := [x, y]) (by simp)

theorem item_neg {α : Type} {l t : List α} {i : Nat} (hi : i < t.length) :
    item (l ++ t) ((i : Int) - t.length) = t[i]? := by
  unfold item
  rw [if_pos (by omega), List.length_append, if_neg (by omega),
    show (((l.length + t.length : Nat) : Int) + ((i : Int) - t.length)).toNat = l.length + i by omega,
    List.getElem?_append_right (by omega), Nat.add_sub_cancel_left]

theorem item_last {α : Type} {l : List α} {x : α} : item (l ++ [x]) (-1) = some x :=
  item_neg (t := [x]) (i := 0) (by simp)

theorem item_last_two {α : Type} {l : List α} {x y : α} : item (l ++ [x, y]) (-1) = some y :=
  item_neg (t := [x, y]) (i := 1) (by simp)

theorem item_second {α : Type} {l : List α} {x y : α} : item (l ++ [x, y]) (-2) = some x :=
  item_neg (t := [x, y]) (i := 0) (by simp)

theorem setItem_last {α : Type} {l : List α} {x y z : α} : setItem (l ++ [x, y]) (-1) z = l ++ [x, z] := by
  unfold setItem
  rw [show (-1 : Int) = -((1 : Nat) : Int) by rfl, bound_neg (by omega), List.set_append_right _ _ (by simp)]
  simp

theorem setItem_second {α : Type} {l : List α} {x y z : α} : setItem (l ++ [x, y]) (-2) z = l ++ [z, y] := by
  unfold setItem
  rw [show (-2 : Int) = -((2 : Nat) : Int) by rfl, bound_neg (by omega), List.set_append_right _ _ (by simp)]
  simp

/-! ### Positions left out -/

theorem map_without {α β : Type} (f : α → β) (axes : List Nat) : ∀ (k : Nat) (l : List α),
    (without axes k l).map f = without axes k (l.map f)
  | _, [] => rfl
  | k, x :: l => by
    show (if k ∈ axes then without axes (k + 1) l else x :: without axes (k + 1) l).map f =
      if k ∈ axes then without axes (k + 1) (l.map f) else f x :: without axes (k + 1) (l.map f)
    split
    · exact map_without f axes (k + 1) l
    · rw [List.map_cons, map_without f axes (k + 1) l]

theorem without_sublist {α : Type} (axes : List Nat) : ∀ (k : Nat) (l : List α), (without axes k l).Sublist l
  | _, [] => .slnil
  | k, x :: l => by
    unfold without
    split
    · exact (without_sublist axes (k + 1) l).cons _
    · exact (without_sublist axes (k + 1) l).cons_cons _

/-- `l` with `none` at the axes. -/
def mask {α : Type} (axes : List Nat) (k : Nat) : List (Option α) → List (Option α)
  | [] => []
  | x :: l => (if k ∈ axes then none else x) :: mask axes (k + 1) l

theorem mask_get {α : Type} (axes : List Nat) : ∀ (l : List (Option α)) (k j : Nat),
    (mask axes k l)[j]? = l[j]?.map fun x => if k + j ∈ axes then none else x
  | [], _, _ => rfl
  | x :: l, k, 0 => rfl
  | x :: l, k, j + 1 => by
    unfold mask
    rw [List.getElem?_cons_succ, List.getElem?_cons_succ, mask_get axes l (k + 1) j]
    have : k + 1 + j = k + (j + 1) := by omega
    rw [this]

theorem mask_filterMap {α : Type} (axes : List Nat) : ∀ (l : List α) (k : Nat),
    (mask axes k (l.map some)).filterMap id = without axes k l
  | [], _ => rfl
  | x :: l, k => by
    rw [List.map_cons]
    unfold mask without
    split
    · exact mask_filterMap axes l (k + 1)
    · rw [List.filterMap_cons]
      exact congrArg (x :: ·) (mask_filterMap axes l (k + 1))

theorem blank_eq {α : Type} {n : Nat} : ∀ (axes : List Nat) (l : List (Option α)), l.length = n → (∀ i ∈ axes, i < n) →
    blank n l (axes.map fun i : Nat => (i : Int)) = some (mask axes 0 l)
  | [], l, _, _ => by
    show some l = some (mask [] 0 l)
    congr 1
    refine List.ext_getElem? fun j => ?_
    rw [mask_get]
    simp
  | i :: axes, l, hl, h => by
    have hi := h i List.mem_cons_self
    rw [List.map_cons]
    unfold blank
    rw [if_neg (by omega)]
    have hs : setItem l (i : Int) none = l.set i none := by
      unfold setItem bound
      rw [if_neg (by omega), Int.toNat_natCast]
    rw [hs, blank_eq axes _ (by rw [List.length_set, hl]) fun j hj => h j (List.mem_cons_of_mem _ hj)]
    congr 1
    refine List.ext_getElem? fun j => ?_
    rw [mask_get, mask_get, List.getElem?_set]
    by_cases hij : i = j
    · subst hij
      rw [if_pos rfl, if_pos (by omega), List.getElem?_eq_getElem (by omega)]
      simp
    · rw [if_neg hij]
      have : (0 + j ∈ i :: axes) = (0 + j ∈ axes) := by
        simp [Ne.symm hij]
      simp only [this]

theorem removeAt_eq {α : Type} {l : List α} {axes : List Nat} (h : ∀ i ∈ axes, i < l.length) :
    removeAt l (axes.map fun i : Nat => (i : Int)) = some (without axes 0 l) := by
  unfold removeAt
  rw [blank_eq axes _ (by rw [List.length_map]) h, Option.map_some, mask_filterMap]

theorem blank_some {α : Type} {n : Nat} : ∀ {axes : List Int} {l : List (Option α)} {r : List (Option α)},
    blank n l axes = some r → ∀ i ∈ axes, 0 ≤ i ∧ i < n
  | [], _, _, _, _, h => nomatch h
  | i :: axes, l, r, h, j, hj => by
    unfold blank at h
    split at h
    · exact nomatch h
    · rename_i hi
      rcases List.mem_cons.1 hj with rfl | hj
      · omega
      · exact blank_some h j hj

theorem removeAt_some {α : Type} {axes : List Int} {l : List α} {r : List α} (h : removeAt l axes = some r) :
    ∀ i ∈ axes, 0 ≤ i ∧ i < l.length := by
  unfold removeAt at h
  obtain ⟨r', h, _⟩ := Option.map_eq_some_iff.1 h
  exact blank_some h

theorem ints_of {axes : List Int} (h : ∀ i ∈ axes, 0 ≤ i) :
    axes = (axes.map Int.toNat).map fun i : Nat => (i : Int) := by
  rw [List.map_map]
  refine (List.map_id' _).symm.trans (List.map_congr_left fun i hi => ?_)
  show i = (i.toNat : Int)
  have := h i hi
  omega

end Verif.Numpy
