import Verif.Assembly.InsertModel
import Verif.Assembly.Theorems
/-! Insert assembly puts every component into the segment of its parent. -/
namespace Verif.Assembly
open Verif.Merge (Lvl box)
open Verif.Pack (walk forAll forAll_eq mem_box inRange IndexWF)

variable {V : Type}

/-! ### Specification -/

/-- The components of a parent, in the order of arrival. -/
def ofParent (comps : List (Comp V)) (p : Nat) : List (Comp V) := comps.filter (fun c => c.parent == p)

/-- The number of components of the parents before `p`. -/
def before (comps : List (Comp V)) (p : Nat) : Nat := ((List.range p).map (fun q => (ofParent comps q).length)).sum

/-! ### Lemmas -/

theorem before_succ (comps : List (Comp V)) (p : Nat) : before comps (p + 1) = before comps p + (ofParent comps p).length := by
  unfold before
  rw [List.range_succ, List.map_append, List.sum_append]; simp

theorem before_mono (comps : List (Comp V)) {p q : Nat} (h : p ≤ q) : before comps p ≤ before comps q := by
  induction h with
  | refl => exact Nat.le_refl _
  | step _ ih => rw [Nat.succ_eq_add_one, before_succ]; omega

theorem read_some {α : Type} {a : Arr α} {i : Nat} {x : α} (h : read a i = some x) : i < a.length := by
  unfold read at h
  rcases Nat.lt_or_ge i a.length with hlt | hge
  · exact hlt
  · rw [List.getElem?_eq_none hge] at h; cases h

theorem range'_add (a n m : Nat) : List.range' a (n + m) = List.range' a n ++ List.range' (a + n) m := by
  have := @List.range'_append a n m 1
  rw [Nat.one_mul] at this
  exact this.symm

theorem range_flatMap (P : Nat) : ∀ (d a : Nat), (List.range d).flatMap (fun i => List.range' ((a + i) * P) P) = List.range' (a * P) (d * P) := by
  intro d
  induction d with
  | zero => intro a; simp
  | succ d ih =>
    intro a
    rw [List.range_succ, List.flatMap_append, ih, Nat.succ_mul, range'_add, ← Nat.add_mul]
    simp

theorem foldlM_flatMap {α β γ : Type} (f : γ → β → Option γ) (g : α → List β) : ∀ (l : List α) (s : γ),
    l.foldlM (fun s a => (g a).foldlM f s) s = (l.flatMap g).foldlM f s := by
  intro l
  induction l with
  | nil => intro s; rfl
  | cons a l ih =>
    intro s
    rw [List.flatMap_cons, List.foldlM_append, List.foldlM_cons]
    congr 1
    funext t
    exact ih t

/-- Number of positions of the dense levels. -/
def volume (dims : List Nat) : Nat := (box dims).length

theorem volume_cons (d : Nat) (ds : List Nat) : volume (d :: ds) = d * volume ds := by
  show ((List.range d).flatMap (fun c => (box ds).map (c :: ·))).length = d * (box ds).length
  rw [List.length_flatMap]
  have : (List.range d).map (fun c => ((box ds).map (c :: ·)).length) = (List.range d).map (fun _ => (box ds).length) := by
    apply List.map_congr_left; intro c _; rw [List.length_map]
  rw [this, sum_map_const, List.length_range]

theorem sizeOf_eq : ∀ (dims : List Nat) (s : Nat), sizeOf dims s = s * volume dims := by
  intro dims
  induction dims with
  | nil => intro s; simp [sizeOf, volume, box]
  | cons d ds ih => intro s; show sizeOf ds (s * d) = _; rw [ih, volume_cons, Nat.mul_assoc]

theorem box_locate : ∀ (dims : List Nat) (p : Nat), (box dims).map (locate dims p) = List.range' (p * volume dims) (volume dims) := by
  intro dims
  induction dims with
  | nil => intro p; simp [box, locate, volume]
  | cons d ds ih =>
    intro p
    have h1 : (box (d :: ds)).map (locate (d :: ds) p) = (List.range d).flatMap (fun i => List.range' ((p * d + i) * volume ds) (volume ds)) := by
      show ((List.range d).flatMap (fun c => (box ds).map (c :: ·))).map _ = _
      rw [List.map_flatMap]
      apply flatMap_congr'
      intro i _
      rw [List.map_map, ← ih]
      rfl
    rw [h1, range_flatMap, volume_cons, Nat.mul_assoc]

theorem insertEdges_eq (nnz : Nat → Nat) : ∀ (dims : List Nat) (p : Nat) (pos : Arr Nat),
    insertEdges nnz dims p pos = (List.range' (p * volume dims) (volume dims)).foldlM (insertEdge nnz) pos := by
  intro dims
  induction dims with
  | nil =>
    intro p pos
    show insertEdge nnz pos p = _
    simp [volume, box]
  | cons d ds ih =>
    intro p pos
    show (List.range d).foldlM (fun pos i => insertEdges nnz ds (p * d + i) pos) pos = _
    have : (fun (pos : Arr Nat) i => insertEdges nnz ds (p * d + i) pos) =
        fun pos i => (List.range' ((p * d + i) * volume ds) (volume ds)).foldlM (insertEdge nnz) pos := by
      funext pos i; exact ih _ _
    rw [this, foldlM_flatMap (insertEdge nnz) (fun i => List.range' ((p * d + i) * volume ds) (volume ds)), range_flatMap,
      volume_cons, Nat.mul_assoc]

theorem insertEdges_spec (comps : List (Comp V)) (nnz : Nat → Nat) (n : Nat)
    (hc : ∀ p, p < n → nnz p = (ofParent comps p).length) : ∀ (k p : Nat) (pos : Arr Nat), p + k = n →
    pos.length = n + 1 → (∀ q, q ≤ p → read pos q = some (before comps q)) →
    ∃ pos', (List.range' p k).foldlM (insertEdge nnz) pos = some pos' ∧ pos'.length = n + 1 ∧
      ∀ q, q ≤ n → read pos' q = some (before comps q) := by
  intro k
  induction k with
  | zero => intro p pos hp hl h; exact ⟨pos, rfl, hl, fun q hq => h q (by omega)⟩
  | succ k ih =>
    intro p pos hp hl h
    have hw : p + 1 < pos.length := by omega
    obtain ⟨pos', i1, i2, i3⟩ := ih (p + 1) (pos.set (p + 1) (some (before comps (p + 1)))) (by omega)
      (by rw [List.length_set]; exact hl) (by
        intro q hq
        rw [read_set _ _ _ _ hw]
        split
        · rename_i h; rw [h]
        · exact h q (by omega))
    refine ⟨pos', ?_, i2, i3⟩
    rw [List.range'_succ, List.foldlM_cons]
    have : insertEdge nnz pos p = some (pos.set (p + 1) (some (before comps (p + 1)))) := by
      unfold insertEdge
      rw [h p (Nat.le_refl _), hc p (by omega)]
      show write pos (p + 1) (before comps p + (ofParent comps p).length) = _
      rw [← before_succ, write_some hw]
    rw [this]
    exact i1

/-- The state after the components `done` of all components `comps`. -/
structure InsInv (n : Nat) (comps done : List (Comp V)) (s : InsSt V) : Prop where
  lenPos : s.pos.length = n + 1
  lenCrd : s.crd.length = before comps n
  lenVals : s.vals.length = before comps n
  pos : ∀ p, p < n → read s.pos p = some (before comps p + (ofParent done p).length)
  last : read s.pos n = some (before comps n)
  crd : ∀ (p k : Nat) (c : Comp V), p < n → (ofParent done p)[k]? = some c →
    read s.crd (before comps p + k) = some c.crd ∧ read s.vals (before comps p + k) = some c.val

theorem insertComp_spec (n : Nat) (comps done : List (Comp V)) (c : Comp V) (rest : List (Comp V))
    (hcs : comps = done ++ c :: rest) (hp : c.parent < n) (s : InsSt V) (h : InsInv n comps done s) :
    ∃ s', insertComp s c = some s' ∧ InsInv n comps (done ++ [c]) s' := by
  have hlt : (ofParent done c.parent).length < (ofParent comps c.parent).length := by
    rw [hcs]
    unfold ofParent
    rw [List.filter_append, List.length_append, List.filter_cons]
    simp
  have hq : before comps c.parent + (ofParent done c.parent).length < before comps (c.parent + 1) := by
    rw [before_succ]; omega
  have hqn : before comps c.parent + (ofParent done c.parent).length < before comps n :=
    Nat.lt_of_lt_of_le hq (before_mono comps hp)
  have hw1 : c.parent < s.pos.length := by rw [h.lenPos]; omega
  have hw2 : before comps c.parent + (ofParent done c.parent).length < s.crd.length := by rw [h.lenCrd]; exact hqn
  have hw3 : before comps c.parent + (ofParent done c.parent).length < s.vals.length := by rw [h.lenVals]; exact hqn
  have hdone : ∀ p, ofParent (done ++ [c]) p = ofParent done p ++ (if c.parent = p then [c] else []) := by
    intro p
    unfold ofParent
    rw [List.filter_append]
    congr 1
    by_cases hcp : c.parent = p <;> simp [hcp]
  refine ⟨⟨s.pos.set c.parent (some (before comps c.parent + (ofParent done c.parent).length + 1)),
      s.crd.set (before comps c.parent + (ofParent done c.parent).length) (some c.crd),
      s.vals.set (before comps c.parent + (ofParent done c.parent).length) (some c.val)⟩, ?_, ?_⟩
  · unfold insertComp
    rw [h.pos c.parent hp]
    show (write s.pos c.parent _).bind _ = _
    rw [write_some hw1]
    show (write s.crd _ _).bind _ = _
    rw [write_some hw2]
    show (write s.vals _ _).map _ = _
    rw [write_some hw3]
    rfl
  · refine ⟨by rw [List.length_set]; exact h.lenPos, by rw [List.length_set]; exact h.lenCrd,
      by rw [List.length_set]; exact h.lenVals, ?_, ?_, ?_⟩
    · intro p hpn
      rw [read_set _ _ _ _ hw1, hdone]
      by_cases hcp : c.parent = p
      · subst hcp; simp [Nat.add_assoc]
      · rw [if_neg hcp, if_neg hcp, List.append_nil]; exact h.pos p hpn
    · rw [read_set _ _ _ _ hw1, if_neg (by omega)]; exact h.last
    · intro p k d hpn hk
      rw [hdone] at hk
      rw [read_set _ _ _ _ hw2, read_set _ _ _ _ hw3]
      rcases Nat.lt_or_ge k (ofParent done p).length with hlk | hgk
      · rw [List.getElem?_append_left hlk] at hk
        have hk2 : before comps p + k < before comps (p + 1) := by
          rw [before_succ]
          have : (ofParent done p).length ≤ (ofParent comps p).length := by
            rw [hcs]; unfold ofParent; rw [List.filter_append, List.length_append]; omega
          omega
        have hne : before comps c.parent + (ofParent done c.parent).length ≠ before comps p + k := by
          rcases Nat.lt_trichotomy c.parent p with hlt' | heq | hgt
          · have := before_mono comps (show c.parent + 1 ≤ p from hlt'); omega
          · subst heq; omega
          · have := before_mono comps (show p + 1 ≤ c.parent from hgt); omega
        rw [if_neg hne, if_neg hne]
        exact h.crd p k d hpn hk
      · rw [List.getElem?_append_right hgk] at hk
        by_cases hcp : c.parent = p
        · subst hcp
          rw [if_pos rfl] at hk
          have hk0 : k - (ofParent done c.parent).length = 0 := by
            have := (List.getElem?_eq_some_iff.1 hk).1
            simp at this; omega
          rw [hk0] at hk
          have hd : c = d := Option.some.inj hk
          have hkk : k = (ofParent done c.parent).length := by omega
          rw [hkk, if_pos rfl, if_pos rfl, hd]
          exact ⟨rfl, rfl⟩
        · rw [if_neg hcp] at hk; simp at hk

theorem insertAll_spec (n : Nat) (comps : List (Comp V)) (hp : ∀ c ∈ comps, c.parent < n) : ∀ (rest done : List (Comp V)) (s : InsSt V),
    comps = done ++ rest → InsInv n comps done s →
    ∃ s', rest.foldlM insertComp s = some s' ∧ InsInv n comps comps s' := by
  intro rest
  induction rest with
  | nil => intro done s hcs h; rw [List.append_nil] at hcs; subst hcs; exact ⟨s, rfl, h⟩
  | cons c rest ih =>
    intro done s hcs h
    obtain ⟨s1, e1, h1⟩ := insertComp_spec n comps done c rest hcs (hp c (by rw [hcs]; simp)) s h
    obtain ⟨s2, e2, h2⟩ := ih (done ++ [c]) s1 (by rw [hcs]; simp) h1
    refine ⟨s2, ?_, h2⟩
    rw [List.foldlM_cons, e1]
    exact e2

theorem shiftPos_spec (n : Nat) : ∀ (k : Nat) (pos : Arr Nat), k < pos.length → (∀ q, q ≤ k → (read pos q).isSome) →
    ∃ pos', shiftPos n k pos = some pos' ∧ pos'.length = pos.length ∧
      (∀ q, 1 ≤ q → q ≤ k → read pos' q = read pos (q - 1)) ∧ ∀ q, k < q → read pos' q = read pos q := by
  intro k
  induction k with
  | zero => intro pos _ _; exact ⟨pos, rfl, rfl, fun q h1 h2 => by omega, fun _ _ => rfl⟩
  | succ k ih =>
    intro pos hl hs
    obtain ⟨a, ha⟩ := Option.isSome_iff_exists.1 (hs k (by omega))
    obtain ⟨pos', i1, i2, i3, i4⟩ := ih (pos.set (k + 1) (some a)) (by rw [List.length_set]; omega) (by
      intro q hq
      rw [read_set _ _ _ _ hl, if_neg (by omega)]
      exact hs q (by omega))
    refine ⟨pos', ?_, by rw [i2, List.length_set], ?_, ?_⟩
    · unfold shiftPos
      rw [ha]
      show (write pos (k + 1) a).bind _ = _
      rw [write_some hl]
      exact i1
    · intro q h1 h2
      rcases Nat.lt_or_ge q (k + 1) with hlt | hge
      · rw [i3 q h1 (by omega), read_set _ _ _ _ hl, if_neg (by omega)]
      · have : q = k + 1 := by omega
        subst this
        rw [i4 _ (by omega), read_set _ _ _ _ hl, if_pos rfl, Nat.add_sub_cancel, ha]
    · intro q hq
      rw [i4 q (by omega), read_set _ _ _ _ hl, if_neg (by omega)]

theorem mapM_read {α : Type} {a : Arr α} {l : List α} (hl : a.length = l.length) (h : ∀ (i : Nat) (x : α), l[i]? = some x → read a i = some x) :
    a.mapM id = some l := by
  have : a = l.map some := by
    apply List.ext_getElem?
    intro i
    rw [List.getElem?_map]
    rcases Nat.lt_or_ge i l.length with hlt | hge
    · have h1 := h i _ (List.getElem?_eq_getElem hlt)
      rw [List.getElem?_eq_getElem hlt]
      unfold read at h1
      rw [List.getElem?_eq_getElem (show i < a.length by omega)] at h1 ⊢
      exact congrArg some h1
    · rw [List.getElem?_eq_none (by omega), List.getElem?_eq_none hge]; rfl
  rw [this]
  exact mapM_id_some l

/-- All components, grouped by parent. -/
def grouped (comps : List (Comp V)) (n : Nat) : List (Comp V) := (List.range n).flatMap (ofParent comps)

theorem grouped_length (comps : List (Comp V)) (n : Nat) : (grouped comps n).length = before comps n := by
  unfold grouped before
  rw [List.length_flatMap]

theorem grouped_get (comps : List (Comp V)) : ∀ (n i : Nat) (c : Comp V), (grouped comps n)[i]? = some c →
    ∃ p k, p < n ∧ i = before comps p + k ∧ (ofParent comps p)[k]? = some c := by
  intro n
  induction n with
  | zero => intro i c h; simp [grouped] at h
  | succ n ih =>
    intro i c h
    have hg : grouped comps (n + 1) = grouped comps n ++ ofParent comps n := by
      unfold grouped; rw [List.range_succ, List.flatMap_append]; simp
    rw [hg] at h
    rcases Nat.lt_or_ge i (grouped comps n).length with hlt | hge
    · rw [List.getElem?_append_left hlt] at h
      obtain ⟨p, k, h1, h2, h3⟩ := ih i c h
      exact ⟨p, k, by omega, h2, h3⟩
    · rw [List.getElem?_append_right hge] at h
      exact ⟨n, i - (grouped comps n).length, by omega, by rw [grouped_length] at hge ⊢; omega, h⟩

/-- The components by position. -/
def toComps (dims : List Nat) (cells : List (Cell V)) : List (Comp V) :=
  cells.map fun c => Comp.mk (locate dims 0 c.coords) c.crd c.val

/-- The arrays two-phase assembly leaves. -/
theorem insert_arrays (dims : List Nat) (m : Nat) (cells : List (Cell V)) (n : Nat) (comps : List (Comp V))
    (hnd : n = volume dims) (hcd : comps = toComps dims cells)
    (hp : ∀ c ∈ comps, c.parent < n) (hc : ∀ p, p < n → nnzQuery m comps p = (ofParent comps p).length) :
    (insertRun dims m cells).bind insertOutput =
      some ((List.range (n + 1)).map (before comps), (grouped comps n).map Comp.crd, (grouped comps n).map Comp.val) := by
  obtain ⟨pos, e1, e2, e3⟩ := insertEdges_spec comps (nnzQuery m comps) n hc n 0 ((List.replicate (n + 1) none).set 0 (some 0)) (by omega)
    (by simp) (by
      intro q hq
      rw [read_set _ _ _ _ (by simp), if_pos (by omega)]
      have : q = 0 := by omega
      subst this; rfl)
  have hinv : InsInv n comps [] (⟨pos, List.replicate (before comps n) none, List.replicate (before comps n) none⟩ : InsSt V) := by
    refine ⟨e2, by simp, by simp, ?_, e3 n (Nat.le_refl _), ?_⟩
    · intro p hpn; exact e3 p (by omega)
    · intro p k c _ hk; simp [ofParent] at hk
  obtain ⟨s, f1, f2⟩ := insertAll_spec n comps hp comps [] _ rfl hinv
  obtain ⟨pos', g1, g2, g3, g4⟩ := shiftPos_spec n n s.pos (by rw [f2.lenPos]; omega) (by
    intro q hq
    rcases Nat.lt_or_ge q n with hlt | hge
    · rw [f2.pos q hlt]; rfl
    · have : q = n := by omega
      rw [this, f2.last]; rfl)
  have hlen' : 0 < pos'.length := by rw [g2, f2.lenPos]; omega
  have hrun : insertRun dims m cells = some { s with pos := pos'.set 0 (some 0) } := by
    have hsz : sizeOf dims 1 = n := by rw [sizeOf_eq, Nat.one_mul, hnd]
    unfold insertRun insertRunWith
    rw [hsz]
    show (write (List.replicate (n + 1) none) 0 0).bind (fun pos0 =>
      (insertEdges (nnzQuery m (toComps dims cells)) dims 0 pos0).bind fun pos => (read pos n).bind fun size =>
        ((toComps dims cells).foldlM insertComp ⟨pos, List.replicate size none, List.replicate size none⟩).bind fun s =>
          (finalizeYieldPos n s.pos).map fun pos => { s with pos := pos }) = _
    rw [← hcd, write_some (by simp)]
    show (insertEdges (nnzQuery m comps) dims 0 _).bind _ = _
    rw [insertEdges_eq, Nat.zero_mul, ← hnd]
    rw [e1]
    show (read pos n).bind _ = _
    rw [e3 n (Nat.le_refl _)]
    show (comps.foldlM insertComp _).bind _ = _
    rw [f1]
    show (finalizeYieldPos n s.pos).map _ = _
    unfold finalizeYieldPos
    rw [g1]
    show (write pos' 0 0).map _ = _
    rw [write_some hlen']
    rfl
  rw [hrun]
  show insertOutput _ = _
  unfold insertOutput
  have m1 : ((pos'.set 0 (some 0)) : Arr Nat).mapM id = some ((List.range (n + 1)).map (before comps)) := by
    apply mapM_read
    · rw [List.length_set, g2, f2.lenPos]; simp
    · intro i x hi
      rcases Nat.lt_or_ge i (n + 1) with hlt | hge
      · rw [List.getElem?_map, List.getElem?_range hlt] at hi
        have hx := Option.some.inj hi
        rw [← hx, read_set _ _ _ _ hlen']
        cases i with
        | zero => rfl
        | succ i =>
          rw [if_neg (by omega), g3 (i + 1) (by omega) (by omega), Nat.add_sub_cancel, f2.pos i (by omega), before_succ]
      · rw [List.getElem?_eq_none (by simpa using hge)] at hi; cases hi
  have m2 : s.crd.mapM id = some ((grouped comps n).map Comp.crd) := by
    apply mapM_read
    · rw [f2.lenCrd, List.length_map, grouped_length]
    · intro i x hi
      rw [List.getElem?_map] at hi
      cases hg : (grouped comps n)[i]? with
      | none => rw [hg] at hi; cases hi
      | some c =>
        rw [hg] at hi
        obtain ⟨p, k, h1, h2, h3⟩ := grouped_get comps n i c hg
        rw [h2, (f2.crd p k c h1 h3).1]
        exact hi
  have m3 : s.vals.mapM id = some ((grouped comps n).map Comp.val) := by
    apply mapM_read
    · rw [f2.lenVals, List.length_map, grouped_length]
    · intro i x hi
      rw [List.getElem?_map] at hi
      cases hg : (grouped comps n)[i]? with
      | none => rw [hg] at hi; cases hi
      | some c =>
        rw [hg] at hi
        obtain ⟨p, k, h1, h2, h3⟩ := grouped_get comps n i c hg
        rw [h2, (f2.crd p k c h1 h3).2]
        exact hi
  show (((pos'.set 0 (some 0)) : Arr Nat).mapM id).bind _ = _
  rw [m1]
  show (s.crd.mapM id).bind _ = _
  rw [m2]
  show (s.vals.mapM id).map _ = _
  rw [m3]
  rfl

end Verif.Assembly
