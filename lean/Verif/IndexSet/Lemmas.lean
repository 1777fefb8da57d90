import Verif.IndexSet.Spec
import Verif.Search.Theorems
/-!
Lemmas for index sets: the packed set, what remains of a level in the merge loop, one iteration, the loop.
-/
namespace Verif.IndexSet
open Verif.Search

/-! ### The packed index set -/

theorem mem_insertSorted {x y : Int} : ∀ {l : List Int}, y ∈ insertSorted x l ↔ y = x ∨ y ∈ l
  | [] => by simp [insertSorted]
  | z :: l => by
    unfold insertSorted
    split
    · simp
    · simp only [List.mem_cons, mem_insertSorted (l := l)]
      constructor
      · rintro (h | h | h) <;> simp [h]
      · rintro (h | h | h) <;> simp [h]

theorem mem_sort {y : Int} : ∀ {l : List Int}, y ∈ sort l ↔ y ∈ l
  | [] => by simp [sort]
  | x :: l => by rw [sort, mem_insertSorted, mem_sort (l := l), List.mem_cons]

theorem pairwise_insertSorted {x : Int} : ∀ {l : List Int}, l.Pairwise (· ≤ ·) →
    (insertSorted x l).Pairwise (· ≤ ·)
  | [], _ => by simp [insertSorted]
  | z :: l, h => by
    rw [List.pairwise_cons] at h
    unfold insertSorted
    split
    · rename_i hxz
      rw [List.pairwise_cons]
      refine ⟨?_, List.pairwise_cons.2 h⟩
      intro a ha
      rcases List.mem_cons.1 ha with rfl | ha
      · exact hxz
      · exact Int.le_trans hxz (h.1 a ha)
    · rename_i hxz
      rw [List.pairwise_cons]
      refine ⟨?_, pairwise_insertSorted h.2⟩
      intro a ha
      rcases mem_insertSorted.1 ha with rfl | ha
      · omega
      · exact h.1 a ha

theorem pairwise_sort : ∀ (l : List Int), (sort l).Pairwise (· ≤ ·)
  | [] => by simp [sort]
  | _ :: l => pairwise_insertSorted (pairwise_sort l)

theorem uniqueFrom_spec : ∀ (prev : Int) (l : List Int), l.Pairwise (· ≤ ·) → (∀ x ∈ l, prev ≤ x) →
    (uniqueFrom prev l).Pairwise (· < ·) ∧ (∀ x, x ∈ uniqueFrom prev l ↔ x ∈ l ∧ prev < x)
  | prev, [], _, _ => by simp [uniqueFrom]
  | prev, c :: cs, h, hp => by
    rw [List.pairwise_cons] at h
    unfold uniqueFrom
    split
    · rename_i hc
      obtain ⟨h1, h2⟩ := uniqueFrom_spec c cs h.2 h.1
      constructor
      · rw [List.pairwise_cons]
        exact ⟨fun a ha => ((h2 a).1 ha).2, h1⟩
      · intro x
        simp only [List.mem_cons, h2]
        constructor
        · rintro (rfl | ⟨h3, h4⟩)
          · exact ⟨Or.inl rfl, hc⟩
          · exact ⟨Or.inr h3, by omega⟩
        · rintro ⟨rfl | h3, h4⟩
          · exact Or.inl rfl
          · by_cases hx : c < x
            · exact Or.inr ⟨h3, hx⟩
            · have := h.1 x h3
              exact Or.inl (by omega)
    · rename_i hc
      have h0 := hp c (List.mem_cons_self ..)
      have hcp : c = prev := by omega
      subst hcp
      obtain ⟨h1, h2⟩ := uniqueFrom_spec c cs h.2 h.1
      refine ⟨h1, ?_⟩
      intro x
      simp only [List.mem_cons, h2]
      constructor
      · rintro ⟨h3, h4⟩; exact ⟨Or.inr h3, h4⟩
      · rintro ⟨rfl | h3, h4⟩
        · omega
        · exact ⟨h3, h4⟩

theorem getUniqueEntries_spec : ∀ (l : List Int), l.Pairwise (· ≤ ·) →
    (getUniqueEntries l).Pairwise (· < ·) ∧ (∀ x, x ∈ getUniqueEntries l ↔ x ∈ l)
  | [], _ => by simp [getUniqueEntries]
  | c :: cs, h => by
    rw [List.pairwise_cons] at h
    obtain ⟨h1, h2⟩ := uniqueFrom_spec c cs h.2 h.1
    simp only [getUniqueEntries]
    constructor
    · rw [List.pairwise_cons]
      exact ⟨fun a ha => ((h2 a).1 ha).2, h1⟩
    · intro x
      simp only [List.mem_cons, h2]
      constructor
      · rintro (rfl | ⟨h3, h4⟩)
        · exact Or.inl rfl
        · exact Or.inr h3
      · rintro (rfl | h3)
        · exact Or.inl rfl
        · by_cases hx : c < x
          · exact Or.inr ⟨h3, hx⟩
          · have := h.1 x h3
            exact Or.inl (by omega)

theorem packSet_sortedVersion (s : List Int) : SortedVersion s (packSet s) := by
  obtain ⟨h1, h2⟩ := getUniqueEntries_spec (sort s) (pairwise_sort s)
  exact ⟨h1, fun x => (h2 x).trans mem_sort⟩

theorem increasing_ext : ∀ {a b : List Int}, Increasing a → Increasing b → (∀ x, x ∈ a ↔ x ∈ b) → a = b
  | [], [], _, _, _ => rfl
  | [], y :: b, _, _, h => by have := (h y).2 (List.mem_cons_self ..); cases this
  | x :: a, [], _, _, h => by have := (h x).1 (List.mem_cons_self ..); cases this
  | x :: a, y :: b, ha, hb, h => by
    have ha' := List.pairwise_cons.1 ha
    have hb' := List.pairwise_cons.1 hb
    have hxy : x = y := by
      have h1 := (h x).1 (List.mem_cons_self ..)
      have h2 := (h y).2 (List.mem_cons_self ..)
      rcases List.mem_cons.1 h1 with h3 | h3
      · exact h3
      · rcases List.mem_cons.1 h2 with h4 | h4
        · exact h4.symm
        · have := ha'.1 y h4
          have := hb'.1 x h3
          omega
    subst hxy
    congr 1
    refine increasing_ext ha'.2 hb'.2 ?_
    intro z
    constructor
    · intro hz
      rcases List.mem_cons.1 ((h z).1 (List.mem_cons_of_mem _ hz)) with h3 | h3
      · have := ha'.1 z hz; omega
      · exact h3
    · intro hz
      rcases List.mem_cons.1 ((h z).2 (List.mem_cons_of_mem _ hz)) with h3 | h3
      · have := hb'.1 z hz; omega
      · exact h3

theorem sortedVersion_unique {s t : List Int} (h : SortedVersion s t) : t = packSet s :=
  increasing_ext h.1 (packSet_sortedVersion s).1 (fun x => (h.2 x).trans ((packSet_sortedVersion s).2 x).symm)

theorem length_insertSorted (x : Int) : ∀ (l : List Int), (insertSorted x l).length = l.length + 1
  | [] => rfl
  | z :: l => by
    unfold insertSorted
    split
    · rfl
    · simp [length_insertSorted x l]

theorem length_sort : ∀ (l : List Int), (sort l).length = l.length
  | [] => rfl
  | x :: l => by rw [sort, length_insertSorted, length_sort l]; rfl

theorem uniqueFrom_length (prev : Int) (l : List Int) : (uniqueFrom prev l).length ≤ l.length := by
  induction l generalizing prev with
  | nil => simp [uniqueFrom]
  | cons c cs ih =>
    unfold uniqueFrom
    split
    · have := ih c; simp; omega
    · have := ih prev; simp; omega

theorem packSet_length (s : List Int) : (packSet s).length ≤ s.length := by
  rw [packSet]
  conv => rhs; rw [← length_sort s]
  cases sort s with
  | nil => simp [getUniqueEntries]
  | cons c cs => simp only [getUniqueEntries, List.length_cons]; have := uniqueFrom_length c cs; omega

theorem increasing_packSet {s : List Int} (h : Increasing s) : packSet s = s :=
  (sortedVersion_unique ⟨h, fun _ => Iff.rfl⟩).symm

/-! ### What remains of a level -/

/-- Invariant of a level in the loop. -/
structure Inv (x : Cursor) : Prop where
  bounds : x.p ≤ x.lvl.e
  inside : x.lvl.e ≤ x.lvl.crd.length
  small : x.lvl.e < 1073741824
  sorted : StrictOn x.lvl.crd x.p x.lvl.e
  setOk : ∀ s, x.lvl.set = some s → x.k ≤ s.length ∧ s.length < 1073741824 ∧ StrictOn s x.k s.length

/-- The level still stores loop coordinate `c`, at position `p`. -/
def Rem (x : Cursor) (c : Int) (p : Nat) : Prop :=
  x.p ≤ p ∧ p < x.lvl.e ∧
    match x.lvl.set with
    | none => x.lvl.crd[p]? = some c
    | some s => 0 ≤ c ∧ x.k ≤ c.toNat ∧ ∃ v, s[c.toNat]? = some v ∧ x.lvl.crd[p]? = some v

def AllRem (c : Int) : St → List Nat → Prop
  | [], [] => True
  | x :: xs, p :: ps => Rem x c p ∧ AllRem c xs ps
  | _, _ => False

/-- Number of entries that remain. -/
def size1 (x : Cursor) : Nat :=
  (x.lvl.e - x.p) + (match x.lvl.set with | none => 0 | some s => s.length - x.k)

def size : St → Nat
  | [] => 0
  | x :: xs => size1 x + size xs

theorem strictOn_mono {a : List Int} {s s' e : Nat} (h : StrictOn a s e) (hs : s ≤ s') : StrictOn a s' e :=
  fun i j x y h1 h2 h3 h4 h5 => h i j x y (Nat.le_trans hs h1) h2 h3 h4 h5

theorem more_p {x : Cursor} (h : more x = true) : x.p < x.lvl.e := by
  rw [more, Bool.and_eq_true] at h
  simpa using h.1

theorem more_k {x : Cursor} {s : List Int} (h : more x = true) (hs : x.lvl.set = some s) :
    x.k < s.length := by
  rw [more, Bool.and_eq_true, hs] at h
  simpa using h.2

/-- An exhausted level stores nothing any more. -/
theorem rem_more {x : Cursor} {c : Int} {p : Nat} (h : Rem x c p) : more x = true := by
  obtain ⟨h1, h2, h3⟩ := h
  rw [more, Bool.and_eq_true]
  refine ⟨by simpa using Nat.lt_of_le_of_lt h1 h2, ?_⟩
  split
  · rfl
  · rename_i s hs
    rw [hs] at h3
    obtain ⟨_, h4, v, h5, _⟩ := h3
    have := (List.getElem?_eq_some_iff.1 h5).1
    simp only [decide_eq_true_eq]
    omega

theorem allRem_more {c : Int} : ∀ {st : St} {ps : List Nat}, AllRem c st ps → st.all more = true
  | [], [], _ => rfl
  | [], _ :: _, h => h.elim
  | _ :: _, [], h => h.elim
  | x :: xs, p :: ps, h => by
    rw [List.all_cons, rem_more h.1, allRem_more h.2]; rfl

/-! ### The head of the loop -/

/-- What the head does with one level: a loop coordinate, which is the first that remains, or new positions
at which the same coordinates remain. -/
theorem headOne_spec {x : Cursor} (hi : Inv x) (hm : more x = true) :
    (∃ c, headOne x = some (.coord c) ∧ Rem x c x.p ∧ (∀ c' p, Rem x c' p → c ≤ c' ∧ (c' = c → p = x.p)) ∧
      (∀ c' p, Rem ⟨x.lvl, x.p + 1, x.k + 1⟩ c' p ↔ c < c' ∧ Rem x c' p) ∧
      Inv ⟨x.lvl, x.p + 1, x.k + 1⟩ ∧ size1 ⟨x.lvl, x.p + 1, x.k + 1⟩ < size1 x) ∨
    (∃ x', headOne x = some (.next x') ∧ (∀ c p, Rem x' c p ↔ Rem x c p) ∧ Inv x' ∧ size1 x' < size1 x) := by
  have hp := more_p hm
  have hlen : x.p < x.lvl.crd.length := Nat.lt_of_lt_of_le hp hi.inside
  have ha : x.lvl.crd[x.p]? = some x.lvl.crd[x.p] := List.getElem?_eq_getElem hlen
  generalize x.lvl.crd[x.p] = a at ha
  cases hs : x.lvl.set with
  | none =>
    left
    refine ⟨a, ?_, ?_, ?_, ?_, ?_, ?_⟩
    · simp only [headOne, ha, hs]
    · simp only [Rem, hs]
      exact ⟨Nat.le_refl _, hp, ha⟩
    · intro c' p h
      simp only [Rem, hs] at h
      obtain ⟨h1, h2, h3⟩ := h
      by_cases hpp : p = x.p
      · subst hpp; rw [ha] at h3; cases h3; exact ⟨Int.le_refl _, fun _ => rfl⟩
      · have := hi.sorted x.p p a c' (Nat.le_refl _) (by omega) h2 ha h3
        exact ⟨by omega, by omega⟩
    · intro c' p
      simp only [Rem, hs]
      constructor
      · rintro ⟨h1, h2, h3⟩
        exact ⟨hi.sorted x.p p a c' (Nat.le_refl _) (by omega) h2 ha h3, by omega, h2, h3⟩
      · rintro ⟨h0, h1, h2, h3⟩
        refine ⟨?_, h2, h3⟩
        by_cases hpp : p = x.p
        · subst hpp; rw [ha] at h3; cases h3; omega
        · omega
    · refine ⟨hp, hi.inside, hi.small, strictOn_mono hi.sorted (by simp), ?_⟩
      intro s h
      simp only at h
      rw [hs] at h; cases h
    · simp only [size1, hs]; omega
  | some s =>
    obtain ⟨hk1, hk2, hk3⟩ := hi.setOk s hs
    have hk := more_k hm hs
    have hb : s[x.k]? = some s[x.k] := List.getElem?_eq_getElem hk
    generalize s[x.k] = b at hb
    by_cases hab : a = b
    · left
      subst hab
      refine ⟨x.k, ?_, ?_, ?_, ?_, ?_, ?_⟩
      · have hmm : a = max a a ∧ a = max a a := by omega
        simp only [headOne, ha, hs, hb]
        rw [if_pos hmm]
      · simp only [Rem, hs]
        exact ⟨Nat.le_refl _, hp, Int.natCast_nonneg _, by simp, a, by simpa using hb, ha⟩
      · intro c' p h
        simp only [Rem, hs] at h
        obtain ⟨h1, h2, h3, h4, v, h5, h6⟩ := h
        refine ⟨by omega, ?_⟩
        intro hc
        subst hc
        simp only [Int.toNat_natCast] at h5
        rw [hb] at h5; cases h5
        by_cases hpp : p = x.p
        · exact hpp
        · have := hi.sorted x.p p a a (Nat.le_refl _) (by omega) h2 ha h6
          omega
      · intro c' p
        simp only [Rem, hs]
        constructor
        · rintro ⟨h1, h2, h3, h4, h5⟩
          exact ⟨by omega, by omega, h2, h3, by omega, h5⟩
        · rintro ⟨h0, h1, h2, h3, h4, v, h5, h6⟩
          refine ⟨?_, h2, h3, by omega, v, h5, h6⟩
          by_cases hpp : p = x.p
          · subst hpp
            rw [ha] at h6; cases h6
            have := hk3 x.k c'.toNat a a (Nat.le_refl _) (by omega) (List.getElem?_eq_some_iff.1 h5).1 hb h5
            omega
          · omega
      · refine ⟨hp, hi.inside, hi.small, strictOn_mono hi.sorted (by simp), ?_⟩
        intro s' h
        simp only at h
        rw [hs] at h; cases h
        exact ⟨hk, hk2, strictOn_mono hk3 (by simp)⟩
      · simp only [size1, hs]; omega
    · right
      generalize hmx : max a b = m
      have hne : ¬ (a = m ∧ b = m) := by omega
      obtain ⟨p', g1, g2, g3, g4, g5⟩ := gallop_lowerBound x.lvl.crd x.p x.lvl.e m hp hi.inside hi.small
        (SortedOn.of_strict hi.sorted)
      obtain ⟨k', f1, f2, f3, f4, f5⟩ := gallop_lowerBound s x.k s.length m hk (Nat.le_refl _) hk2
        (SortedOn.of_strict hk3)
      have above : ∀ i v, x.p ≤ i → i < x.lvl.e → x.lvl.crd[i]? = some v → a ≤ v := by
        intro i v h1 h2 h3
        by_cases hpp : i = x.p
        · subst hpp; rw [ha] at h3; cases h3; exact Int.le_refl _
        · have := hi.sorted x.p i a v (Nat.le_refl _) (by omega) h2 ha h3
          omega
      have above' : ∀ i v, x.k ≤ i → s[i]? = some v → b ≤ v := by
        intro i v h1 h3
        by_cases hpp : i = x.k
        · subst hpp; rw [hb] at h3; cases h3; exact Int.le_refl _
        · have := hk3 x.k i b v (Nat.le_refl _) (by omega) (List.getElem?_eq_some_iff.1 h3).1 hb h3
          omega
      have g6 : ∀ v, p' < x.lvl.e → x.lvl.crd[p']? = some v → m ≤ v := by
        intro v h1 h2
        obtain ⟨w, h3, h4⟩ := g5 h1
        rw [h2] at h3; cases h3; exact h4
      have f6 : ∀ v, k' < s.length → s[k']? = some v → m ≤ v := by
        intro v h1 h2
        obtain ⟨w, h3, h4⟩ := f5 h1
        rw [h2] at h3; cases h3; exact h4
      clear g5 f5
      refine ⟨⟨x.lvl, p', k'⟩, ?_, ?_, ?_, ?_⟩
      · simp only [headOne, ha, hs, hb, hmx]
        rw [if_neg hne, g1, f1]
      · intro c p
        simp only [Rem, hs]
        constructor
        · rintro ⟨h1, h2, h3, h4, h5⟩
          exact ⟨by omega, h2, h3, by omega, h5⟩
        · rintro ⟨h1, h2, h3, h4, v, h5, h6⟩
          have v1 := above p v h1 h2 h6
          have v2 := above' c.toNat v h4 h5
          refine ⟨?_, h2, h3, ?_, v, h5, h6⟩
          · by_cases hlt : p < p'
            · have := g4 p v h1 hlt h6; omega
            · omega
          · by_cases hlt : c.toNat < k'
            · have := f4 c.toNat v h4 hlt h5; omega
            · omega
      · refine ⟨g3, hi.inside, hi.small, strictOn_mono hi.sorted g2, ?_⟩
        intro s' h
        simp only at h
        rw [hs] at h; cases h
        exact ⟨f3, hk2, strictOn_mono hk3 f2⟩
      · simp only [size1, hs]
        have : x.p < p' ∨ x.k < k' := by
          by_cases hlt : a < b
          · left
            by_cases hpp : p' = x.p
            · have := g6 a (by omega) (by rw [hpp]; exact ha)
              omega
            · omega
          · right
            by_cases hpp : k' = x.k
            · have := f6 b (by omega) (by rw [hpp]; exact hb)
              omega
            · omega
        omega

/-! ### One iteration -/

/-- The loop coordinates at the positions: the first that remains of each level. -/
def Heads : St → List Int → Prop
  | [], [] => True
  | x :: xs, c :: cs =>
    (Rem x c x.p ∧ (∀ c' p, Rem x c' p → c ≤ c' ∧ (c' = c → p = x.p)) ∧
      (∀ c' p, Rem ⟨x.lvl, x.p + 1, x.k + 1⟩ c' p ↔ c < c' ∧ Rem x c' p) ∧
      Inv ⟨x.lvl, x.p + 1, x.k + 1⟩ ∧ size1 ⟨x.lvl, x.p + 1, x.k + 1⟩ < size1 x) ∧ Heads xs cs
  | _, _ => False

theorem headAll_spec : ∀ (st : St), (∀ x ∈ st, Inv x) → st.all more = true →
    (∃ cs, headAll st = some (.coords cs) ∧ Heads st cs) ∨
    (∃ st', headAll st = some (.next st') ∧ (∀ c ps, AllRem c st' ps ↔ AllRem c st ps) ∧
      (∀ x ∈ st', Inv x) ∧ size st' < size st ∧ st'.length = st.length)
  | [], _, _ => Or.inl ⟨[], rfl, trivial⟩
  | x :: xs, hi, hm => by
    rw [List.all_cons, Bool.and_eq_true] at hm
    have hx := hi x (List.mem_cons_self ..)
    have hxs : ∀ y ∈ xs, Inv y := fun y hy => hi y (List.mem_cons_of_mem _ hy)
    rcases headOne_spec hx hm.1 with ⟨c, h1, h2⟩ | ⟨x', h1, h2, h3, h4⟩
    · rcases headAll_spec xs hxs hm.2 with ⟨cs, g1, g2⟩ | ⟨st', g1, g2, g3, g4, g5⟩
      · left
        exact ⟨c :: cs, by simp only [headAll, h1, g1], h2, g2⟩
      · right
        refine ⟨x :: st', by simp only [headAll, h1, g1], ?_, ?_, ?_, ?_⟩
        · intro c ps
          cases ps with
          | nil => exact Iff.rfl
          | cons p ps => exact and_congr Iff.rfl (g2 c ps)
        · intro y hy
          rcases List.mem_cons.1 hy with rfl | hy
          · exact hx
          · exact g3 y hy
        · simp only [size]; omega
        · simp [g5]
    · right
      refine ⟨x' :: xs, by simp only [headAll, h1], ?_, ?_, ?_, rfl⟩
      · intro c ps
        cases ps with
        | nil => exact Iff.rfl
        | cons p ps => exact and_congr (h2 c p) Iff.rfl
      · intro y hy
        rcases List.mem_cons.1 hy with rfl | hy
        · exact h3
        · exact hxs y hy
      · simp only [size]; omega

theorem foldl_min_spec : ∀ (cs : List Int) (c : Int),
    (cs.foldl min c ≤ c ∧ ∀ v ∈ cs, cs.foldl min c ≤ v) ∧ (cs.foldl min c = c ∨ cs.foldl min c ∈ cs)
  | [], c => by simp
  | d :: cs, c => by
    obtain ⟨⟨h1, h2⟩, h3⟩ := foldl_min_spec cs (min c d)
    simp only [List.foldl_cons, List.mem_cons]
    refine ⟨⟨by omega, ?_⟩, ?_⟩
    · rintro v (rfl | hv)
      · omega
      · exact h2 v hv
    · rcases h3 with h3 | h3
      · by_cases hcd : c ≤ d
        · left; omega
        · right; left; omega
      · right; right; exact h3

theorem resolve_min {cs : List Int} (hne : cs ≠ []) :
    (∀ v ∈ cs, resolve cs ≤ v) ∧ resolve cs ∈ cs := by
  match cs, hne with
  | c :: cs, _ =>
    obtain ⟨⟨h1, h2⟩, h3⟩ := foldl_min_spec cs c
    simp only [resolve, List.mem_cons]
    refine ⟨?_, h3⟩
    rintro v (rfl | hv)
    · exact h1
    · exact h2 v hv

theorem heads_length : ∀ {st : St} {cs : List Int}, Heads st cs → cs.length = st.length
  | [], [], _ => rfl
  | [], _ :: _, h => h.elim
  | _ :: _, [], h => h.elim
  | _ :: _, _ :: _, h => by simp [heads_length h.2]

/-- Advancing the levels at `c` drops `c`. -/
theorem advance_spec {c : Int} : ∀ {st : St} {cs : List Int}, Heads st cs → (∀ v ∈ cs, c ≤ v) →
    (∀ x ∈ st, Inv x) →
    (∀ x ∈ advance c st cs, Inv x) ∧ size (advance c st cs) ≤ size st ∧
    (c ∈ cs → size (advance c st cs) < size st) ∧
    (∀ c' ps, c < c' → (AllRem c' (advance c st cs) ps ↔ AllRem c' st ps)) ∧
    (∀ c' ps, AllRem c' (advance c st cs) ps → st ≠ [] → c < c' ∨ c ∉ cs) ∧
    (∀ c' ps, AllRem c' st ps → st ≠ [] → c ≤ c') ∧
    (∀ ps, AllRem c st ps → (∀ v ∈ cs, v = c) ∧ ps = st.map (·.p)) ∧
    ((∀ v ∈ cs, v = c) → AllRem c st (st.map (·.p))) ∧ (advance c st cs).length = st.length
  | [], [], _, _, _ => by
    refine ⟨by simp [advance], by simp [advance, size], by simp, ?_, by simp, by simp, ?_, ?_, rfl⟩
    · intro c' ps _; exact Iff.rfl
    · intro ps h
      cases ps with
      | nil => simp
      | cons p ps => exact h.elim
    · intro _; trivial
  | [], _ :: _, h, _, _ => h.elim
  | _ :: _, [], h, _, _ => h.elim
  | x :: xs, v :: vs, ⟨⟨h1, h2, h3, h4, h5⟩, hh⟩, hc, hi => by
    obtain ⟨a1, a2, a3, a4, a5, a6, a7, a8, a9⟩ := advance_spec hh
      (fun w hw => hc w (List.mem_cons_of_mem _ hw)) (fun y hy => hi y (List.mem_cons_of_mem _ hy))
    have hcv := hc v (List.mem_cons_self ..)
    have hone : Inv (if v = c then ⟨x.lvl, x.p + 1, x.k + 1⟩ else x) ∧
        size1 (if v = c then ⟨x.lvl, x.p + 1, x.k + 1⟩ else x) ≤ size1 x ∧
        (v = c → size1 (if v = c then ⟨x.lvl, x.p + 1, x.k + 1⟩ else x) < size1 x) ∧
        (∀ c' p, Rem (if v = c then ⟨x.lvl, x.p + 1, x.k + 1⟩ else x) c' p ↔ c < c' ∧ Rem x c' p) := by
      by_cases hvc : v = c
      · rw [if_pos hvc]
        subst hvc
        exact ⟨h4, by omega, fun _ => h5, h3⟩
      · rw [if_neg hvc]
        refine ⟨hi x (List.mem_cons_self ..), Nat.le_refl _, fun h => absurd h hvc, ?_⟩
        intro c' p
        refine ⟨fun h => ⟨?_, h⟩, fun h => h.2⟩
        have := (h2 c' p h).1
        omega
    simp only [advance]
    generalize (if v = c then (⟨x.lvl, x.p + 1, x.k + 1⟩ : Cursor) else x) = x' at hone
    obtain ⟨o1, o2, o3, o4⟩ := hone
    refine ⟨?_, ?_, ?_, ?_, ?_, ?_, ?_, ?_, ?_⟩
    · intro y hy
      rcases List.mem_cons.1 hy with rfl | hy
      · exact o1
      · exact a1 y hy
    · simp only [size]; omega
    · intro hm
      simp only [size]
      rcases List.mem_cons.1 hm with hm | hm
      · have := o3 hm.symm; omega
      · have := a3 hm; omega
    · intro c' ps hlt
      cases ps with
      | nil => exact Iff.rfl
      | cons p ps => exact and_congr ((o4 c' p).trans ⟨fun h => h.2, fun h => ⟨hlt, h⟩⟩) (a4 c' ps hlt)
    · intro c' ps h _
      cases ps with
      | nil => exact h.elim
      | cons p ps => exact Or.inl ((o4 c' p).1 h.1).1
    · intro c' ps h _
      cases ps with
      | nil => exact h.elim
      | cons p ps => have := (h2 c' p h.1).1; omega
    · intro ps h
      cases ps with
      | nil => exact h.elim
      | cons p ps =>
        obtain ⟨b1, b2⟩ := a7 ps h.2
        have hv := (h2 c p h.1).1
        have hvc : v = c := by omega
        refine ⟨?_, ?_⟩
        · intro w hw
          rcases List.mem_cons.1 hw with rfl | hw
          · exact hvc
          · exact b1 w hw
        · rw [List.map_cons, b2, (h2 c p h.1).2 hvc.symm]
    · intro h
      have hvc := h v (List.mem_cons_self ..)
      subst hvc
      exact ⟨h1, a8 (fun w hw => h w (List.mem_cons_of_mem _ hw))⟩
    · simp [a9]

/-! ### The loop -/

theorem loop_spec : ∀ (n : Nat) (st : St), size st ≤ n → st ≠ [] → (∀ x ∈ st, Inv x) →
    ∃ evs, loop n st = some evs ∧ evs.Pairwise (fun a b => a.1 < b.1) ∧
      ∀ c ps, (c, ps) ∈ evs ↔ AllRem c st ps := by
  intro n
  induction n with
  | zero =>
    intro st hn hne hi
    have hm : st.all more = false := by
      cases hb : st.all more with
      | false => rfl
      | true =>
        match st, hne with
        | x :: xs, _ =>
          rw [List.all_cons, Bool.and_eq_true] at hb
          have := more_p hb.1
          simp only [size, size1] at hn
          omega
    refine ⟨[], by simp [loop, hm], List.Pairwise.nil, ?_⟩
    intro c ps
    refine ⟨fun h => (by cases h), fun h => ?_⟩
    have := allRem_more h
    rw [hm] at this; cases this
  | succ n ih =>
    intro st hn hne hi
    cases hm : st.all more with
    | false =>
      refine ⟨[], by simp [loop, hm], List.Pairwise.nil, ?_⟩
      intro c ps
      refine ⟨fun h => (by cases h), fun h => ?_⟩
      have := allRem_more h
      rw [hm] at this; cases this
    | true =>
      rcases headAll_spec st hi hm with ⟨cs, h1, h2⟩ | ⟨st', h1, h2, h3, h4, h5⟩
      · have hcne : cs ≠ [] := by
          intro h
          have := heads_length h2
          rw [h] at this
          exact hne (List.length_eq_zero_iff.1 this.symm)
        obtain ⟨m1, m2⟩ := resolve_min hcne
        generalize hc : resolve cs = c at m1 m2
        obtain ⟨a1, a2, a3, a4, a5, a6, a7, a8, a9⟩ := advance_spec h2 m1 hi
        have hne' : advance c st cs ≠ [] := by
          intro h
          rw [h] at a9
          exact hne (List.length_eq_zero_iff.1 a9.symm)
        obtain ⟨evs', g1, g2, g3⟩ := ih (advance c st cs) (by have := a3 m2; omega) hne' a1
        have hafter : ∀ b ∈ evs', c < b.1 := by
          intro b hb
          rcases a5 b.1 b.2 ((g3 b.1 b.2).1 hb) hne with h | h
          · exact h
          · exact absurd m2 h
        refine ⟨(if cs.all (fun v => v == c) then [(c, st.map (·.p))] else []) ++ evs', ?_, ?_, ?_⟩
        · simp only [loop, hm, if_true, step, h1, hc, g1]
        · rw [List.pairwise_append]
          refine ⟨?_, g2, ?_⟩
          · split
            · exact List.pairwise_singleton _ _
            · exact List.Pairwise.nil
          · intro a ha b hb
            split at ha
            · rw [List.mem_singleton] at ha
              subst ha
              exact hafter b hb
            · cases ha
        · intro c' ps
          rw [List.mem_append, g3]
          constructor
          · rintro (h | h)
            · split at h
              · rename_i hall
                rw [List.mem_singleton] at h
                cases h
                exact a8 (fun v hv => by simpa using List.all_eq_true.1 hall v hv)
              · cases h
            · rcases a5 c' ps h hne with hlt | hlt
              · exact (a4 c' ps hlt).1 h
              · exact absurd m2 hlt
          · intro h
            by_cases hcc : c' = c
            · subst hcc
              obtain ⟨b1, b2⟩ := a7 ps h
              left
              rw [if_pos (List.all_eq_true.2 (fun v hv => by simpa using b1 v hv)), b2]
              exact List.mem_singleton.2 rfl
            · right
              have := a6 c' ps h hne
              exact (a4 c' ps (by omega)).2 h
      · have hne' : st' ≠ [] := by
          intro h
          rw [h] at h5
          exact hne (List.length_eq_zero_iff.1 h5.symm)
        obtain ⟨evs', g1, g2, g3⟩ := ih st' (by omega) hne' h3
        refine ⟨evs', ?_, g2, fun c ps => (g3 c ps).trans (h2 c ps)⟩
        simp only [loop, hm, if_true, step, h1, g1]
        rfl

end Verif.IndexSet
