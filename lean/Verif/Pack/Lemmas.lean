import Verif.Pack.Spec
import Verif.Util
namespace Verif.Pack
open Verif.Merge (Lvl box)

variable {V : Type}

/-! ### Lists -/

theorem sorted_ext : ∀ {l m : List Nat}, l.Pairwise (· < ·) → m.Pairwise (· < ·) →
    (∀ x, x ∈ l ↔ x ∈ m) → l = m := by
  intro l
  induction l with
  | nil =>
    intro m _ _ h
    cases m with
    | nil => rfl
    | cons b m => exact absurd ((h b).2 List.mem_cons_self) (by simp)
  | cons a l ih =>
    intro m hl hm h
    cases m with
    | nil => exact absurd ((h a).1 List.mem_cons_self) (by simp)
    | cons b m =>
      rw [List.pairwise_cons] at hl hm
      have hab : a = b := by
        have h1 : a ∈ b :: m := (h a).1 List.mem_cons_self
        have h2 : b ∈ a :: l := (h b).2 List.mem_cons_self
        rcases List.mem_cons.1 h1 with h1 | h1
        · exact h1
        · rcases List.mem_cons.1 h2 with h2 | h2
          · exact h2.symm
          · have := hl.1 b h2; have := hm.1 a h1; omega
      subst hab
      congr 1
      apply ih hl.2 hm.2
      intro x
      constructor
      · intro hx
        rcases List.mem_cons.1 ((h x).1 (List.mem_cons_of_mem _ hx)) with h1 | h1
        · have := hl.1 x hx; omega
        · exact h1
      · intro hx
        rcases List.mem_cons.1 ((h x).2 (List.mem_cons_of_mem _ hx)) with h1 | h1
        · have := hm.1 x hx; omega
        · exact h1

theorem forAll_eq {α : Type} {f : Nat → Option (List α)} {g : Nat → List α} : ∀ {l : List Nat},
    (∀ q ∈ l, f q = some (g q)) → forAll f l = some (l.flatMap g) := by
  intro l
  induction l with
  | nil => intro _; rfl
  | cons q qs ih =>
    intro h
    unfold forAll
    rw [h q List.mem_cons_self, ih (fun x hx => h x (List.mem_cons_of_mem _ hx))]
    rfl

theorem forAll_congr {α : Type} {f g : Nat → Option (List α)} : ∀ {l : List Nat},
    (∀ q ∈ l, f q = g q) → forAll f l = forAll g l := by
  intro l
  induction l with
  | nil => intro _; rfl
  | cons q qs ih =>
    intro h
    unfold forAll
    rw [h q List.mem_cons_self, ih (fun x hx => h x (List.mem_cons_of_mem _ hx))]

theorem prefix_getElem? {α : Type} {l m : List α} (h : l <+: m) {i : Nat} (hi : i < l.length) :
    m[i]? = l[i]? := by
  obtain ⟨t, rfl⟩ := h
  exact List.getElem?_append_left hi

/-! ### Unique entries -/

theorem uniqueFrom_spec : ∀ (l : List Nat) (prev : Nat), (prev :: l).Pairwise (· ≤ ·) →
    (uniqueFrom prev l).Pairwise (· < ·) ∧ (∀ x, x ∈ uniqueFrom prev l ↔ x ∈ l ∧ x ≠ prev) ∧
    ∀ x ∈ uniqueFrom prev l, prev < x := by
  intro l
  induction l with
  | nil => intro prev _; simp [uniqueFrom]
  | cons c cs ih =>
    intro prev h
    rw [List.pairwise_cons] at h
    have hpc := h.1 c List.mem_cons_self
    unfold uniqueFrom
    split
    · rename_i hgt
      obtain ⟨h1, h2, h3⟩ := ih c h.2
      refine ⟨List.pairwise_cons.2 ⟨h3, h1⟩, ?_, ?_⟩
      · intro x
        rw [List.mem_cons, List.mem_cons, h2]
        constructor
        · rintro (rfl | ⟨hx, hne⟩)
          · exact ⟨Or.inl rfl, by omega⟩
          · refine ⟨Or.inr hx, ?_⟩
            have := h3 x ((h2 x).2 ⟨hx, hne⟩)
            omega
        · rintro ⟨rfl | hx, hne⟩
          · exact Or.inl rfl
          · by_cases hxc : x = c
            · exact Or.inl hxc
            · exact Or.inr ⟨hx, hxc⟩
      · intro x hx
        rcases List.mem_cons.1 hx with rfl | hx
        · exact hgt
        · have := h3 x hx; omega
    · rename_i hle
      have hcp : c = prev := by omega
      subst hcp
      obtain ⟨h1, h2, h3⟩ := ih c h.2
      refine ⟨h1, ?_, h3⟩
      intro x
      rw [h2, List.mem_cons]
      constructor
      · rintro ⟨hx, hne⟩; exact ⟨Or.inr hx, hne⟩
      · rintro ⟨rfl | hx, hne⟩
        · exact absurd rfl hne
        · exact ⟨hx, hne⟩

theorem getUniqueEntries_spec {l : List Nat} (h : l.Pairwise (· ≤ ·)) :
    (getUniqueEntries l).Pairwise (· < ·) ∧ ∀ x, x ∈ getUniqueEntries l ↔ x ∈ l := by
  cases l with
  | nil => simp [getUniqueEntries]
  | cons c cs =>
    obtain ⟨h1, h2, h3⟩ := uniqueFrom_spec cs c h
    refine ⟨List.pairwise_cons.2 ⟨h3, h1⟩, ?_⟩
    intro x
    unfold getUniqueEntries
    rw [List.mem_cons, List.mem_cons, h2]
    constructor
    · rintro (rfl | ⟨hx, _⟩)
      · exact Or.inl rfl
      · exact Or.inr hx
    · rintro (rfl | hx)
      · exact Or.inl rfl
      · by_cases hxc : x = c
        · exact Or.inl hxc
        · exact Or.inr ⟨hx, hxc⟩

/-! ### Rows of a level -/

/-- Lexicographic order of coordinates. -/
def lexLe : List Nat → List Nat → Prop
  | [], _ => True
  | _ :: _, [] => False
  | a :: as, b :: bs => a < b ∨ (a = b ∧ lexLe as bs)

/-- The rows with head `j`, without it. -/
def sub (rows : List (Row V)) (j : Nat) : List (Row V) := (rows.filter (headIs j)).map tailRow

/-- Sorted rows with one in-range coordinate per level. -/
structure RowsOK (dims : List Nat) (rows : List (Row V)) : Prop where
  sorted : rows.Pairwise (fun a b => lexLe a.1 b.1)
  range : ∀ r ∈ rows, inRange dims r.1

theorem inRange_cons {n : Nat} {ns : List Nat} {c : List Nat} :
    inRange (n :: ns) c ↔ ∃ j cs, c = j :: cs ∧ j < n ∧ inRange ns cs := by
  constructor
  · rintro ⟨h1, h2⟩
    cases c with
    | nil => simp at h1
    | cons j cs =>
      refine ⟨j, cs, rfl, h2 0 (by simp) (by simp), by simpa using h1, ?_⟩
      intro m hm hm'
      exact h2 (m + 1) (by simp; omega) (by simp; omega)
  · rintro ⟨j, cs, rfl, hj, h1, h2⟩
    refine ⟨by simp [h1], ?_⟩
    intro m hm hm'
    cases m with
    | zero => exact hj
    | succ m => exact h2 m (by simpa using hm) (by simpa using hm')

theorem inRange_nil {c : List Nat} : inRange [] c ↔ c = [] := by
  constructor
  · rintro ⟨h, _⟩; exact List.length_eq_zero_iff.1 h
  · rintro rfl; exact ⟨rfl, fun m h => absurd h (by simp)⟩

theorem mem_sub {rows : List (Row V)} {j : Nat} {s : Row V} :
    s ∈ sub rows j ↔ ∃ r ∈ rows, r.1 = j :: s.1 ∧ r.2 = s.2 := by
  unfold sub
  rw [List.mem_map]
  constructor
  · rintro ⟨r, hr, rfl⟩
    rw [List.mem_filter] at hr
    refine ⟨r, hr.1, ?_, rfl⟩
    have := hr.2
    unfold headIs at this
    cases hc : r.1 with
    | nil => rw [hc] at this; simp at this
    | cons a as => rw [hc] at this; simp at this; simp [tailRow, hc, this]
  · rintro ⟨r, hr, h1, h2⟩
    refine ⟨r, List.mem_filter.2 ⟨hr, by simp [headIs, h1]⟩, ?_⟩
    ext1
    · simp [tailRow, h1]
    · exact h2

theorem RowsOK.sub {n : Nat} {ns : List Nat} {rows : List (Row V)} (h : RowsOK (n :: ns) rows) (j : Nat) :
    RowsOK ns (sub rows j) := by
  constructor
  · unfold Pack.sub
    rw [List.pairwise_map, List.pairwise_filter]
    refine h.sorted.imp_of_mem ?_
    intro a b ha hb hab h1 h2
    obtain ⟨ja, ca, hac, _⟩ := inRange_cons.1 (h.range a ha)
    obtain ⟨jb, cb, hbc, _⟩ := inRange_cons.1 (h.range b hb)
    simp only [headIs, hac, hbc, List.head?_cons, beq_iff_eq, Option.some.injEq] at h1 h2
    rw [hac, hbc] at hab
    simp only [tailRow, hac, hbc, List.tail_cons]
    rcases hab with hlt | ⟨_, hle⟩
    · omega
    · exact hle
  · intro s hs
    obtain ⟨r, hr, h1, _⟩ := mem_sub.1 hs
    obtain ⟨j', cs, hc, _, hin⟩ := inRange_cons.1 (h.range r hr)
    rw [h1] at hc
    rw [(List.cons.inj hc).2]
    exact hin

theorem RowsOK.heads_sorted {n : Nat} {ns : List Nat} {rows : List (Row V)} (h : RowsOK (n :: ns) rows) :
    (heads rows).Pairwise (· ≤ ·) := by
  unfold heads
  rw [List.pairwise_map]
  refine h.sorted.imp_of_mem ?_
  intro a b ha hb hab
  obtain ⟨ja, ca, hac, _⟩ := inRange_cons.1 (h.range a ha)
  obtain ⟨jb, cb, hbc, _⟩ := inRange_cons.1 (h.range b hb)
  rw [hac, hbc] at hab ⊢
  simp only [List.headD_cons]
  rcases hab with hlt | ⟨heq, _⟩ <;> omega

theorem mem_heads {n : Nat} {ns : List Nat} {rows : List (Row V)} (h : RowsOK (n :: ns) rows) {j : Nat} :
    j ∈ heads rows ↔ ∃ r ∈ rows, headIs j r = true := by
  unfold heads
  rw [List.mem_map]
  constructor
  · rintro ⟨r, hr, rfl⟩
    obtain ⟨j, cs, hc, _⟩ := inRange_cons.1 (h.range r hr)
    exact ⟨r, hr, by simp [headIs, hc]⟩
  · rintro ⟨r, hr, hh⟩
    obtain ⟨j', cs, hc, _⟩ := inRange_cons.1 (h.range r hr)
    refine ⟨r, hr, ?_⟩
    simpa [headIs, hc] using hh

/-- Scanning a sorted list for the rows with the smallest head finds all of them. -/
theorem takeWhile_headIs {rows : List (Row V)} {j : Nat} (hs : (heads rows).Pairwise (· ≤ ·))
    (hne : ∀ r ∈ rows, r.1 ≠ []) (hge : ∀ x ∈ heads rows, j ≤ x) :
    rows.takeWhile (headIs j) = rows.filter (headIs j) ∧
    rows.dropWhile (headIs j) = rows.filter (fun r => !headIs j r) := by
  induction rows with
  | nil => simp
  | cons r rows ih =>
    have hs' : (heads rows).Pairwise (· ≤ ·) := (List.pairwise_cons.1 hs).2
    have hge' : ∀ x ∈ heads rows, j ≤ x := fun x hx => hge x (List.mem_cons_of_mem _ hx)
    have hne' : ∀ r ∈ rows, r.1 ≠ [] := fun r hr => hne r (List.mem_cons_of_mem _ hr)
    cases hh : headIs j r with
    | true =>
      rw [List.takeWhile_cons, List.dropWhile_cons, List.filter_cons, List.filter_cons, hh]
      simp only [if_true, Bool.not_true, Bool.false_eq_true, if_false]
      exact ⟨by rw [(ih hs' hne' hge').1], (ih hs' hne' hge').2⟩
    | false =>
      have hall : ∀ x ∈ r :: rows, headIs j x = false := by
        intro x hx
        rcases List.mem_cons.1 hx with rfl | hx
        · exact hh
        · cases hc : r.1 with
          | nil => exact absurd hc (hne r List.mem_cons_self)
          | cons a as =>
            have ha : j < a := by
              have h1 : j ≤ a := by
                have := hge a (by simp [heads, hc])
                exact this
              have h2 : a ≠ j := by
                intro hc'; subst hc'
                simp [headIs, hc] at hh
              omega
            cases hd : x.1 with
            | nil => exact absurd hd (hne x (List.mem_cons_of_mem _ hx))
            | cons b bs =>
              have := (List.pairwise_cons.1 hs).1 b (List.mem_map.2 ⟨x, hx, by simp [hd]⟩)
              simp only [hc, List.headD_cons] at this
              simp [headIs, hd]; omega
      constructor
      · rw [List.takeWhile_cons, hh]
        simp only [Bool.false_eq_true, if_false]
        symm
        rw [List.filter_eq_nil_iff]
        intro x hx; rw [hall x hx]; simp
      · rw [List.dropWhile_cons, hh]
        simp only [Bool.false_eq_true, if_false]
        symm
        rw [List.filter_eq_self]
        intro x hx; rw [hall x hx]; rfl

theorem packSegs_eq (pk : List (Row V) → Ix × List V → Ix × List V) : ∀ (js : List Nat) (rows : List (Row V))
    (st : Ix × List V), js.Pairwise (· < ·) → (heads rows).Pairwise (· ≤ ·) → (∀ r ∈ rows, r.1 ≠ []) →
    (∀ x ∈ heads rows, x ∈ js) →
    packSegs pk js rows st = js.foldl (fun st j => pk (sub rows j) st) st := by
  intro js
  induction js with
  | nil => intros; rfl
  | cons j js ih =>
    intro rows st hj hs hne hmem
    rw [List.pairwise_cons] at hj
    have hge : ∀ x ∈ heads rows, j ≤ x := by
      intro x hx
      rcases List.mem_cons.1 (hmem x hx) with rfl | h
      · exact Nat.le_refl _
      · exact Nat.le_of_lt (hj.1 x h)
    obtain ⟨h1, h2⟩ := takeWhile_headIs hs hne hge
    unfold packSegs
    rw [h1, h2]
    have hsub : (heads (rows.filter (fun r => !headIs j r))).Sublist (heads rows) :=
      List.Sublist.map _ List.filter_sublist
    rw [ih _ _ hj.2 (hs.sublist hsub) (fun r hr => hne r (List.mem_filter.1 hr).1), List.foldl_cons]
    · show js.foldl _ (pk (sub rows j) st) = _
      have : ∀ (l : List Nat) (st : Ix × List V), (∀ x ∈ l, j < x) →
          l.foldl (fun st j_1 => pk (sub (rows.filter (fun r => !headIs j r)) j_1) st) st =
          l.foldl (fun st j => pk (sub rows j) st) st := by
        intro l
        induction l with
        | nil => intros; rfl
        | cons x l ihl =>
          intro st hl
          rw [List.foldl_cons, List.foldl_cons]
          have : sub (rows.filter (fun r => !headIs j r)) x = sub rows x := by
            unfold sub
            rw [List.filter_filter]
            congr 1
            apply List.filter_congr
            intro r _
            have := hl x List.mem_cons_self
            cases hx : headIs x r with
            | false => rfl
            | true =>
              have : headIs j r = false := by
                simp only [headIs, beq_iff_eq] at hx
                simp [headIs, hx]; omega
              rw [this]; rfl
          rw [this]
          exact ihl _ (fun y hy => hl y (List.mem_cons_of_mem _ hy))
      exact this js _ hj.1
    · intro x hx
      rcases List.mem_cons.1 (hmem x (hsub.subset hx)) with rfl | h
      · exfalso
        unfold heads at hx
        rw [List.mem_map] at hx
        obtain ⟨r, hr, hrx⟩ := hx
        rw [List.mem_filter] at hr
        cases hc : r.1 with
        | nil => exact hne r hr.1 hc
        | cons a as =>
          have := hr.2
          rw [hc] at hrx
          simp only [List.headD_cons] at hrx
          simp [headIs, hc, hrx] at this
      · exact h

/-! ### Well formed partial arrays -/

/-- Arrays that hold the segments of `s` parent positions. -/
def Acc : Nat → List (Nat × Kind) → Ix → List V → Prop
  | s, [], _, vals => vals.length = s
  | s, (n, .dense) :: ls, _ :: ixs, vals => Acc (s * n) ls ixs vals
  | s, (n, .sparse) :: ls, (pos, crd) :: ixs, vals =>
    (pos.length = s + 1 ∧ pos[0]? = some 0 ∧ pos[s]? = some crd.length ∧ pos.Pairwise (· ≤ ·) ∧
      (∀ p a b, pos[p]? = some a → pos[p + 1]? = some b → ((crd.drop a).take (b - a)).Pairwise (· < ·)) ∧
      (∀ x ∈ crd, x < n)) ∧ Acc crd.length ls ixs vals
  | _, _ :: _, [], _ => False

def Ext : Ix → Ix → Prop
  | [], [] => True
  | a :: as, b :: bs => (a.1 <+: b.1 ∧ a.2 <+: b.2) ∧ Ext as bs
  | _, _ => False

theorem Ext.refl : ∀ a : Ix, Ext a a
  | [] => trivial
  | _ :: as => ⟨⟨List.prefix_refl _, List.prefix_refl _⟩, Ext.refl as⟩

theorem Ext.trans : ∀ {a b c : Ix}, Ext a b → Ext b c → Ext a c
  | [], [], [], _, _ => trivial
  | _ :: _, _ :: _, _ :: _, h1, h2 =>
    ⟨⟨h1.1.1.trans h2.1.1, h1.1.2.trans h2.1.2⟩, Ext.trans h1.2 h2.2⟩
  | [], [], _ :: _, _, h => h.elim
  | [], _ :: _, _, h, _ => h.elim
  | _ :: _, [], _, h, _ => h.elim
  | _ :: _, _ :: _, [], _, h => h.elim

theorem pos_le_last {pos : List Nat} {s m : Nat} (hlen : pos.length = s + 1) (hlast : pos[s]? = some m)
    (hp : pos.Pairwise (· ≤ ·)) {p a : Nat} (ha : pos[p]? = some a) : a ≤ m := by
  obtain ⟨h1, h2⟩ := List.getElem?_eq_some_iff.1 ha
  obtain ⟨h3, h4⟩ := List.getElem?_eq_some_iff.1 hlast
  rcases Nat.lt_or_ge p s with h | h
  · have := List.pairwise_iff_getElem.1 hp p s h1 h3 h
    omega
  · have : p = s := by omega
    subst this
    omega

theorem pos_mono {pos : List Nat} (hp : pos.Pairwise (· ≤ ·)) {p a b : Nat} (ha : pos[p]? = some a)
    (hb : pos[p + 1]? = some b) : a ≤ b := by
  obtain ⟨h1, h2⟩ := List.getElem?_eq_some_iff.1 ha
  obtain ⟨h3, h4⟩ := List.getElem?_eq_some_iff.1 hb
  have := List.pairwise_iff_getElem.1 hp p (p + 1) h1 h3 (by omega)
  omega

theorem walk_ext : ∀ (ls : List (Nat × Kind)) {s : Nat} {ixs ixs' : Ix} {vals vals' : List V},
    Acc s ls ixs vals → Ext ixs ixs' → vals <+: vals' → ∀ p, p < s →
    walk vals' (toLevels ls ixs') p = walk vals (toLevels ls ixs) p := by
  intro ls
  induction ls with
  | nil =>
    intro s ixs ixs' vals vals' ha he hv p hp
    have ha : vals.length = s := by cases ixs <;> exact ha
    cases ixs <;> cases ixs' <;> simp only [toLevels, walk, prefix_getElem? hv (by omega : p < vals.length)]
  | cons l ls ih =>
    intro s ixs ixs' vals vals' ha he hv p hp
    obtain ⟨n, k⟩ := l
    cases ixs with
    | nil => cases k <;> exact ha.elim
    | cons ix ixs =>
      cases ixs' with
      | nil => exact he.elim
      | cons ix' ixs' =>
        obtain ⟨pos, crd⟩ := ix
        obtain ⟨pos', crd'⟩ := ix'
        cases k with
        | dense =>
          have hd : ∀ (v : List V) (x : List Nat × List Nat) (xs : Ix) (q : Nat),
            walk v (toLevels ((n, .dense) :: ls) (x :: xs)) q =
            forAll (fun j => (walk v (toLevels ls xs) (q * n + j)).map
              (List.map (fun r => (j :: r.1, r.2)))) (List.range n) := fun _ _ _ _ => rfl
          rw [hd, hd]
          apply forAll_congr
          intro j hj
          rw [List.mem_range] at hj
          rw [ih (show Acc (s * n) ls ixs vals from ha) he.2 hv (p * n + j) (by
            have : (p + 1) * n ≤ s * n := Nat.mul_le_mul_right n hp
            rw [Nat.succ_mul] at this
            omega)]
        | sparse =>
          obtain ⟨⟨h1, h2, h3, h4, h5, h6⟩, h7⟩ := ha
          have hd : ∀ (v : List V) (po cr : List Nat) (xs : Ix) (q : Nat),
            walk v (toLevels ((n, .sparse) :: ls) ((po, cr) :: xs)) q =
            match po[q]?, po[q + 1]? with
            | some a, some b =>
              forAll (fun q => match cr[q]? with
                | none => none
                | some c => (walk v (toLevels ls xs) q).map (List.map (fun r => (c :: r.1, r.2))))
                (List.range' a (b - a))
            | _, _ => none := fun _ _ _ _ _ => rfl
          rw [hd, hd, prefix_getElem? he.1.1 (by omega : p < pos.length),
            prefix_getElem? he.1.1 (by omega : p + 1 < pos.length)]
          cases ha1 : pos[p]? with
          | none => rfl
          | some a =>
            cases hb1 : pos[p + 1]? with
            | none => rfl
            | some b =>
              have hb := pos_le_last h1 h3 h4 hb1
              have hab := pos_mono h4 ha1 hb1
              simp only
              apply forAll_congr
              intro q hq
              rw [List.mem_range'_1] at hq
              have hq' : q < crd.length := by omega
              rw [prefix_getElem? he.1.2 hq', ih h7 he.2 hv q hq']

/-! ### What packing produces -/

/-- The components in storage order, computed from the rows. -/
def expected (fill : V) : List (Nat × Kind) → List (Row V) → List (List Nat × V)
  | [], rows => [([], leafValue fill rows)]
  | (n, .dense) :: ls, rows =>
    (List.range n).flatMap (fun j => (expected fill ls (sub rows j)).map (fun r => (j :: r.1, r.2)))
  | (_, .sparse) :: ls, rows =>
    (getUniqueEntries (heads rows)).flatMap
      (fun j => (expected fill ls (sub rows j)).map (fun r => (j :: r.1, r.2)))

def PackOK (fill : V) (ls : List (Nat × Kind)) : Prop :=
  ∀ (rows : List (Row V)) (s : Nat) (ixs : Ix) (vals : List V), RowsOK (ls.map Prod.fst) rows →
    Acc s ls ixs vals →
    let st := packTensor fill ls rows (ixs, vals)
    Acc (s + 1) ls st.1 st.2 ∧ Ext ixs st.1 ∧ vals <+: st.2 ∧
    walk st.2 (toLevels ls st.1) s = some (expected fill ls rows)

theorem fold_spec {fill : V} {n : Nat} {ls : List (Nat × Kind)} (ih : PackOK fill ls) {rows : List (Row V)}
    (hr : RowsOK (n :: ls.map Prod.fst) rows) : ∀ (js : List Nat) (t : Nat) (ixs : Ix) (vals : List V),
    Acc t ls ixs vals →
    let st := js.foldl (fun st j => packTensor fill ls (sub rows j) st) (ixs, vals)
    Acc (t + js.length) ls st.1 st.2 ∧ Ext ixs st.1 ∧ vals <+: st.2 ∧
    ∀ i (h : i < js.length), walk st.2 (toLevels ls st.1) (t + i) =
      some (expected fill ls (sub rows js[i])) := by
  intro js
  induction js with
  | nil =>
    intro t ixs vals ha
    exact ⟨ha, Ext.refl _, List.prefix_refl _, fun i h => absurd h (by simp)⟩
  | cons j js ihj =>
    intro t ixs vals ha
    obtain ⟨h1, h2, h3, h4⟩ := ih (sub rows j) t ixs vals (hr.sub j) ha
    generalize hst : packTensor fill ls (sub rows j) (ixs, vals) = st1 at h1 h2 h3 h4
    obtain ⟨ix1, v1⟩ := st1
    obtain ⟨g1, g2, g3, g4⟩ := ihj (t + 1) ix1 v1 h1
    have hd : (j :: js).foldl (fun st j => packTensor fill ls (sub rows j) st) (ixs, vals) =
        js.foldl (fun st j => packTensor fill ls (sub rows j) st) (ix1, v1) := by
      rw [List.foldl_cons, hst]
    simp only
    rw [hd]
    refine ⟨?_, h2.trans g2, h3.trans g3, ?_⟩
    · rw [List.length_cons, show t + (js.length + 1) = t + 1 + js.length by omega]; exact g1
    · intro i hi
      cases i with
      | zero =>
        rw [walk_ext ls h1 g2 g3 (t + 0) (by omega)]
        exact h4
      | succ i =>
        rw [show t + (i + 1) = t + 1 + i by omega]
        exact g4 i (by simpa using hi)

theorem packTensor_dense (fill : V) (n : Nat) (ls : List (Nat × Kind)) (rows : List (Row V))
    (ix : List Nat × List Nat) (ixs : Ix) (vals : List V) :
    packTensor fill ((n, .dense) :: ls) rows (ix :: ixs, vals) =
      (ix :: (packSegs (packTensor fill ls) (List.range n) rows (ixs, vals)).1,
       (packSegs (packTensor fill ls) (List.range n) rows (ixs, vals)).2) := rfl

theorem packTensor_sparse (fill : V) (n : Nat) (ls : List (Nat × Kind)) (rows : List (Row V))
    (pos crd : List Nat) (ixs : Ix) (vals : List V) :
    packTensor fill ((n, .sparse) :: ls) rows ((pos, crd) :: ixs, vals) =
      ((pos ++ [crd.length + (getUniqueEntries (heads rows)).length], crd ++ getUniqueEntries (heads rows)) ::
        (packSegs (packTensor fill ls) (getUniqueEntries (heads rows)) rows (ixs, vals)).1,
       (packSegs (packTensor fill ls) (getUniqueEntries (heads rows)) rows (ixs, vals)).2) := rfl

theorem packOK (fill : V) : ∀ ls : List (Nat × Kind), PackOK fill ls := by
  intro ls
  induction ls with
  | nil =>
    intro rows s ixs vals hr ha
    have ha : vals.length = s := by cases ixs <;> exact ha
    have hd : packTensor fill [] rows (ixs, vals) =
      (ixs, vals ++ [leafValue fill rows]) := rfl
    simp only
    rw [hd]
    refine ⟨?_, Ext.refl _, List.prefix_append _ _, ?_⟩
    · show Acc (s + 1) [] ixs _
      have : (vals ++ [leafValue fill rows]).length = s + 1 := by simp [ha]
      cases ixs <;> exact this
    · have : (vals ++ [leafValue fill rows])[s]? =
        some (leafValue fill rows) := by
        rw [List.getElem?_append_right (by omega), ha]; simp
      have ht : toLevels [] ixs = [] := by cases ixs <;> rfl
      rw [ht]
      unfold walk
      rw [this]
      rfl
  | cons l ls ih =>
    obtain ⟨n, k⟩ := l
    intro rows s ixs vals hr ha
    have hne : ∀ r ∈ rows, r.1 ≠ [] := by
      intro r hrm
      obtain ⟨j, cs, hc, _⟩ := inRange_cons.1 (hr.range r hrm)
      rw [hc]; simp
    have hlt : ∀ x ∈ heads rows, x < n := by
      intro x hx
      unfold heads at hx
      rw [List.mem_map] at hx
      obtain ⟨r, hrm, rfl⟩ := hx
      obtain ⟨j, cs, hc, hj, _⟩ := inRange_cons.1 (hr.range r hrm)
      rw [hc]; exact hj
    cases ixs with
    | nil => cases k <;> exact ha.elim
    | cons ix ixs =>
      cases k with
      | dense =>
        have ha' : Acc (s * n) ls ixs vals := ha
        obtain ⟨h1, h2, h3, h4⟩ := fold_spec (n := n) ih hr (List.range n) (s * n) ixs vals ha'
        simp only
        rw [packTensor_dense, packSegs_eq _ _ _ _ List.pairwise_lt_range hr.heads_sorted hne
          (fun x hx => List.mem_range.2 (hlt x hx))]
        generalize hst : (List.range n).foldl (fun st j => packTensor fill ls (sub rows j) st) (ixs, vals) = st at h1 h2 h3 h4
        obtain ⟨ix1, v1⟩ := st
        simp only at h1 h2 h3 h4 ⊢
        rw [List.length_range] at h1
        refine ⟨?_, ⟨⟨List.prefix_refl _, List.prefix_refl _⟩, h2⟩, h3, ?_⟩
        · show Acc ((s + 1) * n) ls ix1 v1
          rw [Nat.succ_mul]; exact h1
        · show forAll _ (List.range n) = _
          refine forAll_eq (g := fun j => (expected fill ls (sub rows j)).map (fun r => (j :: r.1, r.2))) ?_
          intro j hj
          rw [List.mem_range] at hj
          have := h4 j (by rw [List.length_range]; exact hj)
          rw [List.getElem_range] at this
          rw [this]
          rfl
      | sparse =>
        obtain ⟨pos, crd⟩ := ix
        obtain ⟨⟨a1, a2, a3, a4, a5, a6⟩, a7⟩ := ha
        obtain ⟨u1, u2⟩ := getUniqueEntries_spec hr.heads_sorted
        obtain ⟨h1, h2, h3, h4⟩ := fold_spec (n := n) ih hr (getUniqueEntries (heads rows)) crd.length ixs vals a7
        simp only
        rw [packTensor_sparse, packSegs_eq _ _ _ _ u1 hr.heads_sorted hne (fun x hx => (u2 x).2 hx)]
        generalize hst : (getUniqueEntries (heads rows)).foldl (fun st j => packTensor fill ls (sub rows j) st) (ixs, vals) = st at h1 h2 h3 h4
        obtain ⟨ix1, v1⟩ := st
        simp only at h1 h2 h3 h4 ⊢
        have hlast : (pos ++ [crd.length + (getUniqueEntries (heads rows)).length])[s + 1]? =
            some (crd.length + (getUniqueEntries (heads rows)).length) := by
          rw [List.getElem?_append_right (by omega), a1]; simp
        have hs : (pos ++ [crd.length + (getUniqueEntries (heads rows)).length])[s]? = some crd.length := by
          rw [List.getElem?_append_left (by omega)]; exact a3
        refine ⟨⟨⟨by simp [a1], ?_, ?_, ?_, ?_, ?_⟩, ?_⟩, ⟨⟨List.prefix_append _ _, List.prefix_append _ _⟩, h2⟩, h3, ?_⟩
        · rw [List.getElem?_append_left (by omega)]; exact a2
        · rw [hlast, List.length_append]
        · rw [List.pairwise_append]
          refine ⟨a4, by simp, ?_⟩
          intro x hx y hy
          rw [List.mem_singleton] at hy
          obtain ⟨p, hp⟩ := List.getElem?_of_mem hx
          have := pos_le_last a1 a3 a4 hp
          omega
        · intro p a b hpa hpb
          rcases Nat.lt_or_ge p s with hp | hp
          · rw [List.getElem?_append_left (by omega)] at hpa hpb
            have hb := pos_le_last a1 a3 a4 hpb
            have hab := pos_mono a4 hpa hpb
            have := a5 p a b hpa hpb
            rw [List.drop_append_of_le_length (by omega), List.take_append_of_le_length (by
              rw [List.length_drop]; omega)]
            exact this
          · have hp' : p = s := by
              have := (List.getElem?_eq_some_iff.1 hpb).1
              simp only [List.length_append, a1, List.length_singleton] at this
              omega
            subst hp'
            rw [hs] at hpa
            rw [hlast] at hpb
            have hpa := Option.some.inj hpa
            have hpb := Option.some.inj hpb
            subst hpa hpb
            rw [List.drop_left, Nat.add_sub_cancel_left, List.take_length]
            exact u1
        · intro x hx
          rcases List.mem_append.1 hx with hx | hx
          · exact a6 x hx
          · exact hlt x ((u2 x).1 hx)
        · rw [List.length_append]; exact h1
        · show (match (pos ++ [crd.length + (getUniqueEntries (heads rows)).length])[s]?,
              (pos ++ [crd.length + (getUniqueEntries (heads rows)).length])[s + 1]? with
            | some a, some b =>
              forAll (fun q => match (crd ++ getUniqueEntries (heads rows))[q]? with
                | none => none
                | some c => (walk v1 (toLevels ls ix1) q).map (List.map (fun (r : List Nat × V) => (c :: r.1, r.2))))
                (List.range' a (b - a))
            | _, _ => none) = _
          rw [hs, hlast]
          simp only
          rw [Nat.add_sub_cancel_left]
          generalize hu : getUniqueEntries (heads rows) = us at *
          have hexp : expected fill ((n, .sparse) :: ls) rows = us.flatMap
              (fun j => (expected fill ls (sub rows j)).map (fun r => (j :: r.1, r.2))) := by
            rw [← hu]; rfl
          rw [hexp]
          rw [forAll_eq (g := fun q => match (crd ++ us)[q]? with
              | none => []
              | some c => (expected fill ls (sub rows c)).map (fun (r : List Nat × V) => (c :: r.1, r.2)))]
          · congr 1
            rw [List.range'_eq_map_range, List.flatMap_map]
            have : us = (List.range us.length).map (fun i => us.getD i 0) := by
              apply List.ext_getElem
              · simp
              · intro i h1 h2; simp [List.getD_eq_getElem?_getD, h1]
            conv => rhs; rw [this, List.flatMap_map]
            apply flatMap_congr'
            intro i hi
            rw [List.mem_range] at hi
            rw [List.getElem?_append_right (by omega), Nat.add_sub_cancel_left]
            rw [List.getD_eq_getElem?_getD, List.getElem?_eq_getElem hi]
            rfl
          · intro q hq
            rw [List.mem_range'_1] at hq
            have hq' : q - crd.length < us.length := by omega
            rw [List.getElem?_append_right (by omega), List.getElem?_eq_getElem hq']
            simp only
            have := h4 (q - crd.length) hq'
            rw [show crd.length + (q - crd.length) = q by omega] at this
            rw [this]
            rfl

end Verif.Pack
