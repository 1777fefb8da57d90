import Verif.Pack.Lemmas
/-! The components in storage order, in terms of the specification. -/
namespace Verif.Pack
open Verif.Merge (Lvl box)

variable {V : Type}

theorem headIs_iff {j : Nat} {r : Row V} : headIs j r = true ↔ ∃ cs, r.1 = j :: cs := by
  unfold headIs
  cases r.1 with
  | nil => simp
  | cons a as => simp

theorem firstAt_sub (fill : V) (rows : List (Row V)) (j : Nat) (c : List Nat) :
    firstAt fill (sub rows j) c = firstAt fill rows (j :: c) := by
  induction rows with
  | nil => rfl
  | cons r rows ih =>
    unfold firstAt at ih ⊢
    unfold sub at ih ⊢
    rw [List.filter_cons]
    cases hh : headIs j r with
    | true =>
      obtain ⟨cs, hc⟩ := headIs_iff.1 hh
      simp only [if_true, List.map_cons, List.find?_cons]
      have : ((tailRow r).1 == c) = (r.1 == j :: c) := by
        simp only [tailRow, hc, List.tail_cons]
        rw [Bool.eq_iff_iff]; simp
      rw [this]
      cases r.1 == j :: c with
      | true => rfl
      | false => exact ih
    | false =>
      simp only [Bool.false_eq_true, if_false, List.find?_cons]
      have : (r.1 == j :: c) = false := by
        rw [Bool.eq_false_iff]
        intro hc
        rw [beq_iff_eq] at hc
        rw [headIs_iff.2 ⟨c, hc⟩] at hh
        cases hh
      rw [this]
      exact ih

theorem any_sub (rows : List (Row V)) (j k : Nat) (c : List Nat) :
    (sub rows j).any (fun r => r.1.take k == c.take k) =
      rows.any (fun r => r.1.take (k + 1) == (j :: c).take (k + 1)) := by
  rw [Bool.eq_iff_iff, List.any_eq_true, List.any_eq_true]
  constructor
  · rintro ⟨s, hs, h⟩
    obtain ⟨r, hr, h1, h2⟩ := mem_sub.1 hs
    refine ⟨r, hr, ?_⟩
    rw [beq_iff_eq] at h ⊢
    rw [h1, List.take_succ_cons, List.take_succ_cons, h]
  · rintro ⟨r, hr, h⟩
    rw [beq_iff_eq, List.take_succ_cons] at h
    cases hc : r.1 with
    | nil => rw [hc] at h; simp at h
    | cons a as =>
      rw [hc, List.take_succ_cons] at h
      obtain ⟨h1, h2⟩ := List.cons.inj h
      subst h1
      exact ⟨(as, r.2), mem_sub.2 ⟨r, hr, hc, rfl⟩, by rw [beq_iff_eq]; exact h2⟩

theorem stored_dense (ks : List Kind) (rows : List (Row V)) (j : Nat) (c : List Nat) :
    stored (.dense :: ks) rows (j :: c) = stored ks (sub rows j) c := by
  unfold stored
  by_cases h : keyLen ks = 0
  · simp [keyLen, h]
  · rw [any_sub]
    simp [keyLen, h]

theorem stored_sparse (ks : List Kind) (rows : List (Row V)) (j : Nat) (c : List Nat) :
    stored (.sparse :: ks) rows (j :: c) = (!(sub rows j).isEmpty && stored ks (sub rows j) c) := by
  unfold stored
  simp only [keyLen]
  rw [← any_sub]
  simp only [Nat.add_eq_zero_iff, Nat.one_ne_zero, and_false, decide_false, Bool.false_or]
  cases hs : sub rows j with
  | nil => rfl
  | cons r rs =>
    by_cases h : keyLen ks = 0
    · simp [h]
    · simp [h]

theorem sub_eq_nil {n : Nat} {ns : List Nat} {rows : List (Row V)} (h : RowsOK (n :: ns) rows) {j : Nat} :
    sub rows j = [] ↔ j ∉ heads rows := by
  rw [mem_heads h]
  unfold sub
  rw [List.map_eq_nil_iff, List.filter_eq_nil_iff]
  constructor
  · rintro h1 ⟨r, hr, h2⟩; exact h1 r hr h2
  · intro h1 r hr h2; exact h1 ⟨r, hr, h2⟩

theorem filter_map_cons (p : List Nat → Bool) (j : Nat) (l : List (List Nat)) :
    (l.map (j :: ·)).filter p = (l.filter (fun c => p (j :: c))).map (j :: ·) := by
  rw [List.filter_map]; rfl

theorem flatMap_filter' {α β : Type} (p : α → Bool) (f : α → List β) (l : List α)
    (h : ∀ x ∈ l, p x = false → f x = []) : (l.filter p).flatMap f = l.flatMap f := by
  induction l with
  | nil => rfl
  | cons a l ih =>
    rw [List.filter_cons, List.flatMap_cons]
    have ih' := ih (fun x hx => h x (List.mem_cons_of_mem _ hx))
    cases hp : p a with
    | true => simp only [if_true, List.flatMap_cons]; rw [ih']
    | false =>
      simp only [Bool.false_eq_true, if_false]
      rw [h a List.mem_cons_self hp, ih']; rfl

theorem filter_flatMap' {α β : Type} (p : β → Bool) (f : α → List β) (l : List α) :
    (l.flatMap f).filter p = l.flatMap (fun a => (f a).filter p) := by
  induction l with
  | nil => rfl
  | cons a l ih => rw [List.flatMap_cons, List.flatMap_cons, List.filter_append, ih]

theorem map_flatMap' {α β γ : Type} (g : β → γ) (f : α → List β) (l : List α) :
    (l.flatMap f).map g = l.flatMap (fun a => (f a).map g) := by
  induction l with
  | nil => rfl
  | cons a l ih => rw [List.flatMap_cons, List.flatMap_cons, List.map_append, ih]

theorem expected_eq (fill : V) : ∀ (ls : List (Nat × Kind)) (rows : List (Row V)),
    RowsOK (ls.map Prod.fst) rows →
    expected fill ls rows = ((box (ls.map Prod.fst)).filter (stored (ls.map Prod.snd) rows)).map
      (fun c => (c, firstAt fill rows c)) := by
  intro ls
  induction ls with
  | nil =>
    intro rows hr
    have h1 : stored ([] : List Kind) rows [] = true := rfl
    show [([], leafValue fill rows)] = _
    simp only [List.map_nil, box, List.filter_cons, List.filter_nil, h1, if_true, List.map_cons]
    congr 2
    cases rows with
    | nil => rfl
    | cons r rs =>
      have : r.1 = [] := inRange_nil.1 (hr.range r List.mem_cons_self)
      simp [leafValue, firstAt, this]
  | cons l ls ih =>
    obtain ⟨n, k⟩ := l
    intro rows hr
    have hr' : RowsOK (n :: ls.map Prod.fst) rows := hr
    have key : ∀ (p : List Nat → Bool), ((box ((n :: ls.map Prod.fst))).filter p).map
        (fun c => (c, firstAt fill rows c)) =
        (List.range n).flatMap (fun j => ((box (ls.map Prod.fst)).filter (fun c => p (j :: c))).map
          (fun c => (j :: c, firstAt fill (sub rows j) c))) := by
      intro p
      simp only [box]
      rw [filter_flatMap', map_flatMap']
      apply flatMap_congr'
      intro j _
      rw [filter_map_cons, List.map_map]
      apply List.map_congr_left
      intro c _
      show (j :: c, firstAt fill rows (j :: c)) = _
      rw [firstAt_sub]
    have hexp : ∀ j, (expected fill ls (sub rows j)).map (fun r => (j :: r.1, r.2)) =
        ((box (ls.map Prod.fst)).filter (stored (ls.map Prod.snd) (sub rows j))).map
          (fun c => (j :: c, firstAt fill (sub rows j) c)) := by
      intro j
      rw [ih (sub rows j) (hr'.sub j), List.map_map]
      rfl
    show expected fill ((n, k) :: ls) rows = ((box (n :: ls.map Prod.fst)).filter
      (stored (k :: ls.map Prod.snd) rows)).map _
    rw [key]
    cases k with
    | dense =>
      show (List.range n).flatMap _ = _
      apply flatMap_congr'
      intro j _
      rw [hexp j]
      congr 2
      funext c
      rw [stored_dense]
    | sparse =>
      show (getUniqueEntries (heads rows)).flatMap _ = _
      obtain ⟨u1, u2⟩ := getUniqueEntries_spec hr'.heads_sorted
      have hlt : ∀ x ∈ heads rows, x < n := by
        intro x hx
        obtain ⟨r, hrm, hh⟩ := (mem_heads hr').1 hx
        obtain ⟨j, cs, hc, hj, _⟩ := inRange_cons.1 (hr'.range r hrm)
        obtain ⟨cs', hc'⟩ := headIs_iff.1 hh
        rw [hc] at hc'
        rw [← (List.cons.inj hc').1]; exact hj
      have hu : getUniqueEntries (heads rows) = (List.range n).filter (fun j => decide (j ∈ heads rows)) := by
        apply sorted_ext u1 (List.Pairwise.filter _ List.pairwise_lt_range)
        intro x
        rw [u2, List.mem_filter, List.mem_range, decide_eq_true_eq]
        exact ⟨fun h => ⟨hlt x h, h⟩, fun h => h.2⟩
      rw [hu]
      rw [show (List.range n).flatMap (fun j => ((box (ls.map Prod.fst)).filter
          (fun c => stored (.sparse :: ls.map Prod.snd) rows (j :: c))).map
          (fun c => (j :: c, firstAt fill (sub rows j) c))) =
        ((List.range n).filter (fun j => decide (j ∈ heads rows))).flatMap (fun j =>
          ((box (ls.map Prod.fst)).filter
          (fun c => stored (.sparse :: ls.map Prod.snd) rows (j :: c))).map
          (fun c => (j :: c, firstAt fill (sub rows j) c))) from ?_]
      · apply flatMap_congr'
        intro j hj
        rw [List.mem_filter, decide_eq_true_eq] at hj
        rw [hexp j]
        congr 2
        funext c
        rw [stored_sparse]
        cases hs : sub rows j with
        | nil => exact absurd hj.2 ((sub_eq_nil hr').1 hs)
        | cons _ _ => rfl
      · symm
        apply flatMap_filter'
        intro j _ hj
        rw [decide_eq_false_iff_not] at hj
        have : sub rows j = [] := (sub_eq_nil hr').2 hj
        rw [List.map_eq_nil_iff, List.filter_eq_nil_iff]
        intro c _
        rw [stored_sparse, this]
        simp

/-! ### Sizes -/

theorem Acc.indexWF : ∀ {ls : List (Nat × Kind)} {s : Nat} {ixs : Ix} {vals : List V},
    Acc s ls ixs vals → IndexWF s ((ls.map Prod.fst).zip (toLevels ls ixs)) vals.length := by
  intro ls
  induction ls with
  | nil => intro s ixs vals h; cases ixs <;> exact h
  | cons l ls ih =>
    obtain ⟨n, k⟩ := l
    intro s ixs vals h
    cases ixs with
    | nil => cases k <;> exact h.elim
    | cons ix ixs =>
      obtain ⟨pos, crd⟩ := ix
      cases k with
      | dense => exact ⟨rfl, ih (show Acc (s * n) ls ixs vals from h)⟩
      | sparse =>
        obtain ⟨⟨h1, h2, h3, h4, h5, h6⟩, h7⟩ := h
        exact ⟨h1, h2, h3, h4, h5, h6, ih h7⟩

theorem acc_init : ∀ ls : List (Nat × Kind), Acc 0 ls (initIx ls) ([] : List V) := by
  intro ls
  induction ls with
  | nil => rfl
  | cons l ls ih =>
    obtain ⟨n, k⟩ := l
    cases k with
    | dense =>
      show Acc (0 * n) ls (initIx ls) []
      rw [Nat.zero_mul]; exact ih
    | sparse =>
      refine ⟨⟨rfl, rfl, rfl, by simp, ?_, by simp⟩, ih⟩
      intro p a b _ hb
      simp at hb

theorem toLevels_length : ∀ (ls : List (Nat × Kind)) (ixs : Ix) (vals : List V) (s : Nat), Acc s ls ixs vals →
    (toLevels ls ixs).length = ls.length := by
  intro ls
  induction ls with
  | nil => intro ixs _ _ _; cases ixs <;> rfl
  | cons l ls ih =>
    obtain ⟨n, k⟩ := l
    intro ixs vals s h
    cases ixs with
    | nil => cases k <;> exact h.elim
    | cons ix ixs =>
      obtain ⟨pos, crd⟩ := ix
      cases k with
      | dense =>
        show (Lvl.dense n :: toLevels ls ixs).length = _
        rw [List.length_cons, List.length_cons, ih ixs vals (s * n) h]
      | sparse =>
        show (Lvl.comp pos crd :: toLevels ls ixs).length = _
        rw [List.length_cons, List.length_cons, ih ixs vals _ h.2]

theorem getSizeFrom_wf : ∀ (dims : List Nat) (lv : List Lvl) (s m : Nat), dims.length = lv.length →
    IndexWF s (dims.zip lv) m → getSizeFrom s lv = some m := by
  intro dims
  induction dims with
  | nil =>
    intro lv s m hl h
    cases lv with
    | nil => rw [show m = s from h]; rfl
    | cons _ _ => simp at hl
  | cons n ns ih =>
    intro lv s m hl h
    cases lv with
    | nil => simp at hl
    | cons l lv =>
      cases l with
      | dense d =>
        obtain ⟨h1, h2⟩ := h
        show getSizeFrom (s * d) lv = _
        rw [h1]
        exact ih lv _ _ (by simpa using hl) h2
      | comp pos crd =>
        obtain ⟨_, _, h3, _, _, _, h7⟩ := h
        show (match pos[s]? with | none => none | some s' => getSizeFrom s' lv) = _
        rw [h3]
        exact ih lv _ _ (by simpa using hl) h7

theorem forAll_append {α : Type} (f : Nat → Option (List α)) : ∀ l m : List Nat,
    forAll f (l ++ m) = (match forAll f l, forAll f m with | some a, some b => some (a ++ b) | _, _ => none) := by
  intro l
  induction l with
  | nil => intro m; rw [List.nil_append]; cases h : forAll f m <;> simp [forAll]
  | cons q l ih =>
    intro m
    rw [List.cons_append]
    show (match f q, forAll f (l ++ m) with | some a, some b => some (a ++ b) | _, _ => none) =
      (match (match f q, forAll f l with | some a, some b => some (a ++ b) | _, _ => none), forAll f m with
        | some a, some b => some (a ++ b) | _, _ => none)
    rw [ih]
    cases f q <;> cases forAll f l <;> cases forAll f m <;> simp

theorem forAll_forAll {α : Type} (g : Nat → Option (List α)) (L : Nat → List Nat) : ∀ l : List Nat,
    forAll (fun p => forAll g (L p)) l = forAll g (l.flatMap L) := by
  intro l
  induction l with
  | nil => rfl
  | cons q l ih =>
    rw [List.flatMap_cons, forAll_append, ← ih]
    rfl

theorem forAll_map {α : Type} (g : Nat → Option (List α)) (h : Nat → Nat) : ∀ l : List Nat,
    forAll (fun j => g (h j)) l = forAll g (l.map h) := by
  intro l
  induction l with
  | nil => rfl
  | cons q l ih => rw [List.map_cons]; unfold forAll; rw [ih]

theorem forAll_project {α β : Type} (f : Nat → Option (List α)) (g : α → β) : ∀ l : List Nat,
    (forAll f l).map (List.map g) = forAll (fun q => (f q).map (List.map g)) l := by
  intro l
  induction l with
  | nil => rfl
  | cons q l ih =>
    unfold forAll
    rw [← ih]
    cases f q <;> cases forAll f l <;> simp

/-- The values a walk delivers. -/
def walkVals (vals : List V) (lv : List Lvl) (p : Nat) : Option (List V) :=
  (walk vals lv p).map (List.map Prod.snd)

theorem walkVals_dense (vals : List V) (n : Nat) (lv : List Lvl) (p : Nat) :
    walkVals vals (.dense n :: lv) p = forAll (walkVals vals lv) ((List.range n).map (fun j => p * n + j)) := by
  rw [← forAll_map]
  show (forAll _ _).map _ = _
  rw [forAll_project]
  apply forAll_congr
  intro j _
  unfold walkVals
  cases walk vals lv (p * n + j) with
  | none => rfl
  | some l => simp

theorem walkVals_comp (vals : List V) (pos crd : List Nat) (lv : List Lvl) (p a b : Nat) (ha : pos[p]? = some a)
    (hb : pos[p + 1]? = some b) (hab : a ≤ b) (hbc : b ≤ crd.length) :
    walkVals vals (.comp pos crd :: lv) p = forAll (walkVals vals lv) (List.range' a (b - a)) := by
  have hd : walk vals (.comp pos crd :: lv) p =
    match pos[p]?, pos[p + 1]? with
    | some a, some b =>
      forAll (fun q => match crd[q]? with
        | none => none
        | some c => (walk vals lv q).map (List.map (fun (r : List Nat × V) => (c :: r.1, r.2)))) (List.range' a (b - a))
    | _, _ => none := rfl
  unfold walkVals
  rw [hd, ha, hb]
  simp only
  rw [forAll_project]
  apply forAll_congr
  intro q hq
  rw [List.mem_range'_1] at hq
  rw [List.getElem?_eq_getElem (by omega : q < crd.length)]
  simp only
  cases walk vals lv q with
  | none => rfl
  | some l => simp

theorem flatMap_segments (pos : List Nat) (s : Nat) (hlen : pos.length = s + 1) (h0 : pos[0]? = some 0)
    (hm : pos.Pairwise (· ≤ ·)) : ∀ t, t ≤ s →
    (List.range t).flatMap (fun p => List.range' (pos.getD p 0) (pos.getD (p + 1) 0 - pos.getD p 0)) =
      List.range (pos.getD t 0) := by
  intro t
  induction t with
  | zero =>
    intro _
    rw [List.getD_eq_getElem?_getD, h0]; rfl
  | succ t ih =>
    intro ht
    rw [List.range_succ, List.flatMap_append, ih (by omega)]
    have h1 : pos[t]? = some (pos[t]'(by omega)) := List.getElem?_eq_getElem (by omega)
    have h2 : pos[t + 1]? = some (pos[t + 1]'(by omega)) := List.getElem?_eq_getElem (by omega)
    have := pos_mono hm h1 h2
    simp only [List.getD_eq_getElem?_getD, h1, h2, Option.getD_some, List.flatMap_cons, List.flatMap_nil,
      List.append_nil]
    rw [List.range_eq_range', List.range_eq_range']
    have : pos[t + 1]'(by omega) = pos[t]'(by omega) + (pos[t + 1]'(by omega) - pos[t]'(by omega)) := by omega
    conv => rhs; rw [this]
    rw [List.range'_append_1 (s := 0) |>.symm]
    simp

theorem flatMap_blocks (n : Nat) : ∀ s : Nat,
    (List.range s).flatMap (fun p => (List.range n).map (fun j => p * n + j)) = List.range (s * n) := by
  intro s
  induction s with
  | zero => simp
  | succ s ih =>
    rw [List.range_succ, List.flatMap_append, ih, Nat.succ_mul, List.range_add]
    simp

theorem range_flatMap_get (vals : List V) : ∀ k, (List.range k).flatMap (fun p => vals[p]?.toList) = vals.take k := by
  intro k
  induction k with
  | zero => simp
  | succ k ih =>
    rw [List.range_succ, List.flatMap_append, ih, List.take_succ]
    simp

/-- Walking all positions of a well formed index delivers the value array, in order. -/
theorem walk_total : ∀ (dims : List Nat) (lv : List Lvl) (s : Nat) (vals : List V), dims.length = lv.length →
    IndexWF s (dims.zip lv) vals.length → forAll (walkVals vals lv) (List.range s) = some vals := by
  intro dims
  induction dims with
  | nil =>
    intro lv s vals hl h
    cases lv with
    | nil =>
      have h : vals.length = s := h
      rw [forAll_eq (g := fun p => vals[p]?.toList)]
      · rw [range_flatMap_get, ← h, List.take_length]
      · intro p hp
        rw [List.mem_range] at hp
        unfold walkVals walk
        rw [List.getElem?_eq_getElem (by omega : p < vals.length)]
        rfl
    | cons _ _ => simp at hl
  | cons n ns ih =>
    intro lv s vals hl h
    cases lv with
    | nil => simp at hl
    | cons l lv =>
      have hl' : ns.length = lv.length := by simpa using hl
      cases l with
      | dense d =>
        obtain ⟨h1, h2⟩ := h
        subst h1
        rw [forAll_congr (fun p _ => walkVals_dense vals d lv p), forAll_forAll, flatMap_blocks]
        exact ih lv _ _ hl' h2
      | comp pos crd =>
        obtain ⟨h1, h2, h3, h4, _, _, h7⟩ := h
        have : ∀ p ∈ List.range s, walkVals vals (.comp pos crd :: lv) p =
            forAll (walkVals vals lv) (List.range' (pos.getD p 0) (pos.getD (p + 1) 0 - pos.getD p 0)) := by
          intro p hp
          rw [List.mem_range] at hp
          have e1 : pos[p]? = some (pos[p]'(by omega)) := List.getElem?_eq_getElem (by omega)
          have e2 : pos[p + 1]? = some (pos[p + 1]'(by omega)) := List.getElem?_eq_getElem (by omega)
          rw [walkVals_comp vals pos crd lv p _ _ e1 e2 (pos_mono h4 e1 e2) (pos_le_last h1 h3 h4 e2)]
          simp only [List.getD_eq_getElem?_getD, e1, e2, Option.getD_some]
        rw [forAll_congr this, forAll_forAll, flatMap_segments pos s h1 h2 h4 s (Nat.le_refl s),
          List.getD_eq_getElem?_getD, h3]
        exact ih lv _ _ hl' h7

end Verif.Pack
