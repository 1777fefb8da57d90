import Verif.Format.Lemmas
/-!
Property C55: format equality; and property C61: variants of mode formats and the predefined formats.
-/
namespace Verif.Format

/-- C55. Two formats compare equal exactly when they have the same ordering and the same packs of
mode formats, apart from padding and the types of index arrays. -/
theorem format_eq_iff_partial {a b : Fmt} (ha : Made' a) (hb : Made' b) :
    a.eq b = true ↔ SameFmt a b := by
  unfold Fmt.eq SameFmt
  simp only [Bool.and_eq_true, decide_eq_true_eq]
  constructor
  · rintro ⟨⟨⟨h1, h2⟩, h3⟩, h4⟩
    rw [all_zip (fun (x y : Int) => x == y) _ _ h2] at h3
    rw [all_zip Pack.eq _ _ h1] at h4
    refine ⟨?_, h1, ?_⟩
    · apply List.ext_getElem? 
      intro i
      cases hx : a.ordering[i]? with
      | none =>
        rw [List.getElem?_eq_none_iff] at hx
        exact (List.getElem?_eq_none_iff.2 (by omega)).symm
      | some x =>
        have hi : i < b.ordering.length := by
          have := (List.getElem?_eq_some_iff.1 hx).1; omega
        have := h3 i x _ hx (List.getElem?_eq_getElem hi)
        rw [List.getElem?_eq_getElem hi]
        simp at this; rw [this]
    · intro i p q hp hq
      exact (pack_eq_iff (ha.isSome (List.mem_of_getElem? hp)) (hb.isSome (List.mem_of_getElem? hq))).1
        (h4 i p q hp hq)
  · rintro ⟨h1, h2, h3⟩
    refine ⟨⟨⟨h2, by rw [h1]⟩, ?_⟩, ?_⟩
    · rw [all_zip (fun (x y : Int) => x == y) _ _ (by rw [h1])]
      intro i x y hx hy
      rw [h1, hy] at hx; cases hx; simp
    · rw [all_zip Pack.eq _ _ h2]
      intro i p q hp hq
      exact (pack_eq_iff (ha.isSome (List.mem_of_getElem? hp)) (hb.isSome (List.mem_of_getElem? hq))).2
        (h3 i p q hp hq)

/-- C55. Equality of formats is reflexive. -/
theorem format_eq_refl {f : Fmt} (h : Made' f) : f.eq f = true := by
  rw [format_eq_iff_partial h h]
  refine ⟨rfl, rfl, ?_⟩
  intro i p q hp hq
  rw [hp] at hq; cases hq
  refine ⟨rfl, ?_⟩
  intro j m n hm hn
  rw [hm] at hn; cases hn
  exact .refl m

/-- C55. Equality of formats is symmetric. -/
theorem format_eq_symm {a b : Fmt} (ha : Made' a) (hb : Made' b) (h : a.eq b = true) : b.eq a = true := by
  rw [format_eq_iff_partial ha hb] at h
  rw [format_eq_iff_partial hb ha]
  refine ⟨h.1.symm, h.2.1.symm, ?_⟩
  intro i p q hp hq
  obtain ⟨h1, h2⟩ := h.2.2 i q p hq hp
  refine ⟨h1.symm, ?_⟩
  intro j m n hm hn
  obtain ⟨k1, k2, k3, k4, k5, k6⟩ := h2 j n m hn hm
  exact ⟨k1.symm, k2.symm, k3.symm, k4.symm, k5.symm, fun hk => (k6 (by rw [k1]; exact hk)).symm⟩

/-- C55. Equality of formats is transitive. -/
theorem format_eq_trans {a b c : Fmt} (ha : Made' a) (hb : Made' b) (hc : Made' c)
    (h : a.eq b = true) (h' : b.eq c = true) : a.eq c = true := by
  rw [format_eq_iff_partial ha hb] at h
  rw [format_eq_iff_partial hb hc] at h'
  rw [format_eq_iff_partial ha hc]
  refine ⟨h.1.trans h'.1, h.2.1.trans h'.2.1, ?_⟩
  intro i p r hp hr
  have hi : i < b.packs.length := by
    have := (List.getElem?_eq_some_iff.1 hp).1; rw [← h.2.1]; exact this
  obtain ⟨g1, g2⟩ := h.2.2 i p _ hp (List.getElem?_eq_getElem hi)
  obtain ⟨g1', g2'⟩ := h'.2.2 i _ r (List.getElem?_eq_getElem hi) hr
  refine ⟨g1.trans g1', ?_⟩
  intro j m n hm hn
  have hj : j < b.packs[i].modes.length := by
    have := (List.getElem?_eq_some_iff.1 hm).1; rw [← g1]; exact this
  have hbm := hb.isSome (List.getElem_mem hi) _ (List.getElem_mem hj)
  obtain ⟨o, ho⟩ := Option.isSome_iff_exists.1 hbm
  have ho' : b.packs[i].modes[j]? = some (some o) := by rw [List.getElem?_eq_getElem hj, ho]
  obtain ⟨k1, k2, k3, k4, k5, k6⟩ := g2 j m o hm ho'
  obtain ⟨l1, l2, l3, l4, l5, l6⟩ := g2' j o n ho' hn
  exact ⟨k1.trans l1, k2.trans l2, k3.trans l3, k4.trans l4, k5.trans l5,
    fun hk => (k6 hk).trans (l6 (by rw [← k1]; exact hk))⟩

/-- C55. Equal formats have the same number of modes, and each pair of their mode formats has the same
name, the same properties but for padding, and the same capabilities. -/
theorem format_eq_layout_partial {a b : Fmt} (ha : Made' a) (hb : Made' b) (h : a.eq b = true) :
    ∀ (i : Nat) (p q : Pack), a.packs[i]? = some p → b.packs[i]? = some q → ∀ (j : Nat) (m n : Impl),
      p.modes[j]? = some (some m) → q.modes[j]? = some (some n) →
      m.kind.name = n.kind.name ∧ m.capabilities = n.capabilities ∧
      ∀ pr : Prop', pr.flag ≠ .padded → m.has pr = n.has pr := by
  rw [format_eq_iff_partial ha hb] at h
  intro i p q hp hq j m n hm hn
  obtain ⟨k1, k2, k3, k4, k5, k6⟩ := (h.2.2 i p q hp hq).2 j m n hm hn
  refine ⟨by rw [k1], by unfold Impl.capabilities; rw [k1], ?_⟩
  intro pr hpr
  cases pr <;> simp [Prop'.flag] at hpr <;>
    simp [Impl.has, k2, k3, k4, k5, Impl.isBranchless, Impl.isCompact, k1]

/-- Without singleton levels equal formats also agree on padding. -/
theorem format_eq_padding {a b : Impl} (ha : Made a) (hb : Made b) (hs : a.kind ≠ .singleton)
    (h : a.eq b = true) : a = b := by
  rw [eq_iff_same] at h
  obtain ⟨k1, k2, k3, k4, k5, k6⟩ := h
  cases ha <;> cases hb <;> simp_all [mkDense, mkCompressed, mkSingleton]

theorem made_CSR : Made' CSR ∧ Made' CSC := by
  constructor <;> refine ⟨?_, by decide⟩ <;> intro p hp m hm <;> simp [CSR, CSC] at hp <;>
    rcases hp with rfl | rfl <;> simp at hm <;> subst hm
  · exact ⟨_, rfl, .dense _ _ _⟩
  · exact ⟨_, rfl, .compressed _ _ _ _ _⟩
  · exact ⟨_, rfl, .dense _ _ _⟩
  · exact ⟨_, rfl, .compressed _ _ _ _ _⟩

example : Made' CSR ∧ Made' CSC ∧ CSR.eq CSR = true ∧ CSR.eq CSC = false :=
  ⟨made_CSR.1, made_CSR.2, by decide, by decide⟩

/-- The format of ELL-like matrices with a padded singleton level, and without the padding. -/
def ellFmt (p : Bool) : Fmt :=
  mkFmt [⟨[Dense]⟩, ⟨[Dense]⟩, ⟨[variant Singleton [if p then .padded else .notPadded]]⟩]

/-- C55 is false for padding: a padded singleton level compares equal to one that is not padded,
although assembly clears the coordinates of the first only. The kernel cache compares formats this
way, so it can return a kernel that leaves the padding uninitialized. -/
theorem format_eq_padded_fails :
    Made' (ellFmt true) ∧ Made' (ellFmt false) ∧ (ellFmt true).eq (ellFmt false) = true ∧
    ((ellFmt true).modes[2]?).join.map Impl.clearsCoords = some true ∧
    ((ellFmt false).modes[2]?).join.map Impl.clearsCoords = some false := by
  refine ⟨?_, ?_, by decide, by decide, by decide⟩ <;> refine ⟨?_, by decide⟩ <;> intro p hp m hm <;>
    simp [ellFmt, mkFmt] at hp <;> rcases hp with rfl | rfl <;> simp at hm <;> subst hm
  · exact ⟨_, rfl, .dense _ _ _⟩
  · exact ⟨_, rfl, .singleton _ _ _ _ _ _⟩
  · exact ⟨_, rfl, .dense _ _ _⟩
  · exact ⟨_, rfl, .singleton _ _ _ _ _ _⟩

/-- C55 is false for the types of index arrays: formats whose coordinates have different types (here
type number 3 and type number 4) compare equal. -/
theorem format_eq_types_fails :
    ∃ ts, (CSR.setTypes ts).eq CSR = true ∧ (CSR.setTypes ts).idxType 1 ≠ CSR.idxType 1 :=
  ⟨[[3], [4, 4]], by decide, by decide⟩

/-- An undefined mode format is not equal to itself. -/
theorem undefined_mode_refl_fails : modeEq none none = false := rfl

/-- A format whose ordering repeats a mode is accepted. -/
theorem ordering_not_permutation_fails :
    ∃ f, mkFmtOrdered [⟨[Dense]⟩, ⟨[Dense]⟩] [0, 0] = some f ∧ ¬ f.ordering.Nodup :=
  ⟨_, rfl, by decide⟩

/-! ### variants -/

/-- C61. A variant of a mode format has, for each property that can be configured, the last of the
requested values, and otherwise the value of the original. Its kind is unchanged. -/
theorem variant_properties_partial {m : Impl} (hm : Made m) (ps : List Prop') {g : Flag}
    (hg : Configurable m.kind g) :
    (m.copy ps).kind = m.kind ∧
    (∀ p, lastAbout g ps = some p → hasProperties (some (m.copy ps)) [p] = some true) ∧
    (lastAbout g ps = none → ∀ q, q.flag = g → (m.copy ps).has q = m.has q) := by
  obtain ⟨h1, h2⟩ := foldl_last (g := g) ps m hg
  refine ⟨(copy_has hm ps .full).1, ?_, ?_⟩
  · intro p hp
    simp [hasProperties, (copy_has hm ps p).2, h1 p hp]
  · intro hn q hq
    rw [(copy_has hm ps q).2, h2 hn q hq]

example : Made (mkCompressed false true true false defaultAlloc) ∧
    Configurable (mkCompressed false true true false defaultAlloc).kind .unique ∧
    lastAbout .unique [.unique, .notUnique, .full] = some .notUnique :=
  ⟨.compressed _ _ _ _ _, by simp [Configurable, mkCompressed], by decide⟩

/-- Properties that cannot be configured are ignored without an error: what a variant reports is the
value of the original. -/
theorem variant_ignored {m : Impl} (hm : Made m) (ps : List Prop') (q : Prop')
    (h : ¬ Configurable m.kind q.flag) : (m.copy ps).has q = m.has q := by
  rw [(copy_has hm ps q).2, foldl_other ps m q h]

/-- So a requested property need not hold: a dense level stays full, a compressed one unpadded. -/
theorem variant_ignored_fails :
    hasProperties (variant Dense [.notFull]) [.notFull] = some false ∧
    hasProperties (variant Compressed [.padded]) [.padded] = some false := by decide

/-- A variant with no property changed need not equal the original: the allocation size is reset. -/
theorem variant_alloc_fails :
    ∃ m, Made m ∧ modeEq (variant (some m) []) (some m) = false :=
  ⟨mkCompressed false true true false 5, .compressed _ _ _ _ _, by decide⟩

/-- Two variants in a row are one variant with both lists of properties. -/
theorem variant_variant (m : Impl) (hm : Made m) (ps qs : List Prop') :
    ((m.copy ps).copy qs).eq (m.copy (ps ++ qs)) = true := by
  have made : ∀ (m : Impl) ps, Made (m.copy ps) := by
    intro m ps; unfold Impl.copy; cases m.kind
    · exact .dense _ _ _
    · exact .compressed _ _ _ _ _
    · exact .singleton _ _ _ _ _ _
  have hk : ∀ (m : Impl), Made m → ∀ ps, (m.copy ps).kind = m.kind := fun m h ps => (copy_has h ps .full).1
  have hsim : ∀ (qs : List Prop') (a b : Impl), a.kind = b.kind → (∀ q, a.has q = b.has q) →
      ∀ q, (qs.foldl setProp a).has q = (qs.foldl setProp b).has q := by
    intro qs
    induction qs with
    | nil => intro a b _ h; exact h
    | cons p qs ih =>
      intro a b hk h
      rw [List.foldl_cons, List.foldl_cons]
      apply ih
      · rw [setProp_kind, setProp_kind, hk]
      · intro q
        by_cases hq : p.flag = q.flag
        · by_cases hc : Configurable a.kind p.flag
          · have e1 := setProp_set a p hc
            have e2 := setProp_set b p (by rw [← hk]; exact hc)
            clear ih h
            revert e1 e2
            generalize setProp a p = x
            generalize setProp b p = y
            cases p <;> cases q <;> simp [Prop'.flag] at hq <;> simp [Impl.has] <;> intro e1 e2 <;> simp [e1, e2]
          · rw [setProp_other _ _ _ (by rw [← hq]; exact hc), setProp_other _ _ _ (by rw [← hq, ← hk]; exact hc), h]
        · rw [setProp_keep _ _ _ hq, setProp_keep _ _ _ hq, h]
  have hh : ∀ q, ((m.copy ps).copy qs).has q = (m.copy (ps ++ qs)).has q := by
    intro q
    rw [(copy_has (made m ps) qs q).2, (copy_has hm (ps ++ qs) q).2, List.foldl_append]
    apply hsim
    · rw [hk m hm, foldl_kind]
    · intro q; exact (copy_has hm ps q).2
  rw [eq_iff_same]
  refine ⟨by rw [hk _ (made m ps), hk m hm, hk m hm], hh .full, hh .ordered, hh .unique, hh .zeroless, ?_⟩
  intro _
  have : ∀ (m : Impl) ps, (m.copy ps).allocSize = if m.kind = .dense then 0 else defaultAlloc := by
    intro m ps; unfold Impl.copy
    cases h : m.kind <;> simp [mkDense, mkCompressed, mkSingleton]
  rw [this, this, hk m hm]

/-! ### predefined formats -/

/-- C61. `COO(n, unique, ordered)` is accepted for every positive order and is a compressed level above
`n-1` singleton levels with the natural ordering; exactly the last level is unique, if requested; all
levels are ordered as requested. -/
theorem coo_shape (n : Nat) (u o : Bool) (hn : 0 < n) :
    ∃ f, COO n u o [] = some f ∧ f.order = n ∧ f.ordering = (List.range n).map (fun (i : Nat) => (i : Int)) ∧
      ∀ i, i < n → ∃ m, f.modes[i]? = some (some m) ∧ Made m ∧
        m.kind = (if i = 0 then .compressed else .singleton) ∧ m.isOrdered = o ∧
        m.isUnique = (u && decide (i + 1 = n)) := by
  unfold COO
  rw [if_neg (by omega), if_neg (by simp)]
  simp only [if_true]
  refine ⟨_, rfl, ?_⟩
  obtain ⟨k, rfl⟩ : ∃ k, n = k + 1 := ⟨n - 1, by omega⟩
  have hm : ∀ l : List (Option Impl), (l.map (fun m => (⟨[m]⟩ : Pack))).flatMap Pack.modes = l := by
    intro l
    induction l with
    | nil => rfl
    | cons x l ih => simp [ih]
  unfold Fmt.order Fmt.modes mkFmt
  simp only [hm]
  have hl : ∀ (a b c : Option Impl), (a :: if k + 1 > 1 then List.replicate (k + 1 - 2) b ++ [c] else []).length = k + 1 := by
    intro a b c
    split
    · simp; omega
    · simp; omega
  refine ⟨hl _ _ _, by rw [hl], ?_⟩
  intro i hi
  cases i with
  | zero =>
    refine ⟨_, rfl, .compressed _ _ _ _ _, rfl, ?_, ?_⟩
    · cases o <;> cases u <;> cases k <;> simp [Impl.copy, mkCompressed, setCompressed]
    · cases o <;> cases u <;> cases k <;> simp [Impl.copy, mkCompressed, setCompressed]
  | succ i =>
    rw [if_pos (show k + 1 > 1 by omega), List.getElem?_cons_succ]
    by_cases hlast : i = k - 1
    · rw [List.getElem?_append_right (by simp; omega)]
      have e : i - (List.replicate (k + 1 - 2) (variant Singleton [if o = true then Prop'.ordered else Prop'.notOrdered,
        Prop'.notUnique])).length = 0 := by simp; omega
      rw [e]
      refine ⟨_, rfl, .singleton _ _ _ _ _ _, rfl, ?_, ?_⟩
      · cases o <;> cases u <;> rfl
      · have : i + 1 + 1 = k + 1 := by omega
        rw [this]
        cases o <;> cases u <;> simp [Impl.copy, mkSingleton, setSingleton]
    · rw [List.getElem?_append_left (by simp; omega), List.getElem?_replicate, if_pos (by omega)]
      refine ⟨_, rfl, .singleton _ _ _ _ _ _, rfl, ?_, ?_⟩
      · cases o <;> rfl
      · have : ¬ i + 1 + 1 = k + 1 := by omega
        cases o <;> simp [Impl.copy, mkSingleton, setSingleton] <;> intros <;> omega

example : (COO 3 true true []).map (fun f => f.order) = some 3 := by decide

/-- C61. `isDense` holds exactly when every mode is a dense level with the default properties. -/
theorem isDense_iff (f : Fmt) : isDense f = true ↔ ∀ m ∈ f.modes, ∃ i, m = some i ∧ i.kind = .dense ∧
    i.isFull = true ∧ i.isOrdered = true ∧ i.isUnique = true ∧ i.isZeroless = false := by
  unfold isDense
  rw [List.all_eq_true]
  refine forall_congr' (fun m => imp_congr_right (fun _ => ?_))
  cases m with
  | none => simp [modeEq]
  | some i =>
    simp only [modeEq, Dense, eq_iff_same, SameMode, mkDense, Option.some.injEq, exists_eq_left']
    grind

/-- After `initFormat` every level of a format whose types were not set has them, so the types of index
arrays can be asked for. -/
theorem init_types {f : Fmt} (h : Made' f) (h0 : f.levelTypes = []) :
    ∀ i, i < f.order → (initFormat f).posType i = some int32 ∧ (initFormat f).idxType i = some int32 := by
  intro i hi
  unfold initFormat
  rw [if_pos (by rw [h0]; simp; omega)]
  obtain ⟨m, hm⟩ : ∃ m, f.modes[i]? = some m := ⟨_, List.getElem?_eq_getElem hi⟩
  have hmem := List.mem_of_getElem? hm
  unfold Fmt.modes at hmem
  rw [List.mem_flatMap] at hmem
  obtain ⟨p, hp, hpm⟩ := hmem
  obtain ⟨j, rfl, _⟩ := h.1 p hp m hpm
  have hmodes : ∀ ts, (f.setTypes ts).modes = f.modes := fun _ => rfl
  unfold Fmt.posType Fmt.idxType
  rw [hmodes, hm]
  simp only [Fmt.setTypes, List.getElem?_map, hm, Option.map_some]
  cases hk : j.kind <;> simp [Kind.name]


end Verif.Format
