import Verif.Pack.Expected
/-! Properties C01, C02, C03 and C05, and the part of C04 that concerns pack.cpp. -/
namespace Verif.Pack
open Verif.Merge (Lvl box)

variable {V : Type}

/-! ### Lexicographic order and permutations -/

theorem lexLe_of_cmp : ∀ {a b : List Nat}, a.length = b.length → lexCmp a b ≤ 0 → lexLe a b
  | [], [], _, _ => trivial
  | a :: as, b :: bs, hl, h => by
    unfold lexCmp at h
    split at h
    · exact Or.inl (by omega)
    · exact Or.inr ⟨by omega, lexLe_of_cmp (by simpa using hl) h⟩
  | [], _ :: _, hl, _ => by simp at hl
  | _ :: _, [], hl, _ => by simp at hl

theorem lexCmp_antisymm : ∀ {a b : List Nat}, a.length = b.length → lexCmp a b ≤ 0 → lexCmp b a ≤ 0 → a = b
  | [], [], _, _, _ => rfl
  | a :: as, b :: bs, hl, h1, h2 => by
    unfold lexCmp at h1 h2
    by_cases hab : a = b
    · subst hab
      simp only [Int.sub_self, ne_eq, not_true_eq_false, if_false] at h1 h2
      rw [lexCmp_antisymm (by simpa using hl) h1 h2]
    · rw [if_pos (by omega)] at h1 h2
      omega
  | [], _ :: _, hl, _, _ => by simp at hl
  | _ :: _, [], hl, _, _ => by simp at hl

theorem mem_box : ∀ {dims c : List Nat}, c ∈ box dims ↔ inRange dims c := by
  intro dims
  induction dims with
  | nil => intro c; rw [inRange_nil]; simp [box]
  | cons n ns ih =>
    intro c
    rw [inRange_cons]
    simp only [box, List.mem_flatMap, List.mem_range, List.mem_map]
    constructor
    · rintro ⟨j, hj, cs, hcs, rfl⟩; exact ⟨j, cs, rfl, hj, ih.1 hcs⟩
    · rintro ⟨j, cs, rfl, hj, hcs⟩; exact ⟨j, hj, cs, ih.2 hcs, rfl⟩

theorem box_sorted : ∀ dims : List Nat, (box dims).Pairwise (fun a b => lexCmp a b < 0) := by
  intro dims
  induction dims with
  | nil => simp [box]
  | cons n ns ih =>
    simp only [box]
    rw [List.pairwise_flatMap]
    refine ⟨?_, ?_⟩
    · intro j _
      rw [List.pairwise_map]
      refine ih.imp ?_
      intro a b h
      unfold lexCmp
      simpa using h
    · refine List.pairwise_lt_range.imp ?_
      intro a b hab x hx y hy
      rw [List.mem_map] at hx hy
      obtain ⟨x, _, rfl⟩ := hx
      obtain ⟨y, _, rfl⟩ := hy
      unfold lexCmp
      rw [if_pos (by omega)]; omega

theorem lexCmp_self : ∀ a : List Nat, lexCmp a a = 0
  | [] => rfl
  | a :: as => by unfold lexCmp; simp [lexCmp_self as]

theorem permute_length (perm c : List Nat) : (permute perm c).length = perm.length := by simp [permute]

theorem inRange_permute {perm dims c : List Nat} (hp : perm.Perm (List.range dims.length))
    (h : inRange dims c) : inRange (permute perm dims) (permute perm c) := by
  refine ⟨by simp [permute], ?_⟩
  intro m hm hm'
  have hm1 : m < perm.length := by simpa [permute] using hm
  have hmem : perm[m] ∈ List.range dims.length := hp.mem_iff.1 (List.getElem_mem hm1)
  rw [List.mem_range] at hmem
  have hc : perm[m] < c.length := by rw [h.1]; exact hmem
  simp only [permute, List.getElem_map, List.getD_eq_getElem?_getD, List.getElem?_eq_getElem hmem,
    List.getElem?_eq_getElem hc, Option.getD_some]
  exact h.2 _ hc hmem

theorem unpermute_permute {perm c : List Nat} (hp : perm.Perm (List.range c.length)) :
    unpermute perm (permute perm c) = c := by
  have hlen : perm.length = c.length := by rw [hp.length_eq, List.length_range]
  apply List.ext_getElem
  · simp [unpermute, hlen]
  · intro m h1 h2
    have hmem : m ∈ perm := hp.mem_iff.2 (List.mem_range.2 h2)
    have hi : perm.idxOf m < perm.length := List.idxOf_lt_length_iff.2 hmem
    simp only [unpermute, List.getElem_map, List.getElem_range, permute, List.getD_eq_getElem?_getD,
      List.getElem?_map, List.getElem?_eq_getElem hi, Option.map_some, Option.getD_some,
      List.getElem_idxOf, List.getElem?_eq_getElem h2]

theorem permute_unpermute {perm c : List Nat} (hp : perm.Perm (List.range c.length)) :
    permute perm (unpermute perm c) = c := by
  have hlen : perm.length = c.length := by rw [hp.length_eq, List.length_range]
  have hnd : perm.Nodup := hp.nodup_iff.2 List.nodup_range
  apply List.ext_getElem
  · simp [permute, hlen]
  · intro m h1 h2
    have hm : m < perm.length := by omega
    have hlt : perm[m] < perm.length := by
      have := hp.mem_iff.1 (List.getElem_mem hm)
      rw [List.mem_range] at this; omega
    simp only [permute, List.getElem_map, unpermute, List.getD_eq_getElem?_getD, List.getElem?_map,
      List.getElem?_range hlt, Option.map_some, Option.getD_some]
    rw [hnd.idxOf_getElem m hm, List.getElem?_eq_getElem h2]
    rfl

theorem unpermute_length (perm c : List Nat) : (unpermute perm c).length = perm.length := by simp [unpermute]

theorem rowsOK_of_cmp {dims : List Nat} {rows : List (Row V)}
    (hs : rows.Pairwise (fun a b => lexCmp a.1 b.1 ≤ 0)) (hr : ∀ r ∈ rows, inRange dims r.1) :
    RowsOK dims rows := by
  refine ⟨?_, hr⟩
  refine hs.imp_of_mem ?_
  intro a b ha hb h
  exact lexLe_of_cmp (by rw [(hr a ha).1, (hr b hb).1]) h

theorem firstAt_mem {fill : V} {rows : List (Row V)} (hnd : (rows.map Prod.fst).Nodup) {r : Row V}
    (hr : r ∈ rows) : firstAt fill rows r.1 = r.2 := by
  induction rows with
  | nil => simp at hr
  | cons x rows ih =>
    rw [List.map_cons, List.nodup_cons] at hnd
    unfold firstAt at ih ⊢
    rw [List.find?_cons]
    rcases List.mem_cons.1 hr with rfl | hr
    · simp
    · have : (x.1 == r.1) = false := by
        rw [Bool.eq_false_iff]
        intro hc
        rw [beq_iff_eq] at hc
        exact hnd.1 (by rw [hc]; exact List.mem_map_of_mem hr)
      rw [this]
      exact ih hnd.2 hr

theorem firstAt_not_mem {fill : V} {rows : List (Row V)} {c : List Nat} (h : c ∉ rows.map Prod.fst) :
    firstAt fill rows c = fill := by
  unfold firstAt
  have : rows.find? (fun r => r.1 == c) = none := by
    rw [List.find?_eq_none]
    intro r hr hc
    rw [beq_iff_eq] at hc
    exact h (List.mem_map.2 ⟨r, hr, hc⟩)
  rw [this]

/-! ### pack.cpp -/

theorem zip_fst {dims : List Nat} {kinds : List Kind} (h : kinds.length = dims.length) :
    (dims.zip kinds).map Prod.fst = dims := by
  rw [List.map_fst_zip]; omega

theorem zip_snd {dims : List Nat} {kinds : List Kind} (h : kinds.length = dims.length) :
    (dims.zip kinds).map Prod.snd = kinds := by
  rw [List.map_snd_zip]; omega

theorem pack_spec (fill : V) (ls : List (Nat × Kind)) (rows : List (Row V)) (hr : RowsOK (ls.map Prod.fst) rows) :
    IndexWF 1 ((ls.map Prod.fst).zip (pack fill ls rows).1) (pack fill ls rows).2.length ∧
    (pack fill ls rows).1.length = ls.length ∧
    walk (pack fill ls rows).2 (pack fill ls rows).1 0 =
      some (((box (ls.map Prod.fst)).filter (stored (ls.map Prod.snd) rows)).map
        (fun c => (c, firstAt fill rows c))) := by
  obtain ⟨h1, h2, h3, h4⟩ := packOK fill ls rows 0 (initIx ls) [] hr (acc_init ls)
  refine ⟨h1.indexWF, toLevels_length _ _ _ _ h1, ?_⟩
  rw [← expected_eq fill ls rows hr]
  exact h4

/-- C02. The packed arrays are well formed, for every list of sorted in-range coordinates, duplicates
allowed. -/
theorem pack_well_formed (fill : V) (dims : List Nat) (kinds : List Kind) (hk : kinds.length = dims.length)
    (rows : List (Row V)) (hs : rows.Pairwise (fun a b => lexCmp a.1 b.1 ≤ 0))
    (hr : ∀ r ∈ rows, inRange dims r.1) :
    IndexWF 1 (dims.zip (pack fill (dims.zip kinds) rows).1) (pack fill (dims.zip kinds) rows).2.length := by
  have := (pack_spec fill (dims.zip kinds) rows (by rw [zip_fst hk]; exact rowsOK_of_cmp hs hr)).1
  rw [zip_fst hk] at this
  exact this

/-- C05. The size an index reports is the number of values, and walking the index delivers the values
in the order of the value array, without loads outside the arrays. -/
theorem getSize_counts (dims : List Nat) (lv : List Lvl) (vals : List V) (hl : dims.length = lv.length)
    (h : IndexWF 1 (dims.zip lv) vals.length) :
    getSize lv = some vals.length ∧ ∃ out, walk vals lv 0 = some out ∧ out.map Prod.snd = vals := by
  refine ⟨getSizeFrom_wf dims lv 1 vals.length hl h, ?_⟩
  have := walk_total dims lv 1 vals hl h
  simp only [List.range_succ, List.range_zero, List.nil_append, forAll, walkVals] at this
  cases hw : walk vals lv 0 with
  | none => rw [hw] at this; simp at this
  | some out =>
    rw [hw] at this
    simp only [Option.map_some, List.append_nil, Option.some.injEq] at this
    exact ⟨out, rfl, this⟩

/-- C01 for `taco::pack`: walking the packed arrays delivers, in lexicographic order, the slots of the
format, each with the value of the first row at its coordinate or the fill value. -/
theorem pack_walk (fill : V) (dims : List Nat) (kinds : List Kind) (hk : kinds.length = dims.length)
    (rows : List (Row V)) (hs : rows.Pairwise (fun a b => lexCmp a.1 b.1 ≤ 0))
    (hr : ∀ r ∈ rows, inRange dims r.1) :
    walk (pack fill (dims.zip kinds) rows).2 (pack fill (dims.zip kinds) rows).1 0 =
      some (((box dims).filter (stored kinds rows)).map (fun c => (c, firstAt fill rows c))) := by
  have := (pack_spec fill (dims.zip kinds) rows (by rw [zip_fst hk]; exact rowsOK_of_cmp hs hr)).2.2
  rw [zip_fst hk, zip_snd hk] at this
  exact this

/-- C01. Insert components at distinct in-range coordinates in any order, pack them into any format of
dense and compressed levels under any mode ordering, and iterate: every component is delivered; every
delivered entry is a component or a fill value at a coordinate without component; no coordinate is
delivered twice, and coordinates come in lexicographic storage order. A format of compressed levels
delivers the components only. -/
theorem tensor_pack_iterate {qs : List (Row V) → List (Row V)} (fill : V)
    (dims : List Nat) (hq : QsortSpec dims.length qs) (kinds : List Kind) (perm : List Nat) (hk : kinds.length = dims.length)
    (hp : perm.Perm (List.range dims.length)) (buffer : List (Row V))
    (hr : ∀ r ∈ buffer, inRange dims r.1) (hd : (buffer.map Prod.fst).Nodup) :
    ∃ out, iterate perm (tensorPack qs fill dims kinds perm buffer) = some out ∧
      (∀ r ∈ buffer, r ∈ out) ∧
      (∀ r ∈ out, inRange dims r.1 ∧ (r ∈ buffer ∨ (r.2 = fill ∧ r.1 ∉ buffer.map Prod.fst))) ∧
      (out.map (fun r => permute perm r.1)).Pairwise (fun a b => lexCmp a b < 0) ∧
      (out.map Prod.fst).Nodup ∧
      ((∀ k ∈ kinds, k = .sparse) → ∀ r ∈ out, kinds ≠ [] → r ∈ buffer) := by
  have hplen : perm.length = dims.length := by rw [hp.length_eq, List.length_range]
  have hlenb : ∀ r ∈ buffer.map (fun r => (permute perm r.1, r.2)), r.1.length = dims.length := by
    intro r h
    rw [List.mem_map] at h
    obtain ⟨b, _, rfl⟩ := h
    rw [permute_length, hplen]
  let rows := qs (buffer.map (fun r => (permute perm r.1, r.2)))
  have hperm : rows.Perm (buffer.map (fun r => (permute perm r.1, r.2))) := (hq _ hlenb).1
  have hmem : ∀ r : Row V, r ∈ rows ↔ ∃ b ∈ buffer, (permute perm b.1, b.2) = r := by
    intro r; rw [hperm.mem_iff, List.mem_map]
  have hrow : ∀ r ∈ rows, inRange (permute perm dims) r.1 := by
    intro r h
    obtain ⟨b, hb, rfl⟩ := (hmem r).1 h
    exact inRange_permute hp (hr b hb)
  have hk' : kinds.length = (permute perm dims).length := by rw [permute_length, hk, hplen]
  have hwalk := pack_walk fill (permute perm dims) kinds hk' rows (hq _ hlenb).2 hrow
  have hback : ∀ {c}, inRange dims c → unpermute perm (permute perm c) = c := by
    intro c hc; exact unpermute_permute (by rw [hc.1]; exact hp)
  have hforth : ∀ {c}, inRange (permute perm dims) c → permute perm (unpermute perm c) = c := by
    intro c hc
    refine permute_unpermute ?_
    rw [hc.1, permute_length, hplen]; exact hp
  have hinv : ∀ {c}, inRange (permute perm dims) c → inRange dims (unpermute perm c) := by
    intro c hc
    refine ⟨by rw [unpermute_length, hplen], ?_⟩
    intro m h1 h2
    have hmm : m ∈ perm := hp.mem_iff.2 (List.mem_range.2 h2)
    have hi : perm.idxOf m < perm.length := List.idxOf_lt_length_iff.2 hmm
    have hcl : c.length = perm.length := by rw [hc.1, permute_length]
    have := hc.2 (perm.idxOf m) (by omega) (by rw [permute_length]; exact hi)
    simp only [permute, List.getElem_map, List.getElem_idxOf, List.getD_eq_getElem?_getD,
      List.getElem?_eq_getElem h2, Option.getD_some] at this
    simp only [unpermute, List.getElem_map, List.getElem_range, List.getD_eq_getElem?_getD,
      List.getElem?_eq_getElem (show perm.idxOf m < c.length by omega), Option.getD_some]
    exact this
  have hinj : ∀ {a b}, inRange dims a → inRange dims b → permute perm a = permute perm b → a = b := by
    intro a b ha hb h
    rw [← hback ha, ← hback hb, h]
  have hdrows : (rows.map Prod.fst).Nodup := by
    rw [(hperm.map Prod.fst).nodup_iff, List.map_map]
    unfold List.Nodup at hd ⊢
    rw [List.pairwise_map] at hd ⊢
    refine hd.imp_of_mem ?_
    intro a b ha hb hab hc
    exact hab (hinj (hr a ha) (hr b hb) hc)
  have hsort : ((((box (permute perm dims)).filter (stored kinds rows)).map
      (fun c => (unpermute perm c, firstAt fill rows c))).map (fun r => permute perm r.1)).Pairwise
        (fun a b => lexCmp a b < 0) := by
    rw [List.map_map, List.pairwise_map]
    refine (List.Pairwise.filter _ (box_sorted _)).imp_of_mem ?_
    intro a b ha hb hab
    simp only [Function.comp]
    rw [hforth (mem_box.1 (List.mem_filter.1 ha).1), hforth (mem_box.1 (List.mem_filter.1 hb).1)]
    exact hab
  refine ⟨((box (permute perm dims)).filter (stored kinds rows)).map
    (fun c => (unpermute perm c, firstAt fill rows c)), ?_, ?_, ?_, hsort, ?_, ?_⟩
  · unfold iterate
    show (walk (pack fill ((permute perm dims).zip kinds) rows).2
      (pack fill ((permute perm dims).zip kinds) rows).1 0).map _ = _
    rw [hwalk, Option.map_some, List.map_map]
    rfl
  · intro r hrb
    rw [List.mem_map]
    have hrm : (permute perm r.1, r.2) ∈ rows := (hmem _).2 ⟨r, hrb, rfl⟩
    refine ⟨permute perm r.1, List.mem_filter.2 ⟨mem_box.2 (hrow _ hrm), ?_⟩, ?_⟩
    · unfold stored
      rw [Bool.or_eq_true, List.any_eq_true]
      exact Or.inr ⟨_, hrm, by simp⟩
    · rw [hback (hr r hrb), firstAt_mem hdrows hrm]
  · intro r hro
    rw [List.mem_map] at hro
    obtain ⟨c, hc, rfl⟩ := hro
    have hcr := mem_box.1 (List.mem_filter.1 hc).1
    refine ⟨hinv hcr, ?_⟩
    by_cases hcm : c ∈ rows.map Prod.fst
    · left
      rw [List.mem_map] at hcm
      obtain ⟨x, hx, rfl⟩ := hcm
      obtain ⟨b, hb, rfl⟩ := (hmem x).1 hx
      rw [firstAt_mem hdrows hx, hback (hr b hb)]
      exact hb
    · right
      refine ⟨firstAt_not_mem hcm, ?_⟩
      intro hu
      rw [List.mem_map] at hu
      obtain ⟨b, hb, hbc⟩ := hu
      apply hcm
      rw [List.mem_map]
      refine ⟨(permute perm b.1, b.2), (hmem _).2 ⟨b, hb, rfl⟩, ?_⟩
      show permute perm b.1 = c
      rw [hbc, hforth hcr]
  · unfold List.Nodup
    rw [List.pairwise_map] at hsort ⊢
    refine hsort.imp ?_
    intro a b hab hc
    rw [hc, lexCmp_self] at hab
    exact absurd hab (by decide)
  · intro hall r hro hkne
    rw [List.mem_map] at hro
    obtain ⟨c, hc, rfl⟩ := hro
    obtain ⟨hcb, hst⟩ := List.mem_filter.1 hc
    have hcr := mem_box.1 hcb
    have hkl : ∀ ks : List Kind, (∀ k ∈ ks, k = .sparse) → keyLen ks = ks.length := by
      intro ks
      induction ks with
      | nil => intro _; rfl
      | cons k ks ih =>
        intro h
        rw [h k List.mem_cons_self]
        simp only [keyLen, List.length_cons]
        rw [ih (fun k hk => h k (List.mem_cons_of_mem _ hk))]
    unfold stored at hst
    rw [hkl kinds hall, Bool.or_eq_true] at hst
    rcases hst with h0 | h1
    · rw [decide_eq_true_eq, List.length_eq_zero_iff] at h0
      exact absurd h0 hkne
    · rw [List.any_eq_true] at h1
      obtain ⟨x, hx, hxc⟩ := h1
      rw [beq_iff_eq, List.take_of_length_le (by rw [(hrow x hx).1]; omega),
        List.take_of_length_le (by rw [hcr.1]; omega)] at hxc
      obtain ⟨b, hb, hbx⟩ := (hmem x).1 hx
      rw [← hxc, firstAt_mem hdrows hx, ← hbx]
      simp only
      rw [hback (hr b hb)]
      exact hb

/-- C03. Inserting the same components in two different orders gives the same arrays, also when the two
packings break ties in `qsort` differently. -/
theorem tensor_pack_order {qs qs' : List (Row V) → List (Row V)} (fill : V) (dims : List Nat)
    (hq : QsortSpec dims.length qs) (hq' : QsortSpec dims.length qs') (kinds : List Kind) (perm : List Nat)
    (hp : perm.Perm (List.range dims.length)) (b1 b2 : List (Row V)) (hb : b1.Perm b2)
    (hr : ∀ r ∈ b1, inRange dims r.1) (hd : (b1.map Prod.fst).Nodup) :
    tensorPack qs fill dims kinds perm b1 = tensorPack qs' fill dims kinds perm b2 := by
  have hrows : qs (b1.map (fun r => (permute perm r.1, r.2))) = qs' (b2.map (fun r => (permute perm r.1, r.2))) := by
    have hlenb : ∀ (b : List (Row V)), ∀ r ∈ b.map (fun r => (permute perm r.1, r.2)),
        r.1.length = dims.length := by
      intro b r h
      rw [List.mem_map] at h
      obtain ⟨b, _, rfl⟩ := h
      rw [permute_length, hp.length_eq, List.length_range]
    have h1 := hq (b1.map (fun r => (permute perm r.1, r.2))) (hlenb b1)
    have h2 := hq' (b2.map (fun r => (permute perm r.1, r.2))) (hlenb b2)
    refine List.Perm.eq_of_pairwise ?_ h1.2 h2.2 (h1.1.trans ((hb.map _).trans h2.1.symm))
    intro a b ha hb' hab hba
    have ha' := h1.1.mem_iff.1 ha
    have hb'' := (hb.map _).mem_iff.2 (h2.1.mem_iff.1 hb')
    rw [List.mem_map] at ha' hb''
    obtain ⟨x, hx, rfl⟩ := ha'
    obtain ⟨y, hy, rfl⟩ := hb''
    have heq := lexCmp_antisymm (by simp [permute]) hab hba
    have hxy : x.1 = y.1 := by
      have e1 := unpermute_permute (perm := perm) (c := x.1) (by rw [(hr x hx).1]; exact hp)
      have e2 := unpermute_permute (perm := perm) (c := y.1) (by rw [(hr y hy).1]; exact hp)
      simp only at heq
      rw [← e1, ← e2, heq]
    have hval : firstAt x.2 b1 x.1 = x.2 := firstAt_mem hd hx
    have hval' : firstAt x.2 b1 y.1 = y.2 := firstAt_mem hd hy
    rw [hxy, hval'] at hval
    rw [hxy, hval]
  unfold tensorPack
  rw [hrows]

/-! ### The value buffer -/

def countFrom (fill : V) (ls : List (Nat × Kind)) (sets : List (List (Row V))) : Nat :=
  (sets.map (fun rows => (expected fill ls rows).length)).sum

def maxFold (N : Nat) : Nat → List (Nat × Kind) → Nat
  | m, [] => m
  | m, (n, .dense) :: ls => maxFold N (m * n) ls
  | _, (_, .sparse) :: ls => maxFold N N ls

theorem maxFold_mono (N : Nat) : ∀ (ls : List (Nat × Kind)) {m m' : Nat}, m ≤ m' → maxFold N m ls ≤ maxFold N m' ls := by
  intro ls
  induction ls with
  | nil => intro m m' h; exact h
  | cons l ls ih =>
    obtain ⟨n, k⟩ := l
    intro m m' h
    cases k with
    | dense => exact ih (Nat.mul_le_mul_right n h)
    | sparse => exact Nat.le_refl _

theorem maxSize_eq (N : Nat) (ls : List (Nat × Kind)) : maxSize N ls = maxFold N 1 ls := by
  unfold maxSize
  generalize 1 = m
  induction ls generalizing m with
  | nil => rfl
  | cons l ls ih =>
    obtain ⟨n, k⟩ := l
    cases k <;> exact ih _

theorem sum_sub_le (rows : List (Row V)) : ∀ js : List Nat, js.Pairwise (· < ·) →
    (js.map (fun j => (sub rows j).length)).sum ≤ rows.length := by
  induction rows with
  | nil =>
    intro js _
    have : (js.map (fun j => (sub ([] : List (Row V)) j).length)) = js.map (fun _ => 0) := rfl
    rw [this, sum_map_const]; simp
  | cons r rows ih =>
    intro js hj
    have h1 : ∀ j, (sub (r :: rows) j).length = (if headIs j r then 1 else 0) + (sub rows j).length := by
      intro j
      unfold sub
      rw [List.filter_cons]
      split <;> simp <;> omega
    have h2 : ∀ js : List Nat, js.Pairwise (· < ·) → (js.map (fun j => if headIs j r then 1 else 0)).sum ≤ 1 := by
      intro js
      induction js with
      | nil => simp
      | cons j js ihj =>
        intro hp
        rw [List.pairwise_cons] at hp
        rw [List.map_cons, List.sum_cons]
        by_cases hh : headIs j r = true
        · have : (js.map (fun j => if headIs j r then 1 else 0)).sum = 0 := by
            have hall : ∀ x ∈ js, headIs x r = false := by
              intro x hx
              have := hp.1 x hx
              obtain ⟨cs, hc⟩ := headIs_iff.1 hh
              simp [headIs, hc]; omega
            rw [List.map_congr_left (g := fun _ => 0) (fun x hx => by rw [hall x hx]; rfl), sum_map_const]
            rfl
          rw [if_pos hh, this]; omega
        · rw [if_neg hh]
          have := ihj hp.2
          omega
    have h3 : ∀ js : List Nat, (js.map (fun j => (sub (r :: rows) j).length)).sum =
        (js.map (fun j => if headIs j r then 1 else 0)).sum + (js.map (fun j => (sub rows j).length)).sum := by
      intro js
      induction js with
      | nil => rfl
      | cons j js ihj =>
        rw [List.map_cons, List.sum_cons, ihj, h1, List.map_cons, List.map_cons, List.sum_cons, List.sum_cons]
        omega
    rw [h3, List.length_cons]
    have := h2 js hj
    have := ih js hj
    omega

theorem countFrom_le (fill : V) (N : Nat) : ∀ (ls : List (Nat × Kind)) (sets : List (List (Row V))),
    (∀ rows ∈ sets, RowsOK (ls.map Prod.fst) rows) → (sets.map List.length).sum ≤ N →
    countFrom fill ls sets ≤ maxFold N sets.length ls := by
  intro ls
  induction ls with
  | nil =>
    intro sets _ _
    unfold countFrom
    simp only [expected, List.length_singleton, maxFold]
    rw [sum_map_const]; omega
  | cons l ls ih =>
    obtain ⟨n, k⟩ := l
    intro sets hok hN
    have hlen : ∀ js : List Nat, ∀ rows : List (Row V),
        (js.flatMap (fun j => (expected fill ls (sub rows j)).map (fun r => (j :: r.1, r.2)))).length =
        countFrom fill ls (js.map (sub rows)) := by
      intro js rows
      unfold countFrom
      rw [List.length_flatMap, List.map_map]
      congr 1
      apply List.map_congr_left
      intro j _
      simp
    have hcat : ∀ (J : List (Row V) → List Nat) (ss : List (List (Row V))),
        (ss.map (fun rows => countFrom fill ls ((J rows).map (sub rows)))).sum =
        countFrom fill ls (ss.flatMap (fun rows => (J rows).map (sub rows))) := by
      intro J ss
      induction ss with
      | nil => rfl
      | cons a ss ihs =>
        rw [List.map_cons, List.sum_cons, ihs, List.flatMap_cons]
        unfold countFrom
        rw [List.map_append, List.sum_append]
    have hsum : ∀ (J : List (Row V) → List Nat) (ss : List (List (Row V))),
        (∀ rows ∈ ss, (J rows).Pairwise (· < ·)) →
        ((ss.flatMap (fun rows => (J rows).map (sub rows))).map List.length).sum ≤ (ss.map List.length).sum := by
      intro J ss
      induction ss with
      | nil => intro _; simp
      | cons a ss ihs =>
        intro hJ
        rw [List.flatMap_cons, List.map_append, List.sum_append, List.map_cons, List.sum_cons]
        have h1 := sum_sub_le a (J a) (hJ a List.mem_cons_self)
        have h2 := ihs (fun r hr => hJ r (List.mem_cons_of_mem _ hr))
        rw [List.map_map]
        exact Nat.add_le_add h1 h2
    cases k with
    | dense =>
      have h1 : countFrom fill ((n, .dense) :: ls) sets =
          countFrom fill ls (sets.flatMap (fun rows => (List.range n).map (sub rows))) := by
        rw [← hcat]
        unfold countFrom
        congr 1
        apply List.map_congr_left
        intro rows _
        exact hlen _ rows
      rw [h1]
      have h2 := ih (sets.flatMap (fun rows => (List.range n).map (sub rows))) (by
        intro rows hr
        rw [List.mem_flatMap] at hr
        obtain ⟨R, hR, hr⟩ := hr
        rw [List.mem_map] at hr
        obtain ⟨j, _, rfl⟩ := hr
        exact RowsOK.sub (hok R hR) j)
        (Nat.le_trans (hsum (fun _ => List.range n) sets (fun _ _ => List.pairwise_lt_range)) hN)
      have h3 : (sets.flatMap (fun rows => (List.range n).map (sub rows))).length = sets.length * n := by
        clear h1 h2 hok hN
        induction sets with
        | nil => simp
        | cons a s ihs => rw [List.flatMap_cons, List.length_append, ihs]; simp [Nat.succ_mul]; omega
      rw [h3] at h2
      exact h2
    | sparse =>
      have h1 : countFrom fill ((n, .sparse) :: ls) sets =
          countFrom fill ls (sets.flatMap (fun rows => (getUniqueEntries (heads rows)).map (sub rows))) := by
        rw [← hcat (fun rows => getUniqueEntries (heads rows))]
        unfold countFrom
        congr 1
        apply List.map_congr_left
        intro rows _
        exact hlen _ rows
      rw [h1]
      have hs := hsum (fun rows => getUniqueEntries (heads rows)) sets
        (fun rows hr => (getUniqueEntries_spec (RowsOK.heads_sorted (hok rows hr))).1)
      have h2 := ih (sets.flatMap (fun rows => (getUniqueEntries (heads rows)).map (sub rows))) (by
        intro rows hr
        rw [List.mem_flatMap] at hr
        obtain ⟨R, hR, hr⟩ := hr
        rw [List.mem_map] at hr
        obtain ⟨j, _, rfl⟩ := hr
        exact RowsOK.sub (hok R hR) j) (Nat.le_trans hs hN)
      refine Nat.le_trans h2 (maxFold_mono N ls ?_)
      refine Nat.le_trans ?_ (Nat.le_trans hs hN)
      have hpos : ∀ rows ∈ sets.flatMap (fun rows => (getUniqueEntries (heads rows)).map (sub rows)),
          1 ≤ rows.length := by
        intro rows hr
        rw [List.mem_flatMap] at hr
        obtain ⟨R, hR, hr⟩ := hr
        rw [List.mem_map] at hr
        obtain ⟨j, hj, rfl⟩ := hr
        have hj' := ((getUniqueEntries_spec (RowsOK.heads_sorted (hok R hR))).2 j).1 hj
        cases hsub : sub R j with
        | nil => exact absurd hj' ((sub_eq_nil (hok R hR)).1 hsub)
        | cons _ _ => simp
      have : ∀ ss : List (List (Row V)), (∀ rows ∈ ss, 1 ≤ rows.length) → ss.length ≤ (ss.map List.length).sum := by
        intro ss
        induction ss with
        | nil => intro _; simp
        | cons a ss ihs =>
          intro h
          have := h a List.mem_cons_self
          have := ihs (fun r hr => h r (List.mem_cons_of_mem _ hr))
          simp only [List.length_cons, List.map_cons, List.sum_cons]
          omega
      exact this _ hpos

/-- C02. `pack` never writes past the value buffer it allocates. -/
theorem pack_values_fit (fill : V) (dims : List Nat) (kinds : List Kind) (hk : kinds.length = dims.length)
    (rows : List (Row V)) (hs : rows.Pairwise (fun a b => lexCmp a.1 b.1 ≤ 0))
    (hr : ∀ r ∈ rows, inRange dims r.1) :
    (pack fill (dims.zip kinds) rows).2.length ≤ maxSize rows.length (dims.zip kinds) := by
  have hok : RowsOK ((dims.zip kinds).map Prod.fst) rows := by rw [zip_fst hk]; exact rowsOK_of_cmp hs hr
  obtain ⟨h1, h2, h3⟩ := pack_spec fill (dims.zip kinds) rows hok
  obtain ⟨_, out, ho, hv⟩ := getSize_counts _ _ _ (by simp [h2]) h1
  rw [← expected_eq fill _ rows hok, ho] at h3
  have hlen : (pack fill (dims.zip kinds) rows).2.length = (expected fill (dims.zip kinds) rows).length := by
    conv => lhs; rw [← hv, Option.some.inj h3]
    rw [List.length_map]
  have := countFrom_le fill rows.length (dims.zip kinds) [rows] (by simpa using hok) (by simp)
  rw [hlen, maxSize_eq]
  simpa [countFrom] using this

/-! ### Examples -/

/-- Insertion of `r` before the first row that compares greater. -/
def insertRow (r : Row V) : List (Row V) → List (Row V)
  | [] => [r]
  | x :: xs => if lexCmp r.1 x.1 ≤ 0 then r :: x :: xs else x :: insertRow r xs

def sortRows : List (Row V) → List (Row V)
  | [] => []
  | r :: rs => insertRow r (sortRows rs)

theorem lexCmp_total : ∀ a b : List Nat, ¬ lexCmp a b ≤ 0 → lexCmp b a ≤ 0
  | [], _, h => absurd (Int.le_refl 0) (by simpa [lexCmp] using h)
  | _ :: _, [], h => absurd (Int.le_refl 0) (by simpa [lexCmp] using h)
  | a :: as, b :: bs, h => by
    unfold lexCmp at h ⊢
    by_cases hab : a = b
    · subst hab
      simp only [Int.sub_self, ne_eq, not_true_eq_false, if_false] at h ⊢
      exact lexCmp_total as bs h
    · rw [if_pos (by omega)] at h ⊢
      omega

theorem lexCmp_trans : ∀ {a b c : List Nat}, a.length = b.length → b.length = c.length →
    lexCmp a b ≤ 0 → lexCmp b c ≤ 0 → lexCmp a c ≤ 0
  | [], _, _, _, _, _, _ => by simp [lexCmp]
  | a :: as, b :: bs, c :: cs, h1, h2, hab, hbc => by
    unfold lexCmp at hab hbc ⊢
    have := @lexCmp_trans as bs cs (by simpa using h1) (by simpa using h2)
    split at hab <;> split at hbc <;> split
    · omega
    · omega
    · omega
    · omega
    · omega
    · omega
    · omega
    · exact this hab hbc
  | _ :: _, [], _, h1, _, _, _ => by simp at h1
  | _ :: _, _ :: _, [], _, h2, _, _ => by simp at h2

theorem insertRow_perm (r : Row V) : ∀ l : List (Row V), (insertRow r l).Perm (r :: l)
  | [] => List.Perm.refl _
  | x :: xs => by
    unfold insertRow
    split
    · exact List.Perm.refl _
    · exact ((insertRow_perm r xs).cons x).trans (List.Perm.swap r x xs)

/-- The hypothesis on `qsort` can be met. -/
theorem sortRows_spec (order : Nat) : QsortSpec order (sortRows (V := V)) := by
  intro l
  induction l with
  | nil => intro _; exact ⟨List.Perm.refl _, List.Pairwise.nil⟩
  | cons r l ih =>
    intro hl
    obtain ⟨h1, h2⟩ := ih (fun x hx => hl x (List.mem_cons_of_mem _ hx))
    refine ⟨(insertRow_perm r _).trans (h1.cons r), ?_⟩
    have hr := hl r List.mem_cons_self
    have hlen : ∀ x ∈ sortRows l, x.1.length = order := fun x hx =>
      hl x (List.mem_cons_of_mem _ (h1.mem_iff.1 hx))
    show (insertRow r (sortRows l)).Pairwise _
    generalize sortRows l = m at h2 hlen
    clear h1 ih
    induction m with
    | nil => simp [insertRow]
    | cons x xs ihm =>
      rw [List.pairwise_cons] at h2
      have hx := hlen x List.mem_cons_self
      unfold insertRow
      split
      · rename_i hle
        rw [List.pairwise_cons, List.pairwise_cons]
        refine ⟨?_, h2⟩
        intro y hy
        rcases List.mem_cons.1 hy with rfl | hy
        · exact hle
        · exact lexCmp_trans (by rw [hr, hx]) (by rw [hx, hlen y (List.mem_cons_of_mem _ hy)]) hle (h2.1 y hy)
      · rename_i hgt
        rw [List.pairwise_cons]
        refine ⟨?_, ihm h2.2 (fun y hy => hlen y (List.mem_cons_of_mem _ hy))⟩
        intro y hy
        rcases List.mem_cons.1 ((insertRow_perm r xs).mem_iff.1 hy) with rfl | hy
        · exact lexCmp_total _ _ hgt
        · exact h2.1 y hy

def exRows : List (Row Nat) := [([0, 1], 5), ([0, 2], 6), ([2, 0], 7)]

example : pack 0 [(3, .dense), (4, .sparse)] exRows = ([.dense 3, .comp [0, 2, 2, 3] [1, 2, 0]], [5, 6, 7]) := by
  decide

example : exRows.Pairwise (fun a b => lexCmp a.1 b.1 ≤ 0) := by decide

example : walk [5, 6, 7] [.dense 3, .comp [0, 2, 2, 3] [1, 2, 0]] 0 = some exRows := by decide

/-- CSC: the same components under the mode ordering `[1, 0]`. -/
example : tensorPack sortRows 0 [3, 4] [.dense, .sparse] [1, 0] [([2, 0], 7), ([0, 2], 6), ([0, 1], 5)] =
    ([.dense 4, .comp [0, 1, 2, 3, 3] [2, 0, 0]], [7, 5, 6]) := by decide

example : iterate [1, 0] ([.dense 4, .comp [0, 1, 2, 3, 3] [2, 0, 0]], [7, 5, 6]) =
    some [([2, 0], 7), ([0, 1], 5), ([0, 2], 6)] := by decide

/-- C04 is false of `taco::pack`: of two components at one coordinate it keeps the first. -/
theorem pack_duplicates_fails :
    ∃ rows : List (Row Nat), rows.Pairwise (fun a b => lexCmp a.1 b.1 ≤ 0) ∧ (∀ r ∈ rows, inRange [2] r.1) ∧
      pack 0 [(2, .sparse)] rows = ([.comp [0, 1] [1]], [3]) ∧ rows = [([1], 3), ([1], 4)] :=
  ⟨[([1], 3), ([1], 4)], by decide, by
    intro r hr
    have : r.1 = [1] := by
      simp only [List.mem_cons, List.not_mem_nil, or_false] at hr
      rcases hr with rfl | rfl <;> rfl
    rw [this]
    refine ⟨rfl, ?_⟩
    intro m h _
    have : m = 0 := by simp at h; omega
    subst this
    show 1 < 2
    decide, by decide, rfl⟩

end Verif.Pack
