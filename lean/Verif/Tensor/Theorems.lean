import Verif.Tensor.Lemmas
/-!
Properties C51 (transpose), C52 (equality) and C62 (reading components).
-/
namespace Verif.Tensor
open Verif.Pack

variable {V : Type}

/-! ### reading -/

/-- C62. Reading a coordinate of a tensor with fill value zero gives the component inserted there, or
zero, in every format and mode ordering. -/
theorem read_value_partial {t : Tensor V} {zero : V} {dims : List Nat} {comps : List (Row V)}
    (h : Holds t zero dims comps) (c : List Nat) (hc : c.length = dims.length) :
    t.read zero c = some (firstAt zero comps c) := by
  obtain ⟨hd, _, _, out, ho, _, _, _, hv, _, _⟩ := holds_components h
  unfold Tensor.read
  rw [if_pos (by rw [hd]; exact hc), ho, Option.map_some, ← hv c]
  rfl

/-- C62 is false for other fill values: reading a coordinate without component gives zero. -/
theorem read_fill_fails :
    ∃ (t : Tensor Nat) (dims : List Nat), Holds t 7 dims [] ∧ t.read 0 [0] = some 0 := by
  refine ⟨⟨[2], [.sparse], [0], 7, tensorPack sortRows 7 [2] [.sparse] [0] []⟩, [2], ?_, by decide⟩
  exact ⟨⟨sortRows, sortRows_spec 1, rfl⟩, by decide, by simp, by simp⟩

/-! ### equality -/

/-- The numbers `scalarEquals` treats like a tolerance test: finite ones. -/
def Num.Finite : Num → Prop
  | .num _ => True
  | _ => False

theorem Num.compat {u w : Num} (hu : u.Finite) (hw : w.Finite) :
    (u.isZero = true → u.scalarEquals w = w.isZero) ∧ (w.isZero = true → u.scalarEquals w = u.isZero) := by
  cases u with
  | nan => exact absurd hu (by simp [Num.Finite])
  | inf n => exact absurd hu (by simp [Num.Finite])
  | num a =>
    cases w with
    | nan => exact absurd hw (by simp [Num.Finite])
    | inf n => exact absurd hw (by simp [Num.Finite])
    | num b =>
      simp only [Num.isZero, Num.scalarEquals, beq_iff_eq]
      refine ⟨fun h => by rw [if_pos h], fun h => ?_⟩
      subst h
      split
      · rename_i h; simp [h]
      · rename_i h
        rw [Bool.eq_iff_iff, decide_eq_true_eq, beq_iff_eq]
        omega

/-- C52 for any comparison of values that treats zero as zero: two tensors with the same mode ordering,
in any formats, compare equal exactly when they have the same fill value and dimensions and their
values at every coordinate compare equal. -/
theorem equals_values_partial {isZero : V → Bool} {feq fillEq : V → V → Bool} {zero : V} (hz : isZero zero = true)
    (hf : fillEq zero zero = true) {a b : Tensor V} {da db : List Nat} {ca cb : List (Row V)}
    (ha : Holds a zero da ca) (hb : Holds b zero db cb) (hp : a.perm = b.perm)
    (hc : ∀ u ∈ zero :: ca.map Prod.snd, ∀ w ∈ zero :: cb.map Prod.snd,
      (isZero u = true → feq u w = isZero w) ∧ (isZero w = true → feq u w = isZero u)) :
    ∃ r, equals isZero feq fillEq a b = some r ∧
      (r = true ↔ da = db ∧ ∀ c, inRange da c → feq (firstAt zero ca c) (firstAt zero cb c) = true) := by
  obtain ⟨ha1, ha2, ha3, oa, ha4, ha5, ha6, ha7, ha8, ha9, _⟩ := holds_components ha
  obtain ⟨hb1, hb2, hb3, ob, hb4, hb5, hb6, hb7, hb8, hb9, _⟩ := holds_components hb
  have hpa := ha.2.1
  unfold equals
  rw [ha2, hb2, hf, ha1, hb1]
  simp only [Bool.not_true, Bool.false_eq_true, if_false]
  by_cases hd : da = db
  · subst hd
    rw [if_neg (by simp), ha4, hb4]
    refine ⟨_, rfl, ?_⟩
    have hvals : ∀ {o c : List (Row V)}, (∀ x, firstAt zero o x = firstAt zero c x) → (o.map Prod.fst).Nodup →
        ∀ u ∈ zero :: o.map Prod.snd, u ∈ zero :: c.map Prod.snd := by
      intro o c he hnd u hu
      rcases List.mem_cons.1 hu with rfl | hu
      · exact List.mem_cons_self
      · obtain ⟨r, hr, rfl⟩ := List.mem_map.1 hu
        rw [← firstAt_mem (fill := zero) hnd hr, he]
        unfold firstAt
        cases hfd : c.find? (fun x => x.1 == r.1) with
        | none => exact List.mem_cons_self
        | some x => exact List.mem_cons_of_mem _ (List.mem_map_of_mem (List.mem_of_find?_eq_some hfd))
    have hinj : ∀ {x y : List Nat}, inRange da x → inRange da y → permute a.perm x = permute a.perm y → x = y := by
      intro x y hx hy h
      rw [← unpermute_permute (perm := a.perm) (c := x) (by rw [hx.1]; exact hpa),
        ← unpermute_permute (perm := a.perm) (c := y) (by rw [hy.1]; exact hpa), h]
    rw [List.pairwise_map] at ha7 hb7
    rw [equalsLoop_iff (z := zero) hz (lt := fun x y => lexCmp (permute a.perm x) (permute a.perm y) < 0)
      (fun h1 h2 => lexCmp_lt_trans h1 h2) (fun x h => by simp only [lexCmp_self] at h; exact absurd h (by decide)) _ oa ob (by omega)
      (fun u hu w hw => hc u (hvals ha8 ha6 u hu) w (hvals hb8 hb6 w hw)) ha7 (by rw [hp]; exact hb7) ?_]
    · simp only [ha8, hb8, true_and]
      constructor
      · intro h c _; exact h c
      · intro h c
        by_cases hcr : inRange da c
        · exact h c hcr
        · rw [firstAt_not_mem (fun hm => hcr ?_), firstAt_not_mem (fun hm => hcr ?_),
            (hc zero List.mem_cons_self zero List.mem_cons_self).1 hz, hz]
          · obtain ⟨r, hr, rfl⟩ := List.mem_map.1 hm
            exact hb.2.2.1 r hr
          · obtain ⟨r, hr, rfl⟩ := List.mem_map.1 hm
            exact ha.2.2.1 r hr
    · intro x hx y hy hne
      apply lexCmp_total_lt
      · rw [permute_length, permute_length]
      · intro he; exact hne (hinj (ha5 x hx) (hb5 y hy) he)
  · rw [if_pos hd]
    exact ⟨false, rfl, by simp [hd]⟩

/-- C52. Tensors of finite numbers with the same mode ordering compare equal exactly when they have
the same dimensions and the values at each coordinate pass the tolerance test. -/
theorem equals_finite_partial {a b : Tensor Num} {da db : List Nat} {ca cb : List (Row Num)}
    (ha : Holds a (.num 0) da ca) (hb : Holds b (.num 0) db cb) (hp : a.perm = b.perm)
    (hfa : ∀ r ∈ ca, r.2.Finite) (hfb : ∀ r ∈ cb, r.2.Finite) :
    ∃ r, equals Num.isZero Num.scalarEquals Num.scalarEquals a b = some r ∧
      (r = true ↔ da = db ∧ ∀ c, inRange da c →
        (firstAt (.num 0) ca c).scalarEquals (firstAt (.num 0) cb c) = true) := by
  refine equals_values_partial rfl rfl ha hb hp ?_
  intro u hu w hw
  apply Num.compat
  · rcases List.mem_cons.1 hu with rfl | hu
    · trivial
    · obtain ⟨r, hr, rfl⟩ := List.mem_map.1 hu; exact hfa r hr
  · rcases List.mem_cons.1 hw with rfl | hw
    · trivial
    · obtain ⟨r, hr, rfl⟩ := List.mem_map.1 hw; exact hfb r hr

/-- C52. For integers below 100000 the comparison is exact: equal means the same dimensions and the same
value at every coordinate. -/
theorem equals_exact_partial {a b : Tensor Num} {da db : List Nat} {ca cb : List (Row Num)}
    (ha : Holds a (.num 0) da ca) (hb : Holds b (.num 0) db cb) (hp : a.perm = b.perm)
    (hfa : ∀ r ∈ ca, ∃ v : Int, r.2 = .num v ∧ v.natAbs < 100000) (hfb : ∀ r ∈ cb, ∃ v : Int, r.2 = .num v) :
    ∃ r, equals Num.isZero Num.scalarEquals Num.scalarEquals a b = some r ∧
      (r = true ↔ da = db ∧ ∀ c, inRange da c → firstAt (.num 0) ca c = firstAt (.num 0) cb c) := by
  obtain ⟨r, h1, h2⟩ := equals_finite_partial ha hb hp
    (fun r hr => by obtain ⟨v, hv, _⟩ := hfa r hr; rw [hv]; trivial)
    (fun r hr => by obtain ⟨v, hv⟩ := hfb r hr; rw [hv]; trivial)
  refine ⟨r, h1, h2.trans ?_⟩
  refine and_congr_right (fun _ => forall_congr' (fun c => imp_congr_right (fun _ => ?_)))
  have hA : ∃ v : Int, firstAt (.num 0) ca c = .num v ∧ v.natAbs < 100000 := by
    unfold firstAt
    cases hfd : ca.find? (fun x => x.1 == c) with
    | none => exact ⟨0, rfl, by decide⟩
    | some x => exact hfa x (List.mem_of_find?_eq_some hfd)
  have hB : ∃ v : Int, firstAt (.num 0) cb c = .num v := by
    unfold firstAt
    cases hfd : cb.find? (fun x => x.1 == c) with
    | none => exact ⟨0, rfl⟩
    | some x => exact hfb x (List.mem_of_find?_eq_some hfd)
  obtain ⟨u, hu, hlt⟩ := hA
  obtain ⟨w, hw⟩ := hB
  rw [hu, hw]
  simp only [Num.scalarEquals, Num.num.injEq]
  by_cases h0 : u = 0
  · rw [if_pos h0, beq_iff_eq, h0]; exact eq_comm
  · rw [if_neg h0, decide_eq_true_eq]
    omega

/-- CSR and a matrix of compressed levels with the same components. -/
def exA (kinds : List Kind) (perm : List Nat) (comps : List (Row Num)) : Tensor Num :=
  ⟨[2, 2], kinds, perm, .num 0, tensorPack sortRows (.num 0) [2, 2] kinds perm comps⟩
def exComps : List (Row Num) := [([0, 1], .num 5), ([1, 0], .num 7)]

theorem exComps_ok {kinds : List Kind} {perm : List Nat} (hk : kinds.length = 2) (hp : perm.Perm (List.range 2)) :
    Holds (exA kinds perm exComps) (.num 0) [2, 2] exComps := by
  refine ⟨⟨sortRows, sortRows_spec 2, ?_⟩, hp, ?_, by decide⟩
  · unfold make; rw [if_pos (by exact hk)]; rfl
  · intro r hr
    simp only [exComps, List.mem_cons, List.not_mem_nil, or_false] at hr
    rcases hr with rfl | rfl <;>
    · refine ⟨rfl, ?_⟩
      intro m h _
      have : m = 0 ∨ m = 1 := by simp at h; omega
      rcases this with rfl | rfl <;> simp

example : Holds (exA [.dense, .sparse] [0, 1] exComps) (.num 0) [2, 2] exComps ∧
    Holds (exA [.sparse, .dense] [0, 1] exComps) (.num 0) [2, 2] exComps ∧
    equals Num.isZero Num.scalarEquals Num.scalarEquals (exA [.dense, .sparse] [0, 1] exComps)
      (exA [.sparse, .dense] [0, 1] exComps) = some true :=
  ⟨exComps_ok rfl (by decide), exComps_ok rfl (by decide), by decide +kernel⟩

/-- C52 is false for different mode orderings: a matrix in CSR and the same matrix in CSC are unequal. -/
theorem equals_ordering_fails :
    Holds (exA [.dense, .sparse] [0, 1] exComps) (.num 0) [2, 2] exComps ∧
    Holds (exA [.dense, .sparse] [1, 0] exComps) (.num 0) [2, 2] exComps ∧
    equals Num.isZero Num.scalarEquals Num.scalarEquals (exA [.dense, .sparse] [0, 1] exComps)
      (exA [.dense, .sparse] [1, 0] exComps) = some false :=
  ⟨exComps_ok rfl (by decide), exComps_ok rfl (by decide), by decide +kernel⟩

/-- A vector of two elements. -/
def exV (fill : Num) (comps : List (Row Num)) : Tensor Num :=
  ⟨[2], [.sparse], [0], fill, tensorPack sortRows fill [2] [.sparse] [0] comps⟩

theorem exV_ok (fill v : Num) : Holds (exV fill [([0], v)]) fill [2] [([0], v)] := by
  refine ⟨⟨sortRows, sortRows_spec 1, rfl⟩, List.Perm.refl [0], ?_, by simp⟩
  intro r hr
  rw [List.mem_singleton] at hr
  subst hr
  refine ⟨rfl, ?_⟩
  intro m h _
  have : m = 0 := by simpa using h
  subst this
  simp

theorem exV_empty (fill : Num) : Holds (exV fill []) fill [2] [] :=
  ⟨⟨sortRows, sortRows_spec 1, rfl⟩, List.Perm.refl [0], by simp, by simp⟩

/-- C52 is false for integers of a million or more: different values compare equal. -/
theorem equals_large_fails :
    Holds (exV (.num 0) [([0], .num 1000000)]) (.num 0) [2] [([0], .num 1000000)] ∧
    Holds (exV (.num 0) [([0], .num 1000001)]) (.num 0) [2] [([0], .num 1000001)] ∧
    equals Num.isZero Num.scalarEquals Num.scalarEquals (exV (.num 0) [([0], .num 1000000)])
      (exV (.num 0) [([0], .num 1000001)]) = some true :=
  ⟨exV_ok _ _, exV_ok _ _, by decide +kernel⟩

/-- Equality is not symmetric: the difference is taken relative to the first tensor. -/
theorem equals_symmetric_fails :
    equals Num.isZero Num.scalarEquals Num.scalarEquals (exV (.num 0) [([0], .num 1000000000000)])
      (exV (.num 0) [([0], .num 999990000050)]) = some true ∧
    equals Num.isZero Num.scalarEquals Num.scalarEquals (exV (.num 0) [([0], .num 999990000050)])
      (exV (.num 0) [([0], .num 1000000000000)]) = some false :=
  ⟨by decide +kernel, by decide +kernel⟩

/-- A value that is not a number compares equal to every value, and so does an infinite value on the
left. -/
theorem equals_nan_fails (v : Num) :
    equals Num.isZero Num.scalarEquals Num.scalarEquals (exV (.num 0) [([0], .nan)]) (exV (.num 0) [([0], v)]) = some true ∧
    equals Num.isZero Num.scalarEquals Num.scalarEquals (exV (.num 0) [([0], .inf false)]) (exV (.num 0) [([0], v)]) = some true := by
  have hc : ∀ v, (exV (.num 0) [([0], v)]).components = some [([0], v)] := fun v => rfl
  have e : ∀ u v : Num, u.scalarEquals v = true →
      equals Num.isZero Num.scalarEquals Num.scalarEquals (exV (.num 0) [([0], u)]) (exV (.num 0) [([0], v)]) = some true := by
    intro u v h
    unfold equals
    rw [hc, hc]
    show (if (!Num.scalarEquals (.num 0) (.num 0)) = true then some false else if [2] ≠ [2] then some false else _) = _
    rw [if_neg (by decide)]
    simp [equalsLoop, h]
  exact ⟨e _ _ rfl, e _ _ (by cases v <;> rfl)⟩

/-- C52 is false for fill values other than zero: explicit zeros count as missing, so tensors that
differ at coordinate 0 (value 0 and value 3) compare equal; and explicit fill values do not, so tensors
that have the same value 3 everywhere compare unequal. -/
theorem equals_fill_fails :
    (Holds (exV (.num 3) [([0], .num 0)]) (.num 3) [2] [([0], .num 0)] ∧ Holds (exV (.num 3) []) (.num 3) [2] [] ∧
      equals Num.isZero Num.scalarEquals Num.scalarEquals (exV (.num 3) [([0], .num 0)]) (exV (.num 3) []) = some true) ∧
    (Holds (exV (.num 3) [([0], .num 3)]) (.num 3) [2] [([0], .num 3)] ∧
      equals Num.isZero Num.scalarEquals Num.scalarEquals (exV (.num 3) [([0], .num 3)]) (exV (.num 3) []) = some false) :=
  ⟨⟨exV_ok _ _, exV_empty _, by decide +kernel⟩, exV_ok _ _, by decide +kernel⟩

/-! ### transpose -/

theorem permute_inj {p x y : List Nat} (hp : p.Perm (List.range x.length)) (hl : x.length = y.length)
    (h : permute p x = permute p y) : x = y := by
  rw [← unpermute_permute (perm := p) (c := x) hp, ← unpermute_permute (perm := p) (c := y) (by rw [← hl]; exact hp), h]

theorem permute_inverse {p c : List Nat} (hp : p.Perm (List.range c.length)) :
    permute (inverse p) (permute p c) = c := by
  conv => rhs; rw [← unpermute_permute hp]
  unfold inverse unpermute
  conv => lhs; unfold permute
  rw [List.map_map]
  rfl

theorem inverse_perm {p : List Nat} {n : Nat} (hp : p.Perm (List.range n)) : (inverse p).Perm (List.range n) := by
  have hl : p.length = n := by rw [hp.length_eq, List.length_range]
  have hnd : p.Nodup := hp.nodup_iff.2 List.nodup_range
  rw [List.perm_ext_iff_of_nodup]
  · intro a
    unfold inverse
    rw [List.mem_map, List.mem_range, hl]
    constructor
    · rintro ⟨m, hm, rfl⟩
      have : p.idxOf m < p.length := List.idxOf_lt_length_iff.2 (hp.mem_iff.2 hm)
      omega
    · intro ha
      refine ⟨p[a], hp.mem_iff.1 (List.getElem_mem (by omega)), hnd.idxOf_getElem a (by omega)⟩
  · unfold inverse List.Nodup
    rw [List.pairwise_map, hl]
    refine List.pairwise_lt_range.imp_of_mem ?_
    intro a b ha hb hlt he
    have h1 : p.idxOf a < p.length := List.idxOf_lt_length_iff.2 (hp.mem_iff.2 ha)
    have h2 := List.getElem_idxOf h1
    have h3 : p.idxOf b < p.length := List.idxOf_lt_length_iff.2 (hp.mem_iff.2 hb)
    have h4 := List.getElem_idxOf h3
    have : a = b := by rw [← h2, ← h4]; congr 1
    omega
  · exact List.nodup_range

theorem find?_congr_mem {α : Type} {f g : α → Bool} : ∀ {l : List α}, (∀ x ∈ l, f x = g x) → l.find? f = l.find? g
  | [], _ => rfl
  | x :: xs, h => by
    rw [List.find?_cons, List.find?_cons, h x List.mem_cons_self,
      find?_congr_mem (fun y hy => h y (List.mem_cons_of_mem _ hy))]

/-- C51. Transposing a tensor with fill value zero by a permutation of its modes, into any format and
mode ordering: the dimensions are permuted, and the value at a permuted coordinate is the value at the
coordinate. -/
theorem transpose_values_partial {qs : List (Row V) → List (Row V)} {zero : V} {t : Tensor V} {dims : List Nat}
    {comps : List (Row V)} (hq : QsortSpec dims.length qs) (h : Holds t zero dims comps) {p perm : List Nat}
    (hp : p.Perm (List.range dims.length)) {kinds : List Kind} (hk : kinds.length = dims.length)
    (hperm : perm.Perm (List.range dims.length)) :
    ∃ t' comps', t.transpose qs zero p kinds perm = some t' ∧ Holds t' zero (permute p dims) comps' ∧
      ∀ c, inRange dims c → t'.read zero (permute p c) = t.read zero c := by
  obtain ⟨h1, h2, h3, out, ho, hr, hnd, _, hv, _, _⟩ := holds_components h
  have hpl : p.length = dims.length := by rw [hp.length_eq, List.length_range]
  have hpd : (permute p dims).length = dims.length := by rw [permute_length, hpl]
  have hH : Holds ⟨permute p dims, kinds, perm, zero, tensorPack qs zero (permute p dims) kinds perm
      (out.map (fun r => (permute p r.1, r.2)))⟩ zero (permute p dims) (out.map (fun r => (permute p r.1, r.2))) := by
    refine ⟨⟨qs, by rw [hpd]; exact hq, ?_⟩, by rw [hpd]; exact hperm, ?_, ?_⟩
    · unfold make; rw [if_pos (by rw [hpd]; exact hk)]
    · intro r hr'
      obtain ⟨x, hx, rfl⟩ := List.mem_map.1 hr'
      exact inRange_permute hp (hr x hx)
    · rw [List.map_map]
      unfold List.Nodup at hnd ⊢
      rw [List.pairwise_map] at hnd ⊢
      refine hnd.imp_of_mem ?_
      intro a b ha hb hne he
      refine hne (permute_inj (p := p) ?_ ?_ he)
      · rw [(hr a ha).1]; exact hp
      · rw [(hr a ha).1, (hr b hb).1]
  refine ⟨_, _, ?_, hH, ?_⟩
  · unfold Tensor.transpose
    rw [if_pos, ho, h1]
    · simp only
      unfold make; rw [if_pos (by rw [hpd]; exact hk)]
    · rw [List.all_eq_true]
      intro m hm
      rw [decide_eq_true_eq, h1]
      exact List.mem_range.1 (hp.mem_iff.1 hm)
  · intro c hc
    rw [read_value_partial hH _ (by rw [permute_length, hpl, hpd]), read_value_partial h c hc.1, ← hv c]
    congr 1
    unfold firstAt
    rw [List.find?_map]
    have : (fun r : Row V => r.1 == permute p c) ∘ (fun r : Row V => (permute p r.1, r.2)) =
        fun r : Row V => permute p r.1 == permute p c := rfl
    rw [this]
    have hfind : out.find? (fun r => permute p r.1 == permute p c) = out.find? (fun r => r.1 == c) := by
      have hiff : ∀ r ∈ out, (permute p r.1 == permute p c) = (r.1 == c) := by
        intro r hro
        rw [Bool.eq_iff_iff, beq_iff_eq, beq_iff_eq]
        refine ⟨fun he => permute_inj (p := p) ?_ ?_ he, fun he => by rw [he]⟩
        · rw [(hr r hro).1]; exact hp
        · rw [(hr r hro).1, hc.1]
      exact find?_congr_mem hiff
    rw [hfind]
    cases out.find? (fun r => r.1 == c) <;> rfl

/-- C51. Transposing by a permutation and then by its inverse gives back the dimensions and the value at
every coordinate, whatever the formats. -/
theorem transpose_inverse_partial {qs : List (Row V) → List (Row V)} {zero : V} {t : Tensor V} {dims : List Nat}
    {comps : List (Row V)} (hq : QsortSpec dims.length qs) (h : Holds t zero dims comps) {p perm perm' : List Nat}
    (hp : p.Perm (List.range dims.length)) {kinds kinds' : List Kind} (hk : kinds.length = dims.length)
    (hk' : kinds'.length = dims.length)
    (hperm : perm.Perm (List.range dims.length)) (hperm' : perm'.Perm (List.range dims.length)) :
    ∃ t' t'', t.transpose qs zero p kinds perm = some t' ∧ t'.transpose qs zero (inverse p) kinds' perm' = some t'' ∧
      t''.dims = dims ∧ ∀ c, inRange dims c → t''.read zero c = t.read zero c := by
  obtain ⟨t', comps', e1, h1, r1⟩ := transpose_values_partial hq h hp hk hperm
  have hl : (permute p dims).length = dims.length := by rw [permute_length, hp.length_eq, List.length_range]
  obtain ⟨t'', comps'', e2, h2, r2⟩ := transpose_values_partial (qs := qs) (by rw [hl]; exact hq) h1
    (p := inverse p) (perm := perm') (by rw [hl]; exact inverse_perm hp) (kinds := kinds') (by rw [hl]; exact hk')
    (by rw [hl]; exact hperm')
  refine ⟨t', t'', e1, e2, ?_, ?_⟩
  · rw [(holds_components h2).1, permute_inverse hp]
  · intro c hc
    rw [← r1 c hc, ← r2 (permute p c) (inRange_permute hp hc), permute_inverse (by rw [hc.1]; exact hp)]

example : (((exA [.dense, .sparse] [0, 1] [([0, 1], .num 5)]).transpose sortRows (.num 0) [1, 0] [.sparse, .sparse] [0, 1]).bind
    Tensor.components) = some [([1, 0], .num 5)] := by decide +kernel

/-- C51 is false for other fill values: the result has fill value zero. -/
theorem transpose_fill_fails :
    ∃ t', Holds (exV (.num 3) []) (.num 3) [2] [] ∧
      (exV (.num 3) []).transpose sortRows (.num 0) [0] [.sparse] [0] = some t' ∧ t'.fill = .num 0 :=
  ⟨_, exV_empty _, rfl, rfl⟩

/-- A list of modes that is not a permutation is accepted: here a matrix becomes another one with
every coordinate on the diagonal. -/
theorem transpose_repeated_fails :
    (((exA [.dense, .sparse] [0, 1] exComps).transpose sortRows (.num 0) [0, 0] [.sparse, .sparse] [0, 1]).bind
      Tensor.components) = some [([0, 0], .num 5), ([1, 1], .num 7)] := by decide +kernel

/-! ### removing explicit zeros -/

/-- C62. Removing explicit zeros from a tensor with fill value zero keeps the value at every coordinate,
and in a format of compressed levels no component with value zero is left. -/
theorem remove_zeros_partial [DecidableEq V] {qs : List (Row V) → List (Row V)} {zero : V} {t : Tensor V}
    {dims : List Nat} {comps : List (Row V)} (hq : QsortSpec dims.length qs) (h : Holds t zero dims comps)
    {perm : List Nat} {kinds : List Kind} (hk : kinds.length = dims.length)
    (hperm : perm.Perm (List.range dims.length)) :
    ∃ t' out, t.removeExplicit qs zero kinds perm zero = some t' ∧ t'.components = some out ∧
      (∀ c, inRange dims c → t'.read zero c = t.read zero c) ∧
      ((∀ k ∈ kinds, k = .sparse) → kinds ≠ [] → ∀ r ∈ out, r.2 ≠ zero) := by
  obtain ⟨h1, h2, h3, out, ho, hr, hnd, _, hv, _, _⟩ := holds_components h
  have hH : Holds ⟨dims, kinds, perm, zero, tensorPack qs zero dims kinds perm
      (out.filter (fun r => decide (r.2 ≠ zero)))⟩ zero dims (out.filter (fun r => decide (r.2 ≠ zero))) := by
    refine ⟨⟨qs, hq, ?_⟩, hperm, ?_, ?_⟩
    · unfold make; rw [if_pos hk]
    · intro r hr'; exact hr r (List.mem_filter.1 hr').1
    · unfold List.Nodup at hnd ⊢
      rw [List.pairwise_map] at hnd ⊢
      exact hnd.filter _
  obtain ⟨_, _, _, out', ho', _, _, _, _, _, hsp⟩ := holds_components hH
  refine ⟨_, out', ?_, ho', ?_, ?_⟩
  · unfold Tensor.removeExplicit
    rw [ho, h1]
    simp only
    unfold make; rw [if_pos hk]
  · intro c hc
    rw [read_value_partial hH c hc.1, read_value_partial h c hc.1, ← hv c]
    congr 1
    by_cases hz : firstAt zero out c = zero
    · rw [hz]
      by_cases hm : c ∈ (out.filter (fun r => decide (r.2 ≠ zero))).map Prod.fst
      · obtain ⟨r, hrf, rfl⟩ := List.mem_map.1 hm
        obtain ⟨hro, hrz⟩ := List.mem_filter.1 hrf
        rw [firstAt_mem hnd hro] at hz
        simp [hz] at hrz
      · rw [firstAt_not_mem hm]
    · have hm : c ∈ out.map Prod.fst := by
        by_cases hm : c ∈ out.map Prod.fst
        · exact hm
        · exact absurd (firstAt_not_mem hm) hz
      obtain ⟨r, hro, rfl⟩ := List.mem_map.1 hm
      rw [firstAt_mem hnd hro] at hz ⊢
      have hrf : r ∈ out.filter (fun r => decide (r.2 ≠ zero)) := List.mem_filter.2 ⟨hro, by simpa using hz⟩
      exact firstAt_mem hH.2.2.2 hrf
  · intro hs hne r hro
    have := (List.mem_filter.1 (hsp hs hne r hro)).2
    simpa using this

example : ((exA [.dense, .dense] [0, 1] exComps).removeExplicit sortRows (.num 0) [.sparse, .sparse] [0, 1] (.num 0)).bind
    Tensor.components = some exComps := by decide +kernel

/-- Removing explicit fill values other than zero makes them zero: the result has fill value zero. -/
theorem remove_fill_fails :
    ∃ t', (exV (.num 3) [([0], .num 3)]).removeExplicit sortRows (.num 0) [.sparse] [0] (.num 3) = some t' ∧
      (exV (.num 3) [([0], .num 3)]).read (.num 0) [0] = some (.num 3) ∧ t'.read (.num 0) [0] = some (.num 0) :=
  ⟨_, rfl, by decide +kernel, by decide +kernel⟩

end Verif.Tensor
