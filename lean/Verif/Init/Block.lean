import Verif.Init.Loops
/-! The values of one position of the last compressed level, and of all positions. -/
namespace Verif.Init
open Verif.Merge
open Verif.Merge.Expr
open Verif.Pack (Row inRange)
open Verif.Assembly (volume total total_perm)
open Verif.EndToEnd (loopCoord coordOf sumBox AddLaws iterations_at monoidal sumBox_congr loopCoord_eq)

variable {V : Type}

/-! ### The values of one position -/

theorem box_append : ∀ (a b : List Nat), box (a ++ b) = (box a).flatMap (fun p => (box b).map (fun q => p ++ q)) := by
  intro a b
  induction a with
  | nil => simp [box]
  | cons n a ih =>
    simp only [List.cons_append, box, ih, List.flatMap_assoc, List.map_flatMap, List.flatMap_map, List.map_map]
    rfl

theorem total_flatMap {α : Type} {zero : V} {add : V → V → V} (hm : Assembly.Monoidal zero add) (g : α → List V) : ∀ (l : List α),
    total zero add (l.flatMap g) = total zero add (l.map (fun x => total zero add (g x))) := by
  intro l
  induction l with
  | nil => rfl
  | cons x l ih =>
    have h1 : ∀ (a : V) (l : List V), total zero add (a :: l) = add a (total zero add l) := by
      intro a l
      have := Assembly.total_append hm [a] l
      rw [List.singleton_append] at this
      rw [this]
      unfold total
      rw [List.foldl_cons, List.foldl_nil, hm.zero_add]
    rw [List.flatMap_cons, Assembly.total_append hm, ih, List.map_cons, h1]

theorem sumBox_total (o : Ops V) (dims : List Nat) (f : List Nat → V) : sumBox o dims f = total o.zero (o.bin .add) ((box dims).map f) := by
  unfold sumBox total; rw [List.foldl_map]

/-- A sum over the iterations at one coordinate, with the innermost loops summed first. -/
theorem sum_inner (o : Ops V) (ho : ZeroLaws o) (ha : AddLaws o) (size : Nat → Nat) {below inn low red : List Nat}
    (hnd : (low ++ red).Nodup) (hperm : (below ++ inn).Perm (low ++ red)) (hlow : ∀ v ∈ low, v ∉ inn)
    (val : List Nat → V) {c : List Nat} (hc : c ∈ box (low.map size)) :
    total o.zero (o.bin .add) (((box (below.map size)).filter (fun path => low.map (coordOf below path) == c)).map
      (fun path => sumBox o (inn.map size) (fun z => val (path ++ z)))) =
      sumBox o (red.map size) (fun z => val ((below ++ inn).map (coordOf (low ++ red) (c ++ z)))) := by
  have hm := monoidal ho ha
  have hp := iterations_at size hnd hperm (Pack.mem_box.1 hc)
  rw [sumBox_total]
  have h1 := total_perm hm (hp.map val)
  rw [List.map_map] at h1
  refine Eq.trans ?_ h1
  have hlb : ∀ v ∈ low, v ∈ below := by
    intro v hv
    have := hperm.mem_iff.2 (List.mem_append_left red hv)
    rcases List.mem_append.1 this with h | h
    · exact h
    · exact absurd h (hlow v hv)
  have h2 : (box ((below ++ inn).map size)).filter (fun path => low.map (coordOf (below ++ inn) path) == c) =
      ((box (below.map size)).filter (fun path => low.map (coordOf below path) == c)).flatMap
        (fun p => (box (inn.map size)).map (fun q => p ++ q)) := by
    rw [List.map_append, box_append, List.filter_flatMap, List.flatMap_def, List.flatMap_def]
    have h3 : ∀ (l : List (List Nat)), (∀ p ∈ l, p.length = below.length) →
        (l.map (fun p => ((box (inn.map size)).map (fun q => p ++ q)).filter (fun path => low.map (coordOf (below ++ inn) path) == c))).flatten =
        ((l.filter (fun path => low.map (coordOf below path) == c)).map (fun p => (box (inn.map size)).map (fun q => p ++ q))).flatten := by
      intro l
      induction l with
      | nil => intro _; rfl
      | cons p l ih =>
        intro hl
        have hpl := hl p List.mem_cons_self
        have heq : ∀ q, low.map (coordOf (below ++ inn) (p ++ q)) = low.map (coordOf below p) := by
          intro q
          apply List.map_congr_left
          intro v hv
          exact EndToEnd.coordOf_append_left hpl.symm _ _ (hlb v hv)
        rw [List.map_cons, List.flatten_cons, ih (fun q hq => hl q (List.mem_cons_of_mem _ hq)), List.filter_cons]
        cases hb : (low.map (coordOf below p) == c) with
        | true =>
          rw [if_pos rfl, List.map_cons, List.flatten_cons]
          congr 1
          apply List.filter_eq_self.2
          intro x hx
          obtain ⟨q, _, rfl⟩ := List.mem_map.1 hx
          rw [heq, hb]
        | false =>
          rw [if_neg (by simp)]
          have : ((box (inn.map size)).map (fun q => p ++ q)).filter (fun path => low.map (coordOf (below ++ inn) path) == c) = [] := by
            apply List.filter_eq_nil_iff.2
            intro x hx
            obtain ⟨q, _, rfl⟩ := List.mem_map.1 hx
            rw [heq, hb]; simp
          rw [this, List.nil_append]
    apply h3
    intro p hp'
    rw [(Pack.mem_box.1 hp').1]; simp
  rw [h2, List.map_flatMap, total_flatMap hm]
  congr 1
  apply List.map_congr_left
  intro p _
  rw [sumBox_total, List.map_map]
  rfl

/-- What the assignments of the loops below leave in one value: the sum, if the value was zero before or if
it is assigned. `L` are the coordinates that these loops visit, `inn` the innermost summation variables. -/
theorem block_value (o : Ops V) (ho : ZeroLaws o) (ha : AddLaws o) (size : Nat → Nat) {below inn low red : List Nat}
    (hnd : (low ++ red).Nodup) (hperm : (below ++ inn).Perm (low ++ red)) (hlow : ∀ v ∈ low, v ∉ inn)
    (acc : Bool) (hacc : acc = false → ∀ v ∈ below, v ∈ low)
    (L : List (List Nat)) (hL : L.Nodup) (hLb : ∀ path ∈ L, path ∈ box (below.map size))
    (val : List Nat → V) (hz : ∀ path ∈ box (below.map size), path ∉ L → ∀ z, val (path ++ z) = o.zero)
    (x : V) (hx : x = o.zero ∨ (acc = false ∧ ∀ path ∈ box (below.map size), path ∈ L))
    {c : List Nat} (hc : c ∈ box (low.map size)) :
    ((L.map (fun path => (path, sumBox o (inn.map size) (fun z => val (path ++ z))))).filter
        (fun ev => low.map (loopCoord below ev.1) == c)).foldl (fun x ev => if acc then o.bin .add x ev.2 else ev.2) x =
      sumBox o (red.map size) (fun z => val ((below ++ inn).map (coordOf (low ++ red) (c ++ z)))) := by
  have hm := monoidal ho ha
  have hboxnd : (box (below.map size)).Nodup := by
    refine (Pack.box_sorted _).imp ?_
    intro a b h heq
    rw [heq, Pack.lexCmp_self] at h; omega
  rw [← sum_inner o ho ha size hnd hperm hlow val hc]
  generalize hS : (fun path => sumBox o (inn.map size) (fun z => val (path ++ z))) = S
  have hSz : ∀ path ∈ box (below.map size), path ∉ L → S path = o.zero := by
    intro path hp hn
    rw [← hS]
    show sumBox o _ _ = _
    rw [sumBox_congr (g := fun _ => o.zero) (fun z _ => hz path hp hn z)]
    exact EndToEnd.sumBox_zero ho _
  have hS' : L.map (fun path => (path, sumBox o (inn.map size) (fun z => val (path ++ z)))) = L.map (fun path => (path, S path)) := by
    rw [← hS]
  rw [hS']
  -- the visited iterations at `c`
  have hfilter : (L.map (fun path => (path, S path))).filter (fun ev => low.map (loopCoord below ev.1) == c) =
      (L.filter (fun path => low.map (coordOf below path) == c)).map (fun path => (path, S path)) := by
    rw [List.filter_map]
    congr 1
    apply List.filter_congr
    intro path hp
    have hpl : path.length = below.length := by rw [(Pack.mem_box.1 (hLb path hp)).1]; simp
    simp only [Function.comp]
    congr 1
    apply List.map_congr_left
    intro v _
    exact loopCoord_eq hpl v
  have hpermL : (L.filter (fun path => low.map (coordOf below path) == c)).Perm
      (((box (below.map size)).filter (fun path => low.map (coordOf below path) == c)).filter (fun path => decide (path ∈ L))) := by
    apply (List.perm_ext_iff_of_nodup (hL.filter _) ((hboxnd.filter _).filter _)).2
    intro path
    simp only [List.mem_filter, decide_eq_true_eq]
    constructor
    · rintro ⟨h1, h2⟩; exact ⟨⟨hLb path h1, h2⟩, h1⟩
    · rintro ⟨⟨_, h2⟩, h1⟩; exact ⟨h1, h2⟩
  rw [hfilter, List.foldl_map]
  cases acc with
  | true =>
    rcases hx with rfl | ⟨h, _⟩
    · simp only [if_true]
      have h1 : ∀ (l : List (List Nat)), l.foldl (fun x path => o.bin .add x (S path)) o.zero =
          total o.zero (o.bin .add) (l.map S) := by
        intro l; unfold total; rw [List.foldl_map]
      rw [h1, total_perm hm (hpermL.map S), ← h1, ← h1]
      exact foldl_filter_zero o ho S _ _ _ (fun path hpath hv => hSz path (List.mem_filter.1 hpath).1 (by simpa using hv))
    · cases h
  | false =>
    have hbl := hacc rfl
    have hbnd : below.Nodup := (List.nodup_append.1 (hperm.nodup_iff.2 hnd)).1
    have hlnd : low.Nodup := (List.nodup_append.1 hnd).1
    have hbp : below.Perm (low ++ []) := by
      rw [List.append_nil]
      apply (List.perm_ext_iff_of_nodup hbnd hlnd).2
      intro v
      refine ⟨hbl v, fun hv => ?_⟩
      rcases List.mem_append.1 (hperm.mem_iff.2 (List.mem_append_left red hv)) with h | h
      · exact h
      · exact absurd h (hlow v hv)
    have hp := iterations_at size (red := []) (by rw [List.append_nil]; exact hlnd) hbp (Pack.mem_box.1 hc)
    obtain ⟨path, hpath⟩ : ∃ path, (box (below.map size)).filter (fun path => low.map (coordOf below path) == c) = [path] := by
      have := hp.length_eq
      simp only [List.map_nil, box, List.map_cons, List.length_cons, List.length_nil] at this
      exact List.length_eq_one_iff.1 this
    have hmem : path ∈ box (below.map size) := by
      have : path ∈ (box (below.map size)).filter (fun path => low.map (coordOf below path) == c) := by rw [hpath]; simp
      exact (List.mem_filter.1 this).1
    have htot : total o.zero (o.bin .add) ([path].map S) = S path := by
      unfold total; simp [ho.zero_add]
    rw [hpath] at hpermL ⊢
    rw [htot]
    by_cases hin : path ∈ L
    · rw [List.filter_cons, if_pos (by simpa using hin), List.filter_nil] at hpermL
      rw [List.perm_singleton.1 hpermL]
      rfl
    · rw [List.filter_cons, if_neg (by simpa using hin), List.filter_nil] at hpermL
      rw [hpermL.eq_nil]
      rcases hx with rfl | ⟨_, h⟩
      · exact (hSz path hmem hin).symm
      · exact absurd (h path hmem) hin

/-! ### Capacity and initialisation -/

/-- The array is large enough for what position `p` of `n` does. -/
def Ready (P : Plan) (n p : Nat) (m : Mem V) : Prop :=
  if P.together && P.append then (P.low = [] → p ≤ m.cap ∧ 0 < m.cap) else n * P.stride ≤ m.cap

/-- What the values of position `p` are where the array is initialised before the loops. -/
def Clean (lit fill : V) (P : Plan) (p : Nat) (m : Mem V) : Prop :=
  ((!P.low.isEmpty && P.need && !(P.together && P.append)) = true →
    ∀ j, p * P.stride ≤ j → j < (p + 1) * P.stride → m.cell j = fill) ∧
  (P.append = false → P.low = [] → m.cell p = lit)

/-- The actions of a position compute the values `F`. -/
def Good (o : Ops V) (lit fill : V) (P : Plan) (as : List (Act V)) (F : List Nat → V) : Prop :=
  ∀ (n p : Nat) (m : Mem V), p < n → Ready P n p m → Clean lit fill P p m →
    ∃ m', (P.leaf lit p m).bind (fun m => as.foldlM (P.act o fill p) m) = some m' ∧
    (∀ c ∈ box P.dims, m'.cell (Assembly.locate P.dims p c) = F c) ∧
    (∀ j, (j < p * P.stride ∨ (p + 1) * P.stride ≤ j) → m'.cell j = m.cell j) ∧
    Ready P n (p + 1) m' ∧ (p + 1) * P.stride ≤ m'.cap ∧ m.cap ≤ m'.cap

theorem good_of (o : Ops V) (lit fill : V) (P : Plan) (as : List (Act V)) (evs : List (List Nat × V)) (F : List Nat → V)
    (hdims : P.dims = [] ↔ P.low = [])
    (has : as = (if P.together && P.append && !P.low.isEmpty then [Act.init] else []) ++ evs.map toStore)
    (hev : ∀ ev ∈ evs, P.coords ev.1 ∈ box P.dims)
    (hF : ∀ c ∈ box P.dims, ∀ x, (P.low ≠ [] → P.need = true → x = fill) →
      (P.low = [] → P.append = false ∨ P.acc = true → x = lit) →
      (evs.filter (fun ev => P.coords ev.1 == c)).foldl (fun x ev => if P.acc then o.bin .add x ev.2 else ev.2) x = F c) :
    Good o lit fill P as F := by
  intro n p m hpn hr hcl
  have hmul : (p + 1) * P.stride = p * P.stride + P.stride := by rw [Nat.add_mul, Nat.one_mul]
  have hcells : ∀ j, (∃ c ∈ box P.dims, j = Assembly.locate P.dims p c) → p * P.stride ≤ j ∧ j < (p + 1) * P.stride := by
    rintro j ⟨c, hc, rfl⟩
    have := locate_block hc p
    rwa [← stride_eq] at this
  -- the array when the assignments start
  have hstart : ∃ m1 m2, P.leaf lit p m = some m1 ∧
      (if P.together && P.append && !P.low.isEmpty then [Act.init] else []).foldlM (P.act o fill p) m1 = some m2 ∧
      (p + 1) * P.stride ≤ m2.cap ∧ m.cap ≤ m2.cap ∧ (n * P.stride ≤ m.cap → n * P.stride ≤ m2.cap) ∧
      (∀ j, (j < p * P.stride ∨ (p + 1) * P.stride ≤ j) → m2.cell j = m.cell j) ∧
      (∀ c ∈ box P.dims, P.low ≠ [] → P.need = true → m2.cell (Assembly.locate P.dims p c) = fill) ∧
      (∀ c ∈ box P.dims, P.low = [] → P.append = false ∨ P.acc = true → m2.cell (Assembly.locate P.dims p c) = lit) := by
    by_cases hlow : P.low = []
    · -- the last level is compressed, or the result is a scalar
      have hd := hdims.2 hlow
      have hst : P.stride = 1 := by unfold Plan.stride; rw [hd]; rfl
      have hloc : ∀ c ∈ box P.dims, Assembly.locate P.dims p c = p := by
        intro c hc
        have := hcells _ ⟨c, hc, rfl⟩
        rw [hst] at this
        omega
      have hinit : (if P.together && P.append && !P.low.isEmpty then [Act.init (V := V)] else []) = [] := by
        rw [hlow]; simp
      cases happ : P.append with
      | false =>
        have hleaf : P.leaf lit p m = some m := by
          unfold Plan.leaf
          rw [happ]
          rfl
        rw [happ] at hinit
        rw [hinit, hleaf, hst]
        unfold Ready at hr
        rw [happ, hst, Bool.and_false] at hr
        simp only [Bool.false_eq_true, if_false, Nat.mul_one] at hr
        refine ⟨m, m, rfl, rfl, by omega, Nat.le_refl _, fun h => h, fun _ _ => rfl, fun _ _ h => absurd hlow h, ?_⟩
        intro c hc _ _
        rw [hloc c hc]
        exact hcl.2 happ hlow
      | true =>
      rw [happ] at hinit
      have hsz : ∃ m0, (if P.together then m.double p else m) = m0 ∧ p < m0.cap ∧ m.cap ≤ m0.cap ∧ m0.cell = m.cell := by
        refine ⟨_, rfl, ?_⟩
        unfold Ready at hr
        cases ht : P.together with
        | true =>
          rw [ht, happ] at hr
          simp only [Bool.and_self, if_true] at hr
          have hr := hr hlow
          simp only [if_true, Mem.double]
          split
          · exact ⟨by show p < m.cap * 2; omega, by show m.cap ≤ m.cap * 2; omega, rfl⟩
          · exact ⟨by omega, Nat.le_refl _, rfl⟩
        | false =>
          rw [ht, hst] at hr
          simp only [Bool.false_and, Bool.false_eq_true, if_false, Nat.mul_one] at hr
          simp only [Bool.false_eq_true, if_false]
          exact ⟨by omega, Nat.le_refl _, trivial⟩
      obtain ⟨m0, hm0, hp0, hc0, hcell0⟩ := hsz
      have hleaf : P.leaf lit p m = if P.acc then m0.write p lit else some m0 := by
        unfold Plan.leaf
        rw [happ, hlow, ← hm0]
        rfl
      rw [hinit, hleaf, hst]
      cases hacc : P.acc with
      | true =>
        simp only [if_true, Mem.write, if_pos hp0]
        refine ⟨_, _, rfl, rfl, ?_, ?_, ?_, ?_, fun _ _ h => absurd hlow h, ?_⟩
        · show (p + 1) * 1 ≤ m0.cap; omega
        · exact hc0
        · intro h; exact Nat.le_trans h hc0
        · intro j hj
          show (if j = p then lit else m0.cell j) = m.cell j
          rw [if_neg (by omega), hcell0]
        · intro c hc _ _
          show (if Assembly.locate P.dims p c = p then lit else _) = lit
          rw [if_pos (hloc c hc)]
      | false =>
        refine ⟨m0, m0, rfl, rfl, by omega, hc0, fun h => Nat.le_trans h hc0, fun j _ => by rw [hcell0], fun _ _ h => absurd hlow h, ?_⟩
        intro c _ _ h
        rcases h with h | h
        · cases h
        · cases h
    · -- there are dense levels below
      have hne : P.low.isEmpty = false := by cases h : P.low with
        | nil => exact absurd h hlow
        | cons _ _ => rfl
      have hleaf : P.leaf lit p m = some m := by
        unfold Plan.leaf
        rw [hne, Bool.and_false]
        rfl
      refine ⟨m, ?_⟩
      rw [hleaf]
      by_cases hta : (P.together && P.append) = true
      · rw [hta, hne]
        simp only [Bool.not_false, Bool.and_self, if_true, List.foldlM_cons, List.foldlM_nil]
        -- the initialisation in front of the first loop below
        have hcap : (p + 1) * P.stride ≤ (m.atLeastDouble ((p + 1) * P.stride)).cap := by
          unfold Mem.atLeastDouble
          split
          · show _ ≤ max _ _; omega
          · omega
        have hge : m.cap ≤ (m.atLeastDouble ((p + 1) * P.stride)).cap := by
          unfold Mem.atLeastDouble
          split
          · show m.cap ≤ max _ _; omega
          · exact Nat.le_refl _
        have hcell : (m.atLeastDouble ((p + 1) * P.stride)).cell = m.cell := by
          unfold Mem.atLeastDouble; split <;> rfl
        simp only [Plan.act]
        cases hnd : P.need with
        | true =>
          simp only [if_true]
          rw [fill_spec _ _ _ _ (by omega)]
          refine ⟨_, trivial, rfl, hcap, hge, fun h => Nat.le_trans h hge, ?_, ?_, fun _ _ h => absurd h hlow⟩
          · intro j hj
            simp only [fillCells]
            rw [if_neg (by omega), hcell]
          · intro c hc _ _
            have := hcells _ ⟨c, hc, rfl⟩
            simp only [fillCells]
            rw [if_pos (by omega)]
        | false =>
          simp only [Bool.false_eq_true, if_false]
          exact ⟨_, trivial, rfl, hcap, hge, fun h => Nat.le_trans h hge, fun j _ => by rw [hcell], fun c _ _ h => (by cases h), fun _ _ h => absurd h hlow⟩
      · have hta' : (P.together && P.append) = false := by simpa using hta
        rw [hta']
        simp only [Bool.false_and, Bool.false_eq_true, if_false]
        unfold Ready at hr
        rw [hta'] at hr
        simp only [Bool.false_eq_true, if_false] at hr
        have hle : (p + 1) * P.stride ≤ n * P.stride := Nat.mul_le_mul_right _ hpn
        refine ⟨m, trivial, rfl, by omega, Nat.le_refl _, fun h => h, fun _ _ => rfl, ?_, fun _ _ h => absurd h hlow⟩
        intro c hc _ hn
        have := hcells _ ⟨c, hc, rfl⟩
        exact hcl.1 (by rw [hne, hn, hta']; rfl) _ this.1 this.2
  obtain ⟨m1, m2, h1, h2, h3, h4, h5, h6, h7, h8⟩ := hstart
  obtain ⟨m3, g1, g2, g3⟩ := acts_spec o fill P p (evs.map toStore) m2 h3 (by
    intro path v h
    obtain ⟨ev, hm, he⟩ := List.mem_map.1 h
    unfold toStore at he
    cases he
    exact hev ev hm)
  obtain ⟨s1, s2⟩ := stores_cells o fill P p evs m2.cell hev
  refine ⟨m3, ?_, ?_, ?_, ?_, by omega, by omega⟩
  · rw [h1, Option.bind_some, has, List.foldlM_append, h2]
    exact g1
  · intro c hc
    rw [g2, s1 c hc]
    exact hF c hc _ (h7 c hc) (h8 c hc)
  · intro j hj
    rw [g2, s2 j hj, h6 j hj]
  · unfold Ready at hr ⊢
    split
    · rename_i hta
      rw [if_pos hta] at hr
      intro hl
      have hst : P.stride = 1 := by unfold Plan.stride; rw [hdims.2 hl]; rfl
      rw [hst] at h3
      exact ⟨by omega, by omega⟩
    · rename_i hta
      rw [if_neg hta] at hr
      exact Nat.le_trans (h5 hr) g3

/-! ### All positions -/

theorem rows_read (dims : List Nat) (m : Mem V) (p : Nat) (path : List Nat) (F : List Nat → V)
    (hcap : (p + 1) * volume dims ≤ m.cap) (hF : ∀ c ∈ box dims, m.cell (Assembly.locate dims p c) = F c) :
    (box dims).mapM (fun c => (m.read (Assembly.locate dims p c)).map fun x => (path ++ c, x)) =
      some ((box dims).map (fun c => (path ++ c, F c))) := by
  apply EndToEnd.mapM_map
  intro c hc
  have := locate_block hc p
  simp only [Mem.read]
  rw [if_pos (by omega), hF c hc]
  rfl

theorem runAll_spec {α : Type} (o : Ops V) (lit fill : V) (P : Plan) (n : Nat) (acts : α → List (Act V)) (F : α → List Nat → V) (path : α → List Nat)
    (hdims : P.dims = [] ↔ P.low = []) :
    ∀ (ps : List α) (p : Nat) (m : Mem V), p + ps.length = n → (∀ x ∈ ps, Good o lit fill P (acts x) (F x)) → Ready P n p m →
      (∀ q, p ≤ q → q < n → Clean lit fill P q m) → p * P.stride ≤ m.cap →
      ∃ m', P.runAll o lit fill p (ps.map acts) m = some m' ∧ n * P.stride ≤ m'.cap ∧ (∀ j, j < p * P.stride → m'.cell j = m.cell j) ∧
        P.rows m' p (ps.map path) = some (ps.flatMap (fun x => (box P.dims).map (fun c => (path x ++ c, F x c)))) := by
  intro ps
  induction ps with
  | nil =>
    intro p m hn _ _ _ hcap
    simp only [List.length_nil, Nat.add_zero] at hn
    subst hn
    exact ⟨m, rfl, hcap, fun _ _ => rfl, rfl⟩
  | cons x ps ih =>
    intro p m hn hg hr hcl hcap
    simp only [List.length_cons] at hn
    obtain ⟨m1, a1, a2, a3, a4, a5, a6⟩ := hg x List.mem_cons_self n p m (by omega) hr (hcl p (Nat.le_refl _) (by omega))
    obtain ⟨m2, b1, b2, b3, b4⟩ := ih (p + 1) m1 (by omega) (fun y hy => hg y (List.mem_cons_of_mem _ hy)) a4 (by
      intro q hq1 hq2
      have : (p + 1) * P.stride ≤ q * P.stride := Nat.mul_le_mul_right _ hq1
      have hc := hcl q (by omega) hq2
      refine ⟨fun h j hj1 hj2 => ?_, fun h hl => ?_⟩
      · rw [a3 j (Or.inr (by omega))]
        exact hc.1 h j hj1 hj2
      · have hst : P.stride = 1 := by unfold Plan.stride; rw [hdims.2 hl]; rfl
        rw [a3 q (Or.inr (by rw [hst]; omega))]
        exact hc.2 h hl) a5
    refine ⟨m2, ?_, b2, ?_, ?_⟩
    · simp only [List.map_cons, Plan.runAll]
      cases hl : P.leaf lit p m with
      | none => rw [hl] at a1; cases a1
      | some m0 =>
        rw [hl, Option.bind_some] at a1
        rw [Option.bind_some, a1]
        exact b1
    · intro j hj
      have : p * P.stride ≤ (p + 1) * P.stride := Nat.mul_le_mul_right _ (by omega)
      rw [b3 j (by omega), a3 j (Or.inl hj)]
    · simp only [List.map_cons, Plan.rows]
      have hle : (p + 1) * P.stride ≤ n * P.stride := Nat.mul_le_mul_right _ (by omega)
      rw [rows_read P.dims m2 p (path x) (F x) (by rw [← stride_eq]; omega) (by
        intro c hc
        have := locate_block hc p
        rw [← stride_eq] at this
        rw [b3 _ this.2]
        exact a2 c hc)]
      simp only [Option.bind_some]
      rw [b4]
      rfl

/-- The array before the loops. -/
theorem start_spec (lit fill : V) (P : Plan) (cap n : Nat) (hcap : 0 < cap) (hdims : P.dims = [] ↔ P.low = [])
    (hn : P.append = false → n = 1) (mem : Nat → V) :
    ∃ m, P.start lit fill cap n mem = some m ∧ Ready P n 0 m ∧ ∀ q, q < n → Clean lit fill P q m := by
  unfold Plan.start
  dsimp only
  by_cases h : (!P.low.isEmpty && P.need && !(P.together && P.append)) = true
  · rw [if_pos h]
    have hta : (P.together && P.append) = false := by
      rw [Bool.and_eq_true] at h
      cases hx : (P.together && P.append) with
      | true => rw [hx] at h; cases h.2
      | false => rfl
    have hne : P.low ≠ [] := by
      intro hl
      rw [hl] at h
      cases h
    rw [hta]
    simp only [Bool.false_eq_true, if_false]
    rw [fill_spec _ _ _ _ (by simp)]
    refine ⟨_, rfl, ?_, ?_⟩
    · unfold Ready; rw [hta]; simp
    · intro q hq
      refine ⟨fun _ j hj1 hj2 => ?_, fun _ hl => absurd hl hne⟩
      have : (q + 1) * P.stride ≤ n * P.stride := Nat.mul_le_mul_right _ hq
      simp only [fillCells]
      rw [if_pos (by omega)]
  · rw [if_neg h]
    by_cases hs : (!P.append && P.low.isEmpty) = true
    · rw [if_pos hs]
      rw [Bool.and_eq_true] at hs
      have happ : P.append = false := by simpa using hs.1
      have hl : P.low = [] := List.isEmpty_iff.1 hs.2
      have hst : P.stride = 1 := by unfold Plan.stride; rw [hdims.2 hl]; rfl
      have hn1 := hn happ
      subst hn1
      rw [happ, hst, Bool.and_false]
      simp only [Bool.false_eq_true, if_false, Mem.write, Nat.mul_one]
      rw [if_pos (by decide)]
      refine ⟨_, rfl, ?_, ?_⟩
      · unfold Ready
        rw [happ, hst, Bool.and_false]
        simp
      · intro q hq
        refine ⟨fun h' => absurd h' h, fun _ _ => ?_⟩
        show (if q = 0 then lit else _) = lit
        rw [if_pos (by omega)]
    · rw [if_neg hs]
      refine ⟨_, rfl, ?_, fun q _ => ⟨fun h' => absurd h' h, fun h1 h2 => ?_⟩⟩
      · unfold Ready
        split
        · rename_i hta
          intro _
          simp only [hta, if_true]
          omega
        · rename_i hta
          simp only [hta]
          exact Nat.le_refl _
      · rw [h1, h2] at hs
        exact absurd rfl hs

end Verif.Init
