import Verif.Coo.Forall
import Verif.Merge.Kernel
/-! Loop nests over operands with runs of equal coordinates. -/
namespace Verif.Coo
open Verif.Merge Verif.Merge.Expr

variable {V : Type}

/-! ### reduced values -/

def sumOver (o : Ops V) (vals : List V) (ps : List Nat) (acc : V) : V :=
  ps.foldl (fun acc p => o.bin .add acc (vals.getD p o.zero)) acc

theorem addRun_eq (o : Ops V) {vals : List V} : ∀ (m q : Nat) (s : V), q + m ≤ vals.length →
    addRun o vals m q s = some (sumOver o vals (List.range' q m) s)
  | 0, _, _, _ => rfl
  | m + 1, q, s, h => by
    have hq : q < vals.length := by omega
    rw [addRun, List.getElem?_eq_getElem hq]
    simp only
    rw [addRun_eq o m (q + 1) _ (by omega), List.range'_succ]
    simp [sumOver, List.getD_eq_getElem?_getD, List.getElem?_eq_getElem hq]

/-- Where an access stands: at least one position, and exactly one below a unique level. -/
structure CurOK (u : Cur) : Prop where
  lt : u.lo < u.hi
  one : u.uniq = true → u.hi = u.lo + 1

theorem leafVal_eq (o : Ops V) (ho : ZeroLaws o) {vals : List V} {u : Cur} (hu : CurOK u) (hm : u.hi ≤ vals.length) :
    leafVal o vals u = some (sumOver o vals (List.range' u.lo (u.hi - u.lo)) o.zero) := by
  have hlt := hu.lt
  have hq : u.lo < vals.length := by omega
  have hsplit : List.range' u.lo (u.hi - u.lo) = u.lo :: List.range' (u.lo + 1) (u.hi - (u.lo + 1)) := by
    have : u.hi - u.lo = (u.hi - (u.lo + 1)) + 1 := by omega
    rw [this, List.range'_succ]
  unfold leafVal
  split
  · rename_i h
    have := hu.one h
    rw [hsplit, this, Nat.sub_self, List.getElem?_eq_getElem hq]
    simp [sumOver, List.getD_eq_getElem?_getD, List.getElem?_eq_getElem hq, ho.zero_add]
  · split
    · rw [List.getElem?_eq_getElem hq]
      simp only
      rw [addRun_eq o _ _ _ (by omega), hsplit]
      simp [sumOver, List.getD_eq_getElem?_getD, List.getElem?_eq_getElem hq, ho.zero_add]
    · rw [addRun_eq o _ _ _ (by omega)]

theorem evalC_eq (o : Ops V) (ho : ZeroLaws o) {vals : Nat → List V} {cur : Nat → Cur} {e : Expr V}
    (h : ∀ k ∈ e.leaves, CurOK (cur k) ∧ (cur k).hi ≤ (vals k).length) :
    evalC o vals cur e = some (e.eval o (fun k =>
      sumOver o (vals k) (List.range' (cur k).lo ((cur k).hi - (cur k).lo)) o.zero)) := by
  induction e with
  | acc k =>
    obtain ⟨h1, h2⟩ := h k (by simp [leaves])
    exact leafVal_eq o ho h1 h2
  | lit v => rfl
  | un u a ih =>
    simp only [evalC]; rw [ih (fun k hk => h k (by simpa [leaves] using hk))]; rfl
  | bin b l r ihl ihr =>
    simp only [evalC]
    rw [ihl (fun k hk => h k (by simp [leaves, hk])), ihr (fun k hk => h k (by simp [leaves, hk]))]; rfl

/-! ### levels -/

theorem bounds_eq {l : CLvl} {u : Cur} (hu : CurOK u) : bounds l u = listed l u.lo u.hi := by
  have hlast : u.last + 1 = u.hi := by
    have := hu.lt
    unfold Cur.last
    split
    · rename_i h; have := hu.one h; omega
    · omega
  cases l with
  | dense n => rfl
  | comp q P C => simp only [bounds, listed, hlast]; rfl
  | sing q C => simp only [bounds, listed, hlast]

theorem wfC_sparse {n : Nat} {l : CLvl} {ls : List (Nat × Option CLvl)} {m lo hi : Nat} (hl : l.sparse = true) :
    wfC ((n, some l) :: ls) m lo hi ↔
    contiguous l lo hi ∧ ∃ a seg, listed l lo hi = some (a, seg) ∧ ordered l.uniq seg ∧
      (∀ c ∈ seg, c < n) ∧
      ∀ c ∈ seg, wfC ls m (a + seg.countP (fun x => decide (x < c))) (a + seg.countP (fun x => decide (x ≤ c))) := by
  cases l with
  | dense n => cases hl
  | comp q P C => rfl
  | sing q C => rfl

/-- The positions of a coordinate in an ordered list are a range. -/
theorem filter_sorted (c : Nat) : ∀ (seg : List Nat) (a : Nat), seg.Pairwise (· ≤ ·) →
    (List.range' a seg.length).filter (fun q => seg[q - a]? == some c) =
      List.range' (a + seg.countP (fun x => decide (x < c)))
        (seg.countP (fun x => decide (x ≤ c)) - seg.countP (fun x => decide (x < c)))
  | [], a, _ => rfl
  | x :: xs, a, h => by
    rw [List.pairwise_cons] at h
    have ih := filter_sorted c xs (a + 1) h.2
    have hrest : (List.range' (a + 1) xs.length).filter (fun q => (x :: xs)[q - a]? == some c) =
        (List.range' (a + 1) xs.length).filter (fun q => xs[q - (a + 1)]? == some c) := by
      apply List.filter_congr
      intro q hq
      rw [List.mem_range'_1] at hq
      have : q - a = (q - (a + 1)) + 1 := by omega
      rw [this, List.getElem?_cons_succ]
    rw [List.length_cons, List.range'_succ, List.filter_cons, hrest, ih, Nat.sub_self]
    simp only [List.getElem?_cons_zero, List.countP_cons]
    have hmono : xs.countP (fun x => decide (x < c)) ≤ xs.countP (fun x => decide (x ≤ c)) := by
      apply List.countP_mono_left
      intro y _ hy
      simp only [decide_eq_true_eq] at hy ⊢
      omega
    by_cases h1 : x < c
    · have hb : (some x == some c) = false := by simp; omega
      have d1 : decide (x < c) = true := by simpa using h1
      have d2 : decide (x ≤ c) = true := by simp; omega
      simp only [List.getElem?_cons_zero, hb, d1, d2, Bool.false_eq_true, if_false, if_true]
      congr 1 <;> omega
    · have z : xs.countP (fun x => decide (x < c)) = 0 := by
        rw [List.countP_eq_zero]; intro y hy; have := h.1 y hy; simp; omega
      have d1 : decide (x < c) = false := by simp; omega
      rw [z, d1]
      by_cases h2 : x = c
      · subst h2
        have d2 : decide (x ≤ x) = true := by simp
        rw [d2]
        simp only [beq_self_eq_true, if_true, Bool.false_eq_true, if_false, Nat.add_zero, Nat.sub_zero]
        rw [List.range'_succ]
      · have hb : (some x == some c) = false := by simp; omega
        have d2 : decide (x ≤ c) = false := by simp; omega
        have z2 : xs.countP (fun x => decide (x ≤ c)) = 0 := by
          rw [List.countP_eq_zero]; intro y hy; have := h.1 y hy; simp; omega
        simp only [List.getElem?_cons_zero, hb, d2, z2, Bool.false_eq_true, if_false]
        simp

theorem filter_slice {C : List Nat} {a b c : Nat} (hb : b ≤ C.length)
    (hs : ((C.drop a).take (b - a)).Pairwise (· ≤ ·)) :
    (List.range' a (b - a)).filter (fun q => C[q]? == some c) =
      List.range' (a + ((C.drop a).take (b - a)).countP (fun x => decide (x < c)))
        (((C.drop a).take (b - a)).countP (fun x => decide (x ≤ c)) -
          ((C.drop a).take (b - a)).countP (fun x => decide (x < c))) := by
  rw [← filter_sorted c _ a hs]
  have hlen : ((C.drop a).take (b - a)).length = b - a := by simp; omega
  rw [hlen]
  apply List.filter_congr
  intro q hq
  rw [List.mem_range'_1] at hq
  rw [List.getElem?_take_of_lt (by omega), List.getElem?_drop]
  have : a + (q - a) = q := by omega
  rw [this]

/-- The positions of a coordinate below a range of positions are a range. -/
theorem below_range {l : CLvl} (hl : l.sparse = true) {lo hi a : Nat} {seg : List Nat} (hlo : lo ≤ hi)
    (hc : contiguous l lo hi) (hseg : listed l lo hi = some (a, seg)) (ho : seg.Pairwise (· ≤ ·)) (c : Nat) :
    (List.range' lo (hi - lo)).flatMap (below (some l) c) =
      List.range' (a + seg.countP (fun x => decide (x < c)))
        (seg.countP (fun x => decide (x ≤ c)) - seg.countP (fun x => decide (x < c))) := by
  cases l with
  | dense n => cases hl
  | comp u P C =>
    simp only [listed] at hseg
    split at hseg
    · rename_i a' b' ha hb
      split at hseg
      · rename_i hab
        simp only [Option.some.injEq, Prod.mk.injEq] at hseg
        obtain ⟨rfl, rfl⟩ := hseg
        rw [← filter_slice hab.2 ho]
        -- join the segments
        have key : ∀ (m lo a' : Nat), P[lo]? = some a' → (∀ p, lo ≤ p → p < lo + m →
            ∃ a b, P[p]? = some a ∧ P[p + 1]? = some b ∧ a ≤ b) → ∀ b', P[lo + m]? = some b' → 
            a' ≤ b' ∧ (List.range' lo m).flatMap (below (some (.comp u P C)) c) =
            (List.range' a' (b' - a')).filter (fun q => C[q]? == some c) := by
          intro m
          induction m with
          | zero =>
            intro lo a' ha _ b' hb
            rw [Nat.add_zero, ha] at hb
            cases hb
            simp
          | succ m ih =>
            intro lo a' ha hcon b' hb
            obtain ⟨x, y, hx, hy, hxy⟩ := hcon lo (Nat.le_refl _) (by omega)
            rw [ha] at hx
            cases hx
            have hb2 : P[lo + 1 + m]? = some b' := by rw [← hb]; congr 1; omega
            obtain ⟨i1, i2⟩ := ih (lo + 1) y hy (fun p h1 h2 => hcon p (by omega) (by omega)) b' hb2
            refine ⟨by omega, ?_⟩
            rw [List.range'_succ, List.flatMap_cons, i2]
            have : b' - a' = (y - a') + (b' - y) := by omega
            rw [this, ← List.range'_append_1, List.filter_append]
            have h3 : a' + (y - a') = y := by omega
            rw [h3]
            congr 1
            simp only [below, ha, hy]
        have h2 : lo + (hi - lo) = hi := by omega
        exact (key (hi - lo) lo a' ha (fun p h1 h3 => hc p h1 (by omega)) b' (by rw [h2]; exact hb)).2
      · cases hseg
    · cases hseg
  | sing u C =>
    simp only [listed] at hseg
    split at hseg
    · rename_i hh
      simp only [Option.some.injEq, Prod.mk.injEq] at hseg
      obtain ⟨rfl, rfl⟩ := hseg
      rw [← filter_slice hh ho]
      have : ∀ (ps : List Nat), ps.flatMap (below (some (.sing u C)) c) = ps.filter (fun q => C[q]? == some c) := by
        intro ps
        induction ps with
        | nil => rfl
        | cons p ps ih =>
          rw [List.flatMap_cons, List.filter_cons, ih]
          by_cases h : C[p]? = some c
          · simp [below, h]
          · have hb : (C[p]? == some c) = false := by simpa using h
            simp [below, h]
      exact this _
    · cases hseg

theorem valueC_nil (o : Ops V) (vals : List V) : ∀ (ls : List (Option CLvl)) (path : List Nat),
    valueC o vals ls path [] = o.zero
  | [], _ => rfl
  | _ :: _, [] => rfl
  | l :: ls, c :: cs => by rw [valueC, List.flatMap_nil, valueC_nil o vals ls cs]

/-! ### the coordinates visited -/

/-- The coordinates listed for the accesses of the statement. -/
def segR (l : CLoop) (rg : Nat → Nat × Nat) (leaves : List Nat) (k : Nat) : List Nat :=
  if k ∈ leaves then
    match l.lvl k with
    | some x => match listed x (rg k).1 (rg k).2 with
      | some (_, seg) => seg
      | none => []
    | none => []
  else []

def presentR (l : CLoop) (rg : Nat → Nat × Nat) (leaves : List Nat) (c k : Nat) : Bool :=
  decide (c ∈ segR l rg leaves k)

/-- The positions of the coordinate below the positions of the access. -/
def nextRng (l : CLoop) (rg : Nat → Nat × Nat) (c k : Nat) : Nat × Nat :=
  match l.lvl k with
  | none => rg k
  | some (.dense nd) => ((rg k).1 * nd + c, (rg k).1 * nd + c + 1)
  | some x => match listed x (rg k).1 (rg k).2 with
    | some (a, seg) => (a + seg.countP (fun x => decide (x < c)), a + seg.countP (fun x => decide (x ≤ c)))
    | none => (0, 0)

/-- The tuples that the loops visit. -/
def visitedR : List CLoop → (Nat → Nat × Nat) → Expr V → List Nat → Bool
  | [], _, _, _ => true
  | _ :: _, _, _, [] => false
  | l :: ls, rg, e, c :: cs =>
    supp (ctxC l) (presentR l rg e.leaves c) e &&
      (match e.zeroOut (zAbs (ctxC l) (presentR l rg e.leaves c)) with
       | none => false
       | some e' => visitedR ls (nextRng l rg c) e' cs)

def levelsC (ls : List CLoop) (k : Nat) : List (Option CLvl) := ls.map (fun l => l.lvl k)

def dimLevelsC (ls : List CLoop) (k : Nat) : List (Nat × Option CLvl) := ls.map (fun l => (l.n, l.lvl k))

theorem inTree_ctxC (l : CLoop) : InTree (ctxC l) := by
  intro k a h
  unfold ctxC at h
  cases hl : l.lvl k with
  | none => rw [hl] at h; cases h
  | some x =>
    rw [hl] at h
    cases x with
    | dense n => left; cases h; rfl
    | comp u P C => right; cases h; rfl
    | sing u C => right; cases h; rfl

theorem ctxC_comp {l : CLoop} {k : Nat} : ctxC l k = some compressedAttr ↔
    ∃ x, l.lvl k = some x ∧ x.sparse = true := by
  unfold ctxC
  cases hl : l.lvl k with
  | none => simp
  | some x => cases x <;> simp [attrC, CLvl.sparse, denseAttr, compressedAttr]

theorem lookup_map' {β : Type} {l : List Nat} {f : Nat → β} {k : Nat} (h : k ∈ l) :
    (l.map (fun k => (k, f k))).lookup k = some (f k) := by
  induction l with
  | nil => cases h
  | cons a as ih =>
    rw [List.map_cons, List.lookup_cons]
    by_cases hak : k = a
    · subst hak; simp
    · have : (k == a) = false := by simpa using hak
      rw [this]
      simp only
      rcases List.mem_cons.1 h with h | h
      · exact absurd h hak
      · exact ih h

theorem countP_lt_le {seg : List Nat} {c : Nat} (h : c ∈ seg) :
    seg.countP (fun x => decide (x < c)) < seg.countP (fun x => decide (x ≤ c)) := by
  induction seg with
  | nil => cases h
  | cons x xs ih =>
    rw [List.countP_cons, List.countP_cons]
    have hmono : xs.countP (fun x => decide (x < c)) ≤ xs.countP (fun x => decide (x ≤ c)) := by
      apply List.countP_mono_left
      intro y _ hy
      simp only [decide_eq_true_eq] at hy ⊢
      omega
    by_cases hx : x = c
    · subst hx; simp; omega
    · have hm : c ∈ xs := by
        rcases List.mem_cons.1 h with h | h
        · exact absurd h.symm hx
        · exact h
      have := ih hm
      by_cases h1 : x < c
      · have h2 : x ≤ c := by omega
        simp [h1, h2]; omega
      · have h2 : ¬ x ≤ c := by omega
        simp [h1, h2]; omega

theorem countP_strict {seg : List Nat} {c : Nat} (hs : seg.Pairwise (· < ·)) (h : c ∈ seg) :
    seg.countP (fun x => decide (x ≤ c)) = seg.countP (fun x => decide (x < c)) + 1 := by
  induction seg with
  | nil => cases h
  | cons x xs ih =>
    rw [List.pairwise_cons] at hs
    rw [List.countP_cons, List.countP_cons]
    by_cases hx : x = c
    · subst hx
      have z1 : xs.countP (fun y => decide (y < x)) = 0 := by
        rw [List.countP_eq_zero]; intro y hy; have := hs.1 y hy; simp; omega
      have z2 : xs.countP (fun y => decide (y ≤ x)) = 0 := by
        rw [List.countP_eq_zero]; intro y hy; have := hs.1 y hy; simp; omega
      rw [z1, z2]; simp
    · have hm : c ∈ xs := by
        rcases List.mem_cons.1 h with h | h
        · exact absurd h.symm hx
        · exact h
      have h1 := hs.1 c hm
      rw [ih hs.2 hm]
      have h2 : x ≤ c := by omega
      simp [h1, h2]

theorem nextCur_sparse {l : CLoop} {cur : Nat → Cur} {ev : CEvent V} {k : Nat} {x : CLvl} {a lo hi : Nat}
    {seg : List Nat} (hl : l.lvl k = some x) (hxs : x.sparse = true) (hb : bounds x (cur k) = some (a, seg))
    (hlook : ev.reads.lookup k = some (lo, hi)) :
    nextCur l cur ev k = ⟨a + lo, a + hi, x.uniq, ev.always⟩ := by
  unfold nextCur
  rw [hl]
  cases x with
  | dense nd => cases hxs
  | comp u P C => simp only [hb, hlook, Option.map_some, Option.getD_some]
  | sing u C => simp only [hb, hlook, Option.map_some, Option.getD_some]

theorem nextRng_sparse {l : CLoop} {rg : Nat → Nat × Nat} {c k : Nat} {x : CLvl} {a : Nat}
    {seg : List Nat} (hl : l.lvl k = some x) (hxs : x.sparse = true)
    (hli : listed x (rg k).1 (rg k).2 = some (a, seg)) :
    nextRng l rg c k =
      (a + seg.countP (fun x => decide (x < c)), a + seg.countP (fun x => decide (x ≤ c))) := by
  unfold nextRng
  rw [hl]
  cases x with
  | dense nd => cases hxs
  | comp u P C => simp only; rw [hli]
  | sing u C => simp only; rw [hli]

/-- The kernel meets the specification. -/
theorem kernelC_spec (o : Ops V) (ho : ZeroLaws o) {srt : List Point → List Point} (hs : SortSpec srt)
    (vals : Nat → List V) (ls : List CLoop) :
    ∀ (cur : Nat → Cur) (rg : Nat → Nat × Nat) (e : Expr V),
      (∀ l ∈ ls, Consistent (ctxC l) e) →
      (∀ k ∈ e.leaves, CurOK (cur k) ∧ rg k = ((cur k).lo, (cur k).hi) ∧
        wfC (dimLevelsC ls k) (vals k).length (cur k).lo (cur k).hi) →
      kernelC o srt vals ls cur e =
        some (((box (ls.map CLoop.n)).filter (visitedR ls rg e)).map
          (fun path => (path, e.eval o (fun k =>
            valueC o (vals k) (levelsC ls k) path (List.range' (rg k).1 ((rg k).2 - (rg k).1)))))) ∧
      ∀ path ∈ box (ls.map CLoop.n), visitedR ls rg e path = false →
        e.eval o (fun k => valueC o (vals k) (levelsC ls k) path
          (List.range' (rg k).1 ((rg k).2 - (rg k).1))) = o.zero := by
  induction ls with
  | nil =>
    intro cur rg e _ hwf
    constructor
    · simp only [kernelC, List.map_nil, box]
      rw [evalC_eq o ho (fun k hk => ⟨(hwf k hk).1, by
        have := (hwf k hk).2.2
        simpa [dimLevelsC, wfC] using this⟩)]
      simp only [visitedR, levelsC, List.map_nil, Option.map_some, List.filter_cons, if_true, List.filter_nil,
        List.map_cons]
      congr 3
      apply eval_congr
      intro k hk
      rw [(hwf k hk).2.1]
      rfl
    · intro path _ hv; simp [visitedR] at hv
  | cons l ls ih =>
    intro cur rg e hlin hwf
    -- what is known of the levels that are iterated
    have hsp : ∀ k ∈ e.leaves, ∀ x, l.lvl k = some x → x.sparse = true →
        ∃ a seg, bounds x (cur k) = some (a, seg) ∧ listed x (rg k).1 (rg k).2 = some (a, seg) ∧
          contiguous x (rg k).1 (rg k).2 ∧ ordered x.uniq seg ∧ (∀ c ∈ seg, c < l.n) ∧
          ∀ c ∈ seg, wfC (dimLevelsC ls k) (vals k).length
            (a + seg.countP (fun x => decide (x < c))) (a + seg.countP (fun x => decide (x ≤ c))) := by
      intro k hk x hx hxs
      obtain ⟨h1, h2, h3⟩ := hwf k hk
      simp only [dimLevelsC, List.map_cons, hx] at h3
      rw [wfC_sparse hxs] at h3
      obtain ⟨h4, a, seg, h5, h6, h7, h8⟩ := h3
      refine ⟨a, seg, by rw [bounds_eq h1]; exact h5, by rw [h2]; exact h5, by rw [h2]; exact h4, h6, h7, h8⟩
    have hbok : boundsOk l cur e.leaves = true := by
      unfold boundsOk
      rw [List.all_eq_true]
      intro k hk
      cases hl : l.lvl k with
      | none => rfl
      | some x =>
        cases hxs : x.sparse with
        | false => show (!x.sparse || _) = true; rw [hxs]; rfl
        | true =>
          obtain ⟨a, seg, hb, _⟩ := hsp k hk x hl hxs
          show (!x.sparse || (bounds x (cur k)).isSome) = true
          rw [hb, hxs]; rfl
    have hseg : (inputC l cur e.leaves).crd = segR l rg e.leaves := by
      funext k
      show crdC l cur e.leaves k = segR l rg e.leaves k
      unfold crdC segR
      by_cases hk : k ∈ e.leaves
      · rw [if_pos hk, if_pos hk]
        cases hl : l.lvl k with
        | none => rfl
        | some x =>
          simp only
          rw [bounds_eq (hwf k hk).1, (hwf k hk).2.1]
          cases listed x (cur k).lo (cur k).hi <;> rfl
      · rw [if_neg hk, if_neg hk]
    have hpres : ∀ c, present (inputC l cur e.leaves).plain c = presentR l rg e.leaves c := by
      intro c
      funext k
      unfold present presentR
      rw [← hseg]; rfl
    have hsegk : ∀ k ∈ e.leaves, ∀ x a seg, l.lvl k = some x → listed x (rg k).1 (rg k).2 = some (a, seg) →
        segR l rg e.leaves k = seg := by
      intro k hk x a seg hl hli
      simp only [segR, if_pos hk, hl, hli]
    have hW : InputC (ctxC l) (inputC l cur e.leaves) := by
      intro k hK
      show ordered (((l.lvl k).map CLvl.uniq).getD true) ((inputC l cur e.leaves).crd k) ∧
        ∀ x ∈ (inputC l cur e.leaves).crd k, x < l.n
      rw [hseg]
      obtain ⟨x, hl, hxs⟩ := ctxC_comp.1 hK
      by_cases hk : k ∈ e.leaves
      · obtain ⟨a, seg, _, hli, _, h1, h2, _⟩ := hsp k hk x hl hxs
        rw [hsegk k hk x a seg hl hli, hl]
        exact ⟨h1, h2⟩
      · have : segR l rg e.leaves k = [] := by simp only [segR, if_neg hk]
        rw [this]
        refine ⟨?_, by simp⟩
        unfold ordered
        split <;> exact List.Pairwise.nil
    have hpot : potential (ctxC l) e (dedup (inputC l cur e.leaves)) ⟨fun _ => 0, 0⟩ 0 ≤
        l.n + (e.leaves.map (fun k => ((inputC l cur e.leaves).crd k).length)).sum := by
      unfold potential
      split
      · show l.n - 0 ≤ _; omega
      · have h1 : ∀ (L : List Nat) (p : Nat → Bool) (f : Nat → Nat), ((L.filter p).map f).sum ≤ (L.map f).sum := by
          intro L p f
          induction L with
          | nil => simp
          | cons a as ih => rw [List.filter_cons]; split <;> simp <;> omega
        have h2 := h1 e.leaves (fun k => decide (ctxC l k = some compressedAttr))
          (fun k => ((dedup (inputC l cur e.leaves)).crd k).length)
        have h3 : (e.leaves.map (fun k => ((dedup (inputC l cur e.leaves)).crd k).length)).sum ≤
            (e.leaves.map (fun k => ((inputC l cur e.leaves).crd k).length)).sum := by
          apply sum_le
          intro k _
          show ((runs ((inputC l cur e.leaves).crd k)).map Prod.fst).length ≤ _
          rw [List.length_map]
          exact runs_length_le _
        simp only [Nat.sub_zero]
        exact Nat.le_trans h2 (Nat.le_trans h3 (Nat.le_add_left _ _))
    obtain ⟨evs, hrun, hevs⟩ := forallC_spec (inTree_ctxC l) hs (hlin l List.mem_cons_self).self hW hpot
    have hrange : (inputC l cur e.leaves).n = l.n := rfl
    simp only [hpres, hrange] at hevs
    -- values of the accesses that are not listed
    have hzero : ∀ c k, k ∈ e.leaves → zAbs (ctxC l) (presentR l rg e.leaves c) k = true →
        ∀ path, valueC o (vals k) (levelsC (l :: ls) k) (c :: path)
          (List.range' (rg k).1 ((rg k).2 - (rg k).1)) = o.zero := by
      intro c k hk hz path
      simp only [zAbs, Bool.and_eq_true, decide_eq_true_eq, Bool.not_eq_true'] at hz
      obtain ⟨x, hl, hxs⟩ := ctxC_comp.1 hz.1
      obtain ⟨a, seg, _, hli, hcon, h1, h2, _⟩ := hsp k hk x hl hxs
      have hn : c ∉ seg := by
        rw [← hsegk k hk x a seg hl hli]
        simpa [presentR] using hz.2
      have hlt := (hwf k hk).1.lt
      have hb := below_range hxs (by rw [(hwf k hk).2.1]; exact Nat.le_of_lt hlt) hcon hli (ordered_le h1) c
      simp only [levelsC, List.map_cons, valueC, hl]
      rw [hb]
      have : seg.countP (fun x => decide (x ≤ c)) = seg.countP (fun x => decide (x < c)) := by
        apply List.countP_congr
        intro y hy
        simp only [decide_eq_true_eq]
        constructor
        · intro hyc
          rcases Nat.lt_or_ge y c with h | h
          · exact h
          · have : y = c := by omega
            subst this; exact absurd hy hn
        · intro h; omega
      rw [this, Nat.sub_self]
      exact valueC_nil o (vals k) _ _
    -- the body at a coordinate
    have hbody : ∀ c, c < l.n → supp (ctxC l) (presentR l rg e.leaves c) e = true →
        ∃ e', e.zeroOut (zAbs (ctxC l) (presentR l rg e.leaves c)) = some e' ∧
          (∀ ev : CEvent V, ev.plain = eventAt (ctxC l) e (inputC l cur e.leaves) c →
          kernelC o srt vals ls (nextCur l cur ev) e' =
            some (((box (ls.map CLoop.n)).filter (visitedR ls (nextRng l rg c) e')).map
              (fun path => (path, e.eval o (fun k => valueC o (vals k) (levelsC (l :: ls) k) (c :: path)
                (List.range' (rg k).1 ((rg k).2 - (rg k).1))))))) ∧
          ((∃ ev : CEvent V, ev.plain = eventAt (ctxC l) e (inputC l cur e.leaves) c) →
          ∀ path ∈ box (ls.map CLoop.n), visitedR ls (nextRng l rg c) e' path = false →
            e.eval o (fun k => valueC o (vals k) (levelsC (l :: ls) k) (c :: path)
                (List.range' (rg k).1 ((rg k).2 - (rg k).1))) = o.zero) := by
      intro c hc hsu
      obtain ⟨e', he'⟩ := zeroOut_of_supp (inTree_ctxC l) hsu
      have hval : ∀ path, e'.eval o (fun k => valueC o (vals k) (levelsC ls k) path
            (List.range' (nextRng l rg c k).1 ((nextRng l rg c k).2 - (nextRng l rg c k).1))) =
          e.eval o (fun k => valueC o (vals k) (levelsC (l :: ls) k) (c :: path)
            (List.range' (rg k).1 ((rg k).2 - (rg k).1))) := by
        intro path
        rw [← evalOpt_zeroOut o ho _ (zAbs (ctxC l) (presentR l rg e.leaves c)) e, he']
        · simp only [evalOpt]
          apply eval_congr
          intro k hk
          obtain ⟨hke, hz⟩ := leaves_zeroOut he' k hk
          have hlt := (hwf k hke).1.lt
          have hrg := (hwf k hke).2.1
          simp only [levelsC, List.map_cons, valueC]
          congr 1
          cases hl : l.lvl k with
          | none =>
            unfold nextRng
            rw [hl]
            simp only
            have : ∀ (ps : List Nat), ps.flatMap (below none c) = ps := by
              intro ps
              induction ps with
              | nil => rfl
              | cons p ps ih => rw [List.flatMap_cons, ih]; rfl
            rw [this]
          | some x =>
            cases hxs : x.sparse with
            | false =>
              cases x with
              | comp u P C => cases hxs
              | sing u C => cases hxs
              | dense nd =>
                have h3 := (hwf k hke).2.2
                simp only [dimLevelsC, List.map_cons, hl, wfC] at h3
                have h4 : (rg k).2 - (rg k).1 = 1 := by rw [hrg]; show (cur k).hi - (cur k).lo = 1; omega
                have h5 : (rg k).1 * nd + c + 1 - ((rg k).1 * nd + c) = 1 := by omega
                unfold nextRng
                rw [hl]
                simp only
                rw [h4, h5]
                simp [below, List.range']
            | true =>
              obtain ⟨a, seg, _, hli, hcon, h1, h2, _⟩ := hsp k hke x hl hxs
              have hb := below_range hxs (by rw [hrg]; exact Nat.le_of_lt hlt) hcon hli (ordered_le h1) c
              rw [hb]
              rw [nextRng_sparse hl hxs hli]
              congr 1
              have := countP_le_le seg c
              omega
        · intro k hk hz
          exact hzero c k hk hz path
      -- positions inside the body
      have hnext : ∀ ev : CEvent V, ev.plain = eventAt (ctxC l) e (inputC l cur e.leaves) c →
          ∀ k ∈ e'.leaves, CurOK (nextCur l cur ev k) ∧
            nextRng l rg c k = ((nextCur l cur ev k).lo, (nextCur l cur ev k).hi) ∧
            wfC (dimLevelsC ls k) (vals k).length (nextCur l cur ev k).lo (nextCur l cur ev k).hi := by
        intro ev hev k hk
        obtain ⟨hke, hz⟩ := leaves_zeroOut he' k hk
        obtain ⟨w1, w2, w3⟩ := hwf k hke
        simp only [CEvent.plain, eventAt, Prod.mk.injEq] at hev
        obtain ⟨hco, hst, hre⟩ := hev
        cases hl : l.lvl k with
        | none =>
          unfold nextCur nextRng
          rw [hl]
          simp only
          simp only [dimLevelsC, List.map_cons, hl, wfC] at w3
          exact ⟨w1, w2, w3⟩
        | some x =>
          cases hxs : x.sparse with
          | false =>
            cases x with
            | comp u P C => cases hxs
            | sing u C => cases hxs
            | dense nd =>
              simp only [dimLevelsC, List.map_cons, hl, wfC] at w3
              unfold nextCur nextRng
              rw [hl]
              simp only
              rw [hco, w2]
              refine ⟨⟨by simp, by simp⟩, rfl, ?_⟩
              exact w3.2.2 c hc
          | true =>
            obtain ⟨a, seg, hb, hli, hcon, h1, h2, h3⟩ := hsp k hke x hl hxs
            have hcs : c ∈ seg := by
              rw [zAbs, (ctxC_comp.2 ⟨x, hl, hxs⟩)] at hz
              simp only [decide_true, Bool.true_and, Bool.not_eq_false', presentR, decide_eq_true_eq] at hz
              rwa [hsegk k hke x a seg hl hli] at hz
            have hlook : ev.reads.lookup k = some (seg.countP (fun x => decide (x < c)), seg.countP (fun x => decide (x ≤ c))) := by
              rw [hre, hpres, he']
              simp only [runReads]
              rw [lookup_map' (by
                rw [List.mem_filter]
                refine ⟨hk, ?_⟩
                rw [ctxC_comp.2 ⟨x, hl, hxs⟩]; rfl)]
              rw [hseg, hsegk k hke x a seg hl hli]
            have hlt := countP_lt_le hcs
            rw [nextCur_sparse hl hxs hb hlook, nextRng_sparse hl hxs hli]
            refine ⟨⟨by simp only; omega, ?_⟩, rfl, h3 c hcs⟩
            intro hu
            simp only at hu ⊢
            rw [hu] at h1
            have := countP_strict (by simpa [ordered] using h1) hcs
            omega
      refine ⟨e', he', ?_, ?_⟩
      · intro ev hev
        obtain ⟨i1, _⟩ := ih (nextCur l cur ev) (nextRng l rg c) e'
          (fun l' hl' => Consistent.zeroOut (hlin l' (List.mem_cons_of_mem _ hl')) he') (hnext ev hev)
        rw [i1]
        congr 1
        apply List.map_congr_left
        intro path _
        rw [hval]
      · rintro ⟨ev, hev⟩ path hp hv
        obtain ⟨_, i2⟩ := ih (nextCur l cur ev) (nextRng l rg c) e'
          (fun l' hl' => Consistent.zeroOut (hlin l' (List.mem_cons_of_mem _ hl')) he') (hnext ev hev)
        rw [← hval]; exact i2 path hp hv
    have hvis : ∀ c cs, visitedR (l :: ls) rg e (c :: cs) =
        (supp (ctxC l) (presentR l rg e.leaves c) e &&
        (match e.zeroOut (zAbs (ctxC l) (presentR l rg e.leaves c)) with
         | none => false
         | some e' => visitedR ls (nextRng l rg c) e' cs)) := fun _ _ => rfl
    constructor
    · unfold kernelC
      rw [if_pos hbok]
      simp only
      rw [hrun]
      simp only
      rw [mapM_eq_some_map (g := fun ev => ((box (ls.map CLoop.n)).filter
          (fun cs => visitedR (l :: ls) rg e (ev.coord :: cs))).map
          (fun path => (ev.coord :: path, e.eval o (fun k =>
            valueC o (vals k) (levelsC (l :: ls) k) (ev.coord :: path)
              (List.range' (rg k).1 ((rg k).2 - (rg k).1))))))]
      · simp only [Option.map_some]
        congr 1
        have hcoord : evs.map CEvent.coord =
            (List.range l.n).filter (fun x => supp (ctxC l) (presentR l rg e.leaves x) e) := by
          have := congrArg (List.map Prod.fst) hevs
          rw [List.map_map, List.map_map] at this
          have h2 : (List.map (Prod.fst ∘ eventAt (ctxC l) e (inputC l cur e.leaves))
              ((List.range l.n).filter (fun x => supp (ctxC l) (presentR l rg e.leaves x) e))) =
              (List.range l.n).filter (fun x => supp (ctxC l) (presentR l rg e.leaves x) e) :=
            List.map_id'' (fun _ => rfl) _
          rw [h2] at this
          exact this
        have hfl : (evs.map (fun ev => ((box (ls.map CLoop.n)).filter
            (fun cs => visitedR (l :: ls) rg e (ev.coord :: cs))).map
            (fun path => (ev.coord :: path, e.eval o (fun k =>
              valueC o (vals k) (levelsC (l :: ls) k) (ev.coord :: path)
                (List.range' (rg k).1 ((rg k).2 - (rg k).1))))))) =
            (evs.map CEvent.coord).map (fun c => ((box (ls.map CLoop.n)).filter
            (fun cs => visitedR (l :: ls) rg e (c :: cs))).map
            (fun path => (c :: path, e.eval o (fun k =>
              valueC o (vals k) (levelsC (l :: ls) k) (c :: path)
                (List.range' (rg k).1 ((rg k).2 - (rg k).1)))))) := by
          rw [List.map_map]; rfl
        rw [hfl, hcoord, ← List.flatMap_def, List.map_cons]
        simp only [box]
        rw [List.filter_flatMap, List.map_flatMap]
        rw [kernel_spec.flatMap_filter]
        apply Verif.flatMap_congr'
        intro c hc
        split
        · rw [List.filter_map, List.map_map]
          rfl
        · rename_i hsu
          symm
          rw [List.map_eq_nil_iff, List.filter_eq_nil_iff]
          intro path hp hv
          rw [List.mem_map] at hp
          obtain ⟨cs, _, rfl⟩ := hp
          rw [hvis, Bool.and_eq_true] at hv
          exact hsu hv.1
      · intro ev hev
        have hm : ev.plain ∈ evs.map CEvent.plain := List.mem_map_of_mem hev
        rw [hevs, List.mem_map] at hm
        obtain ⟨c, hc, hce⟩ := hm
        rw [List.mem_filter, List.mem_range] at hc
        obtain ⟨e', he', hk, _⟩ := hbody c hc.1 hc.2
        have hk := hk ev hce.symm
        have h1 : ev.coord = c := (congrArg Prod.fst hce).symm
        have h2 : ev.stmt = some e' := by
          have := (congrArg (fun x => x.2.1) hce).symm
          simp only [CEvent.plain, eventAt] at this
          rw [this, hpres, he']
        rw [h2]
        simp only
        rw [hk, h1]
        simp only [Option.map_some, List.map_map]
        congr 1
        have : (fun cs => visitedR (l :: ls) rg e (c :: cs)) = visitedR ls (nextRng l rg c) e' := by
          funext cs
          rw [hvis, hc.2, he']; rfl
        rw [this]
        rfl
    · intro path hp hv
      simp only [List.map_cons, box, List.mem_flatMap, List.mem_range, List.mem_map] at hp
      obtain ⟨c, hc, cs, hcs, rfl⟩ := hp
      cases hsu : supp (ctxC l) (presentR l rg e.leaves c) e with
      | true =>
        obtain ⟨e', he', _, hz⟩ := hbody c hc hsu
        rw [hvis, hsu, he'] at hv
        exact hz ⟨⟨c, _, false, _⟩, rfl⟩ cs hcs (by simpa using hv)
      | false =>
        rw [← evalOpt_zeroOut o ho _ (zAbs (ctxC l) (presentR l rg e.leaves c)) e,
          zeroOut_dead_abs (inTree_ctxC l) hsu]
        · rfl
        · intro k hk hz
          exact hzero c k hk hz cs
where
  countP_le_le (seg : List Nat) (c : Nat) :
      seg.countP (fun x => decide (x < c)) ≤ seg.countP (fun x => decide (x ≤ c)) := by
    apply List.countP_mono_left
    intro y _ hy
    simp only [decide_eq_true_eq] at hy ⊢
    omega

end Verif.Coo
