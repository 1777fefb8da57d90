import Verif.Omit.Call
import Verif.Algebra.Lemmas
/-! The merge loops of a user-defined operator. -/
namespace Verif.Omit
open Verif.Algebra (Alg dispatch applier Normal)
open Verif.Merge (It Attr Ctx Point mkPoint compressedAttr latIters latLocs intersectLattices
  unionLattices getLoopLattice subLattice exhausted exact St coordOf unexhausted resolve firstCase
  advance loadsOk dedup SortSpec mem_dedup firstCase_spec synced dead countP_sorted countP_mono
  countP_lt_length resolve_spec advance_i incIter sum_lt sum_le)

variable {V : Type}

/-- What the theorem assumes, for the description after De Morgan's laws and its lattice. -/
structure Setup (op : Op V) (X : Operands V) (a : Alg) (L : List Point) : Prop where
  lat : LatOK a L
  wf : WF X
  sup : ∀ k ∈ regions a, reach false (fun j => j == k) a = true →
    holds (fun j => j == k) a = true ∨ holds (fun _ => false) a = true
  arg : ∀ i < op.arity, i ∈ regions a
  reg : ∀ i ∈ regions a, i < op.arity
  nz : (∃ q ∈ L, q.isOm = true) → NoZeros X
  spec : op.special = [] ∨ op.arity ≤ 1 ∨ (op.arity = 2 ∧ holds (fun _ => false) a = false)

/-- The invariant of the merge loops: everything below `t` has been handled. -/
structure Inv (a : Alg) (X : Operands V) (st : St) (t : Nat) : Prop where
  sync : ∀ k ∈ regions a, synced (input X) st t k
  dim : reach false (fun _ => false) a = true → st.i = t
  tn : t ≤ X.n

/-- What must be assigned for the coordinates `t ≤ x < t + len`. -/
def span (op : Op V) (a : Alg) (X : Operands V) (t len : Nat) : List (Nat × V) :=
  ((List.range' t len).filter (fun c => holds (stored X c) a)).map (fun c => (c, callAt op X c))

theorem span_append (op : Op V) (a : Alg) (X : Operands V) (t m n : Nat) :
    span op a X t (m + n) = span op a X t m ++ span op a X (t + m) n := by
  unfold span
  rw [← List.map_append, ← List.filter_append]
  have : List.range' t (m + n) = List.range' t m ++ List.range' (t + m) n := by
    have := @List.range'_append t m n 1
    simpa using this.symm
  rw [this]

theorem span_nil {op : Op V} {a : Alg} {X : Operands V} {t len : Nat}
    (h : ∀ x, t ≤ x → x < t + len → holds (stored X x) a = false) : span op a X t len = [] := by
  unfold span
  rw [List.filter_eq_nil_iff.2]
  · rfl
  · intro x hx
    rw [List.mem_range'_1] at hx
    rw [h x hx.1 hx.2]; simp

/-- What is left to do. -/
def potential (a : Alg) (X : Operands V) (st : St) (t : Nat) : Nat :=
  if reach false (fun _ => false) a then X.n - t
  else ((regions a).map (fun k => (X.crd k).length - st.pos k)).sum

theorem advance_pos {X : Operands V} {st : St} {c : Nat} {p : Point}
    (hload : ∀ k, p.iters = [.lev k] → coordOf (input X) st (.lev k) = some c) (k : Nat) :
    (advance K0 (input X) st c p).pos k =
      if has p k then (if coordOf (input X) st (.lev k) = some c then st.pos k + 1 else st.pos k)
      else st.pos k := by
  have hinc : ∀ j, incIter K0 (input X) st c j =
      if coordOf (input X) st (.lev j) = some c then st.pos j + 1 else st.pos j := by
    intro j
    unfold incIter
    have : It.isFull K0 (.lev j) = false := rfl
    rw [this]; simp
  unfold advance
  split
  · rename_i hp'
    have : has p k = false := by simp [has, hp']
    rw [this]; simp
  · rename_i j hp'
    by_cases hkj : k = j
    · subst hkj
      have : has p k = true := by simp [has, hp']
      simp [this, hload k hp']
    · have : has p k = false := by simp [has, hp', hkj]
      simp [hkj, this]
  · simp only
    by_cases hk : has p k = true
    · rw [if_pos (has_iff.1 hk), if_pos hk]; exact hinc k
    · rw [if_neg (fun hc => hk (has_iff.2 hc)), if_neg hk]

section step
variable {op : Op V} {X : Operands V} {a : Alg} {L : List Point} (W : Setup op X a L)
include W

/-- A point without levels merges the dimension. -/
theorem dim_of_empty {p : Point} (hp : p ∈ L) (hk : ∀ k, has p k = false) :
    reach false (fun _ => false) a = true := by
  rw [← reach_congr a (S := has p) _ (fun k _ => hk k)]; exact W.lat.pts p hp

theorem unexhausted_iff {st : St} {t : Nat} (hv : Inv a X st t) {p : Point} (hp : p ∈ L) :
    unexhausted (input X) st (p.rangers K0) = true ↔ ¬ dead (input X) st p := by
  unfold unexhausted
  rw [List.all_eq_true]
  constructor
  · rintro hall (⟨k, hk, hpos⟩ | ⟨hno, hn⟩)
    · have := hall _ (mem_rangers_lev.2 (has_iff.2 hk))
      simp only [decide_eq_true_eq] at this
      omega
    · have hk : ∀ k, has p k = false := fun k => by
        cases hc : has p k with
        | false => rfl
        | true => exact absurd (has_iff.1 hc) (hno k)
      have := hall _ (mem_rangers_dim.2 ⟨(W.lat.dim p hp).2 (dim_of_empty W hp hk), hk⟩)
      simp only [decide_eq_true_eq] at this
      omega
  · intro hnd x hx
    cases x with
    | dim =>
      have := mem_rangers_dim.1 hx
      simp only [decide_eq_true_eq]
      apply Classical.byContradiction
      intro hc
      exact hnd (Or.inr ⟨fun k hk => (by rw [← has_iff, this.2 k] at hk; cases hk), by omega⟩)
    | lev k =>
      have hk := mem_rangers_lev.1 hx
      simp only [decide_eq_true_eq]
      have h1 : st.pos k = _ := hv.sync k (W.lat.sub p hp k hk)
      have h2 := List.countP_le_length (p := fun x => decide (x < t)) (l := (input X).crd k)
      apply Classical.byContradiction
      intro hc; exact hnd (Or.inl ⟨k, has_iff.1 hk, by omega⟩)

/-- The operands that the running loop does not merge are exhausted. -/
theorem others_exhausted {st : St} {p : Point} (hp : p ∈ L) (hpa : ¬ dead (input X) st p)
    {before after : List Point} (hL : L = before ++ p :: after) (hdone : ∀ q ∈ before, dead (input X) st q)
    {k : Nat} (hk : k ∈ regions a) (hkp : has p k = false) : st.pos k = (X.crd k).length := by
  obtain ⟨q, hq, hqk⟩ := W.lat.ex (fun j => has p j || j == k) (fun j hj => by
    rw [Bool.or_eq_true, beq_iff_eq] at hj
    rcases hj with hj | rfl
    · exact W.lat.sub p hp j hj
    · exact hk) (reach_mono a false (fun j _ hj => by simp [hj]) (W.lat.pts p hp))
  have hqb : q ∈ before := by
    have hq' := hq
    rw [hL, List.mem_append] at hq'
    rcases hq' with h | h
    · exact h
    · exfalso
      have hle : q.size ≤ p.size := by
        rcases List.mem_cons.1 h with rfl | h
        · exact Nat.le_refl _
        · have hs := W.lat.sorted
          rw [hL] at hs
          exact (List.pairwise_cons.1 (List.pairwise_append.1 hs).2.1).1 q h
      have := W.lat.eq_of_size hp hq (fun j hj => by rw [hqk, hj]; rfl) hle
      have h1 := hqk k
      rw [← this, hkp] at h1; simp at h1
  rcases hdone q hqb with ⟨j, hj, hpos⟩ | ⟨hno, _⟩
  · have hj := has_iff.2 hj
    rw [hqk, Bool.or_eq_true, beq_iff_eq] at hj
    rcases hj with hj | rfl
    · exact absurd (Or.inl ⟨j, has_iff.1 hj, hpos⟩) hpa
    · exact hpos
  · have : has q k = true := by rw [hqk]; simp
    exact absurd (has_iff.1 this) (hno k)

variable [DecidableEq V]

/-- One iteration of the loop of a point. -/
theorem step_spec {st : St} {t : Nat} (hv : Inv a X st t) {p : Point} (hp : p ∈ L)
    (hpa : ¬ dead (input X) st p) {before after : List Point} (hL : L = before ++ p :: after)
    (hdone : ∀ q ∈ before, dead (input X) st q) :
    loadsOk (input X) st p = true ∧ ∃ c vs, resolve (input X) st (p.mergers K0) = some c ∧ t ≤ c ∧ c < X.n ∧
      (mergeCases X st c (subLattice L p) (zeroCall (exhausted L p) (initCall op.arity))).mapM
        (evalCall op X st.pos) = some vs ∧
      vs.map (fun v => (c, v)) = span op a X t (c + 1 - t) ∧
      Inv a X (advance K0 (input X) st c p) (c + 1) ∧
      (∀ q ∈ before, dead (input X) (advance K0 (input X) st c p) q) ∧
      potential a X (advance K0 (input X) st c p) (c + 1) < potential a X st t := by
  have h := W.lat
  have hsync : ∀ k, has p k = true → synced (input X) st t k := fun k hk => hv.sync k (h.sub p hp k hk)
  have hlt : ∀ k, has p k = true → st.pos k < (X.crd k).length := by
    intro k hk
    have hne : st.pos k ≠ (X.crd k).length := fun hc => hpa (Or.inl ⟨k, has_iff.1 hk, hc⟩)
    have h1 : st.pos k = (X.crd k).countP _ := hsync k hk
    have h2 := List.countP_le_length (p := fun x => decide (x < t)) (l := X.crd k)
    omega
  have hco : ∀ k, has p k = true → ∃ y, coordOf (input X) st (.lev k) = some y ∧ y ∈ X.crd k ∧ t ≤ y ∧
      (X.crd k)[(X.crd k).countP (fun x => decide (x < t))]? = some y := by
    intro k hk
    have hy : (X.crd k)[(X.crd k).countP (fun x => decide (x < t))]? =
        some ((X.crd k)[st.pos k]'(hlt k hk)) := by
      have h1 : st.pos k = (X.crd k).countP _ := hsync k hk
      rw [← h1, List.getElem?_eq_getElem (hlt k hk)]
    refine ⟨(X.crd k)[st.pos k]'(hlt k hk), ?_, List.getElem_mem _, ?_, hy⟩
    · show (X.crd k)[st.pos k]? = _
      rw [List.getElem?_eq_getElem (hlt k hk)]
    · exact (countP_sorted (W.wf k).1 hy (Nat.le_refl t)).1
  have hload : ∀ x ∈ p.iters, (coordOf (input X) st x).isSome := by
    intro x hx
    cases x with
    | dim => rfl
    | lev k => obtain ⟨y, hy, _⟩ := hco k (has_iff.2 hx); rw [hy]; rfl
  have htn : reach false (fun _ => false) a = true → st.i < X.n := by
    intro hf
    have hi := hv.dim hf
    by_cases hsp : ∃ k, has p k = true
    · obtain ⟨k, hk⟩ := hsp
      obtain ⟨y, _, hy, hty, _⟩ := hco k hk
      have := (W.wf k).2.1 y hy
      omega
    · apply Classical.byContradiction
      intro hc
      refine hpa (Or.inr ⟨fun k hk => hsp ⟨k, has_iff.2 hk⟩, ?_⟩)
      show X.n ≤ st.i
      omega
  have hothers := fun (k : Nat) => others_exhausted W hp hpa hL hdone (k := k)
  refine ⟨by unfold loadsOk; rw [List.all_eq_true]; exact hload, ?_⟩
  -- the resolved coordinate
  have hres : ∃ c, resolve (input X) st (p.mergers K0) = some c ∧ t ≤ c ∧ c < X.n ∧
      (∀ k y, has p k = true → coordOf (input X) st (.lev k) = some y → c ≤ y) ∧
      (reach false (fun _ => false) a = true → c = t) ∧
      (reach false (fun _ => false) a = false → ∃ k, has p k = true ∧ coordOf (input X) st (.lev k) = some c) := by
    cases hf : reach false (fun _ => false) a with
    | true =>
      have hd := (h.dim p hp).2 hf
      have hi := hv.dim hf
      refine ⟨st.i, by rw [mergers_dim (h.plain p hp) hd]; rfl, by omega, htn hf, ?_, fun _ => hi,
        fun hc => by cases hc⟩
      intro k y hk hy
      obtain ⟨y', hy', _, hty, _⟩ := hco k hk
      rw [hy] at hy'; cases hy'; omega
    | false =>
      have hd : It.dim ∉ p.iters := by
        intro hc; rw [(h.dim p hp).1 hc] at hf; cases hf
      rw [mergers_nodim hd]
      have hne : p.iters ≠ [] := by
        intro hc
        have := dim_of_empty W hp (fun k => by simp [has, hc])
        rw [hf] at this; cases this
      obtain ⟨c, h1, ⟨x, hx, h2⟩, h3⟩ := resolve_spec (input X) st p.iters hne hload
      cases x with
      | dim => exact absurd hx hd
      | lev k =>
        obtain ⟨y, hy, hyc, hty, _⟩ := hco k (has_iff.2 hx)
        rw [h2] at hy; cases hy
        exact ⟨c, h1, hty, (W.wf k).2.1 c hyc,
          fun j z hj hz => h3 _ (has_iff.1 hj) z hz, (fun hc => by cases hc), fun _ => ⟨k, has_iff.2 hx, h2⟩⟩
  obtain ⟨c, hc, htc, hcn, hmin, hflagc, hnoflag⟩ := hres
  have hpres : ∀ k, has p k = true → (coordOf (input X) st (.lev k) = some c ↔ c ∈ X.crd k) := by
    intro k hk
    obtain ⟨y, hy, hyc, hty, hy'⟩ := hco k hk
    have hcy := hmin k y hk hy
    constructor
    · intro hcc
      rw [hy] at hcc; cases hcc; exact hyc
    · intro hcc
      have := (countP_sorted (W.wf k).1 hy' (Nat.le_refl t)).2.1 c hcc htc
      rw [hy]; congr 1; omega
  -- nothing stored in an operand that is not merged
  have habs : ∀ k ∈ regions a, has p k = false → ∀ x, t ≤ x → x ∉ X.crd k := by
    intro k hk hkp x htx hx
    have h1 := hothers k hk hkp
    have h2 : st.pos k = (X.crd k).countP _ := hv.sync k hk
    have := countP_lt_length hx htx
    omega
  have hsub : ∀ k ∈ regions a, c ∈ X.crd k → has p k = true := by
    intro k hk hck
    cases hkp : has p k with
    | true => rfl
    | false => exact absurd hck (habs k hk hkp c htc)
  have hone : ∀ k, p.iters = [.lev k] → coordOf (input X) st (.lev k) = some c := by
    intro k hk
    cases hf : reach false (fun _ => false) a with
    | true =>
      have := (h.dim p hp).2 hf
      rw [hk] at this; simp at this
    | false =>
      obtain ⟨j, hj, hjc⟩ := hnoflag hf
      rw [has_iff, hk] at hj; simp at hj; rw [← hj]; exact hjc
  have hapos := advance_pos (X := X) (st := st) (c := c) hone
  -- nothing between
  have hskip : ∀ x, t ≤ x → x < t + (c - t) → holds (stored X x) a = false := by
    intro x htx hxc
    cases hs : holds (stored X x) a with
    | false => rfl
    | true =>
      exfalso
      have hno : ∀ k ∈ regions a, stored X x k = false := by
        intro k hk
        simp only [stored, decide_eq_false_iff_not]
        cases hkp : has p k with
        | false => exact habs k hk hkp x htx
        | true =>
          intro hx
          obtain ⟨y, hy, _, _, hy'⟩ := hco k hkp
          have h1 := (countP_sorted (W.wf k).1 hy' (Nat.le_refl t)).2.1 x hx htx
          have h2 := hmin k y hkp hy
          omega
      rw [holds_congr a (T := fun _ => false) hno] at hs
      have := hflagc (reach_of_holds a false (by rw [hs]; rfl))
      omega
  have hspan : span op a X t (c + 1 - t) = if holds (stored X c) a then [(c, callAt op X c)] else [] := by
    have : c + 1 - t = (c - t) + 1 := by omega
    rw [this, span_append, span_nil hskip, List.nil_append]
    have : t + (c - t) = c := by omega
    rw [this]
    unfold span
    simp only [List.range'_one]
    cases hs : holds (stored X c) a <;> simp [hs]
  obtain ⟨m1, m2⟩ := mergeCases_spec h (X := X) (st := st) (c := c) hp
    (zeroCall (exhausted L p) (initCall op.arity)) hpres hsub
    (fun hf => by rw [hv.dim hf, hflagc hf])
    (fun hf => by obtain ⟨k, hk, hkc⟩ := hnoflag hf; exact ⟨k, hk, (hpres k hk).1 hkc⟩)
    (fun hom k hk hck => by
      have hz := W.nz hom
      unfold nonzero
      rw [decide_eq_true_eq]
      intro he
      exact hz k (List.mem_of_getElem? he))
    W.sup
  have hev : ∃ vs, (mergeCases X st c (subLattice L p) (zeroCall (exhausted L p) (initCall op.arity))).mapM
        (evalCall op X st.pos) = some vs ∧ vs.map (fun v => (c, v)) = span op a X t (c + 1 - t) := by
    rw [hspan]
    cases hh : holds (stored X c) a with
    | false => exact ⟨[], by rw [m1 hh]; rfl, by simp⟩
    | true =>
      obtain ⟨s, hs, hsk, hsp, hm⟩ := m2 hh
      refine ⟨[callAt op X c], ?_, by simp⟩
      have hval := evalCall_spec (op := op) (pos := st.pos) (c := c) (z1 := exhausted L p)
        (z2 := exhausted (subLattice L p) s) (S := has s) (T := has p) W.wf
        (fun i hi => by rw [h.exhausted_top hp]; simp [W.arg i hi])
        (fun i _ => h.exhausted_sub hp hs i)
        (fun i _ => hsp i)
        (fun i hi => by rw [hsk]; simp [restr, W.arg i hi])
        (fun i hi hi' => by
          have hc' : c ∈ X.crd i := by
            rw [hsk] at hi'
            simp only [restr, stored, Bool.and_eq_true, decide_eq_true_eq] at hi'
            exact hi'.1
          exact (hpres i (hsp i hi')).2 hc')
        (by
          rcases W.spec with hsp' | hsp' | ⟨h2, hn⟩
          · exact Or.inl hsp'
          · right
            by_cases h0 : ∀ i < op.arity, has p i = true
            · exact Or.inl h0
            · right
              intro i hi
              have hi0 : i = 0 := by omega
              subst hi0
              cases hpi : has p 0 with
              | true => exact absurd (fun j hj => by have : j = 0 := by omega
                                                     rw [this]; exact hpi) h0
              | false =>
                cases hsi : has s 0 with
                | false => rfl
                | true => rw [hsp 0 hsi] at hpi; cases hpi
          · right
            by_cases h0 : ∀ i < op.arity, has p i = true
            · exact Or.inl h0
            · right
              -- the operands stored here
              have hj : ∃ j, has s j = true := by
                apply Classical.byContradiction
                intro hno
                rw [← restr_holds, ← holds_congr a (fun k _ => hsk k),
                  holds_congr a (T := fun _ => false) (fun k _ => by
                    cases hk : has s k with
                    | false => rfl
                    | true => exact absurd ⟨k, hk⟩ hno), hn] at hh
                cases hh
              obtain ⟨j, hj⟩ := hj
              have hjp := hsp j hj
              have hj2 := W.reg j (h.sub p hp j hjp)
              intro i hi
              by_cases hij : i = j
              · rw [hij, hj, hjp]
              · cases hpi : has p i with
                | true =>
                  exfalso; apply h0
                  intro l hl
                  have : l = i ∨ l = j := by omega
                  rcases this with rfl | rfl
                  · exact hpi
                  · exact hjp
                | false =>
                  cases hsi : has s i with
                  | false => rfl
                  | true => rw [hsp i hsi] at hpi; cases hpi)
      rw [hm]
      simp [List.mapM_cons, hval]
  obtain ⟨vs, hvs, hvs'⟩ := hev
  refine ⟨c, vs, hc, htc, hcn, hvs, hvs', ?_, ?_, ?_⟩
  · -- invariant
    constructor
    · intro k hk
      unfold synced
      rw [hapos]
      cases hkp : has p k with
      | false =>
        rw [if_neg (by simp)]
        have h1 := hothers k hk hkp
        have h2 : st.pos k = (X.crd k).countP _ := hv.sync k hk
        have h3 := countP_mono (X.crd k) (t := t) (t' := c + 1) (by omega)
        have h4 := List.countP_le_length (p := fun x => decide (x < c + 1)) (l := X.crd k)
        show st.pos k = (X.crd k).countP _
        omega
      | true =>
        rw [if_pos rfl]
        obtain ⟨y, hy, hyc, hty, hy'⟩ := hco k hkp
        have hcy := hmin k y hkp hy
        have := (countP_sorted (W.wf k).1 hy' htc).2.2 hcy
        have h2 : st.pos k = (X.crd k).countP _ := hsync k hkp
        show _ = (X.crd k).countP _
        rw [this, ← h2, hy]
        by_cases hyc' : y = c
        · subst hyc'; simp
        · simp [hyc']
    · intro hf
      rw [advance_i, if_pos ((h.dim p hp).2 hf), hv.dim hf, hflagc hf]
    · omega
  · intro q hq
    rcases hdone q hq with ⟨k, hk, hkl⟩ | ⟨hno, hn⟩
    · refine Or.inl ⟨k, hk, ?_⟩
      rw [hapos]
      split
      · rename_i hkp
        have := hlt k hkp
        have hkl : st.pos k = (X.crd k).length := hkl
        omega
      · exact hkl
    · refine Or.inr ⟨hno, ?_⟩
      rw [advance_i]; split <;> omega
  · unfold potential
    cases hf : reach false (fun _ => false) a with
    | true => simp only [if_true]; omega
    | false =>
      simp only [Bool.false_eq_true, if_false]
      apply sum_lt
      · intro k _
        rw [hapos]
        split <;> (try split) <;> omega
      · obtain ⟨k, hk, hkc⟩ := hnoflag hf
        refine ⟨k, h.sub p hp k hk, ?_⟩
        rw [hapos, if_pos hk, if_pos hkc]
        have := hlt k hk
        omega

/-- The loop of one point. -/
theorem while_spec {p : Point} (hp : p ∈ L) {before after : List Point} (hL : L = before ++ p :: after) :
    ∀ (fuel : Nat) (st : St) (t : Nat), Inv a X st t → (∀ q ∈ before, dead (input X) st q) →
      potential a X st t ≤ fuel →
      ∃ out t', t ≤ t' ∧ runWhile op X (subLattice L p) p (zeroCall (exhausted L p) (initCall op.arity)) fuel st =
          some out ∧ out.2.2 = span op a X t (t' - t) ∧ potential a X out.1 t' ≤ out.2.1 ∧
        Inv a X out.1 t' ∧ (∀ q ∈ before, dead (input X) out.1 q) ∧ dead (input X) out.1 p := by
  intro fuel
  induction fuel with
  | zero =>
    intro st t hv hdone hf
    unfold runWhile
    by_cases hd : dead (input X) st p
    · have : unexhausted (input X) st (p.rangers K0) = false := by
        cases hu : unexhausted (input X) st (p.rangers K0) with
        | false => rfl
        | true => exact absurd hd ((unexhausted_iff W hv hp).1 hu)
      rw [this]
      exact ⟨(st, 0, []), t, Nat.le_refl _, rfl, by simp [span], hf, hv, hdone, hd⟩
    · obtain ⟨_, c, vs, _, _, _, _, _, _, _, hpot⟩ := step_spec W hv hp hd hL hdone
      omega
  | succ fuel ih =>
    intro st t hv hdone hf
    unfold runWhile
    by_cases hd : dead (input X) st p
    · have : unexhausted (input X) st (p.rangers K0) = false := by
        cases hu : unexhausted (input X) st (p.rangers K0) with
        | false => rfl
        | true => exact absurd hd ((unexhausted_iff W hv hp).1 hu)
      rw [this]
      exact ⟨(st, fuel + 1, []), t, Nat.le_refl _, rfl, by simp [span], hf, hv, hdone, hd⟩
    · rw [(unexhausted_iff W hv hp).2 hd, if_pos rfl]
      obtain ⟨hl, c, vs, hc, htc, hcn, hev, hvs, hv', hdone', hpot⟩ := step_spec W hv hp hd hL hdone
      obtain ⟨out, t', ht', hrun, hevs, hfu, hv'', hdone'', hdead⟩ :=
        ih (advance K0 (input X) st c p) (c + 1) hv' hdone' (by omega)
      rw [hl, if_pos rfl, hc]
      simp only
      rw [hev]
      simp only
      rw [hrun]
      refine ⟨_, t', by omega, rfl, ?_, hfu, hv'', hdone'', hdead⟩
      simp only
      rw [hvs, hevs]
      have h1 : t' - t = (c + 1 - t) + (t' - (c + 1)) := by omega
      rw [h1, span_append]
      congr 2; omega

/-- The sequence of loops. -/
theorem points_spec : ∀ (after before : List Point), L = before ++ after →
    ∀ (fuel : Nat) (st : St) (t : Nat), Inv a X st t → (∀ q ∈ before, dead (input X) st q) →
    potential a X st t ≤ fuel →
    runPoints op X L fuel after st = some (span op a X t (X.n - t)) := by
  intro after
  induction after with
  | nil =>
    intro before hL fuel st t hv hdone _
    unfold runPoints
    congr 1
    symm
    apply span_nil
    intro x htx hxn
    cases hs : holds (stored X x) a with
    | false => rfl
    | true =>
      exfalso
      have hr := reach_of_holds a false (S := stored X x) (by rw [hs]; rfl)
      obtain ⟨m, hm, hmk⟩ := W.lat.ex (restr a (stored X x)) (fun k hk => restr_sub hk)
        (by rw [restr_reach]; exact hr)
      have hmb : m ∈ before := by rw [hL, List.append_nil] at hm; exact hm
      rcases hdone m hmb with ⟨k, hk, hkl⟩ | ⟨hno, hn⟩
      · have hk := has_iff.2 hk
        rw [hmk] at hk
        simp only [restr, stored, Bool.and_eq_true, decide_eq_true_eq] at hk
        have := countP_lt_length hk.1 htx
        have h2 : st.pos k = (X.crd k).countP _ := hv.sync k hk.2
        have hkl : st.pos k = (X.crd k).length := hkl
        omega
      · have hk : ∀ k, has m k = false := fun k => by
          cases hc : has m k with
          | false => rfl
          | true => exact absurd (has_iff.1 hc) (hno k)
        have := hv.dim (dim_of_empty W hm hk)
        have hn : X.n ≤ st.i := hn
        have := hv.tn
        omega
  | cons p ps ih =>
    intro before hL fuel st t hv hdone hf
    have hp : p ∈ L := by rw [hL]; simp
    obtain ⟨qs, hqs⟩ := W.lat.sub_front hp
    obtain ⟨out, t', ht', hrun, hevs, hfu, hv', hdone', hdead⟩ :=
      while_spec W hp hL fuel st t hv hdone hf
    unfold runPoints
    rw [hqs]
    simp only
    rw [← hqs, hrun]
    simp only
    have := ih (before ++ [p]) (by rw [hL]; simp) out.2.1 out.1 t' hv' (by
      intro q hq
      rcases List.mem_append.1 hq with hq | hq
      · exact hdone' q hq
      · rw [List.mem_singleton] at hq; rw [hq]; exact hdead) hfu
    rw [this]
    simp only
    congr 1
    have htn := hv'.tn
    have h1 : X.n - t = (t' - t) + (X.n - t') := by omega
    rw [h1, span_append, hevs]
    congr 2; omega

omit W [DecidableEq V] in
theorem inv_init : Inv a X ⟨fun _ => 0, 0⟩ 0 where
  sync k _ := by unfold synced; simp
  dim _ := rfl
  tn := Nat.zero_le _

/-- The loop over the positions of one operand. -/
theorem plain_spec {k : Nat} (hk : ∀ j, j ∈ regions a ↔ j = k) (hL : ∃ p, L = [p])
    (hn : reach false (fun _ => false) a = false) :
    ∀ (l : List (Nat × Nat)), (∀ x ∈ l, (X.crd k)[x.2]? = some x.1) →
    runPlain op X L (l.map (fun cp => (cp.1, fun j => if j = k then cp.2 else 0))) =
      some (l.map (fun cp => (cp.1, callAt op X cp.1)))
  | [], _ => rfl
  | x :: l, hl => by
    obtain ⟨p, hp⟩ := hL
    have hx := hl x List.mem_cons_self
    have ih := plain_spec hk ⟨p, hp⟩ hn l (fun y hy => hl y (List.mem_cons_of_mem _ hy))
    rw [List.map_cons, runPlain, ih]
    have hbody : ∀ nz, body L nz (initCall op.arity) = [initCall op.arity] := by
      intro nz
      unfold body
      rw [hp, if_neg (by simp)]
    rw [hbody]
    have hid : zeroCall (fun _ => false) (zeroCall (fun _ => false) (initCall op.arity)) = initCall op.arity := by
      rw [zeroCall_id (fun _ _ => rfl), zeroCall_id (fun _ _ => rfl)]
    have hval := evalCall_spec (op := op) (pos := fun j => if j = k then x.2 else 0) (c := x.1)
      (z1 := fun _ => false) (z2 := fun _ => false) (S := fun _ => true) (T := fun _ => true) W.wf
      (fun _ _ => rfl) (fun _ _ => rfl) (fun _ _ _ => rfl)
      (fun i hi => by
        have : i = k := (hk i).1 (W.arg i hi)
        subst this
        simp only [stored]
        exact (decide_eq_true (List.mem_of_getElem? hx)).symm)
      (fun i hi _ => by
        have : i = k := (hk i).1 (W.arg i hi)
        subst this
        simpa using hx)
      (Or.inr (Or.inl (fun _ _ => rfl)))
    rw [hid] at hval
    simp [List.mapM_cons, hval]

end step

theorem filter_mem_sorted {l : List Nat} {n : Nat} (hs : l.Pairwise (· < ·)) (hlt : ∀ x ∈ l, x < n) :
    (List.range' 0 n).filter (fun x => decide (x ∈ l)) = l := by
  have hp : ((List.range' 0 n).filter (fun x => decide (x ∈ l))).Perm l := by
    rw [List.perm_ext_iff_of_nodup]
    · intro x
      rw [List.mem_filter, List.mem_range'_1, decide_eq_true_eq]
      exact ⟨fun h => h.2, fun h => ⟨⟨Nat.zero_le _, by simpa using hlt x h⟩, h⟩⟩
    · exact List.Pairwise.filter _ List.nodup_range'
    · exact hs.imp (fun h => Nat.ne_of_lt h)
  refine hp.eq_of_pairwise (le := (· < ·)) ?_ ?_ hs
  · intro a b _ _ h1 h2; omega
  · exact List.Pairwise.filter _ List.pairwise_lt_range'

/-- The whole loop. -/
theorem run_spec [DecidableEq V] {srt : List Point → List Point} (hs : SortSpec srt) {op : Op V} {X : Operands V}
    (hX : WF X) (hsup : supported op.alg = true) (harg : ∀ i, i ∈ regions op.alg ↔ i < op.arity)
    (hnz : NoZeros X ∨ hasCompl op.alg = false)
    (hspec : op.special = [] ∨ op.arity ≤ 1 ∨ (op.arity = 2 ∧ holds (fun _ => false) op.alg = false))
    {fuel : Nat} (hfuel : X.n + ((regions op.alg).map (fun k => (X.crd k).length)).sum ≤ fuel) :
    run srt op X fuel = some (expected op X) := by
  have hsup' := hsup
  rw [← supported_dispatch, supported, Bool.and_eq_true] at hsup
  obtain ⟨L, hb, hlat⟩ := latOK_build hs (dispatch op.alg) (Verif.Algebra.normal_dispatch op.alg) hsup.1
  have hreg := regions_dispatch op.alg
  have W : Setup op X (dispatch op.alg) L := by
    refine ⟨hlat, hX, ?_, ?_, ?_, ?_, ?_⟩
    · intro k hk hr
      have := hsup.2
      rw [Bool.or_eq_true, List.all_eq_true] at this
      rcases this with h' | h'
      · exact Or.inr h'
      · have := h' k hk
        rw [hr] at this
        exact Or.inl (by simpa using this)
    · intro i hi; rw [hreg]; exact (harg i).2 hi
    · intro i hi; rw [hreg] at hi; exact (harg i).1 hi
    · rintro ⟨q, hq, ho⟩
      rcases hnz with h' | h'
      · exact h'
      · rw [hlat.flag q hq] at ho
        have := hlat.pts q hq
        rw [hasCompl_dispatch _ h'] at ho this
        rw [reach_eq_holds _ h'] at this
        rw [this] at ho; cases ho
    · rw [holds_dispatch]; exact hspec
  have hmk : makeLattice srt op = some L := by
    unfold makeLattice
    rw [hb]
    simp only
    split
    · rfl
    · rw [getLoopLattice_eq hlat (List.Sublist.refl _)]
  have hexp : expected op X = span op (dispatch op.alg) X 0 X.n := by
    unfold expected span
    rw [List.range_eq_range']
    simp only [holds_dispatch]
  obtain ⟨r, hr, hri, _, hrk⟩ := hlat.lat_iters
  obtain ⟨k0, hk0⟩ := List.exists_mem_of_ne_nil _ (regions_ne_nil (dispatch op.alg))
  unfold run
  rw [hmk]
  simp only
  rw [hri]
  match hrit : r.iters with
  | [] =>
    have := has_iff.1 ((hrk k0).2 hk0)
    rw [hrit] at this; cases this
  | [.dim] =>
    have := has_iff.1 ((hrk k0).2 hk0)
    rw [hrit] at this; simp at this
  | [.lev k] =>
    simp only
    have hk : ∀ j, j ∈ regions (dispatch op.alg) ↔ j = k := by
      intro j; rw [← hrk, has_iff, hrit]; simp
    have hn : reach false (fun _ => false) (dispatch op.alg) = false := by
      cases hf : reach false (fun _ => false) (dispatch op.alg) with
      | false => rfl
      | true => have := (hlat.dim r hr).2 hf; rw [hrit] at this; simp at this
    have hL : ∃ p, L = [p] := by
      have hu : ∀ q ∈ L, q = r := by
        intro q hq
        have hsubq : ∀ j, has q j = true → j = k := fun j hj => (hk j).1 (hlat.sub q hq j hj)
        refine hlat.uniq hq hr (fun j => ?_)
        rw [Bool.eq_iff_iff, hrk, hk]
        refine ⟨hsubq j, ?_⟩
        rintro rfl
        cases hc : has q j with
        | true => rfl
        | false =>
          have := dim_of_empty W hq (fun i => by
            cases hi : has q i with
            | false => rfl
            | true => have := hsubq i hi; rw [this, hc] at hi; cases hi)
          rw [hn] at this; cases this
      have hd := hlat.distinct
      clear hmk hb W
      match L, hr, hu, hd with
      | [], hr, _, _ => cases hr
      | [p], _, _, _ => exact ⟨p, rfl⟩
      | p :: q :: qs, _, hu, hd =>
        exfalso
        have h1 := hu p (by simp)
        have h2 := hu q (by simp)
        rw [List.pairwise_cons] at hd
        exact hd.1 q List.mem_cons_self (by rw [h1, h2]; exact fun _ => rfl)
    rw [plain_spec W hk hL hn (X.crd k).zipIdx (by
      rintro ⟨x, i⟩ hx
      exact List.mk_mem_zipIdx_iff_getElem?.1 hx)]
    rw [hexp]
    congr 1
    rw [Merge.zipIdx_map_sorted (hX k).1]
    -- the coordinates of the operand
    have hom : holds (fun j => j == k) (dispatch op.alg) = true := by
      have := hlat.one_producer hr W.sup (by rw [hrit]; rfl)
      rw [hlat.flag r hr, holds_congr _ (T := fun j => j == k) (fun j _ => by
        rw [Bool.eq_iff_iff, hrk, hk]; simp)] at this
      simpa using this
    have hno : holds (fun _ => false) (dispatch op.alg) = false := by
      rw [reach_none] at hn; simpa using hn
    have hholds : ∀ c, holds (stored X c) (dispatch op.alg) = decide (c ∈ X.crd k) := by
      intro c
      by_cases hc : c ∈ X.crd k
      · rw [decide_eq_true hc, ← hom]
        apply holds_congr
        intro j hj
        rw [(hk j).1 hj]; simp [stored, hc]
      · rw [decide_eq_false hc, ← hno]
        apply holds_congr
        intro j hj
        rw [(hk j).1 hj]; simp [stored, hc]
    unfold span
    simp only [hholds]
    rw [filter_mem_sorted (hX k).1 (hX k).2.1]
  | x :: y :: zs =>
    simp only
    rw [getLoopLattice_eq hlat (List.Sublist.refl _)]
    rw [if_pos (List.all_eq_true.2 (fun p hp => hlat.lowerable hp W.sup))]
    rw [points_spec W L [] rfl fuel _ 0 inv_init (by simp) ?_, hexp]
    · rfl
    · refine Nat.le_trans ?_ hfuel
      unfold potential
      rw [hreg]
      split
      · omega
      · exact Nat.le_trans (by simp) (Nat.le_add_left _ _)

/-- A region that reaches the space without being in it makes the lowering fail. -/
theorem run_none [DecidableEq V] {srt : List Point → List Point} (hs : SortSpec srt) {op : Op V}
    (hc : covered false op.alg = true) (hn : holds (fun _ => false) op.alg = false) {k j : Nat}
    (hk : k ∈ regions op.alg) (hj : j ∈ regions op.alg) (hkj : k ≠ j)
    (hr : reach false (fun i => i == k) op.alg = true) (hh : holds (fun i => i == k) op.alg = false)
    (X : Operands V) (fuel : Nat) : run srt op X fuel = none := by
  obtain ⟨L, hb, h⟩ := latOK_build hs (dispatch op.alg) (Verif.Algebra.normal_dispatch op.alg)
    (by rw [covered_dispatch]; exact hc)
  have hreg := regions_dispatch op.alg
  rw [← hreg] at hk hj
  have hr0 : reach false (fun _ => false) (dispatch op.alg) = false := by
    rw [reach_none, holds_dispatch, hn]; rfl
  obtain ⟨q, hq, hqk⟩ := h.ex (fun i => i == k) (fun i hi => by rw [beq_iff_eq] at hi; rw [hi]; exact hk)
    (by rw [reach_dispatch]; exact hr)
  have hqo : q.isOm = true := by
    rw [h.flag q hq, holds_congr _ (fun i _ => hqk i), holds_dispatch, hh]; rfl
  have hqd : It.dim ∉ q.iters := fun hd => by
    have := (h.dim q hq).1 hd; rw [hr0] at this; cases this
  have hqi : q.iters = [.lev k] := by
    have hall : ∀ x ∈ q.iters, x = .lev k := by
      intro x hx
      cases x with
      | dim => exact absurd hx hqd
      | lev i => have := has_iff.2 hx; rw [hqk, beq_iff_eq] at this; rw [this]
    have hmem : It.lev k ∈ q.iters := has_iff.1 (by rw [hqk]; simp)
    have hnd := (h.plain q hq).nodup
    match hqi : q.iters with
    | [] => rw [hqi] at hmem; cases hmem
    | [x] => rw [hqi] at hall; rw [hall x (by simp)]
    | x :: y :: zs =>
      rw [hqi] at hall hnd
      rw [hall x (by simp), hall y (by simp)] at hnd; simp at hnd
  have hsub : subLattice L q = [q] := by
    obtain ⟨ps, hps⟩ := h.sub_front hq
    rw [hps]
    cases ps with
    | nil => rfl
    | cons r rs =>
      exfalso
      have hrm : r ∈ subLattice L q := by rw [hps]; simp
      obtain ⟨hrL, hrk⟩ := (h.mem_sub hq).1 hrm
      have hd' : (subLattice L q).Pairwise (fun p q => ¬ same p q) := h.distinct.sublist List.filter_sublist
      rw [hps, List.pairwise_cons] at hd'
      refine hd'.1 r List.mem_cons_self (fun i => ?_)
      rw [Bool.eq_iff_iff]
      refine ⟨fun hi => ?_, hrk i⟩
      cases hri : has r i with
      | true => rfl
      | false =>
        have hik : i = k := by rw [hqk] at hi; simpa using hi
        have := h.pts r hrL
        rw [reach_congr _ (T := fun _ => false) _ (fun l _ => by
          cases hl : has r l with
          | false => rfl
          | true =>
            have h1 := hrk l hl
            rw [hqk, beq_iff_eq] at h1
            rw [h1, ← hik, hri] at hl; cases hl), hr0] at this
        cases this
  have hlow : lowerable (subLattice L q) = false := by
    unfold lowerable
    rw [hsub]
    have h1 : anyLeaf [q] = true := by
      rw [← hsub, h.anyLeaf_sub hq]; exact ⟨k, by rw [hqk]; simp⟩
    have h2 : needChecks [q] false = true := by simp [needChecks, hqo]
    rw [h1, h2]
    simp [latIters, hqi, frontOm, hqo]
  have hmk : makeLattice srt op = some L := by
    unfold makeLattice
    rw [hb]
    simp only
    split
    · rfl
    · rw [getLoopLattice_eq h (List.Sublist.refl _)]
  obtain ⟨r, hrL, hri, _, hrk⟩ := h.lat_iters
  have hk' := has_iff.1 ((hrk k).2 hk)
  have hj' := has_iff.1 ((hrk j).2 hj)
  unfold run
  rw [hmk]
  simp only
  rw [hri]
  match hrit : r.iters with
  | [] => rfl
  | [x] =>
    rw [hrit] at hk' hj'
    simp at hk' hj'
    rw [← hk'] at hj'; cases hj'; exact absurd rfl hkj
  | x :: y :: zs =>
    simp only
    rw [getLoopLattice_eq h (List.Sublist.refl _), if_neg]
    rw [List.all_eq_true]
    intro hall
    have := hall q hq
    rw [hlow] at this; cases this

end Verif.Omit
