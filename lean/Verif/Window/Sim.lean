import Verif.Window.MergeSpec
import Verif.Window.Lemmas
import Verif.Merge.Run
/-! The windowed merge loops simulate the merge loops over the selected coordinates. -/
namespace Verif.Window
open Verif.Search Verif.Merge Verif.Merge.Expr

variable {V : Type}

/-- The iteration at this position goes on with a coordinate. -/
def pick (A : Acc) (p : Nat) : Option (Nat × Nat) :=
  match load A p with
  | some (.ok c) => some (p, c)
  | _ => none

/-- The selected positions, with their coordinates. -/
def sel (A : Acc) : List (Nat × Nat) := (List.range' A.s (A.e - A.s)).filterMap (pick A)

/-- How many positions below `p` are selected. -/
def cnt (A : Acc) (p : Nat) : Nat := ((List.range' A.s (p - A.s)).filterMap (pick A)).length

/-- The loop over the selected coordinates only. -/
def absInput (W : WInput) : Input := ⟨fun k => (sel (W.acc k)).map Prod.snd, W.n⟩

/-- Selected coordinates. -/
theorem load_ok_iff {A : Acc} {n : Nat} (h : AccOK A n) {p : Nat} (hs : A.s ≤ p) (c : Nat) :
    load A p = some (.ok c) ↔ p < A.e ∧ A.arr[p]? = some (A.coord c) ∧ c < n := by
  unfold load Acc.coord
  by_cases hp : p < A.e
  · rw [if_pos hp]
    have hl : p < A.arr.length := by have := h.len; omega
    have hget := List.getElem?_eq_getElem hl
    rw [hget]
    simp only [hp, true_and, Option.some.injEq]
    cases hw : A.win with
    | none =>
      obtain ⟨h0, hn⟩ := h.bounds hw p _ hs hp hget
      simp only
      rw [if_neg (by omega)]
      simp only [Option.some.injEq, Load.ok.injEq]
      omega
    | some w =>
      obtain ⟨_, _, hst, hsz⟩ := h.win w hw
      simp only
      rw [if_neg (by omega)]
      have hcs : c < n → 0 ≤ (c : Int) * w.stride := fun _ => Int.mul_nonneg (by omega) (by omega)
      constructor
      · intro hh
        split at hh
        · cases hh
        · rename_i hoff
          split at hh
          · cases hh
          · rename_i hbey
            split at hh
            · cases hh
            · rename_i hneg
              simp only [Option.some.injEq, Load.ok.injEq] at hh
              have hc : (c : Int) = w.project A.arr[p] := by omega
              have hb : w.project A.arr[p] < w.size := by simpa [Window.beyond] using hbey
              refine ⟨?_, by omega⟩
              rw [hc]
              have hpl : w.lo ≤ A.arr[p] ∨ A.arr[p] < w.lo := by omega
              rcases hpl with hpl | hpl
              · exact (guard_spec hst hpl).1 (by simpa using hoff)
              · -- below the window the projection is not positive
                have hge : 0 ≤ w.project A.arr[p] := by omega
                have hdef := Int.tmod_def (A.arr[p] - w.lo) w.stride
                unfold Window.offStride Window.isStrided at hoff
                unfold Window.project at hge ⊢
                by_cases h1 : w.stride = 1
                · rw [h1] at hge ⊢
                  simp only [Int.tdiv_one, Int.mul_one] at hge ⊢
                  omega
                · have hb1 : (w.stride == 1) = false := by simpa using h1
                  rw [hb1] at hoff
                  simp only [Bool.not_false, Bool.true_and, decide_eq_true_eq, Decidable.not_not] at hoff
                  rw [Int.mul_comm] at hdef
                  have hdef' : (A.arr[p] - w.lo).tmod w.stride =
                    (A.arr[p] - w.lo) - (A.arr[p] - w.lo).tdiv w.stride * w.stride := hdef
                  rw [hoff] at hdef'
                  omega
      · rintro ⟨hx, hcn⟩
        have hge : w.lo ≤ A.arr[p] := by have := hcs hcn; omega
        have hpr : w.project A.arr[p] = c := by rw [hx]; exact project_eq hst
        have hon : w.offStride A.arr[p] = false := by
          rw [guard_spec hst hge, hpr]; exact hx
        rw [hon, hpr]
        simp only [Bool.false_eq_true, if_false]
        have hb : w.beyond c = false := by
          unfold Window.beyond
          simp; omega
        rw [hb]
        simp only [Bool.false_eq_true, if_false]
        rw [if_neg (by omega)]
        simp
  · rw [if_neg hp]
    simp [hp]

theorem coord_inj {A : Acc} {n : Nat} (h : AccOK A n) {c d : Nat} (he : A.coord c = A.coord d) : c = d := by
  unfold Acc.coord at he
  cases hw : A.win with
  | none => rw [hw] at he; simp only at he; omega
  | some w =>
    rw [hw] at he
    simp only at he
    obtain ⟨_, _, hst, _⟩ := h.win w hw
    have : (c : Int) * w.stride = (d : Int) * w.stride := by omega
    have := Int.eq_of_mul_eq_mul_right (by omega) this
    omega

theorem coord_lt {A : Acc} {n : Nat} (h : AccOK A n) {c d : Nat} : A.coord c < A.coord d ↔ c < d := by
  unfold Acc.coord
  cases hw : A.win with
  | none => simp only; omega
  | some w =>
    simp only
    obtain ⟨_, _, hst, _⟩ := h.win w hw
    have h1 : (c : Int) * w.stride < (d : Int) * w.stride ↔ (c : Int) < d :=
      ⟨fun hh => Int.lt_of_mul_lt_mul_right hh (by omega), fun hh => Int.mul_lt_mul_of_pos_right hh (by omega)⟩
    omega

/-! ### counting selected positions -/

theorem cnt_start (A : Acc) : cnt A A.s = 0 := by simp [cnt]

theorem cnt_succ (A : Acc) {p : Nat} (hp : A.s ≤ p) :
    cnt A (p + 1) = cnt A p + if (pick A p).isSome then 1 else 0 := by
  unfold cnt
  have h1 : p + 1 - A.s = (p - A.s) + 1 := by omega
  rw [h1, List.range'_concat, List.filterMap_append, List.length_append]
  have h2 : A.s + 1 * (p - A.s) = p := by omega
  rw [h2]
  cases hg : pick A p <;> simp [hg]

theorem cnt_end (A : Acc) : cnt A A.e = (sel A).length := rfl

theorem sel_split (A : Acc) {p : Nat} (hs : A.s ≤ p) (he : p ≤ A.e) :
    sel A = (List.range' A.s (p - A.s)).filterMap (pick A) ++ (List.range' p (A.e - p)).filterMap (pick A) := by
  unfold sel
  have h1 : A.e - A.s = (p - A.s) + (A.e - p) := by omega
  rw [h1, ← List.filterMap_append]
  have := @List.range'_append A.s (p - A.s) (A.e - p) 1
  rw [← this]
  congr 3
  omega

/-- The element at a position that goes on. -/
theorem sel_at {A : Acc} {p c : Nat} (hs : A.s ≤ p) (h : load A p = some (.ok c)) :
    (sel A)[cnt A p]? = some (p, c) := by
  have he : p < A.e := by
    unfold load at h
    split at h
    · assumption
    · cases h
  rw [sel_split A hs (Nat.le_of_lt he)]
  have h1 : A.e - p = (A.e - p - 1) + 1 := by omega
  rw [h1, List.range'_succ, List.filterMap_cons]
  have hg : pick A p = some (p, c) := by unfold pick; rw [h]
  rw [hg]
  simp only
  unfold cnt
  rw [List.getElem?_append_right (Nat.le_refl _), Nat.sub_self]
  rfl

/-- Nothing is selected from a position on that is beyond the window. -/
theorem cnt_stop {A : Acc} {n : Nat} (h : AccOK A n) {p : Nat} (hs : A.s ≤ p) (hstop : load A p = some .stop)
    (hlo : ∀ w, A.win = some w → ∀ x, A.arr[p]? = some x → w.lo ≤ x) :
    cnt A p = (sel A).length := by
  have he : p < A.e := by
    unfold load at hstop
    split at hstop
    · assumption
    · cases hstop
  rw [sel_split A hs (Nat.le_of_lt he), List.length_append]
  have : (List.range' p (A.e - p)).filterMap (pick A) = [] := by
    rw [List.filterMap_eq_nil_iff]
    intro q hq
    rw [List.mem_range'_1] at hq
    cases hpk : pick A q with
    | none => rfl
    | some pc =>
      exfalso
      unfold pick at hpk
      split at hpk
      · rename_i c hc
        obtain ⟨_, hq1, hq2⟩ := (load_ok_iff h (by omega) c).1 hc
        have hl : p < A.arr.length := by have := h.len; omega
        have hget := List.getElem?_eq_getElem hl
        have hle : A.arr[p] ≤ A.coord c := by
          by_cases hqp : q = p
          · subst hqp; rw [hget] at hq1; simp only [Option.some.injEq] at hq1; omega
          · have := h.strict p q _ _ hs (by omega) (by omega) hget hq1; omega
        unfold load at hstop
        rw [if_pos he, hget] at hstop
        simp only at hstop
        cases hw : A.win with
        | none => rw [hw] at hstop; simp only at hstop; split at hstop <;> cases hstop
        | some w =>
          rw [hw] at hstop
          simp only at hstop
          obtain ⟨_, _, hst, hsz⟩ := h.win w hw
          have hlo' := hlo w hw _ hget
          split at hstop
          · cases hstop
          · split at hstop
            · cases hstop
            · rename_i hoff
              split at hstop
              · rename_i hbey
                have hb : w.size ≤ w.project A.arr[p] := by simpa [Window.beyond] using hbey
                have hgs := (guard_spec hst hlo').1 (by simpa using hoff)
                unfold Acc.coord at hle
                rw [hw] at hle
                simp only at hle
                have h1 : w.project A.arr[p] * w.stride ≤ (c : Int) * w.stride := by omega
                have := Int.le_of_mul_le_mul_right h1 (by omega)
                omega
              · split at hstop <;> cases hstop
      · cases hpk
  rw [this]
  simp [cnt]

/-- A load either goes on, skips, or stops, at every position of the segment that is not below the
window. -/
theorem load_isSome {A : Acc} {n : Nat} (h : AccOK A n) {p : Nat} (hs : A.s ≤ p) (he : p < A.e)
    (hlo : ∀ w, A.win = some w → ∀ x, A.arr[p]? = some x → w.lo ≤ x) : (load A p).isSome := by
  unfold load
  have hl : p < A.arr.length := by have := h.len; omega
  have hget := List.getElem?_eq_getElem hl
  rw [if_pos he, hget]
  simp only
  cases hw : A.win with
  | none =>
    have := h.bounds hw p _ hs he hget
    simp only
    rw [if_neg (by omega)]; rfl
  | some w =>
    obtain ⟨_, _, hst, hsz⟩ := h.win w hw
    have := project_nonneg hst (hlo w hw _ hget)
    simp only
    rw [if_neg (by omega)]
    split
    · rfl
    · split
      · rfl
      · rw [if_neg (by omega)]; rfl

/-- The coordinate variable of an iterator whose load goes on. -/
theorem view_coord {W : WInput} {k p c : Nat} (h : load (W.acc k) p = some (.ok c)) :
    ((view W).crd k)[p]? = some c := by
  unfold load at h
  split at h
  · rename_i he
    split at h
    · cases h
    · rename_i x hx
      simp only [view]
      rw [List.getElem?_map, List.getElem?_take_of_lt he, hx]
      cases hw : (W.acc k).win with
      | none =>
        rw [hw] at h
        simp only at h
        split at h
        · cases h
        · simp only [Option.some.injEq, Load.ok.injEq] at h
          simp [h]
      | some w =>
        rw [hw] at h
        simp only at h
        split at h
        · cases h
        · split at h
          · cases h
          · split at h
            · cases h
            · split at h
              · cases h
              · simp only [Option.some.injEq, Load.ok.injEq] at h
                simp [h]
  · cases h

theorem view_length {W : WInput} {k : Nat} (h : (W.acc k).e ≤ (W.acc k).arr.length) :
    ((view W).crd k).length = (W.acc k).e := by
  simp [view]; omega

/-! ### the simulation relation -/

/-- The windowed state stands where the state over selected coordinates stands. -/
structure Rel (ks : List Nat) (W : WInput) (st sa : St) : Prop where
  i : sa.i = st.i
  s : ∀ k, k ∈ ks → (W.acc k).s ≤ st.pos k
  e : ∀ k, k ∈ ks → st.pos k ≤ (W.acc k).e
  lo : ∀ k, k ∈ ks → ∀ w, (W.acc k).win = some w → ∀ p x, st.pos k ≤ p → p < (W.acc k).e →
    (W.acc k).arr[p]? = some x → w.lo ≤ x
  pos : ∀ k, k ∈ ks → sa.pos k = cnt (W.acc k) (st.pos k)

/-- Stored coordinates not yet passed. -/
def rest (W : WInput) (ks : List Nat) (st : St) : Nat := (ks.map (fun k => (W.acc k).e - st.pos k)).sum

/-- A read at a selected coordinate as a read of the array. -/
def raise (W : WInput) (ev : Event V) : Event V :=
  { ev with reads := ev.reads.map (fun kq => (kq.1, (((sel (W.acc kq.1))[kq.2]?).map Prod.fst).getD 0)) }

section sim
variable {K : Ctx} {ks : List Nat} {W : WInput} (hW : ∀ k, k ∈ ks → AccOK (W.acc k) W.n)
include hW

theorem rel_load {st sa : St} (hr : Rel ks W st sa) {k c : Nat} (hk : k ∈ ks)
    (h : load (W.acc k) (st.pos k) = some (.ok c)) :
    coordOf (view W) st (.lev k) = some c ∧ coordOf (absInput W) sa (.lev k) = some c := by
  refine ⟨view_coord h, ?_⟩
  simp only [coordOf, absInput]
  rw [hr.pos k hk, List.getElem?_map, sel_at (hr.s k hk) h]
  rfl

theorem loadAll_cases {st sa : St} (hr : Rel ks W st sa) : ∀ (its : List It),
    (∀ k, .lev k ∈ its → k ∈ ks ∧ st.pos k < (W.acc k).e) →
    (loadAll W st its = some .ok ∧ ∀ k, .lev k ∈ its → ∃ c, load (W.acc k) (st.pos k) = some (.ok c)) ∨
    (∃ k, .lev k ∈ its ∧ loadAll W st its = some (.skip k) ∧ load (W.acc k) (st.pos k) = some .skip) ∨
    (∃ k, .lev k ∈ its ∧ loadAll W st its = some .stop ∧ load (W.acc k) (st.pos k) = some .stop) := by
  intro its
  induction its with
  | nil => intro _; exact Or.inl ⟨rfl, by intro k hk; cases hk⟩
  | cons x xs ih =>
    intro hb
    have ih := ih (fun k hk => hb k (List.mem_cons_of_mem _ hk))
    cases x with
    | dim =>
      rw [loadAll]
      rcases ih with ⟨h1, h2⟩ | ⟨k, h1, h2⟩ | ⟨k, h1, h2⟩
      · refine Or.inl ⟨h1, ?_⟩
        intro k hk
        rcases List.mem_cons.1 hk with hk | hk
        · cases hk
        · exact h2 k hk
      · exact Or.inr (Or.inl ⟨k, List.mem_cons_of_mem _ h1, h2⟩)
      · exact Or.inr (Or.inr ⟨k, List.mem_cons_of_mem _ h1, h2⟩)
    | lev j =>
      rw [loadAll]
      obtain ⟨hK, hlt⟩ := hb j List.mem_cons_self
      have hsome := load_isSome (hW j hK) (hr.s j hK) hlt
        (fun w hw x hx => hr.lo j hK w hw _ x (Nat.le_refl _) hlt hx)
      obtain ⟨l, hl⟩ := Option.isSome_iff_exists.1 hsome
      rw [hl]
      cases l with
      | ok c =>
        simp only
        rcases ih with ⟨h1, h2⟩ | ⟨k, h1, h2⟩ | ⟨k, h1, h2⟩
        · refine Or.inl ⟨h1, ?_⟩
          intro k hk
          rcases List.mem_cons.1 hk with hk | hk
          · cases hk; exact ⟨c, hl⟩
          · exact h2 k hk
        · exact Or.inr (Or.inl ⟨k, List.mem_cons_of_mem _ h1, h2⟩)
        · exact Or.inr (Or.inr ⟨k, List.mem_cons_of_mem _ h1, h2⟩)
      | skip => exact Or.inr (Or.inl ⟨j, List.mem_cons_self, rfl, hl⟩)
      | stop => exact Or.inr (Or.inr ⟨j, List.mem_cons_self, rfl, hl⟩)

/-- The three outcomes of the head of a loop body. -/
theorem header_cases {st sa : St} (hr : Rel ks W st sa) {p : Point} (hne : p.iters ≠ [])
    (hm1 : ∀ x ∈ p.mergers K, x ∈ p.iters) (hm2 : ∀ x, p.iters = [x] → p.mergers K = [x])
    (hb : ∀ k, .lev k ∈ p.iters → k ∈ ks ∧ st.pos k < (W.acc k).e) :
    (header K W st p = some .ok ∧ ∀ k, .lev k ∈ p.iters → ∃ c, load (W.acc k) (st.pos k) = some (.ok c)) ∨
    (∃ k, .lev k ∈ p.iters ∧ header K W st p = some (.skip k) ∧ load (W.acc k) (st.pos k) = some .skip) ∨
    (∃ k, .lev k ∈ p.iters ∧ header K W st p = some .stop ∧ load (W.acc k) (st.pos k) = some .stop) := by
  unfold header
  by_cases hlen : p.iters.length > 1
  · rw [if_pos hlen]
    rcases loadAll_cases hW hr p.iters hb with ⟨h1, h2⟩ | ⟨k, h1, h2, h3⟩ | ⟨k, h1, h2, h3⟩
    · refine Or.inl ⟨?_, h2⟩
      rw [h1]
      simp only
      split
      · rename_i k hk
        have hkm : It.lev k ∈ p.iters := hm1 _ (by rw [hk]; exact List.mem_cons_self)
        obtain ⟨c, hc⟩ := h2 k hkm
        rw [loadAll, hc]; rfl
      · rfl
    · exact Or.inr (Or.inl ⟨k, h1, by rw [h2], h3⟩)
    · exact Or.inr (Or.inr ⟨k, h1, by rw [h2], h3⟩)
  · rw [if_neg hlen]
    simp only
    cases hi : p.iters with
    | nil => exact absurd hi hne
    | cons x xs =>
      cases xs with
      | cons y ys => rw [hi] at hlen; simp at hlen
      | nil =>
        rw [hm2 x hi]
        cases x with
        | dim =>
          refine Or.inl ⟨rfl, ?_⟩
          intro k hk; simp at hk
        | lev k0 =>
          simp only
          exact loadAll_cases hW hr [.lev k0] (by rw [hi] at hb; exact hb)

omit hW in
/-- A skipped position is not selected: the state over selected coordinates does not move. -/
theorem rel_skip {st sa : St} (hr : Rel ks W st sa) {k : Nat} (hk : k ∈ ks)
    (h : load (W.acc k) (st.pos k) = some .skip) :
    Rel ks W { st with pos := fun j => if j = k then st.pos k + 1 else st.pos j } sa := by
  have he : st.pos k < (W.acc k).e := by
    unfold load at h
    split at h
    · assumption
    · cases h
  constructor
  · exact hr.i
  · intro j hj
    have := hr.s j hj
    show (W.acc j).s ≤ if j = k then _ else _
    split
    · rename_i hjk; subst hjk; omega
    · exact this
  · intro j hj
    show (if j = k then _ else _) ≤ _
    split
    · rename_i hjk; subst hjk; omega
    · exact hr.e j hj
  · intro j hj w hw p x hp
    refine hr.lo j hj w hw p x ?_
    have hp : (if j = k then st.pos k + 1 else st.pos j) ≤ p := hp
    split at hp
    · rename_i hjk; subst hjk; omega
    · exact hp
  · intro j hj
    show _ = cnt _ (if j = k then _ else _)
    split
    · rename_i hjk
      subst hjk
      rw [cnt_succ _ (hr.s j hj), hr.pos j hj]
      simp [pick, h]
    · exact hr.pos j hj

omit hW in
theorem rest_skip {st : St} {k : Nat} (hk : k ∈ ks) (he : st.pos k < (W.acc k).e) :
    rest W ks { st with pos := fun j => if j = k then st.pos k + 1 else st.pos j } + 1 ≤ rest W ks st := by
  unfold rest
  apply sum_lt
  · intro j _
    simp only
    split
    · rename_i hj; subst hj; omega
    · omega
  · exact ⟨k, hk, by simp only [if_true]; omega⟩

/-- The rangers are exhausted in both states at once, when all the loads go on. -/
theorem unexhausted_of_loads {st sa : St} (hr : Rel ks W st sa) {rs : List It}
    (hl : ∀ k, .lev k ∈ rs → k ∈ ks ∧ ∃ c, load (W.acc k) (st.pos k) = some (.ok c))
    (hu : unexhausted (view W) st rs = true) : unexhausted (absInput W) sa rs = true := by
  unfold unexhausted at *
  rw [List.all_eq_true] at *
  intro x hx
  have := hu x hx
  cases x with
  | dim => simpa [hr.i, view, absInput] using this
  | lev k =>
    obtain ⟨hK, c, hc⟩ := hl k hx
    have hs := sel_at (hr.s k hK) hc
    have : cnt (W.acc k) (st.pos k) < (sel (W.acc k)).length := (List.getElem?_eq_some_iff.1 hs).1
    simpa [absInput, hr.pos k hK] using this

/-- Exhausted operands have no more selected coordinates. -/
theorem exhausted_of {st sa : St} (hr : Rel ks W st sa) {rs : List It}
    (hl : ∀ k, .lev k ∈ rs → k ∈ ks)
    (hu : unexhausted (view W) st rs = false) : unexhausted (absInput W) sa rs = false := by
  cases ha : unexhausted (absInput W) sa rs with
  | false => rfl
  | true =>
    exfalso
    unfold unexhausted at *
    rw [List.all_eq_true] at ha
    rw [List.all_eq_false] at hu
    obtain ⟨x, hx, hn⟩ := hu
    have := ha x hx
    cases x with
    | dim =>
      simp only [decide_eq_true_eq] at this hn
      rw [hr.i] at this
      exact hn this
    | lev k =>
      have hK := hl k hx
      simp only [decide_eq_true_eq] at this hn
      rw [view_length (hW k hK).len] at hn
      have he : st.pos k = (W.acc k).e := by have := hr.e k hK; omega
      rw [hr.pos k hK, he, cnt_end] at this
      simp [absInput] at this

omit hW in
theorem resolve_congr {I J : Input} {st sa : St} {ms : List It}
    (h : ∀ x ∈ ms, coordOf I st x = coordOf J sa x) : resolve I st ms = resolve J sa ms := by
  have h2 : ∀ (l : List It), (∀ x ∈ l, coordOf I st x = coordOf J sa x) →
      l.mapM (coordOf I st) = l.mapM (coordOf J sa) := by
    intro l
    induction l with
    | nil => intro _; rfl
    | cons x xs ih =>
      intro hl
      rw [List.mapM_cons, List.mapM_cons, hl x List.mem_cons_self, ih (fun y hy => hl y (List.mem_cons_of_mem _ hy))]
  match ms, h with
  | [], _ => rfl
  | [x], h => exact h x List.mem_cons_self
  | x :: y :: zs, h => simp only [resolve]; rw [h2 _ h]

omit hW in
theorem firstCase_congr {f g : Point → Bool} {b : Bool} : ∀ {l : List Point}, (∀ q ∈ l, f q = g q) →
    firstCase f b l = firstCase g b l
  | [], _ => rfl
  | [p], h => by simp only [firstCase]; rw [h p List.mem_cons_self]
  | p :: q :: ps, h => by
    simp only [firstCase]
    rw [h p List.mem_cons_self, firstCase_congr (fun y hy => h y (List.mem_cons_of_mem _ hy))]

omit hW in
theorem rangers_sub {p : Point} {x : It} (h : x ∈ p.rangers K) : x ∈ p.iters := by
  unfold Point.rangers at h
  split at h
  · exact (List.mem_filter.1 h).1
  · exact h

omit hW in
theorem mergers_sub {p : Point} {x : It} (h : x ∈ p.mergers K) : x ∈ p.iters := by
  unfold Point.mergers at h
  split at h
  · exact (List.mem_filter.1 h).1
  · simp only at h
    split at h
    · exact (List.mem_filter.1 h).1
    · exact h

omit hW in
theorem firstCase_mem {f : Point → Bool} {b : Bool} : ∀ {l : List Point} {p : Point},
    firstCase f b l = some p → p ∈ l
  | [], p, h => by cases h
  | [q], p, h => by
    simp only [firstCase] at h
    split at h
    · cases h; exact List.mem_cons_self
    · cases h
  | q :: r :: rs, p, h => by
    simp only [firstCase] at h
    split at h
    · cases h; exact List.mem_cons_self
    · exact List.mem_cons_of_mem _ (firstCase_mem h)

/-- The positions read. -/
theorem readsOf_raise {st sa : St} (hr : Rel ks W st sa) {p : Point}
    (hl : ∀ k, .lev k ∈ p.iters → k ∈ ks ∧ ∃ c, load (W.acc k) (st.pos k) = some (.ok c))
    {s : Option (Expr V)} {c : Nat}
    (hs : ∀ e', s = some e' → ∀ k ∈ e'.leaves, (∃ a, K k = some a ∧ a.posIter = true) → .lev k ∈ p.iters) :
    (⟨c, s, readsOf K st.pos s⟩ : Event V) = raise W ⟨c, s, readsOf K sa.pos s⟩ := by
  unfold raise
  simp only [Event.mk.injEq, true_and]
  cases s with
  | none => rfl
  | some e' =>
    simp only [readsOf, List.map_map]
    apply List.map_congr_left
    intro k hk
    rw [List.mem_filter] at hk
    cases hKk : K k with
    | none => rw [hKk] at hk; simp at hk
    | some a =>
      rw [hKk] at hk
      obtain ⟨hK, c, hc⟩ := hl k (hs e' rfl k hk.1 ⟨a, hKk, hk.2⟩)
      simp only [Function.comp]
      rw [hr.pos k hK, sel_at (hr.s k hK) hc]
      rfl

/-- The events of an iteration. -/
theorem mergeCases_raise {st sa : St} (hr : Rel ks W st sa) {p : Point} {lat : List Point}
    (hid : getLoopLattice K lat = lat)
    (hl : ∀ k, .lev k ∈ p.iters → k ∈ ks ∧ ∃ c, load (W.acc k) (st.pos k) = some (.ok c))
    (hlat : ∀ q ∈ lat, ∀ x ∈ q.iters, x ∈ p.iters) {s : Option (Expr V)} {c : Nat}
    (hs : ∀ e', s = some e' → ∀ k ∈ e'.leaves, (∃ a, K k = some a ∧ a.posIter = true) → .lev k ∈ p.iters) :
    mergeCases K (view W) st c lat s = (mergeCases K (absInput W) sa c lat s).map (raise W) := by
  have hco : ∀ x ∈ p.iters, coordOf (view W) st x = coordOf (absInput W) sa x := by
    intro x hx
    cases x with
    | dim => simp [coordOf, hr.i]
    | lev k =>
      obtain ⟨hK, c, hc⟩ := hl k hx
      obtain ⟨h1, h2⟩ := rel_load hW hr hK hc
      rw [h1, h2]
  unfold mergeCases
  simp only
  rw [hid]
  split
  · rw [readsOf_raise hW hr hl hs]; rfl
  · have hfc : firstCase (caseMatches K (view W) st c) (exact K lat && decide (lat.length > 1)) lat =
        firstCase (caseMatches K (absInput W) sa c) (exact K lat && decide (lat.length > 1)) lat := by
      apply firstCase_congr
      intro q hq
      unfold caseMatches
      rw [Bool.eq_iff_iff, List.all_eq_true, List.all_eq_true]
      constructor
      · intro h x hx; rw [← hco x (hlat q hq x (rangers_sub hx))]; exact h x hx
      · intro h x hx; rw [hco x (hlat q hq x (rangers_sub hx))]; exact h x hx
    rw [hfc]
    cases hq : firstCase (caseMatches K (absInput W) sa c) (exact K lat && decide (lat.length > 1)) lat with
    | none => rfl
    | some q =>
      simp only [List.map_cons, List.map_nil]
      rw [readsOf_raise hW hr hl]
      intro e' he' k hk
      cases s with
      | none => cases he'
      | some e0 =>
        obtain ⟨h1, _⟩ := leaves_zeroOut he' k hk
        exact hs e0 rfl k h1

/-- Advancing the iterators of a point. -/
theorem rel_advance {st sa : St} (hr : Rel ks W st sa) {p : Point}
    (hl : ∀ k, .lev k ∈ p.iters → k ∈ ks ∧ ∃ c, load (W.acc k) (st.pos k) = some (.ok c))
    (c : Nat) : Rel ks W (advance K (view W) st c p) (advance K (absInput W) sa c p) ∧
      rest W ks (advance K (view W) st c p) ≤ rest W ks st := by
  -- what happens to a position
  have key : ∀ (f : Nat → Bool), (∀ k, f k = true → .lev k ∈ p.iters) → ∀ i j,
      j = i →
      Rel ks W ⟨fun k => if f k then st.pos k + 1 else st.pos k, i⟩
        ⟨fun k => if f k then sa.pos k + 1 else sa.pos k, j⟩ ∧
      rest W ks ⟨fun k => if f k then st.pos k + 1 else st.pos k, i⟩ ≤ rest W ks st := by
    intro f hf i j hij
    constructor
    · constructor
      · exact hij
      · intro k hk
        have := hr.s k hk
        show _ ≤ if f k then _ else _
        split <;> omega
      · intro k hk
        show (if f k then _ else _) ≤ _
        split
        · rename_i hfk
          obtain ⟨_, c, hc⟩ := hl k (hf k hfk)
          have := ((load_ok_iff (hW k hk) (hr.s k hk) c).1 hc).1
          omega
        · exact hr.e k hk
      · intro k hk w hw q x hq
        have hq : (if f k then st.pos k + 1 else st.pos k) ≤ q := hq
        refine hr.lo k hk w hw q x ?_
        split at hq <;> omega
      · intro k hk
        show (if f k then sa.pos k + 1 else sa.pos k) = cnt _ (if f k then st.pos k + 1 else st.pos k)
        cases hfk : f k with
        | false => simpa using hr.pos k hk
        | true =>
          obtain ⟨_, c, hc⟩ := hl k (hf k hfk)
          simp only [if_true]
          rw [cnt_succ _ (hr.s k hk), hr.pos k hk]
          simp [pick, hc]
    · apply sum_le
      intro k _
      simp only
      split <;> omega
  unfold advance
  split
  · have := key (fun _ => false) (by intro k hk; cases hk) (st.i + 1) (sa.i + 1) (by rw [hr.i])
    simpa using this
  · rename_i k0 hi
    have := key (fun k => decide (k = k0)) (by
      intro k hk
      have hk : k = k0 := by simpa using hk
      rw [hi, hk]; exact List.mem_cons_self) st.i sa.i hr.i
    have e1 : (fun j => if j = k0 then st.pos k0 + 1 else st.pos j) =
        fun k => if decide (k = k0) = true then st.pos k + 1 else st.pos k := by
      funext j; by_cases hj : j = k0 <;> simp [hj]
    have e2 : (fun j => if j = k0 then sa.pos k0 + 1 else sa.pos j) =
        fun k => if decide (k = k0) = true then sa.pos k + 1 else sa.pos k := by
      funext j; by_cases hj : j = k0 <;> simp [hj]
    rw [← e1, ← e2] at this
    exact this
  · have hmv : ∀ k, .lev k ∈ p.iters →
        (coordOf (view W) st (.lev k) == some c) = (coordOf (absInput W) sa (.lev k) == some c) := by
      intro k hk
      obtain ⟨hK, d, hd⟩ := hl k hk
      obtain ⟨h1, h2⟩ := rel_load hW hr hK hd
      rw [h1, h2]
    have := key (fun k => decide (.lev k ∈ p.iters) && (It.isFull K (.lev k) ||
        coordOf (absInput W) sa (.lev k) == some c)) (by
      intro k hk
      rw [Bool.and_eq_true] at hk
      exact of_decide_eq_true hk.1) (if .dim ∈ p.iters then st.i + 1 else st.i)
      (if .dim ∈ p.iters then sa.i + 1 else sa.i) (by rw [hr.i])
    have e1 : (fun j => if .lev j ∈ p.iters then incIter K (view W) st c j else st.pos j) =
        fun k => if (decide (.lev k ∈ p.iters) && (It.isFull K (.lev k) ||
        coordOf (absInput W) sa (.lev k) == some c)) = true then st.pos k + 1 else st.pos k := by
      funext j
      by_cases hj : It.lev j ∈ p.iters
      · simp only [hj, if_true, decide_true, Bool.true_and, incIter]
        rw [hmv j hj]
        cases It.isFull K (.lev j) <;> simp
      · simp [hj]
    have e2 : (fun j => if .lev j ∈ p.iters then incIter K (absInput W) sa c j else sa.pos j) =
        fun k => if (decide (.lev k ∈ p.iters) && (It.isFull K (.lev k) ||
        coordOf (absInput W) sa (.lev k) == some c)) = true then sa.pos k + 1 else sa.pos k := by
      funext j
      by_cases hj : It.lev j ∈ p.iters
      · simp only [hj, if_true, decide_true, Bool.true_and, incIter]
        cases It.isFull K (.lev j) <;> simp
      · simp [hj]
    rw [e1, e2]
    exact this

/-- The loop of one point: the windowed loop does what the loop over the selected coordinates does. -/
theorem while_sim {p : Point} {lat : List Point} {stmt : Option (Expr V)}
    (hne : p.iters ≠ []) (hid : getLoopLattice K lat = lat)
    (hm2 : ∀ x, p.iters = [x] → p.mergers K = [x])
    (hK : ∀ k, .lev k ∈ p.iters → k ∈ ks)
    (hrg : ∀ k, .lev k ∈ p.iters → .lev k ∈ p.rangers K)
    (hlat : ∀ q ∈ lat, ∀ x ∈ q.iters, x ∈ p.iters)
    (hs : ∀ e', stmt = some e' → ∀ k ∈ e'.leaves, (∃ a, K k = some a ∧ a.posIter = true) → .lev k ∈ p.iters) :
    ∀ (F f z : Nat) (st sa : St) (out : Out V), Rel ks W st sa →
      runWhile K (absInput W) lat p stmt f sa = some out → f + rest W ks st + 1 + z ≤ F →
      ∃ outW, runWhileW K W lat p stmt F st = some outW ∧ Rel ks W outW.st out.st ∧
        out.fuel + rest W ks outW.st + z ≤ outW.fuel ∧ outW.evs = out.evs.map (raise W) := by
  intro F
  induction F with
  | zero => intro f z st sa out _ _ hF; omega
  | succ F ih =>
    intro f z st sa out hr hrun hF
    rw [runWhileW]
    cases hu : unexhausted (view W) st (p.rangers K) with
    | false =>
      have ha := exhausted_of hW hr (fun k hk => hK k (rangers_sub hk)) hu
      have hout : out = ⟨sa, f, []⟩ := by
        cases f <;> (rw [runWhile, ha] at hrun; simpa using hrun.symm)
      subst hout
      exact ⟨_, rfl, hr, by show f + rest W ks st + z ≤ F + 1; omega, rfl⟩
    | true =>
      simp only [if_true]
      have hb : ∀ k, .lev k ∈ p.iters → k ∈ ks ∧ st.pos k < (W.acc k).e := by
        intro k hk
        refine ⟨(hK k hk), ?_⟩
        unfold unexhausted at hu
        rw [List.all_eq_true] at hu
        have := hu _ (hrg k hk)
        simp only [decide_eq_true_eq] at this
        rwa [view_length (hW k (hK k hk)).len] at this
      rcases header_cases hW hr hne (fun x hx => mergers_sub hx) hm2 hb with
        ⟨h1, h2⟩ | ⟨k, hk, h1, h2⟩ | ⟨k, hk, h1, h2⟩
      · -- an iteration of both
        rw [h1]
        simp only
        have hl : ∀ k, .lev k ∈ p.iters → k ∈ ks ∧
            ∃ c, load (W.acc k) (st.pos k) = some (.ok c) := fun k hk => ⟨(hK k hk), h2 k hk⟩
        have ha := unexhausted_of_loads hW hr (fun k hk => hl k (rangers_sub hk)) hu
        have hco : ∀ x ∈ p.iters, coordOf (view W) st x = coordOf (absInput W) sa x := by
          intro x hx
          cases x with
          | dim => simp [coordOf, hr.i]
          | lev k =>
            obtain ⟨hKk, c, hc⟩ := hl k hx
            obtain ⟨q1, q2⟩ := rel_load hW hr hKk hc
            rw [q1, q2]
        cases f with
        | zero => rw [runWhile, ha] at hrun; simp at hrun
        | succ f =>
          rw [runWhile, ha] at hrun
          simp only [if_true] at hrun
          split at hrun
          · rw [resolve_congr (fun x hx => hco x (mergers_sub hx))]
            cases hres : resolve (absInput W) sa (p.mergers K) with
            | none => rw [hres] at hrun; cases hrun
            | some c =>
              rw [hres] at hrun
              simp only at hrun ⊢
              cases hrec : runWhile K (absInput W) lat p stmt f (advance K (absInput W) sa c p) with
              | none => rw [hrec] at hrun; cases hrun
              | some out' =>
                rw [hrec] at hrun
                simp only [Option.some.injEq] at hrun
                obtain ⟨hr', hle⟩ := rel_advance hW hr hl c
                obtain ⟨outW, w1, w2, w3, w4⟩ := ih f z _ _ out' hr' hrec (by omega)
                rw [w1]
                subst hrun
                refine ⟨_, rfl, w2, w3, ?_⟩
                simp only
                rw [mergeCases_raise hW hr hid hl hlat hs, w4, List.map_append]
          · cases hrun
      · -- a skipped position
        rw [h1]
        simp only
        have hr' := rel_skip hr (hK k hk) h2
        have := rest_skip (hK k hk) (hb k hk).2
        exact ih f z _ sa out hr' hrun (by omega)
      · -- the end of a window
        rw [h1]
        simp only
        have hc := cnt_stop (hW k (hK k hk)) (hr.s k (hK k hk)) h2
          (fun w hw x hx => hr.lo k (hK k hk) w hw _ x (Nat.le_refl _) (hb k hk).2 hx)
        have ha : unexhausted (absInput W) sa (p.rangers K) = false := by
          cases ha : unexhausted (absInput W) sa (p.rangers K) with
          | false => rfl
          | true =>
            unfold unexhausted at ha
            rw [List.all_eq_true] at ha
            have := ha _ (hrg k hk)
            simp only [decide_eq_true_eq] at this
            rw [hr.pos k (hK k hk), hc] at this
            simp [absInput] at this
        have hout : out = ⟨sa, f, []⟩ := by
          cases f <;> (rw [runWhile, ha] at hrun; simpa using hrun.symm)
        subst hout
        exact ⟨_, rfl, hr, by show f + rest W ks st + z ≤ F; omega, rfl⟩

end sim

end Verif.Window
