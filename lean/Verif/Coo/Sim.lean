import Verif.Coo.Lemmas
import Verif.Window.Sim
import Verif.Window.Forall
/-! The merge loops over runs of equal coordinates simulate the merge loops over the distinct coordinates. -/
namespace Verif.Coo
open Verif.Merge Verif.Merge.Expr
open Verif.Window (resolve_congr firstCase_congr rangers_sub mergers_sub firstCase_mem leaf_mem_iters)

variable {V : Type}

/-- The segments of the compressed accesses are ordered lists of coordinates of the dimension, without
repetition where the level is unique. -/
def InputC (K : Ctx) (W : CInput) : Prop :=
  ∀ k, K k = some compressedAttr → ordered (W.uniq k) (W.crd k) ∧ ∀ x ∈ W.crd k, x < W.n

/-- The distinct coordinates. -/
def dedup (W : CInput) : Input := ⟨fun k => (runs (W.crd k)).map Prod.fst, W.n⟩

theorem ordered_le {u : Bool} {l : List Nat} (h : ordered u l) : l.Pairwise (· ≤ ·) := by
  unfold ordered at h
  split at h
  · exact h.imp (fun hab => Nat.le_of_lt hab)
  · exact h

theorem dedup_ok {K : Ctx} {W : CInput} (hW : InputC K W) : InputOK K (dedup W) := by
  intro k hk
  obtain ⟨h1, h2⟩ := hW k hk
  exact ⟨runs_sorted (ordered_le h1), fun x hx => h2 x (mem_runs.1 hx)⟩

/-- The state over runs stands at the start of the run at which the state over distinct coordinates stands. -/
structure Rel (K : Ctx) (W : CInput) (st sa : St) : Prop where
  i : sa.i = st.i
  pos : ∀ k, K k = some compressedAttr → st.pos k = off (runs (W.crd k)) (sa.pos k)

/-- The end of the run that a read uses. -/
def endOf (W : CInput) (c k j : Nat) : Nat :=
  if W.uniq k then off (runs (W.crd k)) j + 1
  else if ((dedup W).crd k)[j]? = some c then off (runs (W.crd k)) (j + 1) else off (runs (W.crd k)) j

/-- A read of a distinct coordinate as a read of its run. -/
def raise (W : CInput) (always : Bool) (ev : Event V) : CEvent V :=
  ⟨ev.coord, ev.stmt, always, ev.reads.map (fun kq => (kq.1, off (runs (W.crd kq.1)) kq.2, endOf W ev.coord kq.1 kq.2))⟩

section sim
variable {K : Ctx} {W : CInput} (hW : InputC K W)
include hW

theorem rel_coord {st sa : St} (hr : Rel K W st sa) {k : Nat} (hk : K k = some compressedAttr) :
    coordOf W.plain st (.lev k) = coordOf (dedup W) sa (.lev k) := by
  simp only [coordOf, CInput.plain, dedup]
  rw [hr.pos k hk, ← get_off (runs_pos _), expand_runs]

theorem rel_len {st sa : St} (hr : Rel K W st sa) {k : Nat} (hk : K k = some compressedAttr) :
    st.pos k < (W.crd k).length ↔ sa.pos k < ((dedup W).crd k).length := by
  have := rel_coord hW hr hk
  simp only [coordOf, CInput.plain] at this
  have h1 : st.pos k < (W.crd k).length ↔ ((W.crd k)[st.pos k]?).isSome := by simp
  have h2 : sa.pos k < ((dedup W).crd k).length ↔ (((dedup W).crd k)[sa.pos k]?).isSome := by simp
  rw [h1, h2, this]

theorem rel_unexhausted {st sa : St} (hr : Rel K W st sa) {rs : List It}
    (hl : ∀ k, .lev k ∈ rs → K k = some compressedAttr) :
    unexhausted W.plain st rs = unexhausted (dedup W) sa rs := by
  unfold unexhausted
  have key : ∀ (rs : List It), (∀ k, .lev k ∈ rs → K k = some compressedAttr) →
      rs.all (fun x => match x with
        | It.dim => decide (st.i < W.plain.n)
        | It.lev k => decide (st.pos k < (W.plain.crd k).length)) = rs.all (fun x => match x with
        | It.dim => decide (sa.i < (dedup W).n)
        | It.lev k => decide (sa.pos k < ((dedup W).crd k).length)) := by
    intro rs
    induction rs with
    | nil => intro _; rfl
    | cons x xs ih =>
      intro hl
      rw [List.all_cons, List.all_cons, ih (fun k hk => hl k (List.mem_cons_of_mem _ hk))]
      congr 1
      cases x with
      | dim => show decide (st.i < W.n) = decide (sa.i < W.n); rw [hr.i]
      | lev k => exact decide_eq_decide.2 (rel_len hW hr (hl k List.mem_cons_self))
  exact key rs hl

theorem rel_coordOf {st sa : St} (hr : Rel K W st sa) {x : It}
    (hl : ∀ k, x = .lev k → K k = some compressedAttr) :
    coordOf W.plain st x = coordOf (dedup W) sa x := by
  cases x with
  | dim => simp [coordOf, hr.i]
  | lev k => exact rel_coord hW hr (hl k rfl)

theorem rel_loads {st sa : St} (hr : Rel K W st sa) {p : Point}
    (hl : ∀ k, .lev k ∈ p.iters → K k = some compressedAttr) :
    loadsOk W.plain st p = loadsOk (dedup W) sa p := by
  unfold loadsOk
  rw [Bool.eq_iff_iff, List.all_eq_true, List.all_eq_true]
  constructor <;> intro h x hx <;> have := h x hx
  · rwa [rel_coordOf hW hr (fun k hk => hl k (hk ▸ hx))] at this
  · rwa [rel_coordOf hW hr (fun k hk => hl k (hk ▸ hx))]

/-- The end of a run. -/
theorem segend_spec {st sa : St} (hr : Rel K W st sa) {k c : Nat} (hk : K k = some compressedAttr)
    {always : Bool} (ha : always = true → coordOf (dedup W) sa (.lev k) = some c) :
    segend always W st c k =
      if ((dedup W).crd k)[sa.pos k]? = some c then off (runs (W.crd k)) (sa.pos k + 1)
      else off (runs (W.crd k)) (sa.pos k) := by
  have hs := runs_sorted (ordered_le (hW k hk).1)
  have hp := runs_pos (W.crd k)
  unfold segend
  cases always with
  | false =>
    simp only [Bool.false_eq_true, if_false]
    have := skipEqual_off hp hs (sa.pos k) c
    rw [expand_runs] at this
    rw [hr.pos k hk, this]
    rfl
  | true =>
    simp only [if_true]
    have hc := ha rfl
    simp only [coordOf] at hc
    rw [if_pos hc, hr.pos k hk]
    have := skipEqual_off_succ hp hs hc
    rw [expand_runs] at this
    exact this

/-- The positions read. -/
theorem readsC_raise {st sa : St} (hin : InTree K) (hr : Rel K W st sa) {c : Nat} {always : Bool}
    {s : Option (Expr V)}
    (ha : always = true → ∀ e', s = some e' → ∀ k ∈ e'.leaves, K k = some compressedAttr →
      coordOf (dedup W) sa (.lev k) = some c) :
    (⟨c, s, always, readsC K always W st c s⟩ : CEvent V) = raise W always ⟨c, s, readsOf K sa.pos s⟩ := by
  unfold raise
  simp only [CEvent.mk.injEq, true_and]
  cases s with
  | none => rfl
  | some e' =>
    simp only [readsOf, readsC, List.map_map]
    apply List.map_congr_left
    intro k hk
    rw [List.mem_filter] at hk
    cases hKk : K k with
    | none => rw [hKk] at hk; simp at hk
    | some a =>
      rw [hKk] at hk
      rcases hin k a hKk with rfl | rfl
      · cases hk.2
      · simp only [Function.comp, endOf]
        rw [hr.pos k hKk, ← segend_spec hW hr hKk (fun h => ha h e' rfl k hk.1 hKk)]

theorem mergeCasesC_raise {st sa : St} (hin : InTree K) (hr : Rel K W st sa) {p : Point} {lat : List Point}
    (hid : getLoopLattice K lat = lat)
    (hl : ∀ k, .lev k ∈ p.iters → K k = some compressedAttr)
    (hlat : ∀ q ∈ lat, ∀ x ∈ q.iters, x ∈ p.iters) {s : Option (Expr V)} {c : Nat} {always : Bool}
    (hs : always = true → ∀ e', s = some e' → ∀ k ∈ e'.leaves, K k = some compressedAttr →
      coordOf (dedup W) sa (.lev k) = some c) :
    mergeCasesC K always W st c lat s = (mergeCases K (dedup W) sa c lat s).map (raise W always) := by
  unfold mergeCases mergeCasesC
  simp only
  rw [hid]
  split
  · rw [readsC_raise hW hin hr hs]; rfl
  · have hfc : firstCase (caseMatches K W.plain st c) (exact K lat && decide (lat.length > 1)) lat =
        firstCase (caseMatches K (dedup W) sa c) (exact K lat && decide (lat.length > 1)) lat := by
      apply firstCase_congr
      intro q hq
      unfold caseMatches
      have hco : ∀ x ∈ q.rangers K, coordOf W.plain st x = coordOf (dedup W) sa x := by
        intro x hx
        refine rel_coordOf hW hr (fun k hk => hl k ?_)
        rw [← hk]; exact hlat q hq x (rangers_sub hx)
      rw [Bool.eq_iff_iff, List.all_eq_true, List.all_eq_true]
      constructor
      · intro h x hx; rw [← hco x hx]; exact h x hx
      · intro h x hx; rw [hco x hx]; exact h x hx
    rw [hfc]
    cases hq : firstCase (caseMatches K (dedup W) sa c) (exact K lat && decide (lat.length > 1)) lat with
    | none => rfl
    | some q =>
      simp only [List.map_cons, List.map_nil]
      rw [readsC_raise hW hin hr]
      intro hal e' he' k hk
      cases s with
      | none => cases he'
      | some e0 =>
        obtain ⟨h1, _⟩ := leaves_zeroOut he' k hk
        exact hs hal e0 rfl k h1

/-- A unique level advances by one, a level that is not unique to the end of its run. -/
theorem rel_step {st sa : St} (hr : Rel K W st sa) {k c : Nat} (hk : K k = some compressedAttr)
    {always : Bool} (ha : always = true → coordOf (dedup W) sa (.lev k) = some c)
    (hco : coordOf (dedup W) sa (.lev k) = some c) :
    (if W.uniq k then st.pos k + 1 else segend always W st c k) = off (runs (W.crd k)) (sa.pos k + 1) := by
  have hco' := hco
  simp only [coordOf] at hco'
  cases hu : W.uniq k with
  | false =>
    simp only [Bool.false_eq_true, if_false]
    rw [segend_spec hW hr hk ha, if_pos hco']
  | true =>
    simp only [if_true]
    have hord := (hW k hk).1
    rw [hu] at hord
    have hru := runs_unique (l := W.crd k) (by simpa [ordered] using hord)
    simp only [dedup, List.getElem?_map] at hco'
    cases hR : (runs (W.crd k))[sa.pos k]? with
    | none => rw [hR] at hco'; cases hco'
    | some r =>
      rw [off_succ hR, hr.pos k hk]
      have := List.mem_of_getElem? hR
      rw [hru, List.mem_map] at this
      obtain ⟨x, _, rfl⟩ := this
      rfl

theorem rel_advance {st sa : St} (hin : InTree K) (hr : Rel K W st sa) {p : Point} {c : Nat} {always : Bool}
    (hl : ∀ k, .lev k ∈ p.iters → K k = some compressedAttr)
    (ha : always = true → ∀ k, .lev k ∈ p.iters → coordOf (dedup W) sa (.lev k) = some c)
    (hsing : ∀ k, p.iters = [.lev k] → coordOf (dedup W) sa (.lev k) = some c) :
    Rel K W (advanceC K always W st c p) (advance K (dedup W) sa c p) := by
  have gen : Rel K W
      ⟨fun j => if .lev j ∈ p.iters then
          (if W.uniq j then incIter K W.plain st c j else segend always W st c j) else st.pos j,
        if .dim ∈ p.iters then st.i + 1 else st.i⟩
      ⟨fun j => if .lev j ∈ p.iters then incIter K (dedup W) sa c j else sa.pos j,
        if .dim ∈ p.iters then sa.i + 1 else sa.i⟩ := by
    refine ⟨by simp [hr.i], ?_⟩
    intro k hk
    simp only
    split
    · rename_i hmem
      have hfull : It.isFull K (.lev k) = false := by
        simp [It.isFull, hk, compressedAttr]
      have hco := rel_coord hW hr hk
      simp only [incIter, hfull, Bool.false_eq_true, if_false]
      by_cases hc : coordOf (dedup W) sa (.lev k) = some c
      · have := rel_step hW hr hk (fun h => ha h k hmem) hc
        rw [hco, hc]
        simpa using this
      · have hb : (coordOf (dedup W) sa (.lev k) == some c) = false := by simpa using hc
        rw [hco, hb]
        simp only [Bool.false_eq_true, if_false]
        split
        · exact hr.pos k hk
        · rw [segend_spec hW hr hk (fun h => ha h k hmem), if_neg (by simpa [coordOf] using hc)]
    · exact hr.pos k hk
  unfold advanceC advance
  match hi : p.iters with
  | [] => rw [hi] at gen; exact gen
  | [.dim] => exact ⟨by simp [hr.i], hr.pos⟩
  | [.lev k0] =>
    refine ⟨hr.i, ?_⟩
    intro k hk
    simp only
    split
    · rename_i hkk
      subst hkk
      exact rel_step hW hr hk (fun h => ha h k (by rw [hi]; exact List.mem_cons_self)) (hsing k hi)
    · exact hr.pos k hk
  | x :: y :: zs => rw [hi] at gen; cases x <;> exact gen

/-- The loop of one point. -/
theorem while_sim (hin : InTree K) {p : Point} {lat : List Point} {stmt : Option (Expr V)}
    (hid : getLoopLattice K lat = lat)
    (hm2 : ∀ x, p.iters = [x] → p.mergers K = [x])
    (hal : alwaysReduce K p = true → ∃ k, p.iters = [.lev k])
    (hl : ∀ k, .lev k ∈ p.iters → K k = some compressedAttr)
    (hlat : ∀ q ∈ lat, ∀ x ∈ q.iters, x ∈ p.iters)
    (hs : ∀ e', stmt = some e' → ∀ k ∈ e'.leaves, (∃ a, K k = some a ∧ a.posIter = true) → .lev k ∈ p.iters) :
    ∀ (f : Nat) (st sa : St) (out : Out V), Rel K W st sa →
      runWhile K (dedup W) lat p stmt f sa = some out →
      ∃ stW, runWhileC K W lat p stmt f st =
        some ⟨stW, out.fuel, out.evs.map (raise W (alwaysReduce K p))⟩ ∧ Rel K W stW out.st := by
  intro f
  induction f with
  | zero =>
    intro st sa out hr hrun
    rw [runWhile] at hrun
    rw [runWhileC, rel_unexhausted hW hr (fun k hk => hl k (rangers_sub hk))]
    split at hrun
    · cases hrun
    · rename_i hu
      cases hrun
      rw [if_neg hu]
      exact ⟨st, rfl, hr⟩
  | succ f ih =>
    intro st sa out hr hrun
    rw [runWhile] at hrun
    rw [runWhileC, rel_unexhausted hW hr (fun k hk => hl k (rangers_sub hk)), rel_loads hW hr hl]
    split at hrun
    · rename_i hu
      rw [if_pos hu]
      split at hrun
      · rename_i hlo
        rw [if_pos hlo]
        have hres : resolve W.plain st (p.mergers K) = resolve (dedup W) sa (p.mergers K) :=
          resolve_congr (fun x hx => rel_coordOf hW hr (fun k hk => hl k (by rw [← hk]; exact mergers_sub hx)))
        rw [hres]
        cases hc : resolve (dedup W) sa (p.mergers K) with
        | none => rw [hc] at hrun; cases hrun
        | some c =>
          rw [hc] at hrun
          simp only at hrun ⊢
          have hsing : ∀ k, p.iters = [.lev k] → coordOf (dedup W) sa (.lev k) = some c := by
            intro k hk
            rw [hm2 _ hk] at hc
            exact hc
          have ha : alwaysReduce K p = true → ∀ k, .lev k ∈ p.iters → coordOf (dedup W) sa (.lev k) = some c := by
            intro h k hk
            obtain ⟨k0, hk0⟩ := hal h
            rw [hk0, List.mem_singleton] at hk
            cases hk
            exact hsing k hk0
          rw [mergeCasesC_raise hW hin hr hid hl hlat (fun h e' he' k hk hK =>
            ha h k (hs e' he' k hk ⟨_, hK, rfl⟩))]
          cases hrec : runWhile K (dedup W) lat p stmt f (advance K (dedup W) sa c p) with
          | none => rw [hrec] at hrun; cases hrun
          | some out' =>
            rw [hrec] at hrun
            simp only [Option.some.injEq] at hrun
            subst hrun
            obtain ⟨stW, h1, h2⟩ := ih _ _ out' (rel_advance hW hin hr hl ha hsing) hrec
            rw [h1]
            exact ⟨stW, by simp, h2⟩
      · cases hrun
    · rename_i hu
      rw [if_neg hu]
      cases hrun
      exact ⟨st, rfl, hr⟩

end sim

/-- An event without its flag: how the deduplication loop starts does not matter to what it reads. -/
def CEvent.plain (ev : CEvent V) : Nat × Option (Expr V) × List (Nat × Nat × Nat) := (ev.coord, ev.stmt, ev.reads)

theorem raise_plain (W : CInput) (a b : Bool) (ev : Event V) : (raise W a ev).plain = (raise W b ev).plain := rfl

section
variable {K : Ctx} {e : Expr V} {L : List Point} (hin : InTree K) (h : LoopOK K e L) {W : CInput}
  (hW : InputC K W)
include hin h hW

theorem points_sim : ∀ (ps : List Point), (∀ p ∈ ps, p ∈ L) →
    ∀ (f : Nat) (st sa : St) (evs : List (Event V)), Rel K W st sa →
      runPoints K (dedup W) L e f ps sa = some evs →
      ∃ evsC, runPointsC K W L e f ps st = some evsC ∧
        evsC.map CEvent.plain = evs.map (fun ev => (raise W false ev).plain) := by
  intro ps
  induction ps with
  | nil =>
    intro _ f st sa evs _ hrun
    rw [runPoints] at hrun
    cases hrun
    exact ⟨[], rfl, rfl⟩
  | cons p ps ih =>
    intro hps f st sa evs hr hrun
    have hp := hps p List.mem_cons_self
    obtain ⟨qs, hqs⟩ := h.sub_front hp
    unfold runPoints at hrun
    simp only at hrun
    unfold runPointsC
    rw [hqs] at hrun ⊢
    simp only at hrun ⊢
    rw [← hqs] at hrun ⊢
    cases hw : runWhile K (dedup W) (subLattice L p) p (e.zeroOut (exhausted L p)) f sa with
    | none => rw [hw] at hrun; cases hrun
    | some out =>
      rw [hw] at hrun
      simp only at hrun
      have hm2 : ∀ x, p.iters = [x] → p.mergers K = [x] := by
        intro x hx
        cases x with
        | dim => exact mergers_dim h hp (by rw [hx]; exact List.mem_cons_self)
        | lev k => rw [mergers_nodim h hp (by rw [hx]; simp)]; exact hx
      obtain ⟨stW, w1, w2⟩ := while_sim hW hin (p := p) (lat := subLattice L p)
        (stmt := e.zeroOut (exhausted L p))
        (getLoopLattice_id h List.filter_sublist)
        hm2
        (by
          intro ha
          unfold alwaysReduce at ha
          split at ha
          · rename_i k hk
            by_cases hd : It.dim ∈ p.iters
            · rw [mergers_dim h hp hd] at hk; cases hk
            · rw [mergers_nodim h hp hd] at hk; exact ⟨k, hk⟩
          · cases ha)
        (fun k hk => (h.iters p hp k hk).2)
        (fun q hq x hx => (mem_subLattice.1 hq).2 hx)
        (fun e' he' k hk ha => leaf_mem_iters hin h hp he' hk ha)
        f st sa out hr hw
      rw [w1]
      simp only
      cases hrec : runPoints K (dedup W) L e out.fuel ps out.st with
      | none => rw [hrec] at hrun; cases hrun
      | some evs' =>
        rw [hrec] at hrun
        simp only [Option.some.injEq] at hrun
        obtain ⟨evsC, h1, h2⟩ := ih (fun q hq => hps q (List.mem_cons_of_mem _ hq)) out.fuel _ _ evs' w2 hrec
        rw [h1]
        refine ⟨_, rfl, ?_⟩
        rw [← hrun, List.map_append, List.map_append, h2, List.map_map]
        rfl

end
end Verif.Coo
