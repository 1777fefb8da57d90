import Verif.Query.Model
import Verif.EndToEnd.Step
/-! The loops of the query visit the same coordinates as the loops of the computation. -/
namespace Verif.Query
open Verif.Merge
open Verif.Merge.Expr
open Verif.EndToEnd

variable {V : Type}

/-! ### Without the test -/

theorem mergeCasesG_false (K : Ctx) (I : Input) (st : St) (c : Nat) (lat : List Point) (stmt : Option (Expr V)) :
    mergeCasesG (fun _ => false) K I st c lat stmt = mergeCases K I st c lat stmt := by
  unfold mergeCasesG
  rw [if_neg]
  rintro ⟨_, _, h⟩
  cases stmt <;> cases h

theorem runWhileG_false (K : Ctx) (I : Input) (lat : List Point) (p : Point) (stmt : Option (Expr V)) :
    ∀ (fuel : Nat) (st : St), runWhileG (fun _ => false) K I lat p stmt fuel st = runWhile K I lat p stmt fuel st := by
  intro fuel
  induction fuel with
  | zero => intro st; rfl
  | succ fuel ih =>
    intro st
    simp only [runWhileG, runWhile, mergeCasesG_false, ih]
    rfl

theorem runPointsG_false (K : Ctx) (I : Input) (lat : List Point) (stmt : Expr V) : ∀ (ps : List Point) (fuel : Nat) (st : St),
    runPointsG (fun _ => false) K I lat stmt fuel ps st = runPoints K I lat stmt fuel ps st := by
  intro ps
  induction ps with
  | nil => intro fuel st; rfl
  | cons p ps ih =>
    intro fuel st
    simp only [runPointsG, runPoints, runWhileG_false, ih]
    rfl

theorem runForall_many {K : Ctx} {srt : List Point → List Point} {I : Input} {fuel : Nat} {e : Expr V} {a b : It} {l : List It}
    (h : latIters (makeLattice K srt e) = a :: b :: l) : runForall K srt I fuel e =
      runPoints K I (makeLattice K srt e) e fuel (getLoopLattice K (makeLattice K srt e)) ⟨fun _ => 0, 0⟩ := by
  unfold runForall
  simp only
  rw [h]
  cases a <;> rfl

theorem runForallG_false (K : Ctx) (srt : List Point → List Point) (I : Input) (fuel : Nat) (e : Expr V) :
    runForallG (fun _ => false) K srt I fuel e = runForall K srt I fuel e := by
  unfold runForallG
  split
  · rename_i a b l h
    rw [runPointsG_false, runForall_many h]
  · rfl

/-! ### With the test -/

/-- The points of a sublattice of a loop lattice. -/
structure SubOK (K : Ctx) (L : List Point) : Prop where
  nodup : ∀ p ∈ L, p.iters.Nodup
  full : ∀ p ∈ L, ∀ x ∈ p.iters, x.isFull K = true → x = .dim

theorem removeIdentical_sub : ∀ (ps : List Point) (seen : List (List It)), ∀ p ∈ removeIdentical seen ps, p ∈ ps := by
  intro ps
  induction ps with
  | nil => intro seen p hp; exact hp
  | cons q ps ih =>
    intro seen p hp
    simp only [removeIdentical] at hp
    split at hp
    · exact List.mem_cons_of_mem _ (ih _ p hp)
    · rcases List.mem_cons.1 hp with rfl | hp
      · exact List.mem_cons_self
      · exact List.mem_cons_of_mem _ (ih _ p hp)

theorem getLoopLattice_sub {K : Ctx} {L : List Point} : ∀ p ∈ getLoopLattice K L, p ∈ L := by
  intro p hp
  exact (List.mem_filter.1 (removeIdentical_sub _ _ p hp)).1

theorem getLoopLattice_ne {K : Ctx} {L : List Point} (h : L ≠ []) : getLoopLattice K L ≠ [] := by
  cases L with
  | nil => exact absurd rfl h
  | cons p ps =>
    unfold getLoopLattice
    have : removeLackFull K (p :: ps) = p :: ps.filter (fun q => (((latIters (p :: ps)).filter (fun x => x.isFull K)).all (fun x => x ∈ q.iters))) := by
      unfold removeLackFull
      rw [List.filter_cons, if_pos]
      rw [List.all_eq_true]
      intro x hx
      exact decide_eq_true (List.mem_filter.1 hx).1
    rw [this]
    simp [removeIdentical, containsSet]

/-- An exact loop lattice whose first point has several iterators has several points. -/
theorem exact_many {K : Ctx} {L : List Point} (h : SubOK K L) (hne : L ≠ []) (hex : exact K L = true)
    (hlen : (latIters L).length ≠ 1) (hne' : latIters L ≠ []) : L.length > 1 := by
  match L, hne with
  | [p], _ =>
    exfalso
    change p.iters.length ≠ 1 at hlen
    change p.iters ≠ [] at hne'
    have h2 : ∃ a b l, p.iters = a :: b :: l := by
      match hp : p.iters with
      | [] => exact absurd hp hne'
      | [_] => rw [hp] at hlen; exact absurd rfl hlen
      | a :: b :: l => exact ⟨a, b, l, rfl⟩
    obtain ⟨a, b, l, hp⟩ := h2
    unfold exact at hex
    split at hex
    · cases hex
    · split at hex
      · rename_i hf
        simp only [List.any_cons, List.any_nil, Bool.or_false, List.all_eq_true] at hf
        have hnd := h.nodup p (by simp)
        rw [hp] at hnd hf
        have ha := h.full p (by simp) a (by rw [hp]; simp) (hf a (by simp))
        have hb := h.full p (by simp) b (by rw [hp]; simp) (hf b (by simp))
        subst ha; subst hb
        simp at hnd
      · rw [List.all_eq_true] at hex
        have := hex a (by show a ∈ p.iters; rw [hp]; simp)
        simp [hp] at this
  | _ :: _ :: _, _ => simp

/-- What the test changes in the events of one iteration: nothing but the statement, which is then the one before rewriting. -/
structure SameVisits (e : Expr V) (evs evsG : List (Event V)) : Prop where
  coords : evsG.map Event.coord = evs.map Event.coord
  stmts : ∀ ev ∈ evsG, ∃ z, ev.stmt = e.zeroOut z
  defined : (∀ ev ∈ evs, ev.stmt ≠ none) → ∀ ev ∈ evsG, ev.stmt ≠ none

theorem SameVisits.append {e : Expr V} {a b a' b' : List (Event V)} (h : SameVisits e a a') (h' : SameVisits e b b') :
    SameVisits e (a ++ b) (a' ++ b') := by
  refine ⟨by rw [List.map_append, List.map_append, h.coords, h'.coords], ?_, ?_⟩
  · intro ev hev
    rcases List.mem_append.1 hev with h1 | h1
    · exact h.stmts ev h1
    · exact h'.stmts ev h1
  · intro hd ev hev
    rcases List.mem_append.1 hev with h1 | h1
    · exact h.defined (fun x hx => hd x (List.mem_append_left _ hx)) ev h1
    · exact h'.defined (fun x hx => hd x (List.mem_append_right _ hx)) ev h1

theorem mergeCases_stmts {e : Expr V} (K : Ctx) (I : Input) (st : St) (c : Nat) (lat : List Point) (z : Nat → Bool) :
    ∀ ev ∈ mergeCases K I st c lat (e.zeroOut z), ∃ z', ev.stmt = e.zeroOut z' := by
  intro ev hev
  unfold mergeCases at hev
  simp only at hev
  split at hev
  · rw [List.mem_singleton] at hev; subst hev; exact ⟨z, rfl⟩
  · split at hev
    · cases hev
    · rw [List.mem_singleton] at hev; subst hev
      exact ⟨_, zeroOutOpt_zeroOut _ _ _⟩

theorem mergeCasesG_same {rt : Expr V → Bool} {e : Expr V} (K : Ctx) (I : Input) (st : St) (c : Nat) {lat : List Point} (z : Nat → Bool)
    (hok : SubOK K lat) (hne : lat ≠ []) (hit : ∀ p ∈ lat, p.iters ≠ []) :
    SameVisits e (mergeCases K I st c lat (e.zeroOut z)) (mergeCasesG rt K I st c lat (e.zeroOut z)) := by
  unfold mergeCasesG
  simp only
  split
  · rename_i h
    obtain ⟨h1, h2, h3⟩ := h
    have hLne := getLoopLattice_ne (K := K) hne
    have hsub : SubOK K (getLoopLattice K lat) := ⟨fun p hp => hok.nodup p (getLoopLattice_sub p hp),
      fun p hp => hok.full p (getLoopLattice_sub p hp)⟩
    have hi : latIters (getLoopLattice K lat) ≠ [] := by
      cases hL : getLoopLattice K lat with
      | nil => exact absurd hL hLne
      | cons p ps => exact hit p (getLoopLattice_sub p (by rw [hL]; simp))
    have hmany := exact_many hsub hLne h2 h1 hi
    have hfc : ∀ (m : Point → Bool) (l : List Point), l ≠ [] → firstCase m true l ≠ none := by
      intro m l
      induction l with
      | nil => intro h; exact absurd rfl h
      | cons a l ih =>
        intro _
        cases l with
        | nil => simp [firstCase]
        | cons b l =>
          simp only [firstCase]
          split
          · simp
          · exact ih (by simp)
    have hmc : mergeCases K I st c lat (e.zeroOut z) ≠ [] ∧ ∀ ev ∈ mergeCases K I st c lat (e.zeroOut z), ev.coord = c ∧
        ∃ z', ev.stmt = zeroOutOpt z' (e.zeroOut z) := by
      unfold mergeCases
      simp only
      rw [if_neg h1]
      have hd : decide ((getLoopLattice K lat).length > 1) = true := by simpa using hmany
      rw [h2, hd]
      split
      · rename_i hn
        exact absurd hn (hfc _ _ hLne)
      · refine ⟨by simp, ?_⟩
        intro ev hev
        rw [List.mem_singleton] at hev
        subst hev
        exact ⟨rfl, _, rfl⟩
    have hone : (mergeCases K I st c lat (e.zeroOut z)).map Event.coord = [c] := by
      have hl : (mergeCases K I st c lat (e.zeroOut z)).length ≤ 1 := by
        unfold mergeCases
        simp only
        split
        · simp
        · split <;> simp
      match hm : mergeCases K I st c lat (e.zeroOut z) with
      | [] => exact absurd hm hmc.1
      | [ev] => have := (hmc.2 ev (by rw [hm]; simp)).1; simp [this]
      | _ :: _ :: _ => rw [hm] at hl; simp at hl
    refine ⟨by rw [hone]; rfl, ?_, ?_⟩
    · intro ev hev
      rw [List.mem_singleton] at hev
      subst hev
      exact ⟨z, rfl⟩
    · intro hd ev hev
      rw [List.mem_singleton] at hev
      subst hev
      simp only
      intro hn
      match hm : mergeCases K I st c lat (e.zeroOut z) with
      | [] => exact hmc.1 hm
      | ev' :: l =>
        have hin : ev' ∈ mergeCases K I st c lat (e.zeroOut z) := by rw [hm]; simp
        obtain ⟨_, z', hz'⟩ := hmc.2 ev' hin
        apply hd ev' hin
        rw [hz', hn]; rfl
  · exact ⟨rfl, mergeCases_stmts K I st c lat z, fun h => h⟩

theorem runWhileG_same {rt : Expr V → Bool} {e : Expr V} (K : Ctx) (I : Input) {lat : List Point} (p : Point) (z : Nat → Bool)
    (hok : SubOK K lat) (hne : lat ≠ []) (hit : ∀ p ∈ lat, p.iters ≠ []) : ∀ (fuel : Nat) (st : St) (out : Out V),
    runWhile K I lat p (e.zeroOut z) fuel st = some out →
    ∃ outG, runWhileG rt K I lat p (e.zeroOut z) fuel st = some outG ∧ outG.st = out.st ∧ outG.fuel = out.fuel ∧
      SameVisits e out.evs outG.evs := by
  have hnil : SameVisits e ([] : List (Event V)) [] := ⟨rfl, by simp, by simp⟩
  intro fuel
  induction fuel with
  | zero =>
    intro st out h
    simp only [runWhile] at h
    simp only [runWhileG]
    split at h
    · cases h
    · rename_i hc
      cases h
      rw [if_neg hc]
      exact ⟨_, rfl, rfl, rfl, hnil⟩
  | succ fuel ih =>
    intro st out h
    simp only [runWhile] at h
    simp only [runWhileG]
    split at h
    · rename_i hc
      rw [if_pos hc]
      split at h
      · rename_i hl
        rw [if_pos hl]
        cases hr : resolve I st (p.mergers K) with
        | none => rw [hr] at h; cases h
        | some c =>
          rw [hr] at h
          simp only at h ⊢
          cases hw : runWhile K I lat p (e.zeroOut z) fuel (advance K I st c p) with
          | none => rw [hw] at h; cases h
          | some out' =>
            rw [hw] at h
            simp only [Option.some.injEq] at h
            subst h
            obtain ⟨outG, g1, g2, g3, g4⟩ := ih _ _ hw
            rw [g1]
            exact ⟨_, rfl, g2, g3, (mergeCasesG_same K I st c z hok hne hit).append g4⟩
      · cases h
    · rename_i hc
      cases h
      rw [if_neg hc]
      exact ⟨_, rfl, rfl, rfl, hnil⟩

theorem runPointsG_same {rt : Expr V → Bool} {e : Expr V} (K : Ctx) (I : Input) {lat : List Point}
    (hok : SubOK K lat) (hit : ∀ p ∈ lat, p.iters ≠ []) : ∀ (ps : List Point) (fuel : Nat) (st : St) (evs : List (Event V)),
    runPoints K I lat e fuel ps st = some evs →
    ∃ evsG, runPointsG rt K I lat e fuel ps st = some evsG ∧ SameVisits e evs evsG := by
  intro ps
  induction ps with
  | nil => intro fuel st evs h; cases h; exact ⟨[], rfl, rfl, by simp, by simp⟩
  | cons p ps ih =>
    intro fuel st evs h
    simp only [runPoints] at h
    simp only [runPointsG]
    have hsubm : ∀ q ∈ subLattice lat p, q ∈ lat := fun q hq => (List.mem_filter.1 hq).1
    cases hs : subLattice lat p with
    | nil => rw [hs] at h; cases h
    | cons front rest =>
      rw [hs] at h hsubm
      simp only at h ⊢
      cases hw : runWhile K I (front :: rest) front (e.zeroOut (exhausted lat p)) fuel st with
      | none => rw [hw] at h; cases h
      | some out =>
        rw [hw] at h
        simp only at h
        cases hr : runPoints K I lat e out.fuel ps out.st with
        | none => rw [hr] at h; cases h
        | some evs' =>
          rw [hr] at h
          cases h
          obtain ⟨outG, g1, g2, g3, g4⟩ := runWhileG_same (rt := rt) K I front (exhausted lat p)
            ⟨fun q hq => hok.nodup q (hsubm q hq), fun q hq => hok.full q (hsubm q hq)⟩ (by simp) (fun q hq => hit q (hsubm q hq)) fuel st out hw
          obtain ⟨evsG, k1, k2⟩ := ih out.fuel out.st evs' hr
          refine ⟨outG.evs ++ evsG, ?_, g4.append k2⟩
          rw [g1]
          simp only
          rw [g2, g3, k1]

theorem runForall_stmts_single {K : Ctx} {srt : List Point → List Point} {I : Input} {fuel : Nat} {e : Expr V} {evs : List (Event V)}
    (h : runForall K srt I fuel e = some evs) (hl : ∀ a b l, latIters (makeLattice K srt e) ≠ a :: b :: l) :
    ∀ ev ∈ evs, ∃ z, ev.stmt = e.zeroOut z := by
  have hself : some e = e.zeroOut (fun _ => false) := (zeroOut_none (fun _ _ => rfl)).symm
  intro ev hev
  unfold runForall at h
  simp only at h
  split at h
  · cases h
  · cases h
    obtain ⟨c, _, rfl⟩ := List.mem_map.1 hev
    exact ⟨_, hself⟩
  · cases h
    obtain ⟨c, _, rfl⟩ := List.mem_map.1 hev
    exact ⟨_, hself⟩
  · rename_i heq
    exact absurd heq (hl _ _ _)

/-- With the test, a loop visits the coordinates it visits without. -/
theorem runForallG_same {rt : Expr V → Bool} {K : Ctx} (hin : InTree K) {srt : List Point → List Point} (hs : SortSpec srt)
    {e : Expr V} (hlin : consistent K e) {I : Input} {fuel : Nat} {evs : List (Event V)}
    (h : runForall K srt I fuel e = some evs) :
    ∃ evsG, runForallG rt K srt I fuel e = some evsG ∧ SameVisits e evs evsG := by
  have hL : LoopOK K e (makeLattice K srt e) := (latOK_build hin hs e hlin).loop
  unfold runForallG
  split
  · rename_i a b l hlat
    rw [runForall_many hlat] at h
    exact runPointsG_same K I ⟨hL.nodupI, fun p hp x hx hf => (isFull_iters (hL.iters p hp) hx).1 hf⟩ hL.ne _ _ _ _ h
  · rename_i hn
    exact ⟨evs, h, rfl, runForall_stmts_single h hn, fun h => h⟩

end Verif.Query
