import Verif.Init.Model
import Verif.Assembly.InsertTheorems
import Verif.EndToEnd.Dense
/-! The effect of the actions on the values. -/
namespace Verif.Init
open Verif.Merge
open Verif.Assembly (volume box_locate)
open Verif.EndToEnd (loopCoord)

variable {V : Type}

/-! ### Memory -/

/-- Filling a range of cells. -/
def fillCells (x : V) (lo n : Nat) (f : Nat → V) : Nat → V := fun j => if lo ≤ j ∧ j < lo + n then x else f j

theorem fill_spec (x : V) : ∀ (n lo : Nat) (m : Mem V), lo + n ≤ m.cap →
    Mem.fill x n lo m = some ⟨fillCells x lo n m.cell, m.cap⟩ := by
  intro n
  induction n with
  | zero =>
    intro lo m _
    simp only [Mem.fill]
    congr 1
    cases m with
    | mk f c =>
      simp only [Mem.mk.injEq, and_true]
      funext j
      unfold fillCells
      rw [if_neg (by omega)]
  | succ n ih =>
    intro lo m h
    simp only [Mem.fill, Mem.write]
    rw [if_pos (by omega)]
    simp only [Option.bind_some]
    rw [ih _ _ (by show lo + 1 + n ≤ m.cap; omega)]
    congr 1
    simp only [Mem.mk.injEq, and_true]
    funext j
    unfold fillCells
    dsimp only
    by_cases h1 : j = lo
    · rw [if_neg (by omega), if_pos h1, if_pos (by omega)]
    · by_cases h2 : lo + 1 ≤ j ∧ j < lo + 1 + n
      · rw [if_pos h2, if_pos (by omega)]
      · rw [if_neg h2, if_neg h1, if_neg (by omega)]

theorem stride_eq (P : Plan) : P.stride = volume P.dims := by
  unfold Plan.stride
  rw [EndToEnd.foldl_mul, Nat.one_mul]

theorem locate_block {dims c : List Nat} (hc : c ∈ box dims) (p : Nat) :
    p * volume dims ≤ Assembly.locate dims p c ∧ Assembly.locate dims p c < (p + 1) * volume dims := by
  have := List.mem_map_of_mem (f := Assembly.locate dims p) hc
  rw [box_locate, List.mem_range'_1] at this
  rw [Nat.add_mul, Nat.one_mul]
  exact this

theorem locate_block_inj {dims a b : List Nat} {p : Nat} (ha : a ∈ box dims) (hb : b ∈ box dims)
    (h : Assembly.locate dims p a = Assembly.locate dims p b) : a = b :=
  Assembly.pairwise_inj (Assembly.locate dims p) (by rw [box_locate]; exact List.nodup_range') ha hb h

/-! ### Actions on cells -/

/-- The coordinates of the dense levels below for an assignment. -/
def Plan.coords (P : Plan) (path : List Nat) : List Nat := P.low.map (loopCoord P.below path)

/-- The effect of an action on the cells. -/
def Plan.eff (o : Ops V) (fill : V) (P : Plan) (p : Nat) (f : Nat → V) : Act V → Nat → V
  | .init => if P.need then fillCells fill (p * P.stride) P.stride f else f
  | .store path v => fun j => if j = Assembly.locate P.dims p (P.coords path) then
      (if P.acc then o.bin .add (f j) v else v) else f j

theorem act_spec (o : Ops V) (fill : V) (P : Plan) (p : Nat) (m : Mem V) (a : Act V) (hcap : (p + 1) * P.stride ≤ m.cap)
    (ha : ∀ path v, a = .store path v → P.coords path ∈ box P.dims) :
    ∃ m', P.act o fill p m a = some m' ∧ m'.cell = P.eff o fill p m.cell a ∧ m.cap ≤ m'.cap := by
  cases a with
  | init =>
    simp only [Plan.act, Plan.eff]
    have hc : m.cap ≤ (m.atLeastDouble ((p + 1) * P.stride)).cap := by
      unfold Mem.atLeastDouble
      split
      · show m.cap ≤ max _ _; omega
      · exact Nat.le_refl _
    have hcell : (m.atLeastDouble ((p + 1) * P.stride)).cell = m.cell := by
      unfold Mem.atLeastDouble; split <;> rfl
    split
    · rw [fill_spec _ _ _ _ (by rw [Nat.add_mul, Nat.one_mul] at hcap; omega)]
      exact ⟨_, rfl, by rw [hcell], hc⟩
    · exact ⟨_, rfl, hcell, hc⟩
  | store path v =>
    have hb := locate_block (ha path v rfl) p
    rw [← stride_eq] at hb
    have hlt : Assembly.locate P.dims p (P.coords path) < m.cap := by omega
    refine ⟨⟨P.eff o fill p m.cell (.store path v), m.cap⟩, ?_, rfl, Nat.le_refl _⟩
    simp only [Plan.act, Mem.read, Mem.write]
    rw [show P.low.map (loopCoord P.below path) = P.coords path from rfl, if_pos hlt]
    simp only [Option.bind_some]
    rw [if_pos hlt]
    simp only [Option.some.injEq, Mem.mk.injEq, and_true]
    funext j
    simp only [Plan.eff]
    split
    · rename_i h; subst h; rfl
    · rfl

theorem acts_spec (o : Ops V) (fill : V) (P : Plan) (p : Nat) : ∀ (as : List (Act V)) (m : Mem V), (p + 1) * P.stride ≤ m.cap →
    (∀ path v, Act.store path v ∈ as → P.coords path ∈ box P.dims) →
    ∃ m', as.foldlM (P.act o fill p) m = some m' ∧ m'.cell = as.foldl (P.eff o fill p) m.cell ∧ m.cap ≤ m'.cap := by
  intro as
  induction as with
  | nil => intro m _ _; exact ⟨m, rfl, rfl, Nat.le_refl _⟩
  | cons a as ih =>
    intro m hcap hst
    obtain ⟨m1, h1, h2, h3⟩ := act_spec o fill P p m a hcap (fun path v h => hst path v (h ▸ List.mem_cons_self))
    obtain ⟨m2, h4, h5, h6⟩ := ih m1 (by omega) (fun path v h => hst path v (List.mem_cons_of_mem _ h))
    refine ⟨m2, ?_, ?_, by omega⟩
    · rw [List.foldlM_cons, h1]; exact h4
    · rw [h5, h2]; rfl

/-- The assignments among actions. -/
def storesOf : List (Act V) → List (List Nat × V)
  | [] => []
  | .init :: as => storesOf as
  | .store path v :: as => (path, v) :: storesOf as

def toStore (x : List Nat × V) : Act V := .store x.1 x.2

/-- The values of a position after assignments. -/
theorem stores_cells (o : Ops V) (fill : V) (P : Plan) (p : Nat) : ∀ (evs : List (List Nat × V)) (f : Nat → V),
    (∀ ev ∈ evs, P.coords ev.1 ∈ box P.dims) →
    (∀ c ∈ box P.dims, ((evs.map toStore).foldl (P.eff o fill p) f) (Assembly.locate P.dims p c) =
      (evs.filter (fun ev => P.coords ev.1 == c)).foldl (fun x ev => if P.acc then o.bin .add x ev.2 else ev.2)
        (f (Assembly.locate P.dims p c))) ∧
    ∀ j, (j < p * P.stride ∨ (p + 1) * P.stride ≤ j) → ((evs.map toStore).foldl (P.eff o fill p) f) j = f j := by
  intro evs
  induction evs with
  | nil => intro f _; exact ⟨fun _ _ => rfl, fun _ _ => rfl⟩
  | cons ev evs ih =>
    intro f hev
    obtain ⟨h1, h2⟩ := ih (P.eff o fill p f (toStore ev)) (fun x hx => hev x (List.mem_cons_of_mem _ hx))
    have hin := hev ev List.mem_cons_self
    constructor
    · intro c hc
      rw [List.map_cons, List.foldl_cons, h1 c hc, List.filter_cons]
      by_cases h : P.coords ev.1 = c
      · have hb : (P.coords ev.1 == c) = true := by simpa using h
        rw [if_pos hb, List.foldl_cons]
        congr 1
        subst h
        simp only [toStore, Plan.eff, if_pos]
      · have hb : (P.coords ev.1 == c) = false := by simpa using h
        rw [if_neg (by rw [hb]; simp)]
        congr 1
        simp only [toStore, Plan.eff]
        rw [if_neg (fun heq => h (locate_block_inj hc hin heq).symm)]
    · intro j hj
      rw [List.map_cons, List.foldl_cons, h2 j hj]
      simp only [toStore, Plan.eff]
      have hb := locate_block hin p
      rw [← stride_eq] at hb
      rw [if_neg (by omega)]

end Verif.Init
