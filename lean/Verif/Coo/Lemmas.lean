import Verif.Coo.Model
import Verif.Merge.Run
/-! Runs of equal coordinates. -/
namespace Verif.Coo
open Verif.Merge

/-- The runs of equal neighbours, with their lengths. -/
def runs : List Nat → List (Nat × Nat)
  | [] => []
  | x :: xs => match runs xs with
    | [] => [(x, 1)]
    | (y, m) :: r => if x = y then (y, m + 1) :: r else (x, 1) :: (y, m) :: r

def expand (R : List (Nat × Nat)) : List Nat := R.flatMap (fun r => List.replicate r.2 r.1)

theorem expand_runs : ∀ l, expand (runs l) = l
  | [] => rfl
  | x :: xs => by
    have ih := expand_runs xs
    rw [runs]
    split
    · rename_i h; rw [h] at ih; simp only [expand, List.flatMap_nil] at ih; subst ih; rfl
    · rename_i y m r h
      rw [h] at ih
      split
      · rename_i hxy
        subst hxy
        rw [← ih]
        simp [expand, List.replicate_succ]
      · rw [← ih]; simp [expand]

theorem runs_pos : ∀ (l : List Nat) (r : Nat × Nat), r ∈ runs l → 0 < r.2
  | [], r, h => by cases h
  | x :: xs, r, h => by
    have ih := runs_pos xs
    rw [runs] at h
    split at h
    · simp at h; subst h; simp
    · rename_i y m rs hr
      rw [hr] at ih
      split at h
      · rcases List.mem_cons.1 h with h | h
        · subst h; simp
        · exact ih r (List.mem_cons_of_mem _ h)
      · rcases List.mem_cons.1 h with h | h
        · subst h; simp
        · exact ih r h

theorem mem_expand {R : List (Nat × Nat)} (hp : ∀ r ∈ R, 0 < r.2) {x : Nat} :
    x ∈ expand R ↔ x ∈ R.map Prod.fst := by
  unfold expand
  rw [List.mem_flatMap, List.mem_map]
  constructor
  · rintro ⟨r, hr, hx⟩
    exact ⟨r, hr, (List.eq_of_mem_replicate hx).symm⟩
  · rintro ⟨r, hr, rfl⟩
    refine ⟨r, hr, ?_⟩
    rw [List.mem_replicate]
    have := hp r hr
    exact ⟨by omega, rfl⟩

theorem mem_runs {l : List Nat} {x : Nat} : x ∈ (runs l).map Prod.fst ↔ x ∈ l := by
  rw [← mem_expand (runs_pos l), expand_runs]

/-- The runs of an ordered list are strictly increasing. -/
theorem runs_sorted : ∀ {l : List Nat}, l.Pairwise (· ≤ ·) → ((runs l).map Prod.fst).Pairwise (· < ·)
  | [], _ => by simp [runs]
  | x :: xs, h => by
    rw [List.pairwise_cons] at h
    have ih := runs_sorted h.2
    have hm : ∀ y ∈ (runs xs).map Prod.fst, x ≤ y := fun y hy => h.1 y (mem_runs.1 hy)
    rw [runs]
    split
    · simp
    · rename_i y m r hr
      rw [hr] at ih hm
      split
      · simpa using ih
      · rename_i hxy
        rw [List.map_cons, List.pairwise_cons]
        refine ⟨?_, ih⟩
        have h1 := hm y (by simp)
        rw [List.map_cons, List.pairwise_cons] at ih
        intro z hz
        rw [List.map_cons] at hz
        rcases List.mem_cons.1 hz with hz | hz
        · have hz : z = y := hz
          show x < z; omega
        · have := ih.1 z hz
          show x < z
          have h2 : y < z := this
          omega

/-- Without repetition every run has one element. -/
theorem runs_unique : ∀ {l : List Nat}, l.Pairwise (· < ·) → runs l = l.map (fun x => (x, 1))
  | [], _ => rfl
  | x :: xs, h => by
    rw [List.pairwise_cons] at h
    rw [runs, runs_unique h.2]
    cases xs with
    | nil => rfl
    | cons y ys =>
      simp only [List.map_cons]
      have := h.1 y List.mem_cons_self
      rw [if_neg (by omega)]

/-- Where a run starts. -/
def off (R : List (Nat × Nat)) (j : Nat) : Nat := ((R.take j).map Prod.snd).sum

theorem off_zero (R : List (Nat × Nat)) : off R 0 = 0 := by simp [off]

theorem off_cons (r : Nat × Nat) (R : List (Nat × Nat)) (j : Nat) : off (r :: R) (j + 1) = r.2 + off R j := by
  simp [off]

theorem off_succ {R : List (Nat × Nat)} {j : Nat} {r : Nat × Nat} (h : R[j]? = some r) :
    off R (j + 1) = off R j + r.2 := by
  unfold off
  have hl := (List.getElem?_eq_some_iff.1 h).1
  rw [List.take_add_one, h]
  simp

theorem drop_off : ∀ (R : List (Nat × Nat)) (j : Nat), (expand R).drop (off R j) = expand (R.drop j)
  | [], j => by simp [off, expand]
  | r :: R, 0 => by simp [off_zero]
  | r :: R, j + 1 => by
    rw [off_cons]
    show (List.replicate r.2 r.1 ++ expand R).drop (r.2 + off R j) = expand (R.drop j)
    rw [← List.drop_drop, List.drop_left' (by simp), drop_off R j]

/-- The element at the start of a run. -/
theorem get_off {R : List (Nat × Nat)} (hp : ∀ r ∈ R, 0 < r.2) (j : Nat) :
    (expand R)[off R j]? = (R.map Prod.fst)[j]? := by
  have h1 : (expand R)[off R j]? = ((expand R).drop (off R j))[0]? := by rw [List.getElem?_drop]; rfl
  have h2 : (R.map Prod.fst)[j]? = ((R.drop j).map Prod.fst)[0]? := by
    rw [List.getElem?_map, List.getElem?_map, List.getElem?_drop]; rfl
  rw [h1, h2, drop_off]
  have hp' : ∀ r ∈ R.drop j, 0 < r.2 := fun r hr => hp r (List.mem_of_mem_drop hr)
  match hR : R.drop j with
  | [] => rfl
  | r :: rs =>
    rw [hR] at hp'
    have := hp' r List.mem_cons_self
    obtain ⟨v, m⟩ := r
    obtain ⟨m, rfl⟩ : ∃ m', m = m' + 1 := ⟨m - 1, by simp only at this; omega⟩
    simp [expand, List.replicate_succ]

theorem skipEqual_not {c : Nat} {l : List Nat} (h : c ∉ l) : skipEqual c l = 0 := by
  cases l with
  | nil => rfl
  | cons x xs =>
    rw [skipEqual, if_neg]
    intro hx; subst hx; exact h List.mem_cons_self

theorem skipEqual_replicate {c : Nat} {l : List Nat} (h : c ∉ l) : ∀ m,
    skipEqual c (List.replicate m c ++ l) = m
  | 0 => skipEqual_not h
  | m + 1 => by
    rw [List.replicate_succ, List.cons_append, skipEqual, if_pos rfl, skipEqual_replicate h m]

/-- The coordinates of a run do not occur in later runs. -/
theorem not_later {R : List (Nat × Nat)} (hp : ∀ r ∈ R, 0 < r.2) (hs : (R.map Prod.fst).Pairwise (· < ·))
    {j : Nat} {r : Nat × Nat} (h : R[j]? = some r) : r.1 ∉ expand (R.drop (j + 1)) := by
  intro hm
  rw [mem_expand (fun r hr => hp r (List.mem_of_mem_drop hr))] at hm
  have hd : R.drop j = r :: R.drop (j + 1) := by
    have hl := (List.getElem?_eq_some_iff.1 h)
    rw [List.drop_eq_getElem_cons hl.1, hl.2]
  have hsub : ((R.drop j).map Prod.fst).Pairwise (· < ·) := by
    rw [List.map_drop]; exact hs.drop
  rw [hd, List.map_cons, List.pairwise_cons] at hsub
  have := hsub.1 _ hm
  omega

theorem skipEqual_off {R : List (Nat × Nat)} (hp : ∀ r ∈ R, 0 < r.2)
    (hs : (R.map Prod.fst).Pairwise (· < ·)) (j c : Nat) :
    off R j + skipEqual c ((expand R).drop (off R j)) =
      if (R.map Prod.fst)[j]? = some c then off R (j + 1) else off R j := by
  rw [drop_off, List.getElem?_map]
  cases h : R[j]? with
  | none =>
    have : R.drop j = [] := by
      rw [List.drop_eq_nil_iff]; exact List.getElem?_eq_none_iff.1 h
    rw [this]
    simp [expand, skipEqual]
  | some r =>
    have hd : R.drop j = r :: R.drop (j + 1) := by
      have hl := (List.getElem?_eq_some_iff.1 h)
      rw [List.drop_eq_getElem_cons hl.1, hl.2]
    have hn := not_later hp hs h
    rw [hd]
    simp only [Option.map_some, Option.some.injEq]
    show off R j + skipEqual c (List.replicate r.2 r.1 ++ expand (R.drop (j + 1))) = _
    by_cases hc : r.1 = c
    · subst hc
      rw [if_pos rfl, skipEqual_replicate hn, off_succ h]
    · rw [if_neg hc]
      have := hp r (List.mem_of_getElem? h)
      obtain ⟨m, hm⟩ : ∃ m', r.2 = m' + 1 := ⟨r.2 - 1, by omega⟩
      rw [hm, List.replicate_succ, List.cons_append, skipEqual, if_neg hc]
      omega

theorem skipEqual_off_succ {R : List (Nat × Nat)} (hp : ∀ r ∈ R, 0 < r.2)
    (hs : (R.map Prod.fst).Pairwise (· < ·)) {j c : Nat} (hc : (R.map Prod.fst)[j]? = some c) :
    off R j + 1 + skipEqual c ((expand R).drop (off R j + 1)) = off R (j + 1) := by
  rw [List.getElem?_map] at hc
  cases h : R[j]? with
  | none => rw [h] at hc; cases hc
  | some r =>
    rw [h] at hc
    simp only [Option.map_some, Option.some.injEq] at hc
    subst hc
    have hd : R.drop j = r :: R.drop (j + 1) := by
      have hl := (List.getElem?_eq_some_iff.1 h)
      rw [List.drop_eq_getElem_cons hl.1, hl.2]
    have hn := not_later hp hs h
    rw [← List.drop_drop, drop_off, hd]
    show off R j + 1 + skipEqual r.1 ((List.replicate r.2 r.1 ++ expand (R.drop (j + 1))).drop 1) = _
    have := hp r (List.mem_of_getElem? h)
    obtain ⟨m, hm⟩ : ∃ m', r.2 = m' + 1 := ⟨r.2 - 1, by omega⟩
    rw [hm, List.replicate_succ, List.cons_append, List.drop_succ_cons, List.drop_zero,
      skipEqual_replicate hn, off_succ h]
    omega

/-- The start and the end of the run of a coordinate, by counting. -/
theorem off_idxOf {c : Nat} : ∀ {R : List (Nat × Nat)}, (∀ r ∈ R, 0 < r.2) →
    (R.map Prod.fst).Pairwise (· < ·) → c ∈ R.map Prod.fst →
    off R ((R.map Prod.fst).idxOf c) = (expand R).countP (fun x => decide (x < c)) ∧
    off R ((R.map Prod.fst).idxOf c + 1) = (expand R).countP (fun x => decide (x ≤ c))
  | [], _, _, h => by cases h
  | r :: R, hp, hs, h => by
    have hp' : ∀ r ∈ R, 0 < r.2 := fun x hx => hp x (List.mem_cons_of_mem _ hx)
    rw [List.map_cons, List.pairwise_cons] at hs
    have hexp : expand (r :: R) = List.replicate r.2 r.1 ++ expand R := rfl
    rw [hexp, List.countP_append, List.countP_append, List.countP_replicate, List.countP_replicate]
    by_cases hc : r.1 = c
    · subst hc
      have hge : ∀ x ∈ expand R, r.1 < x := fun x hx => hs.1 x ((mem_expand hp').1 hx)
      have z1 : (expand R).countP (fun x => decide (x < r.1)) = 0 := by
        rw [List.countP_eq_zero]; intro x hx; have := hge x hx; simp; omega
      have z2 : (expand R).countP (fun x => decide (x ≤ r.1)) = 0 := by
        rw [List.countP_eq_zero]; intro x hx; have := hge x hx; simp; omega
      rw [z1, z2]
      simp [off_zero, off_cons]
    · have hm : c ∈ R.map Prod.fst := by
        rw [List.map_cons] at h
        rcases List.mem_cons.1 h with h | h
        · exact absurd h.symm hc
        · exact h
      have hlt := hs.1 c hm
      obtain ⟨h1, h2⟩ := off_idxOf hp' hs.2 hm
      have hb : (r.1 == c) = false := by simpa using hc
      rw [List.map_cons, List.idxOf_cons, hb]
      simp only [cond_false]
      rw [off_cons, off_cons, h1, h2]
      have d1 : decide (r.1 < c) = true := by simpa using hlt
      have d2 : decide (r.1 ≤ c) = true := by simp; omega
      simp [d1, d2]

theorem runs_length_le (l : List Nat) : (runs l).length ≤ l.length := by
  induction l with
  | nil => simp [runs]
  | cons x xs ih =>
    rw [runs]
    split
    · simp
    · rename_i y m r h
      rw [h] at ih
      split <;> simp at ih ⊢ <;> omega

end Verif.Coo
