import Verif.Width.Model
import Verif.Width.Spec

/-! # Lemmas about 32-bit arithmetic -/

namespace Verif.Width

open Verif.Provenance (Step Rec)

theorem chk_lt {n : Nat} (h : n < 2147483648) : chk n = some n := if_pos h
theorem chk_ge {n : Nat} (h : 2147483648 ≤ n) : chk n = none := if_neg (by omega)
theorem chk_some {n m : Nat} (h : chk n = some m) : m = n ∧ n < 2147483648 := by
  unfold chk at h
  split at h
  · simp only [Option.some.injEq] at h; exact ⟨h.symm, by assumption⟩
  · cases h

/-! ## Positions -/

/-- The unbounded position. -/
def exact : List Nat → Nat → List Nat → Nat
  | d :: ds, p, i :: is => exact ds (p * d + i) is
  | _, p, _ => p

theorem exact_rowMajor : ∀ {ds is : List Nat} {p : Nat}, Inside ds is → exact ds p is = p * volume ds + rowMajor ds is
  | [], [], p, _ => by simp [exact, volume, rowMajor]
  | d :: ds, i :: is, p, h => by
    rw [exact, exact_rowMajor h.2, volume, rowMajor, Nat.add_mul, Nat.mul_assoc]; omega

theorem rowMajor_lt : ∀ {ds is : List Nat}, Inside ds is → rowMajor ds is < volume ds
  | [], [], _ => by simp [rowMajor, volume]
  | d :: ds, i :: is, h => by
    have ih := rowMajor_lt h.2
    rw [rowMajor, volume]
    have h1 : (i + 1) * volume ds ≤ d * volume ds := Nat.mul_le_mul_right _ h.1
    rw [Nat.add_mul] at h1; omega

theorem volume_pos_of_inside {ds is : List Nat} (h : Inside ds is) : 0 < volume ds :=
  Nat.lt_of_le_of_lt (Nat.zero_le _) (rowMajor_lt h)

theorem locate_exact : ∀ {ds is : List Nat} {p : Nat}, Inside ds is → (p + 1) * volume ds ≤ 2147483648 →
    locate ds p is = some (exact ds p is)
  | [], [], p, _, _ => by simp [locate, exact]
  | d :: ds, i :: is, p, h, hv => by
    have hpos := volume_pos_of_inside h.2
    rw [volume, ← Nat.mul_assoc] at hv
    have h1 : (p * d + i + 1) * volume ds ≤ 2147483648 := by
      refine Nat.le_trans (Nat.mul_le_mul_right _ ?_) hv
      rw [Nat.add_mul]; have := h.1; omega
    have h2 : p * d + i + 1 ≤ 2147483648 := Nat.le_trans (Nat.le_mul_of_pos_right _ hpos) h1
    rw [locate, mul, chk_lt (by omega), Option.bind_some, add, chk_lt (by omega), Option.bind_some, exact,
      locate_exact h.2 h1]

theorem locate_some : ∀ {ds is : List Nat} {p q : Nat}, locate ds p is = some q → q = exact ds p is
  | [], is, p, q, h => by
    simp only [locate, Option.some.injEq] at h; simp [exact, h]
  | d :: ds, [], p, q, h => by
    simp only [locate, Option.some.injEq] at h; simp [exact, h]
  | d :: ds, i :: is, p, q, h => by
    rw [locate] at h
    obtain ⟨m, h1, h2⟩ := Option.bind_eq_some_iff.1 h
    obtain ⟨r, h3, h4⟩ := Option.bind_eq_some_iff.1 h2
    obtain ⟨rfl, _⟩ := chk_some h1
    obtain ⟨rfl, _⟩ := chk_some h3
    rw [exact]; exact locate_some h4

theorem locate_some_lt : ∀ {ds is : List Nat} {p q : Nat}, p < 2147483648 → locate ds p is = some q → q < 2147483648
  | [], is, p, q, hp, h => by
    simp only [locate, Option.some.injEq] at h; omega
  | d :: ds, [], p, q, hp, h => by
    simp only [locate, Option.some.injEq] at h; omega
  | d :: ds, i :: is, p, q, hp, h => by
    rw [locate] at h
    obtain ⟨m, h1, h2⟩ := Option.bind_eq_some_iff.1 h
    obtain ⟨r, h3, h4⟩ := Option.bind_eq_some_iff.1 h2
    obtain ⟨rfl, hr⟩ := chk_some h3
    exact locate_some_lt hr h4

/-- The last coordinate of a box. -/
def last (ds : List Nat) : List Nat := ds.map (· - 1)

theorem inside_last : ∀ {ds : List Nat}, (∀ d ∈ ds, 0 < d) → Inside ds (last ds)
  | [], _ => trivial
  | d :: ds, h => by
    refine ⟨?_, inside_last (fun x hx => h x (List.mem_cons_of_mem _ hx))⟩
    have := h d (List.mem_cons_self ..)
    show d - 1 < d
    omega

theorem rowMajor_last : ∀ {ds : List Nat}, (∀ d ∈ ds, 0 < d) → rowMajor ds (last ds) + 1 = volume ds
  | [], _ => rfl
  | d :: ds, h => by
    have ih := rowMajor_last (ds := ds) (fun x hx => h x (List.mem_cons_of_mem _ hx))
    have hd := h d (List.mem_cons_self ..)
    show (d - 1) * volume ds + rowMajor ds (last ds) + 1 = d * volume ds
    rw [Nat.add_assoc, ih]
    obtain ⟨k, rfl⟩ : ∃ k, d = k + 1 := ⟨d - 1, by omega⟩
    simp [Nat.add_mul]

/-! ## Sizes -/

theorem volume_pos : ∀ {ds : List Nat}, (∀ d ∈ ds, 0 < d) → 0 < volume ds
  | [], _ => by simp [volume]
  | d :: ds, h => Nat.mul_pos (h d (List.mem_cons_self ..)) (volume_pos (fun x hx => h x (List.mem_cons_of_mem _ hx)))

theorem size_exact : ∀ {ds : List Nat} {s : Nat}, (∀ d ∈ ds, 0 < d) → s * volume ds < 2147483648 →
    size ds s = some (s * volume ds)
  | [], s, _, _ => by simp [size, volume]
  | d :: ds, s, hp, h => by
    have hp' : ∀ x ∈ ds, 0 < x := fun x hx => hp x (List.mem_cons_of_mem _ hx)
    have hv := volume_pos hp'
    rw [volume, ← Nat.mul_assoc] at h
    have h1 : s * d ≤ s * d * volume ds := Nat.le_mul_of_pos_right _ hv
    rw [size, mul, chk_lt (by omega), Option.bind_some, size_exact hp' h, volume, Nat.mul_assoc]

theorem size_some : ∀ {ds : List Nat} {s r : Nat}, s < 2147483648 → size ds s = some r →
    r = s * volume ds ∧ r < 2147483648
  | [], s, r, hs, h => by
    simp only [size, Option.some.injEq] at h; subst h; simp [volume, hs]
  | d :: ds, s, r, hs, h => by
    rw [size] at h
    obtain ⟨m, h1, h2⟩ := Option.bind_eq_some_iff.1 h
    obtain ⟨rfl, hm⟩ := chk_some h1
    obtain ⟨h3, h4⟩ := size_some hm h2
    rw [volume, ← Nat.mul_assoc]; exact ⟨h3, h4⟩

/-! ## Capacities -/

theorem appends_ok : ∀ (n p j : Nat), j ≤ 30 → p ≤ 2 ^ j → p + n ≤ 2 ^ 30 →
    ∃ c, appends n p (2 ^ j) = some c ∧ p + n ≤ c ∧ c ≤ 2 ^ 30
  | 0, p, j, hj, hp, _ => ⟨2 ^ j, rfl, by omega, Nat.pow_le_pow_right (by omega) hj⟩
  | n + 1, p, j, hj, hp, hn => by
    rw [appends]
    by_cases hc : 2 ^ j ≤ p
    · have hlt : j < 30 := by
        apply Nat.lt_of_le_of_ne hj
        intro e; subst e; omega
      have h1 : 2 ^ j * 2 = 2 ^ (j + 1) := (Nat.pow_succ 2 j).symm
      have h0 : 0 < 2 ^ j := Nat.pow_pos (by omega)
      have h2 : 2 ^ (j + 1) ≤ 2 ^ 30 := Nat.pow_le_pow_right (by omega) (by omega)
      rw [if_pos hc, mul, h1, chk_lt (by omega), Option.bind_some, add, chk_lt (by omega), Option.bind_some]
      obtain ⟨c, h3, h4, h5⟩ := appends_ok n (p + 1) (j + 1) (by omega) (by omega) (by omega)
      exact ⟨c, h3, by omega, h5⟩
    · rw [if_neg hc, Option.bind_some, add, chk_lt (by omega), Option.bind_some]
      obtain ⟨c, h3, h4, h5⟩ := appends_ok n (p + 1) j hj (by omega) (by omega)
      exact ⟨c, h3, by omega, h5⟩

theorem appends_none : ∀ (n p j : Nat), j ≤ 30 → p ≤ 2 ^ j → 2 ^ 30 < p + n → appends n p (2 ^ j) = none
  | 0, p, j, hj, hp, hn => by
    have : 2 ^ j ≤ 2 ^ 30 := Nat.pow_le_pow_right (by omega) hj
    omega
  | n + 1, p, j, hj, hp, hn => by
    have hle : 2 ^ j ≤ 2 ^ 30 := Nat.pow_le_pow_right (by omega) hj
    rw [appends]
    by_cases hc : 2 ^ j ≤ p
    · have h1 : 2 ^ j * 2 = 2 ^ (j + 1) := (Nat.pow_succ 2 j).symm
      have h0 : 0 < 2 ^ j := Nat.pow_pos (by omega)
      rw [if_pos hc, mul, h1]
      by_cases hj30 : j = 30
      · subst hj30; rw [chk_ge (by decide)]; rfl
      · have h2 : 2 ^ (j + 1) ≤ 2 ^ 30 := Nat.pow_le_pow_right (by omega) (by omega)
        rw [chk_lt (by omega), Option.bind_some, add, chk_lt (by omega), Option.bind_some]
        exact appends_none n (p + 1) (j + 1) (by omega) (by omega) (by omega)
    · rw [if_neg hc, Option.bind_some, add, chk_lt (by omega), Option.bind_some]
      exact appends_none n (p + 1) j hj (by omega) (by omega)

/-! ## Schedules -/

/-- Values below the bounds, of the same number. -/
def Below : List Nat → List Nat → Prop
  | [], [] => True
  | x :: xs, r :: rs => x < r ∧ Below xs rs
  | _, _ => False

theorem below_of_inBox : ∀ {x e : List Nat}, Provenance.inBox x e = true → Below x e
  | [], [], _ => trivial
  | x :: xs, e :: es, h => by
    simp only [Provenance.inBox, Bool.and_eq_true, decide_eq_true_eq] at h
    exact ⟨h.1, below_of_inBox h.2⟩
  | [], _ :: _, h => by simp [Provenance.inBox] at h
  | _ :: _, [], h => by simp [Provenance.inBox] at h

/-- The recovered variables of an iteration stay below the bounds of the specification. -/
def RecBelow : Rec → List Nat → Prop
  | .ok u, r => Below u r
  | _, _ => True

theorem recBelow_cons {v : Rec} {x r : Nat} {rs : List Nat} (hx : x < r) (h : RecBelow v rs) :
    RecBelow (v.cons x) (r :: rs) := by
  cases v with
  | ok u => exact ⟨hx, h⟩
  | skip => trivial
  | ub => trivial

theorem ceilDiv_fits {e s : Nat} (h : e + (s - 1) < 2147483648) : ceilDiv e s = some (pieces e s) := by
  unfold ceilDiv
  rw [add, chk_lt h]; rfl

theorem mulAdd_fits {o s i : Nat} (h : o * s + i < 2147483648) : mulAdd o s i = some (o * s + i) := by
  unfold mulAdd
  rw [mul, chk_lt (by omega), Option.bind_some, add, chk_lt h]

theorem mul_pred_add {o s i ro ri : Nat} (ho : o < ro) (hi : i < ri) : o * s + i < (ro - 1) * s + ri := by
  have : o * s ≤ (ro - 1) * s := Nat.mul_le_mul_right _ (by omega)
  omega

/-- One step: the same extents, the same recovery, within the bounds. -/
theorem stepExtents_fits : ∀ {st : Step} {e r e' : List Nat}, StepFits st e r → r.length = e'.length →
    Provenance.stepExtents st e = some e' → stepExtents st e = some e'
  | .split 0 s, e :: es, r, e', h, hl, hp => by
    rw [Provenance.stepExtents] at hp
    rw [stepExtents]
    by_cases hs : s = 0
    · rw [if_pos hs] at hp; cases hp
    · rw [if_neg hs] at hp ⊢
      simp only [Option.some.injEq] at hp
      subst hp
      match r, hl, h with
      | ro :: ri :: rs, _, h =>
        rw [ceilDiv_fits h.1]
        rfl
      | [], hl, _ => simp at hl
      | [_], hl, _ => simp at hl
  | .divide 0 d, e :: es, r, e', h, hl, hp => by
    rw [Provenance.stepExtents] at hp
    rw [stepExtents]
    by_cases hs : d = 0
    · rw [if_pos hs] at hp; cases hp
    · rw [if_neg hs] at hp ⊢
      simp only [Option.some.injEq] at hp
      subst hp
      match r, hl, h with
      | ro :: ri :: rs, _, h =>
        rw [ceilDiv_fits h.1]
        rfl
      | [], hl, _ => simp at hl
      | [_], hl, _ => simp at hl
  | .fuse 0, e :: f :: es, r, e', h, hl, hp => by
    rw [Provenance.stepExtents] at hp
    simp only [Option.some.injEq] at hp
    subst hp
    have h' : e * f < 2147483648 := h
    rw [stepExtents, mul, chk_lt h']
    simp [Provenance.fuseBounds]
  | .swap 0, e :: f :: es, r, e', h, hl, hp => by
    rw [Provenance.stepExtents] at hp
    rw [stepExtents]; exact hp
  | .split (k+1) s, e :: es, r, e', h, hl, hp => by
    rw [Provenance.stepExtents] at hp
    obtain ⟨e1, h1, rfl⟩ := Option.map_eq_some_iff.1 hp
    cases r with
    | nil => simp at hl
    | cons r rs => rw [stepExtents, stepExtents_fits (r := rs) h (by simpa using hl) h1]; rfl
  | .divide (k+1) s, e :: es, r, e', h, hl, hp => by
    rw [Provenance.stepExtents] at hp
    obtain ⟨e1, h1, rfl⟩ := Option.map_eq_some_iff.1 hp
    cases r with
    | nil => simp at hl
    | cons r rs => rw [stepExtents, stepExtents_fits (r := rs) h (by simpa using hl) h1]; rfl
  | .fuse (k+1), e :: es, r, e', h, hl, hp => by
    rw [Provenance.stepExtents] at hp
    obtain ⟨e1, h1, rfl⟩ := Option.map_eq_some_iff.1 hp
    cases r with
    | nil => simp at hl
    | cons r rs => rw [stepExtents, stepExtents_fits (r := rs) h (by simpa using hl) h1]; rfl
  | .swap (k+1), e :: es, r, e', h, hl, hp => by
    rw [Provenance.stepExtents] at hp
    obtain ⟨e1, h1, rfl⟩ := Option.map_eq_some_iff.1 hp
    cases r with
    | nil => simp at hl
    | cons r rs =>
      rw [stepExtents, stepExtents_fits (r := rs) (by cases k <;> simp [StepFits]) (by simpa using hl) h1]; rfl
  | .split 0 _, [], _, _, _, _, hp => by simp [Provenance.stepExtents] at hp
  | .split (_+1) _, [], _, _, _, _, hp => by simp [Provenance.stepExtents] at hp
  | .divide 0 _, [], _, _, _, _, hp => by simp [Provenance.stepExtents] at hp
  | .divide (_+1) _, [], _, _, _, _, hp => by simp [Provenance.stepExtents] at hp
  | .fuse 0, [], _, _, _, _, hp => by simp [Provenance.stepExtents] at hp
  | .fuse (_+1), [], _, _, _, _, hp => by simp [Provenance.stepExtents] at hp
  | .fuse 0, [_], _, _, _, _, hp => by simp [Provenance.stepExtents] at hp
  | .swap 0, [], _, _, _, _, hp => by simp [Provenance.stepExtents] at hp
  | .swap (_+1), [], _, _, _, _, hp => by simp [Provenance.stepExtents] at hp
  | .swap 0, [_], _, _, _, _, hp => by simp [Provenance.stepExtents] at hp

theorem below_length : ∀ {x r : List Nat}, Below x r → x.length = r.length
  | [], [], _ => rfl
  | _ :: _, _ :: _, h => by simp [below_length h.2]
  | [], _ :: _, h => by cases h
  | _ :: _, [], h => by cases h

theorem divide_eq {e d o i : Nat} {xs : List Nat} {ro ri : Nat} (ho : o < ro) (hi : i < ri)
    (h1 : e + (d - 1) < 2147483648) (h2 : (ro - 1) * pieces e d + ri ≤ 2147483648)
    (h3 : ro * pieces e d < 2147483648) (h4 : ro < 2147483648) (es : List Nat) :
    stepRecover (.divide 0 d) (e :: es) (o :: i :: xs) = Provenance.stepRecover (.divide 0 d) (e :: es) (o :: i :: xs) := by
  have hv := mul_pred_add (s := pieces e d) ho hi
  have hg : (o + 1) * pieces e d ≤ ro * pieces e d := Nat.mul_le_mul_right _ (by omega)
  rw [stepRecover, Provenance.stepRecover, ceilDiv_fits h1, Option.bind_some, mulAdd_fits (by omega), Option.bind_some,
    add, chk_lt (by omega), Option.bind_some, mul, chk_lt (by omega)]
  simp only [Option.map_some, orUb, Option.getD_some]
  have e2 : Provenance.divideRecover (0, e) d o i = o * pieces e d + i := by
    simp [Provenance.divideRecover, pieces]
  have e3 : Provenance.divideGuardSkips (0, e) d o (o * pieces e d + i) =
      decide (o * pieces e d + i ≥ (o + 1) * pieces e d) := by
    simp [Provenance.divideGuardSkips, Provenance.divideInnerBounds, pieces]
  rw [e2, e3]
  by_cases hc : o * pieces e d + i ≥ (o + 1) * pieces e d
  · simp [hc]
  · simp [hc]

theorem stepRecover_fits : ∀ {st : Step} {e r x e' : List Nat}, Provenance.stepExtents st e = some e' →
    r.length = e'.length → StepFits st e r → Below x r →
    stepRecover st e x = Provenance.stepRecover st e x ∧ RecBelow (stepRecover st e x) (stepReach st e r)
  | .split 0 s, e :: es, r, x, e', hp, hl, h, hx => by
    rw [Provenance.stepExtents] at hp
    by_cases hs : s = 0
    · rw [if_pos hs] at hp; cases hp
    rw [if_neg hs] at hp
    simp only [Option.some.injEq] at hp
    subst hp
    match r, x, hl, h, hx with
    | ro :: ri :: rs, o :: i :: xs, _, h, hx =>
      have hv := mul_pred_add (s := s) hx.1 hx.2.1
      have h2 := h.2
      have hm : stepRecover (.split 0 s) (e :: es) (o :: i :: xs) = .ok ((o * s + i) :: xs) := by
        rw [stepRecover, mulAdd_fits (by omega)]; rfl
      rw [hm]
      refine ⟨rfl, ?_⟩
      exact ⟨hv, hx.2.2⟩
    | [], _, hl, _, _ => simp at hl
    | [_], _, hl, _, _ => simp at hl
    | _ :: _ :: _, [], _, _, hx => cases hx
    | _ :: _ :: _, [_], _, _, hx => cases hx.2
  | .divide 0 d, e :: es, r, x, e', hp, hl, h, hx => by
    rw [Provenance.stepExtents] at hp
    by_cases hs : d = 0
    · rw [if_pos hs] at hp; cases hp
    rw [if_neg hs] at hp
    simp only [Option.some.injEq] at hp
    subst hp
    match r, x, hl, h, hx with
    | ro :: ri :: rs, o :: i :: xs, _, h, hx =>
      obtain ⟨h1, h2, h3, h4⟩ := h
      have heq := divide_eq (xs := xs) hx.1 hx.2.1 h1 h2 h3 h4 es
      refine ⟨heq, ?_⟩
      rw [heq, Provenance.stepRecover]
      split
      · trivial
      · have hv := mul_pred_add (s := pieces e d) hx.1 hx.2.1
        refine ⟨?_, hx.2.2⟩
        have e2 : Provenance.divideRecover (0, e) d o i = o * pieces e d + i := by
          simp [Provenance.divideRecover, pieces]
        rw [e2]; exact hv
    | [], _, hl, _, _ => simp at hl
    | [_], _, hl, _, _ => simp at hl
    | _ :: _ :: _, [], _, _, hx => cases hx
    | _ :: _ :: _, [_], _, _, hx => cases hx.2
  | .fuse 0, e :: f :: es, r, x, e', hp, hl, h, hx => by
    match r, x, hx with
    | rf :: rs, y :: xs, hx =>
      refine ⟨rfl, ?_⟩
      rw [stepRecover]
      cases hr : Provenance.fuseRecover (0, f) y with
      | none => trivial
      | some ij =>
        have hr : (if f = 0 then none else some (y / f, y % f)) = some ij := hr
        by_cases hf : f = 0
        · rw [if_pos hf] at hr; cases hr
        · rw [if_neg hf] at hr
          simp only [Option.some.injEq] at hr
          subst hr
          refine ⟨?_, Nat.mod_lt _ (by omega), hx.2⟩
          have := hx.1
          have : y / f ≤ (rf - 1) / f := Nat.div_le_div_right (by omega)
          show y / f < (rf - 1) / f + 1
          omega
    | [], [], _ => exact ⟨rfl, trivial⟩
    | [], _ :: _, hx => cases hx
    | _ :: _, [], hx => cases hx
  | .swap 0, e :: f :: es, r, x, e', hp, hl, h, hx => by
    match r, x, hx with
    | ra :: rb :: rs, a :: b :: xs, hx => exact ⟨rfl, hx.2.1, hx.1, hx.2.2⟩
    | [], [], _ => exact ⟨rfl, trivial⟩
    | [_], [_], _ => exact ⟨rfl, trivial⟩
    | [], _ :: _, hx => cases hx
    | _ :: _, [], hx => cases hx
    | [_], _ :: _ :: _, hx => cases hx.2
    | _ :: _ :: _, [_], hx => cases hx.2
  | .split (k+1) s, e :: es, r, x, e', hp, hl, h, hx => by
    rw [Provenance.stepExtents] at hp
    obtain ⟨e1, h1, rfl⟩ := Option.map_eq_some_iff.1 hp
    match r, x, hl, h, hx with
    | r :: rs, y :: xs, hl, h, hx =>
      obtain ⟨h2, h3⟩ := stepRecover_fits h1 (by simpa using hl) h hx.2
      rw [stepRecover, Provenance.stepRecover, h2]
      exact ⟨rfl, recBelow_cons hx.1 (h2 ▸ h3)⟩
    | [], _, hl, _, _ => simp at hl
    | _ :: _, [], _, _, hx => cases hx
  | .divide (k+1) s, e :: es, r, x, e', hp, hl, h, hx => by
    rw [Provenance.stepExtents] at hp
    obtain ⟨e1, h1, rfl⟩ := Option.map_eq_some_iff.1 hp
    match r, x, hl, h, hx with
    | r :: rs, y :: xs, hl, h, hx =>
      obtain ⟨h2, h3⟩ := stepRecover_fits h1 (by simpa using hl) h hx.2
      rw [stepRecover, Provenance.stepRecover, h2]
      exact ⟨rfl, recBelow_cons hx.1 (h2 ▸ h3)⟩
    | [], _, hl, _, _ => simp at hl
    | _ :: _, [], _, _, hx => cases hx
  | .fuse (k+1), e :: es, r, x, e', hp, hl, h, hx => by
    rw [Provenance.stepExtents] at hp
    obtain ⟨e1, h1, rfl⟩ := Option.map_eq_some_iff.1 hp
    match r, x, hl, h, hx with
    | r :: rs, y :: xs, hl, h, hx =>
      obtain ⟨h2, h3⟩ := stepRecover_fits h1 (by simpa using hl) h hx.2
      rw [stepRecover, Provenance.stepRecover, h2]
      exact ⟨rfl, recBelow_cons hx.1 (h2 ▸ h3)⟩
    | [], _, hl, _, _ => simp at hl
    | _ :: _, [], _, _, hx => cases hx
  | .swap (k+1), e :: es, r, x, e', hp, hl, h, hx => by
    rw [Provenance.stepExtents] at hp
    obtain ⟨e1, h1, rfl⟩ := Option.map_eq_some_iff.1 hp
    match r, x, hl, h, hx with
    | r :: rs, y :: xs, hl, h, hx =>
      obtain ⟨h2, h3⟩ := stepRecover_fits h1 (by simpa using hl) (by cases k <;> simp [StepFits]) hx.2
      rw [stepRecover, Provenance.stepRecover, h2]
      exact ⟨rfl, recBelow_cons hx.1 (h2 ▸ h3)⟩
    | [], _, hl, _, _ => simp at hl
    | _ :: _, [], _, _, hx => cases hx
  | .split 0 _, [], _, _, _, hp, _, _, _ => by simp [Provenance.stepExtents] at hp
  | .split (_+1) _, [], _, _, _, hp, _, _, _ => by simp [Provenance.stepExtents] at hp
  | .divide 0 _, [], _, _, _, hp, _, _, _ => by simp [Provenance.stepExtents] at hp
  | .divide (_+1) _, [], _, _, _, hp, _, _, _ => by simp [Provenance.stepExtents] at hp
  | .fuse 0, [], _, _, _, hp, _, _, _ => by simp [Provenance.stepExtents] at hp
  | .fuse (_+1), [], _, _, _, hp, _, _, _ => by simp [Provenance.stepExtents] at hp
  | .fuse 0, [_], _, _, _, hp, _, _, _ => by simp [Provenance.stepExtents] at hp
  | .swap 0, [], _, _, _, hp, _, _, _ => by simp [Provenance.stepExtents] at hp
  | .swap (_+1), [], _, _, _, hp, _, _, _ => by simp [Provenance.stepExtents] at hp
  | .swap 0, [_], _, _, _, hp, _, _, _ => by simp [Provenance.stepExtents] at hp

/-- The bounds before a step are as many as the extents. -/
theorem stepReach_length : ∀ {st : Step} {e r e' : List Nat}, Provenance.stepExtents st e = some e' →
    r.length = e'.length → (stepReach st e r).length = e.length
  | .split 0 s, e :: es, r, e', hp, hl => by
    rw [Provenance.stepExtents] at hp
    by_cases hs : s = 0
    · rw [if_pos hs] at hp; cases hp
    rw [if_neg hs] at hp
    simp only [Option.some.injEq] at hp
    subst hp
    match r, hl with
    | ro :: ri :: rs, hl => simpa [stepReach] using hl
    | [], hl => simp at hl
    | [_], hl => simp at hl
  | .divide 0 s, e :: es, r, e', hp, hl => by
    rw [Provenance.stepExtents] at hp
    by_cases hs : s = 0
    · rw [if_pos hs] at hp; cases hp
    rw [if_neg hs] at hp
    simp only [Option.some.injEq] at hp
    subst hp
    match r, hl with
    | ro :: ri :: rs, hl => simpa [stepReach] using hl
    | [], hl => simp at hl
    | [_], hl => simp at hl
  | .fuse 0, e :: f :: es, r, e', hp, hl => by
    rw [Provenance.stepExtents] at hp
    simp only [Option.some.injEq] at hp
    subst hp
    match r, hl with
    | rf :: rs, hl => simpa [stepReach] using hl
    | [], hl => simp at hl
  | .swap 0, e :: f :: es, r, e', hp, hl => by
    rw [Provenance.stepExtents] at hp
    simp only [Option.some.injEq] at hp
    subst hp
    match r, hl with
    | ra :: rb :: rs, hl => simpa [stepReach] using hl
    | [], hl => simp at hl
    | [_], hl => simp at hl
  | .split (k+1) s, e :: es, r, e', hp, hl => by
    rw [Provenance.stepExtents] at hp
    obtain ⟨e1, h1, rfl⟩ := Option.map_eq_some_iff.1 hp
    match r, hl with
    | r :: rs, hl => simp [stepReach, stepReach_length h1 (by simpa using hl)]
    | [], hl => simp at hl
  | .divide (k+1) s, e :: es, r, e', hp, hl => by
    rw [Provenance.stepExtents] at hp
    obtain ⟨e1, h1, rfl⟩ := Option.map_eq_some_iff.1 hp
    match r, hl with
    | r :: rs, hl => simp [stepReach, stepReach_length h1 (by simpa using hl)]
    | [], hl => simp at hl
  | .fuse (k+1), e :: es, r, e', hp, hl => by
    rw [Provenance.stepExtents] at hp
    obtain ⟨e1, h1, rfl⟩ := Option.map_eq_some_iff.1 hp
    match r, hl with
    | r :: rs, hl => simp [stepReach, stepReach_length h1 (by simpa using hl)]
    | [], hl => simp at hl
  | .swap (k+1), e :: es, r, e', hp, hl => by
    rw [Provenance.stepExtents] at hp
    obtain ⟨e1, h1, rfl⟩ := Option.map_eq_some_iff.1 hp
    match r, hl with
    | r :: rs, hl => simp [stepReach, stepReach_length h1 (by simpa using hl)]
    | [], hl => simp at hl
  | .split 0 _, [], _, _, hp, _ => by simp [Provenance.stepExtents] at hp
  | .split (_+1) _, [], _, _, hp, _ => by simp [Provenance.stepExtents] at hp
  | .divide 0 _, [], _, _, hp, _ => by simp [Provenance.stepExtents] at hp
  | .divide (_+1) _, [], _, _, hp, _ => by simp [Provenance.stepExtents] at hp
  | .fuse 0, [], _, _, hp, _ => by simp [Provenance.stepExtents] at hp
  | .fuse (_+1), [], _, _, hp, _ => by simp [Provenance.stepExtents] at hp
  | .fuse 0, [_], _, _, hp, _ => by simp [Provenance.stepExtents] at hp
  | .swap 0, [], _, _, hp, _ => by simp [Provenance.stepExtents] at hp
  | .swap (_+1), [], _, _, hp, _ => by simp [Provenance.stepExtents] at hp
  | .swap 0, [_], _, _, hp, _ => by simp [Provenance.stepExtents] at hp

theorem reach_length : ∀ {ss : List Step} {e : List Nat}, (reach ss e).length = e.length
  | [], e => rfl
  | s :: ss, e => by
    rw [reach]
    cases h : Provenance.stepExtents s e with
    | none => rfl
    | some e' => exact stepReach_length h reach_length

theorem schedule_fits : ∀ {ss : List Step} {e en : List Nat}, Fits ss e →
    Provenance.scheduleExtents ss e = some en →
    scheduleExtents ss e = some en ∧ ∀ x, Below x en →
      scheduleRecover ss e x = Provenance.scheduleRecover ss e x ∧ RecBelow (scheduleRecover ss e x) (reach ss e)
  | [], e, en, _, he => by
    simp only [Provenance.scheduleExtents, Option.some.injEq] at he
    subst he
    exact ⟨rfl, fun x hx => ⟨rfl, hx⟩⟩
  | s :: ss, e, en, hf, he => by
    rw [Provenance.scheduleExtents] at he
    obtain ⟨e', h1, h2⟩ := Option.bind_eq_some_iff.1 he
    rw [Fits, h1] at hf
    obtain ⟨h3, h4⟩ := schedule_fits hf.2 h2
    have hx1 := stepExtents_fits hf.1 reach_length h1
    refine ⟨by rw [scheduleExtents, hx1, Option.bind_some, h3], ?_⟩
    intro x hx
    obtain ⟨h5, h6⟩ := h4 x hx
    rw [scheduleRecover, Provenance.scheduleRecover, hx1, h1, reach, h1]
    simp only
    rw [← h5]
    cases hr : scheduleRecover ss e' x with
    | ok u =>
      rw [hr] at h6
      obtain ⟨h7, h8⟩ := stepRecover_fits h1 reach_length hf.1 h6
      exact ⟨h7, h8⟩
    | skip => exact ⟨rfl, trivial⟩
    | ub => exact ⟨rfl, trivial⟩

theorem nest_below : ∀ {e x : List Nat}, x ∈ Provenance.nest e → Below x e
  | [], x, h => by
    simp only [Provenance.nest, List.mem_singleton] at h
    subst h; trivial
  | e :: es, x, h => by
    simp only [Provenance.nest, List.mem_flatMap, List.mem_range, List.mem_map] at h
    obtain ⟨v, hv, y, hy, rfl⟩ := h
    exact ⟨hv, nest_below hy⟩

theorem filterMap_congr_mem {α β : Type} : ∀ {l : List α} {f g : α → Option β}, (∀ x ∈ l, f x = g x) →
    l.filterMap f = l.filterMap g
  | [], _, _, _ => rfl
  | a :: l, f, g, h => by
    rw [List.filterMap_cons, List.filterMap_cons, h a (List.mem_cons_self ..),
      filterMap_congr_mem (l := l) (fun x hx => h x (List.mem_cons_of_mem _ hx))]

instance decStepFits : ∀ (st : Step) (e r : List Nat), Decidable (StepFits st e r)
  | .split 0 s, e :: _, ro :: ri :: _ =>
    inferInstanceAs (Decidable (e + (s - 1) < 2147483648 ∧ (ro - 1) * s + ri ≤ 2147483648))
  | .divide 0 d, e :: _, ro :: ri :: _ =>
    inferInstanceAs (Decidable (e + (d - 1) < 2147483648 ∧ (ro - 1) * pieces e d + ri ≤ 2147483648 ∧
      ro * pieces e d < 2147483648 ∧ ro < 2147483648))
  | .fuse 0, e :: e' :: _, _ => inferInstanceAs (Decidable (e * e' < 2147483648))
  | .split (k+1) s, _ :: es, _ :: rs => decStepFits (.split k s) es rs
  | .divide (k+1) d, _ :: es, _ :: rs => decStepFits (.divide k d) es rs
  | .fuse (k+1), _ :: es, _ :: rs => decStepFits (.fuse k) es rs
  | .swap k, _, _ => by rw [StepFits.eq_def]; cases k <;> exact isTrue trivial
  | .split 0 _, [], _ => isTrue trivial
  | .split 0 _, _ :: _, [] => isTrue trivial
  | .split 0 _, _ :: _, [_] => isTrue trivial
  | .split (_+1) _, [], _ => isTrue trivial
  | .split (_+1) _, _ :: _, [] => isTrue trivial
  | .divide 0 _, [], _ => isTrue trivial
  | .divide 0 _, _ :: _, [] => isTrue trivial
  | .divide 0 _, _ :: _, [_] => isTrue trivial
  | .divide (_+1) _, [], _ => isTrue trivial
  | .divide (_+1) _, _ :: _, [] => isTrue trivial
  | .fuse 0, [], _ => isTrue trivial
  | .fuse 0, [_], _ => isTrue trivial
  | .fuse (_+1), [], _ => isTrue trivial
  | .fuse (_+1), _ :: _, [] => isTrue trivial

instance decFits : ∀ (ss : List Step) (e : List Nat), Decidable (Fits ss e)
  | [], _ => isTrue trivial
  | s :: ss, e => by
    rw [Fits]
    exact match Provenance.stepExtents s e with
      | none => isTrue trivial
      | some e' => @instDecidableAnd _ _ (decStepFits s e (reach ss e')) (decFits ss e')

end Verif.Width
