import Verif.Intrinsic.Spec
/-
Helper lemmas about the intrinsics.
-/
namespace Verif.Intrinsic

theorem truth_false {p : Prop} (h : ¬ p) : truth p = 0 := if_neg h

theorem truth_true {p : Prop} (h : p) : truth p = 1 := if_pos h

theorem choose2_some {c1 c2 : Option Bool} {r1 r2 d r : List (List Nat)}
    (h : choose2 c1 r1 c2 r2 d = some r) :
    (c1 = some true ∧ r = r1) ∨ (c1 = some false ∧ c2 = some true ∧ r = r2) ∨
      (c1 = some false ∧ c2 = some false ∧ r = d) := by
  rcases c1 with _ | _ | _ <;> rcases c2 with _ | _ | _ <;> simp_all [choose2]

theorem litSat_true {k : Kind} {x : Arg} {p : Rat → Bool} (h : litSat k x p = some true) :
    ∃ q, x.lit = some q ∧ p q = true := by
  unfold litSat at h
  split at h
  · cases h
  · rename_i q hq
    split at h
    · exact ⟨q, hq, by simpa using h⟩
    · cases h

theorem isZeroLit_true {x : Arg} (h : isZeroLit x = true) : x.lit = some 0 := by
  simpa [isZeroLit] using h

theorem trunc_zero : trunc 0 = 0 := by simp [trunc]

theorem ccbrt_zero : ccbrt 0 = 0 := by
  simp [ccbrt]

theorem ccbrt_one : ccbrt 1 = 1 := by
  simp [ccbrt]

theorem ccbrt_neg_one : ccbrt (-1) = -1 := by
  simp [ccbrt]

theorem value1_zero {f : Fn} {sets : List (List Nat)} {s : List Nat}
    (h : zeroPreserving1 f = some sets) (hs : s ∈ sets) : value1 f 0 = some 0 ∧ s = [0] := by
  cases f <;> simp [zeroPreserving1] at h <;> subst h <;> simp at hs <;>
    simp [value1, hs, ccbrt_zero]

theorem eitherZero_mem {a b : Arg} {s : List Nat} {va vb : ℝ} (hs : s ∈ eitherZero a b)
    (ha : ∀ q, a.lit = some q → va = (q : ℝ)) (hb : ∀ q, b.lit = some q → vb = (q : ℝ))
    (hz : ∀ i ∈ s, [va, vb][i]? = some 0) : va = 0 ∧ vb = 0 := by
  unfold eitherZero at hs
  split at hs
  · rename_i h
    have := ha 0 (isZeroLit_true h)
    simp at hs
    subst hs
    have h1 := hz 1 (by simp)
    simp at h1
    exact ⟨by simpa using this, h1⟩
  · split at hs
    · rename_i h
      have := hb 0 (isZeroLit_true h)
      simp at hs
      subst hs
      have h1 := hz 0 (by simp)
      simp at h1
      exact ⟨h1, by simpa using this⟩
    · simp at hs
      subst hs
      have h0 := hz 0 (by simp)
      have h1 := hz 1 (by simp)
      simp at h0 h1
      exact ⟨h0, h1⟩

theorem fits1 {a : Arg} {vals : List ℝ} (h : Fits [a] vals) :
    ∃ v, vals = [v] ∧ (∀ q, a.lit = some q → v = (q : ℝ)) ∧ (a.kind = .uint → 0 ≤ v) := by
  unfold Fits at h
  cases h with
  | cons h1 h2 => cases h2; exact ⟨_, rfl, h1⟩

theorem fits2 {a b : Arg} {vals : List ℝ} (h : Fits [a, b] vals) :
    ∃ v w, vals = [v, w] ∧
      ((∀ q, a.lit = some q → v = (q : ℝ)) ∧ (a.kind = .uint → 0 ≤ v)) ∧
      ((∀ q, b.lit = some q → w = (q : ℝ)) ∧ (b.kind = .uint → 0 ≤ w)) := by
  unfold Fits at h
  cases h with
  | cons h1 h2 =>
    cases h2 with
    | cons h3 h4 => cases h4; exact ⟨_, _, rfl, h1, h3⟩

/-- The comparison of a literal with zero carries over to the value. -/
theorem lit_nonneg {x : Arg} {v : ℝ} {k : Kind} (hx : ∀ q, x.lit = some q → v = (q : ℝ))
    (h : litSat k x (fun q => 0 ≤ q) = some true) : 0 ≤ v := by
  obtain ⟨q, hq, hp⟩ := litSat_true h
  rw [hx q hq]; exact_mod_cast (by simpa using hp)

theorem lit_nonpos {x : Arg} {v : ℝ} {k : Kind} (hx : ∀ q, x.lit = some q → v = (q : ℝ))
    (h : litSat k x (fun q => q ≤ 0) = some true) : v ≤ 0 := by
  obtain ⟨q, hq, hp⟩ := litSat_true h
  rw [hx q hq]; exact_mod_cast (by simpa using hp)

theorem lit_pos {x : Arg} {v : ℝ} {k : Kind} (hx : ∀ q, x.lit = some q → v = (q : ℝ))
    (h : litSat k x (fun q => 0 < q) = some true) : 0 < v := by
  obtain ⟨q, hq, hp⟩ := litSat_true h
  rw [hx q hq]; exact_mod_cast (by simpa using hp)

theorem lit_neg {x : Arg} {v : ℝ} {k : Kind} (hx : ∀ q, x.lit = some q → v = (q : ℝ))
    (h : litSat k x (fun q => q < 0) = some true) : v < 0 := by
  obtain ⟨q, hq, hp⟩ := litSat_true h
  rw [hx q hq]; exact_mod_cast (by simpa using hp)

/-- From the arguments of a declared set being zero to the value being zero, for two
arguments. -/
theorem value2_zero {f : Fn} {a b : Arg} {sets : List (List Nat)} {s : List Nat} {v w : ℝ}
    (h : zeroPreserving2 f a b = some sets) (hs : s ∈ sets) (hk : a.kind = b.kind)
    (ha : (∀ q, a.lit = some q → v = (q : ℝ)) ∧ (a.kind = .uint → 0 ≤ v))
    (hb : (∀ q, b.lit = some q → w = (q : ℝ)) ∧ (b.kind = .uint → 0 ≤ w))
    (hz : ∀ i ∈ s, [v, w][i]? = some 0) (hex : ¬ Excluded f [v, w]) :
    value2 f v w = some 0 := by
  have z0 : 0 ∈ s → v = 0 := fun h => by simpa using hz 0 h
  have z1 : 1 ∈ s → w = 0 := fun h => by simpa using hz 1 h
  cases f <;> simp only [zeroPreserving2] at h <;> try cases h
  case mod =>
    have hw : w ≠ 0 := by
      intro hw; exact hex (Or.inl ⟨rfl, by simp [hw]⟩)
    simp at hs
    rcases hs with rfl | rfl
    · have := z0 (by simp); simp [value2, hw, this, trunc_zero]
    · exact absurd (z1 (by simp)) hw
  case pow =>
    have hw : 0 < w := by
      by_contra hw
      exact hex (Or.inr ⟨rfl, w, by simp, not_lt.mp hw⟩)
    simp at hs
    subst hs
    have := z0 (by simp)
    simp [value2, cpow, this, hw, hw.ne']
  case atan2 =>
    split at h
    · rcases choose2_some h with ⟨h1, rfl⟩ | ⟨_, h2, _⟩ | ⟨_, _, rfl⟩
      · have hw := lit_pos hb.1 h1
        simp at hs
        subst hs
        have := z0 (by simp)
        subst this
        simp only [value2, Option.some.injEq]
        have : (⟨w, 0⟩ : ℂ) = ((w : ℝ) : ℂ) := rfl
        rw [this, Complex.arg_ofReal_of_nonneg hw.le]
      · cases h2
      · simp at hs
        subst hs
        have h0 := z0 (by simp)
        have h1 := z1 (by simp)
        subst h0 h1
        simp only [value2, Option.some.injEq]
        have : (⟨0, 0⟩ : ℂ) = 0 := rfl
        rw [this, Complex.arg_zero]
    · cases h
  case gt =>
    simp only [value2, Option.some.injEq]
    apply truth_false
    split at h
    · rename_i hku
      cases h
      simp at hs
      subst hs
      rw [z0 (by simp)]
      exact not_lt.mpr (hb.2 hku)
    · rcases choose2_some h with ⟨h1, rfl⟩ | ⟨_, h2, rfl⟩ | ⟨_, _, rfl⟩ <;> simp at hs <;> subst hs
      · rw [z0 (by simp)]; exact not_lt.mpr (lit_nonneg hb.1 h1)
      · rw [z1 (by simp)]; exact not_lt.mpr (lit_nonpos ha.1 h2)
      · rw [z0 (by simp), z1 (by simp)]; exact lt_irrefl _
  case lt =>
    simp only [value2, Option.some.injEq]
    apply truth_false
    split at h
    · rename_i hku
      cases h
      simp at hs
      subst hs
      rw [z1 (by simp)]
      exact not_lt.mpr (ha.2 (hk.trans hku))
    · rcases choose2_some h with ⟨h1, rfl⟩ | ⟨_, h2, rfl⟩ | ⟨_, _, rfl⟩ <;> simp at hs <;> subst hs
      · rw [z1 (by simp)]; exact not_lt.mpr (lit_nonneg ha.1 h1)
      · rw [z0 (by simp)]; exact not_lt.mpr (lit_nonpos hb.1 h2)
      · rw [z0 (by simp), z1 (by simp)]; exact lt_irrefl _
  case gte =>
    simp only [value2, Option.some.injEq]
    apply truth_false
    split at h
    · rcases choose2_some h with ⟨h1, rfl⟩ | ⟨_, h2, _⟩ | ⟨_, _, rfl⟩
      · simp at hs; subst hs
        rw [z0 (by simp)]; exact not_le.mpr (lit_pos hb.1 h1)
      · cases h2
      · simp at hs
    · rcases choose2_some h with ⟨h1, rfl⟩ | ⟨_, h2, rfl⟩ | ⟨_, _, rfl⟩
      · simp at hs; subst hs
        rw [z0 (by simp)]; exact not_le.mpr (lit_pos hb.1 h1)
      · simp at hs; subst hs
        rw [z1 (by simp)]; exact not_le.mpr (lit_neg ha.1 h2)
      · simp at hs
  case lte =>
    simp only [value2, Option.some.injEq]
    apply truth_false
    split at h
    · rcases choose2_some h with ⟨h1, rfl⟩ | ⟨_, h2, _⟩ | ⟨_, _, rfl⟩
      · simp at hs; subst hs
        rw [z1 (by simp)]; exact not_le.mpr (lit_pos ha.1 h1)
      · cases h2
      · simp at hs
    · rcases choose2_some h with ⟨h1, rfl⟩ | ⟨_, h2, rfl⟩ | ⟨_, _, rfl⟩
      · simp at hs; subst hs
        rw [z1 (by simp)]; exact not_le.mpr (lit_pos ha.1 h1)
      · simp at hs; subst hs
        rw [z0 (by simp)]; exact not_le.mpr (lit_neg hb.1 h2)
      · simp at hs
  case eq => simp at hs
  case neq =>
    obtain ⟨rfl, rfl⟩ := eitherZero_mem hs ha.1 hb.1 hz
    simp [value2, truth]
  case max =>
    obtain ⟨rfl, rfl⟩ := eitherZero_mem hs ha.1 hb.1 hz
    simp [value2]
  case min =>
    obtain ⟨rfl, rfl⟩ := eitherZero_mem hs ha.1 hb.1 hz
    simp [value2]
  case heaviside =>
    split at hs
    · rename_i hl
      have hw := hb.1 0 (isZeroLit_true hl)
      simp at hs
      subst hs
      rw [z0 (by simp), hw]
      simp [value2, truth]
    · simp at hs

end Verif.Intrinsic
