import Verif.Recover.Model
import Verif.Recover.Spec

/-! # Facts about schedules, recoverable variables and declarations -/

namespace Verif.Recover

theorem children_ne_nil (r : Rel) : r.children ≠ [] := by cases r <;> simp [Rel.children]

/-- What schedules guarantee. -/
structure Good (rels : List Rel) : Prop where
  par : ∀ {r r' v}, r ∈ rels → r' ∈ rels → v ∈ r.parents → v ∈ r'.parents → r = r'
  chi : ∀ {r r' v}, r ∈ rels → r' ∈ rels → v ∈ r.children → v ∈ r'.children → r = r'
  parND : ∀ r ∈ rels, r.parents.Nodup
  rank : ∃ ρ : Var → Nat, (∀ v, ρ v ≤ rels.length) ∧
    ∀ r ∈ rels, ∀ p ∈ r.parents, ∀ c ∈ r.children, ρ c < ρ p

theorem Schedule.good {rels : List Rel} (h : Schedule rels) : Good rels := by
  induction h with
  | nil => exact ⟨by simp, by simp, by simp, fun _ => 0, by simp, by simp⟩
  | @add rels r _ hp hc hn _ ih =>
    obtain ⟨ρ, hb, hr⟩ := ih.rank
    refine ⟨?_, ?_, ?_, fun v => if v ∈ r.children then 0 else ρ v + 1, ?_, ?_⟩
    · intro a b v ha hb' hva hvb
      rcases List.mem_append.1 ha with h1 | h1 <;> rcases List.mem_append.1 hb' with h2 | h2
      · exact ih.par h1 h2 hva hvb
      · rw [List.mem_singleton.1 h2] at hvb
        exact absurd hva (hp v hvb a h1)
      · rw [List.mem_singleton.1 h1] at hva
        exact absurd hvb (hp v hva b h2)
      · rw [List.mem_singleton.1 h1, List.mem_singleton.1 h2]
    · intro a b v ha hb' hva hvb
      rcases List.mem_append.1 ha with h1 | h1 <;> rcases List.mem_append.1 hb' with h2 | h2
      · exact ih.chi h1 h2 hva hvb
      · rw [List.mem_singleton.1 h2] at hvb
        exact absurd hva ((hc v hvb).2 a h1).2
      · rw [List.mem_singleton.1 h1] at hva
        exact absurd hvb ((hc v hva).2 b h2).2
      · rw [List.mem_singleton.1 h1, List.mem_singleton.1 h2]
    · intro q hq
      rcases List.mem_append.1 hq with hq | hq
      · exact ih.parND q hq
      · simp only [List.mem_singleton] at hq
        subst hq
        exact hn
    · intro v
      have := hb v
      simp only [List.length_append, List.length_singleton]
      split <;> omega
    · intro q hq p hp' c hc'
      rcases List.mem_append.1 hq with hq | hq
      · have h1 : p ∉ r.children := fun h => ((hc p h).2 q hq).1 hp'
        have h2 : c ∉ r.children := fun h => ((hc c h).2 q hq).2 hc'
        have := hr q hq p hp' c hc'
        simp only [h1, h2, if_false]
        omega
      · simp only [List.mem_singleton] at hq
        subst hq
        have h1 : p ∉ q.children := fun h => (hc p h).1 hp'
        simp only [h1, hc', if_false, if_true]
        omega

section
variable {rels : List Rel}

theorem childRel_some (g : Good rels) {v : Var} {r : Rel} :
    childRel rels v = some r ↔ r ∈ rels ∧ v ∈ r.parents := by
  constructor
  · intro h
    have h1 := List.mem_of_find?_eq_some h
    have h2 := List.find?_some h
    exact ⟨List.mem_reverse.1 h1, by simpa using h2⟩
  · rintro ⟨h1, h2⟩
    cases h : childRel rels v with
    | none =>
      have := List.find?_eq_none.1 h r (List.mem_reverse.2 h1)
      simp [h2] at this
    | some r' =>
      have h3 := List.mem_of_find?_eq_some h
      have h4 := List.find?_some h
      rw [g.par (List.mem_reverse.1 h3) h1 (by simpa using h4) h2]

theorem parentRel_some (g : Good rels) {v : Var} {r : Rel} :
    parentRel rels v = some r ↔ r ∈ rels ∧ v ∈ r.children := by
  constructor
  · intro h
    have h1 := List.mem_of_find?_eq_some h
    have h2 := List.find?_some h
    exact ⟨List.mem_reverse.1 h1, by simpa using h2⟩
  · rintro ⟨h1, h2⟩
    cases h : parentRel rels v with
    | none =>
      have := List.find?_eq_none.1 h r (List.mem_reverse.2 h1)
      simp [h2] at this
    | some r' =>
      have h3 := List.mem_of_find?_eq_some h
      have h4 := List.find?_some h
      rw [g.chi (List.mem_reverse.1 h3) h1 (by simpa using h4) h2]

theorem mem_getChildren (g : Good rels) {v c : Var} :
    c ∈ getChildren rels v ↔ ∃ r ∈ rels, v ∈ r.parents ∧ c ∈ r.children := by
  unfold getChildren
  cases h : childRel rels v with
  | none =>
    simp only [List.not_mem_nil, false_iff]
    rintro ⟨r, h1, h2, _⟩
    rw [(childRel_some g).2 ⟨h1, h2⟩] at h
    exact nomatch h
  | some r =>
    have hr := (childRel_some g).1 h
    constructor
    · exact fun hc => ⟨r, hr.1, hr.2, hc⟩
    · rintro ⟨r', h1, h2, h3⟩
      rw [g.par hr.1 h1 hr.2 h2]
      exact h3

theorem mem_getParents (g : Good rels) {v p : Var} :
    p ∈ getParents rels v ↔ ∃ r ∈ rels, v ∈ r.children ∧ p ∈ r.parents := by
  unfold getParents
  cases h : parentRel rels v with
  | none =>
    simp only [List.not_mem_nil, false_iff]
    rintro ⟨r, h1, h2, _⟩
    rw [(parentRel_some g).2 ⟨h1, h2⟩] at h
    exact nomatch h
  | some r =>
    have hr := (parentRel_some g).1 h
    constructor
    · exact fun hc => ⟨r, hr.1, hr.2, hc⟩
    · rintro ⟨r', h1, h2, h3⟩
      rw [g.chi hr.1 h1 hr.2 h2]
      exact h3

theorem getParents_nodup (g : Good rels) (v : Var) : (getParents rels v).Nodup := by
  unfold getParents
  cases h : parentRel rels v with
  | none => exact List.nodup_nil
  | some r => exact g.parND r ((parentRel_some g).1 h).1

theorem fullyDerived_iff (g : Good rels) {v : Var} : isFullyDerived rels v = true ↔ Leaf rels v := by
  unfold isFullyDerived Leaf
  constructor
  · intro h r hr hv
    have hc := children_ne_nil r
    cases hcs : r.children with
    | nil => exact hc hcs
    | cons c cs =>
      have := (mem_getChildren g (v := v) (c := c)).2 ⟨r, hr, hv, by rw [hcs]; exact List.mem_cons_self⟩
      rw [List.isEmpty_iff.1 h] at this
      exact nomatch this
  · intro h
    cases hcs : getChildren rels v with
    | nil => rfl
    | cons c cs =>
      obtain ⟨r, hr, hv, _⟩ := (mem_getChildren g (v := v) (c := c)).1 (by rw [hcs]; exact List.mem_cons_self)
      exact absurd hv (h r hr)

/-- All variables that replaced `v` are known. -/
def Ready (rels : List Rel) (D : List Var) (v : Var) : Prop :=
  ∀ r ∈ rels, v ∈ r.parents → ∀ c ∈ r.children, Known rels D c

theorem known_iff (g : Good rels) {D : List Var} {v : Var} :
    Known rels D v ↔ v ∈ D ∨ (¬Leaf rels v ∧ Ready rels D v) := by
  constructor
  · intro h
    cases h with
    | loop h => exact .inl h
    | @derived _ r hr hv hc =>
      refine .inr ⟨fun hl => hl r hr hv, fun r' hr' hv' c hc' => ?_⟩
      rw [g.par hr' hr hv' hv] at hc'
      exact hc c hc'
  · rintro (h | ⟨hl, hr⟩)
    · exact .loop h
    · unfold Leaf at hl
      have : ∃ r ∈ rels, v ∈ r.parents := Classical.byContradiction fun hn =>
        hl fun r hr hv => hn ⟨r, hr, hv⟩
      obtain ⟨r, h1, h2⟩ := this
      exact .derived h1 h2 (hr r h1 h2)

theorem Known.mono {D D' : List Var} (h : ∀ v ∈ D, Known rels D' v) {v : Var} (k : Known rels D v) :
    Known rels D' v := by
  induction k with
  | loop hv => exact h _ hv
  | derived hr hv _ ih => exact .derived hr hv ih

theorem no_precompute (hp : Plain rels) (o : Option Rel) (ho : ∀ r, o = some r → r ∈ rels) :
    hasKind .precompute o = false := by
  cases o with
  | none => rfl
  | some r =>
    have := hp.1 r (ho r rfl)
    simpa [hasKind] using this

theorem consumers_nil (g : Good rels) (hp : Plain rels) (D : List Var) : consumersOf rels D = [] := by
  unfold consumersOf
  rw [List.filter_eq_nil_iff]
  intro d _
  rw [no_precompute hp _ fun r h => ((childRel_some g).1 h).1]
  decide

theorem producers_nil (g : Good rels) (hp : Plain rels) (D : List Var) : producersOf rels D = [] := by
  unfold producersOf
  rw [List.filter_eq_nil_iff]
  intro d _
  rw [no_precompute hp _ fun r h => ((parentRel_some g).1 h).1]
  decide

theorem recoverableFuel_iff (g : Good rels) {ρ : Var → Nat}
    (hr : ∀ r ∈ rels, ∀ p ∈ r.parents, ∀ c ∈ r.children, ρ c < ρ p) (D : List Var) :
    ∀ (n : Nat) (v : Var), ρ v < n → (recoverableFuel rels n v D [] [] = true ↔ Ready rels D v) := by
  intro n
  induction n with
  | zero => intro v h; omega
  | succ n ih =>
    intro v hv
    have h0 : recoverableFuel rels (n + 1) v D [] [] = (getChildren rels v).all fun c =>
        D.contains c || (!isFullyDerived rels c && recoverableFuel rels n c D [] []) := rfl
    rw [h0, List.all_eq_true]
    constructor
    · intro h r hr' hv' c hc
      have hc1 := h c ((mem_getChildren g).2 ⟨r, hr', hv', hc⟩)
      have hlt := hr r hr' v hv' c hc
      rw [known_iff g]
      simp only [Bool.or_eq_true, Bool.and_eq_true, Bool.not_eq_true', List.contains_iff_mem] at hc1
      rcases hc1 with hc1 | ⟨hc1, hc2⟩
      · exact .inl hc1
      · refine .inr ⟨fun hl => ?_, (ih c (by omega)).1 hc2⟩
        rw [(fullyDerived_iff g).2 hl] at hc1
        exact nomatch hc1
    · intro h c hc
      obtain ⟨r, hr', hv', hc'⟩ := (mem_getChildren g).1 hc
      have hlt := hr r hr' v hv' c hc'
      have hk := (known_iff g).1 (h r hr' hv' c hc')
      simp only [Bool.or_eq_true, Bool.and_eq_true, Bool.not_eq_true', List.contains_iff_mem]
      rcases hk with hk | ⟨hk1, hk2⟩
      · exact .inl hk
      · refine .inr ⟨?_, (ih c (by omega)).2 hk2⟩
        cases hf : isFullyDerived rels c with
        | false => rfl
        | true => exact absurd ((fullyDerived_iff g).1 hf) hk1

theorem isRecoverable_iff (g : Good rels) (hp : Plain rels) (v : Var) (D : List Var) :
    isRecoverable rels v D = true ↔ Ready rels D v := by
  obtain ⟨ρ, hb, hr⟩ := g.rank
  unfold isRecoverable
  rw [consumers_nil g hp, producers_nil g hp]
  exact recoverableFuel_iff g hr D _ v (by have := hb v; omega)

theorem not_pos (g : Good rels) (h : ∀ r ∈ rels, r.kind ≠ .pos) : ∀ (n : Nat) (v : Var),
    isPosVariable rels n v = false := by
  intro n
  induction n with
  | zero => intro v; rfl
  | succ n ih =>
    intro v
    unfold isPosVariable
    have hk : hasKind .pos (parentRel rels v) = false := by
      cases ho : parentRel rels v with
      | none => rfl
      | some r => simpa [hasKind] using h r ((parentRel_some g).1 ho).1
    rw [hk]
    cases isUnderived rels v with
    | true => rfl
    | false =>
      simp only [Bool.false_eq_true, if_false, List.any_eq_false]
      intro p _
      rw [ih p]
      decide

theorem not_left (g : Good rels) (hp : Plain rels) (v p : Var) : leftToWhile rels v p = false := by
  unfold leftToWhile
  rcases hp.2 with h | h
  · cases irregularDescendant rels (rels.length + 1) v with
    | none => simp
    | some d => simp [not_pos g h]
  · have hk : hasKind .fuse (parentRel rels v) = false := by
      cases ho : parentRel rels v with
      | none => rfl
      | some r => simpa [hasKind] using h r ((parentRel_some g).1 ho).1
    rw [hk]
    rfl

/-- `p` becomes recoverable from `v`. -/
def Up (rels : List Rel) (D : List Var) (v p : Var) : Prop :=
  (∃ r ∈ rels, v ∈ r.children ∧ p ∈ r.parents) ∧ ¬Ready rels D p ∧ Ready rels (v :: D) p

/-- One parent of `newlyRecoverable`. -/
def piece (rels : List Rel) (n : Nat) (v : Var) (D : List Var) (p : Var) : List Var :=
  if !isRecoverable rels p D && isRecoverable rels p (v :: D) then p :: newlyRecoverable rels n p D else []

theorem newly_eq (g : Good rels) (hp : Plain rels) (n : Nat) (v : Var) (D : List Var) :
    newlyRecoverable rels (n + 1) v D = (getParents rels v).flatMap (piece rels n v D) := by
  show (if isUnderived rels v then [] else _) = _
  have h1 : ∀ p, (if leftToWhile rels v p then []
        else if !isRecoverable rels p D && isRecoverable rels p (v :: D) then
          p :: newlyRecoverable rels n p D
        else []) = piece rels n v D p := by
    intro p
    rw [not_left g hp]
    rfl
  cases hu : isUnderived rels v with
  | true =>
    unfold isUnderived at hu
    rw [List.isEmpty_iff.1 hu]
    rfl
  | false =>
    simp only [Bool.false_eq_true, if_false]
    congr 1
    funext p
    exact h1 p

theorem piece_up (g : Good rels) (hp : Plain rels) {n : Nat} {v : Var} {D : List Var} {p : Var}
    (h : Up rels D v p) :
    piece rels n v D p = p :: newlyRecoverable rels n p D := by
  unfold piece
  have h1 : isRecoverable rels p D = false := by
    cases hr : isRecoverable rels p D with
    | false => rfl
    | true => exact absurd ((isRecoverable_iff g hp p D).1 hr) h.2.1
  rw [h1, (isRecoverable_iff g hp p _).2 h.2.2]
  rfl

theorem piece_not_up (g : Good rels) (hp : Plain rels) {n : Nat} {v : Var} {D : List Var} {p : Var}
    (hm : p ∈ getParents rels v) (h : ¬Up rels D v p) : piece rels n v D p = [] := by
  unfold piece
  rw [if_neg]
  intro hc
  simp only [Bool.and_eq_true, Bool.not_eq_true'] at hc
  obtain ⟨r, h1, h2, h3⟩ := (mem_getParents g).1 hm
  refine h ⟨⟨r, h1, h2, h3⟩, fun hr => ?_, (isRecoverable_iff g hp p _).1 hc.2⟩
  rw [(isRecoverable_iff g hp p D).2 hr] at hc
  exact nomatch hc.1

theorem mem_newly (g : Good rels) (hp : Plain rels) {n : Nat} {v : Var} {D : List Var} {z : Var} :
    z ∈ newlyRecoverable rels (n + 1) v D ↔
      ∃ p, Up rels D v p ∧ (z = p ∨ z ∈ newlyRecoverable rels n p D) := by
  rw [newly_eq g hp, List.mem_flatMap]
  constructor
  · rintro ⟨p, hm, hz⟩
    by_cases hu : Up rels D v p
    · rw [piece_up g hp hu] at hz
      exact ⟨p, hu, List.mem_cons.1 hz⟩
    · rw [piece_not_up g hp hm hu] at hz
      exact nomatch hz
  · rintro ⟨p, hu, hz⟩
    have hm : p ∈ getParents rels v := by
      obtain ⟨r, h1, h2, h3⟩ := hu.1
      exact (mem_getParents g).2 ⟨r, h1, h2, h3⟩
    refine ⟨p, hm, ?_⟩
    rw [piece_up g hp hu]
    exact List.mem_cons.2 hz

theorem Up.known (h : Up rels D v p) : Known rels (v :: D) p := by
  obtain ⟨r, h1, _, h3⟩ := h.1
  exact .derived h1 h3 (h.2.2 r h1 h3)

theorem Up.derives (h : Up rels D v p) : Derives rels p v := by
  obtain ⟨r, h1, h2, h3⟩ := h.1
  exact .step h1 h3 h2 .refl

theorem Derives.trans {a b c : Var} (h : Derives rels a b) (h' : Derives rels b c) : Derives rels a c := by
  induction h with
  | refl => exact h'
  | step h1 h2 h3 _ ih => exact .step h1 h2 h3 (ih h')

theorem Derives.rank {ρ : Var → Nat} (hr : ∀ r ∈ rels, ∀ p ∈ r.parents, ∀ c ∈ r.children, ρ c < ρ p)
    {a b : Var} (h : Derives rels a b) : a = b ∨ ρ b < ρ a := by
  induction h with
  | refl => exact .inl rfl
  | @step v c d r h1 h2 h3 _ ih =>
    have := hr r h1 v h2 c h3
    rcases ih with rfl | ih
    · exact .inr this
    · exact .inr (by omega)

/-- The last step of a derivation. -/
theorem Derives.last {a b : Var} (h : Derives rels a b) :
    a = b ∨ ∃ r ∈ rels, ∃ q ∈ r.parents, b ∈ r.children ∧ Derives rels a q := by
  induction h with
  | refl => exact .inl rfl
  | @step v c d r h1 h2 h3 _ ih =>
    refine .inr ?_
    rcases ih with rfl | ⟨r', h4, q, h5, h6, h7⟩
    · exact ⟨r, h1, v, h2, h3, .refl⟩
    · exact ⟨r', h4, q, h5, h6, .step h1 h2 h3 h7⟩

/-- What becomes known through one more variable is an ancestor of it. -/
theorem known_cons {D : List Var} {v z : Var} (h : Known rels (v :: D) z) :
    Known rels D z ∨ Derives rels z v := by
  induction h with
  | loop h =>
    rcases List.mem_cons.1 h with rfl | h
    · exact .inr .refl
    · exact .inl (.loop h)
  | @derived z r hr hz _ ih =>
    by_cases hall : ∀ c ∈ r.children, Known rels D c
    · exact .inl (.derived hr hz hall)
    · have : ∃ c ∈ r.children, ¬Known rels D c := Classical.byContradiction fun hn =>
        hall fun c hc => Classical.byContradiction fun hk => hn ⟨c, hc, hk⟩
      obtain ⟨c, hc, hk⟩ := this
      rcases ih c hc with h' | h'
      · exact absurd h' hk
      · exact .inr (.step hr hz hc h')

/-- Among siblings only the variable itself becomes known through it. -/
theorem sibling_known (g : Good rels) {r : Rel} (hr : r ∈ rels) {v c : Var} (hv : v ∈ r.children)
    (hc : c ∈ r.children) (hne : c ≠ v) {D : List Var} (h : Known rels (v :: D) c) : Known rels D c := by
  rcases known_cons h with h | h
  · exact h
  · obtain ⟨ρ, _, hρ⟩ := g.rank
    rcases h.last with h | ⟨r', h1, q, h2, h3, h4⟩
    · exact absurd h hne
    · rw [g.chi h1 hr h3 hv] at h2
      have h5 := hρ r hr q h2 c hc
      rcases h4.rank hρ with rfl | h6
      · omega
      · omega

theorem newly_derives (g : Good rels) (hp : Plain rels) : ∀ (n : Nat) (v : Var) (D : List Var) (z : Var),
    z ∈ newlyRecoverable rels n v D → ∃ p, (∃ r ∈ rels, v ∈ r.children ∧ p ∈ r.parents) ∧ Derives rels z p := by
  intro n
  induction n with
  | zero => intro v D z h; exact nomatch h
  | succ n ih =>
    intro v D z h
    obtain ⟨p, hu, hz⟩ := (mem_newly g hp).1 h
    refine ⟨p, hu.1, ?_⟩
    rcases hz with rfl | hz
    · exact .refl
    · obtain ⟨q, ⟨r, h1, h2, h3⟩, h4⟩ := ih p D z hz
      exact h4.trans (.step h1 h3 h2 .refl)

theorem newly_known (g : Good rels) (hp : Plain rels) {D D' : List Var} (hD : ∀ d ∈ D, d ∈ D') :
    ∀ (n : Nat) (v z : Var), Known rels D' v → z ∈ newlyRecoverable rels n v D → Known rels D' z := by
  intro n
  induction n with
  | zero => intro v z _ h; exact nomatch h
  | succ n ih =>
    intro v z hv h
    obtain ⟨p, hu, hz⟩ := (mem_newly g hp).1 h
    have hk : Known rels D' p := hu.known.mono (by
      intro d hd
      rcases List.mem_cons.1 hd with rfl | hd
      · exact hv
      · exact .loop (hD d hd))
    rcases hz with rfl | hz
    · exact hk
    · exact ih p z hk hz

theorem newly_unknown (g : Good rels) (hp : Plain rels) {D : List Var} (hD : ∀ d ∈ D, Leaf rels d) :
    ∀ (n : Nat) (v z : Var), z ∈ newlyRecoverable rels n v D → ¬Known rels D z := by
  intro n
  induction n with
  | zero => intro v z h; exact nomatch h
  | succ n ih =>
    intro v z h
    obtain ⟨p, hu, hz⟩ := (mem_newly g hp).1 h
    rcases hz with rfl | hz
    · intro hk
      rcases (known_iff g).1 hk with hk | hk
      · obtain ⟨r, h1, _, h3⟩ := hu.1
        exact hD z hk r h1 h3
      · exact hu.2.1 hk.2
    · exact ih p z hz

/-- An element of the list was reached through a variable that is the start or in the list. -/
theorem newly_from (g : Good rels) (hp : Plain rels) {D : List Var} : ∀ (n : Nat) (v z : Var),
    z ∈ newlyRecoverable rels n v D → ∃ c, (c = v ∨ c ∈ newlyRecoverable rels n v D) ∧ Up rels D c z := by
  intro n
  induction n with
  | zero => intro v z h; exact nomatch h
  | succ n ih =>
    intro v z h
    obtain ⟨p, hu, hz⟩ := (mem_newly g hp).1 h
    rcases hz with rfl | hz
    · exact ⟨v, .inl rfl, hu⟩
    · obtain ⟨c, hc, hcz⟩ := ih p z hz
      refine ⟨c, .inr ((mem_newly g hp).2 ⟨p, hu, ?_⟩), hcz⟩
      rcases hc with rfl | hc
      · exact .inl rfl
      · exact .inr hc

theorem newly_closed (g : Good rels) (hp : Plain rels) {ρ : Var → Nat} (hb : ∀ v, ρ v ≤ rels.length)
    (hr : ∀ r ∈ rels, ∀ p ∈ r.parents, ∀ c ∈ r.children, ρ c < ρ p) {D : List Var} :
    ∀ (n : Nat) (v c z : Var), rels.length < n + ρ v → (c = v ∨ c ∈ newlyRecoverable rels n v D) →
      Up rels D c z → z ∈ newlyRecoverable rels n v D := by
  intro n
  induction n with
  | zero => intro v c z h; have := hb v; omega
  | succ n ih =>
    intro v c z h hc hu
    rcases hc with rfl | hc
    · exact (mem_newly g hp).2 ⟨z, hu, .inl rfl⟩
    · obtain ⟨p, hp1, hp2⟩ := (mem_newly g hp).1 hc
      obtain ⟨r, h1, h2, h3⟩ := hp1.1
      have := hr r h1 p h3 v h2
      exact (mem_newly g hp).2 ⟨p, hp1, .inr (ih p c z (by omega) hp2 hu)⟩

theorem newly_complete (g : Good rels) (hp : Plain rels) (hj : PiecesApart rels) {D : List Var} {l : Var} {z : Var}
    (h : Known rels (l :: D) z) : ¬Known rels D z → z = l ∨ z ∈ newlyRecoverable rels (rels.length + 1) l D := by
  obtain ⟨ρ, hb, hρ⟩ := g.rank
  induction h with
  | loop h =>
    intro hk
    rcases List.mem_cons.1 h with rfl | h
    · exact .inl rfl
    · exact absurd (.loop h) hk
  | @derived z r hr hz hcs ih =>
    intro hk
    have hex : ∃ c ∈ r.children, ¬Known rels D c := Classical.byContradiction fun hn =>
      hk (.derived hr hz fun c hc => Classical.byContradiction fun h => hn ⟨c, hc, h⟩)
    obtain ⟨c, hc, hck⟩ := hex
    have hcl : Derives rels c l := (known_cons (hcs c hc)).resolve_left hck
    have hothers : ∀ c' ∈ r.children, c' ≠ c → Known rels D c' := by
      intro c' hc' hne
      rcases known_cons (hcs c' hc') with h | h
      · exact h
      · exact absurd ⟨h, hcl⟩ (hj r hr c' hc' c hc hne l)
    have hup : Up rels D c z := by
      refine ⟨⟨r, hr, hc, hz⟩, fun h => hck (h r hr hz c hc), fun r' hr' hz' x hx => ?_⟩
      rw [g.par hr' hr hz' hz] at hx
      by_cases hxc : x = c
      · exact .loop (by rw [hxc]; exact List.mem_cons_self)
      · exact (hothers x hx hxc).mono fun d hd => .loop (List.mem_cons_of_mem _ hd)
    exact .inr (newly_closed g hp hb hρ _ l c z (by omega) (ih c hc hck) hup)

/-! ### Order -/

theorem InOrder.mono {L : List Var} : ∀ {S : List Var} {A B : List Var}, (∀ v ∈ A, v ∈ B) →
    InOrder rels L A S → InOrder rels L B S
  | [], _, _, _, _ => trivial
  | v :: S, A, B, hAB, h => by
    refine ⟨?_, InOrder.mono (S := S) (A := v :: A) (B := v :: B) ?_ h.2⟩
    · rcases h.1 with h | ⟨r, h1, h2, h3⟩
      · exact .inl h
      · exact .inr ⟨r, h1, h2, fun c hc => hAB c (h3 c hc)⟩
    · intro x hx
      rcases List.mem_cons.1 hx with rfl | hx
      · exact List.mem_cons_self
      · exact List.mem_cons_of_mem _ (hAB x hx)

theorem InOrder.loops {L L' : List Var} (hL : ∀ v ∈ L, v ∈ L') : ∀ {S : List Var} {A : List Var},
    InOrder rels L A S → InOrder rels L' A S
  | [], _, _ => trivial
  | _ :: S, _, h => ⟨h.1.imp_left (hL _), InOrder.loops hL (S := S) h.2⟩

theorem InOrder.append {L : List Var} : ∀ {S T A : List Var}, InOrder rels L A S →
    InOrder rels L (S.reverse ++ A) T → InOrder rels L A (S ++ T)
  | [], _, _, _, h => h
  | v :: S, T, A, h, h' => by
    refine ⟨h.1, InOrder.append (S := S) (A := v :: A) h.2 (InOrder.mono ?_ h')⟩
    intro x hx
    simpa [or_assoc, or_comm, or_left_comm] using hx

theorem InOrder.flatMap {L : List Var} {f : Var → List Var} : ∀ {ps A : List Var},
    (∀ p ∈ ps, InOrder rels L A (f p)) → InOrder rels L A (ps.flatMap f)
  | [], _, _ => trivial
  | p :: ps, A, h => by
    rw [List.flatMap_cons]
    refine InOrder.append (h p List.mem_cons_self) (InOrder.mono ?_
      (InOrder.flatMap (ps := ps) fun q hq => h q (List.mem_cons_of_mem _ hq)))
    intro v hv
    exact List.mem_append_right _ hv

theorem newly_order (g : Good rels) (hp : Plain rels) {L D : List Var} : ∀ (n : Nat) (v : Var) (A : List Var),
    v ∈ A → (∀ c, Known rels D c → c ∈ A) → InOrder rels L A (newlyRecoverable rels n v D) := by
  intro n
  induction n with
  | zero => intro v A _ _; trivial
  | succ n ih =>
    intro v A hv hA
    rw [newly_eq g hp]
    refine InOrder.flatMap fun p hm => ?_
    by_cases hu : Up rels D v p
    · rw [piece_up g hp hu]
      obtain ⟨r, h1, h2, h3⟩ := hu.1
      refine ⟨.inr ⟨r, h1, h3, fun c hc => ?_⟩, ih p (p :: A) List.mem_cons_self fun c hc =>
        List.mem_cons_of_mem _ (hA c hc)⟩
      by_cases hcv : c = v
      · rw [hcv]; exact hv
      · exact hA c (sibling_known g h1 h2 hc hcv (hu.2.2 r h1 h3 c hc))
    · rw [piece_not_up g hp hm hu]
      trivial

/-! ### Every variable once -/

theorem no_common (g : Good rels) (hj : PiecesApart rels) {r : Rel} (hr : r ∈ rels) {p q v : Var} (hpq : p ≠ q)
    (hp : p ∈ r.parents) (hq : q ∈ r.parents) (hv : v ∈ r.children) {z : Var} (h : Derives rels z p) :
    ¬Derives rels z q := by
  obtain ⟨ρ, _, hρ⟩ := g.rank
  have cyc : ∀ {a b : Var}, a ≠ b → a ∈ r.parents → b ∈ r.parents → ¬Derives rels a b := by
    intro a b hab ha hb h
    cases h with
    | refl => exact hab rfl
    | @step _ c _ r' h1 h2 h3 h4 =>
      rw [g.par h1 hr h2 ha] at h3
      have h5 := hρ r hr b hb c h3
      rcases h4.rank hρ with rfl | h6
      · omega
      · omega
  induction h with
  | refl => exact cyc hpq hp hq
  | @step z c d r' h1 h2 h3 h4 ih =>
    intro hz
    cases hz with
    | refl => exact cyc (Ne.symm hpq) hq hp (.step h1 h2 h3 h4)
    | @step _ c' _ r'' h5 h6 h7 h8 =>
      rw [g.par h5 h1 h6 h2] at h7
      by_cases hcc : c = c'
      · subst hcc
        exact ih hpq hp h8
      · exact hj r' h1 c h3 c' h7 hcc v ⟨h4.trans (.step hr hp hv .refl), h8.trans (.step hr hq hv .refl)⟩

theorem nodup_flatMap {f : Var → List Var} : ∀ {ps : List Var}, ps.Nodup → (∀ p ∈ ps, (f p).Nodup) →
    (∀ p ∈ ps, ∀ q ∈ ps, p ≠ q → ∀ z, z ∈ f p → z ∉ f q) → (ps.flatMap f).Nodup
  | [], _, _, _ => List.nodup_nil
  | p :: ps, hn, h1, h2 => by
    rw [List.flatMap_cons, List.nodup_append]
    rw [List.nodup_cons] at hn
    refine ⟨h1 p List.mem_cons_self, nodup_flatMap hn.2 (fun q hq => h1 q (List.mem_cons_of_mem _ hq))
      (fun a ha b hb => h2 a (List.mem_cons_of_mem _ ha) b (List.mem_cons_of_mem _ hb)), ?_⟩
    intro a ha b hb hab
    subst hab
    obtain ⟨q, hq, hz⟩ := List.mem_flatMap.1 hb
    exact h2 p List.mem_cons_self q (List.mem_cons_of_mem _ hq) (fun h => hn.1 (h ▸ hq)) a ha hz

theorem newly_nodup (g : Good rels) (hp : Plain rels) (hj : PiecesApart rels) {D : List Var} :
    ∀ (n : Nat) (v : Var), (newlyRecoverable rels n v D).Nodup := by
  intro n
  induction n with
  | zero => intro v; exact List.nodup_nil
  | succ n ih =>
    intro v
    obtain ⟨ρ, _, hρ⟩ := g.rank
    have hder : ∀ p ∈ getParents rels v, ∀ z ∈ piece rels n v D p, Derives rels z p := by
      intro p hm z hz
      by_cases hu : Up rels D v p
      · rw [piece_up g hp hu] at hz
        rcases List.mem_cons.1 hz with rfl | hz
        · exact .refl
        · obtain ⟨q, ⟨r, h1, h2, h3⟩, h4⟩ := newly_derives g hp n p D z hz
          exact h4.trans (.step h1 h3 h2 .refl)
      · rw [piece_not_up g hp hm hu] at hz
        exact nomatch hz
    rw [newly_eq g hp]
    refine nodup_flatMap (getParents_nodup g v) ?_ ?_
    · intro p hm
      by_cases hu : Up rels D v p
      · rw [piece_up g hp hu, List.nodup_cons]
        refine ⟨fun hz => ?_, ih p⟩
        obtain ⟨q, ⟨r, h1, h2, h3⟩, h4⟩ := newly_derives g hp n p D p hz
        have := hρ r h1 q h3 p h2
        rcases h4.rank hρ with h | h
        · rw [h] at this
          omega
        · omega
      · rw [piece_not_up g hp hm hu]
        exact List.nodup_nil
    · intro p hm q hm' hne z hz hz'
      obtain ⟨r, h1, h2, h3⟩ := (mem_getParents g).1 hm
      obtain ⟨r', h1', h2', h3'⟩ := (mem_getParents g).1 hm'
      rw [g.chi h1' h1 h2' h2] at h3'
      exact no_common g hj h1 hne h3 h3' h2 (hder p hm z hz) (hder q hm' z hz')

/-! ### All loops -/

theorem declare_spec (g : Good rels) (hp : Plain rels) (hj : PiecesApart rels) :
    ∀ (L D A : List Var), (∀ l ∈ L, Leaf rels l) → (∀ d ∈ D, Leaf rels d) → L.Nodup → (∀ l ∈ L, l ∉ D) →
      (∀ v, v ∈ A ↔ Known rels D v) →
      (declareFrom rels D L).Nodup ∧ (∀ v ∈ declareFrom rels D L, v ∉ A) ∧
      (∀ v, v ∈ A ∨ v ∈ declareFrom rels D L ↔ Known rels (L.reverse ++ D) v) ∧
      InOrder rels L A (declareFrom rels D L) := by
  intro L
  induction L with
  | nil =>
    intro D A _ _ _ _ hA
    refine ⟨List.nodup_nil, by simp [declareFrom], ?_, trivial⟩
    intro v
    simp [declareFrom, hA]
  | cons l L ih =>
    intro D A hL hD hn hdis hA
    have hlA : l ∉ A := by
      rw [hA]
      intro hk
      rcases (known_iff g).1 hk with hk | hk
      · exact hdis l List.mem_cons_self hk
      · exact hk.1 (hL l List.mem_cons_self)
    have hN : ∀ z ∈ newlyRecoverable rels (rels.length + 1) l D, ¬Known rels D z :=
      newly_unknown g hp hD _ l
    have hl : ∀ z ∈ newlyRecoverable rels (rels.length + 1) l D, z ≠ l := by
      rintro z hz rfl
      obtain ⟨p, ⟨r, h1, h2, h3⟩, h4⟩ := newly_derives g hp _ z D z hz
      cases h4 with
      | refl => exact hL z List.mem_cons_self r h1 h3
      | step h5 h6 _ _ => exact hL z List.mem_cons_self _ h5 h6
    have hA' : ∀ v, v ∈ (l :: newlyRecoverable rels (rels.length + 1) l D) ++ A ↔ Known rels (l :: D) v := by
      intro v
      constructor
      · intro h
        rcases List.mem_append.1 h with h | h
        · rcases List.mem_cons.1 h with rfl | h
          · exact .loop List.mem_cons_self
          · exact newly_known g hp (fun d hd => List.mem_cons_of_mem _ hd) _ l v (.loop List.mem_cons_self) h
        · exact ((hA v).1 h).mono fun d hd => .loop (List.mem_cons_of_mem _ hd)
      · intro h
        by_cases hk : Known rels D v
        · exact List.mem_append_right _ ((hA v).2 hk)
        · refine List.mem_append_left _ (List.mem_cons.2 ?_)
          exact newly_complete g hp hj h hk
    rw [List.nodup_cons] at hn
    obtain ⟨i1, i2, i3, i4⟩ := ih (l :: D) ((l :: newlyRecoverable rels (rels.length + 1) l D) ++ A)
      (fun x hx => hL x (List.mem_cons_of_mem _ hx))
      (by
        intro d hd
        rcases List.mem_cons.1 hd with rfl | hd
        · exact hL d List.mem_cons_self
        · exact hD d hd)
      hn.2
      (by
        intro x hx hx'
        rcases List.mem_cons.1 hx' with rfl | hx'
        · exact hn.1 hx
        · exact hdis x (List.mem_cons_of_mem _ hx) hx')
      hA'
    have hdecl : declareFrom rels D (l :: L) =
        (l :: newlyRecoverable rels (rels.length + 1) l D) ++ declareFrom rels (l :: D) L := rfl
    rw [hdecl]
    refine ⟨?_, ?_, ?_, ?_⟩
    · rw [List.nodup_append]
      refine ⟨List.nodup_cons.2 ⟨fun h => hl l h rfl, newly_nodup g hp hj _ l⟩, i1, ?_⟩
      intro a ha b hb hab
      subst hab
      exact i2 a hb (List.mem_append_left _ ha)
    · intro v hv
      rcases List.mem_append.1 hv with hv | hv
      · rcases List.mem_cons.1 hv with rfl | hv
        · exact hlA
        · exact fun h => hN v hv ((hA v).1 h)
      · exact fun h => i2 v hv (List.mem_append_right _ h)
    · intro v
      have h3 := i3 v
      rw [List.mem_append] at h3
      rw [List.mem_append, List.reverse_cons, List.append_assoc]
      show _ ↔ Known rels (L.reverse ++ (l :: D)) v
      rw [← h3]
      constructor
      · rintro (h | h | h)
        · exact .inl (.inr h)
        · exact .inl (.inl h)
        · exact .inr h
      · rintro ((h | h) | h)
        · exact .inr (.inl h)
        · exact .inl h
        · exact .inr (.inr h)
    · refine InOrder.append ⟨.inl List.mem_cons_self, ?_⟩ (InOrder.mono ?_
        (InOrder.loops (fun v hv => List.mem_cons_of_mem _ hv) i4))
      · exact newly_order g hp _ l (l :: A) List.mem_cons_self fun c hc =>
          List.mem_cons_of_mem _ ((hA c).2 hc)
      · intro v hv
        rcases List.mem_append.1 hv with hv | hv
        · exact List.mem_append_left _ (List.mem_reverse.2 hv)
        · exact List.mem_append_right _ hv

/-- Where in a nest a variable is declared. -/
theorem mem_declare : ∀ (L D : List Var) (v : Var), v ∈ declareFrom rels D L →
    ∃ pre l post, L = pre ++ l :: post ∧
      (v = l ∨ v ∈ newlyRecoverable rels (rels.length + 1) l (pre.reverse ++ D))
  | [], _, _, h => nomatch h
  | l :: L, D, v, h => by
    have hdecl : declareFrom rels D (l :: L) =
        (l :: newlyRecoverable rels (rels.length + 1) l D) ++ declareFrom rels (l :: D) L := rfl
    rw [hdecl] at h
    rcases List.mem_append.1 h with h | h
    · exact ⟨[], l, L, rfl, List.mem_cons.1 h⟩
    · obtain ⟨pre, l', post, h1, h2⟩ := mem_declare L (l :: D) v h
      refine ⟨l :: pre, l', post, by rw [h1]; rfl, ?_⟩
      rw [List.reverse_cons, List.append_assoc]
      exact h2

end

end Verif.Recover
