import Verif.Notation.Lemmas
import Verif.Recover.Theorems

/-!
# C87: the checks that decide what notation a statement is in
-/

namespace Verif.Notation

open Verif.Recover

/-! ### Einsum and reduction notation -/

/-- C87: a statement is taken for einsum notation exactly if it is an assignment with matching dimensions whose
right-hand side has no division, no reduction, and no sum or difference inside of a product. -/
theorem einsum_iff (s : Stmt) : isEinsumNotation s = true ↔
    ∃ lhs compound rhs, s = .assign lhs compound rhs true ∧ EinsumExpr rhs := by
  constructor
  · intro h
    cases s with
    | assign lhs compound rhs valid =>
      replace h : (valid && einsumExpr false rhs) = true := h
      rw [Bool.and_eq_true, einsum_false] at h
      obtain ⟨rfl, h1⟩ := h
      exact ⟨lhs, compound, rhs, rfl, h1⟩
    | _ => exact nomatch h
  · rintro ⟨lhs, compound, rhs, rfl, h⟩
    show (true && einsumExpr false rhs) = true
    rw [Bool.true_and, einsum_false]
    exact h

/-- `a(i) = b(i) * c(j) + d(i)` is einsum notation, `a(i) = b(i) * (c(j) + d(i))` is not. -/
example : EinsumExpr (.add (.mul (.access [0]) (.access [1])) (.access [0])) ∧
    ¬EinsumExpr (.mul (.access [0]) (.add (.access [1]) (.access [0]))) := by
  rw [← einsum_false, ← einsum_false]
  decide

/-- C87: a statement is taken for reduction notation exactly if it is an assignment with matching dimensions and
every variable of an access is a variable of the result or bound by a reduction around that access. -/
theorem reduction_iff (s : Stmt) : isReductionNotation s = true ↔
    ∃ lhs compound rhs, s = .assign lhs compound rhs true ∧ ReductionExpr lhs rhs := by
  constructor
  · intro h
    cases s with
    | assign lhs compound rhs valid =>
      replace h : (valid && reductionExpr lhs rhs) = true := h
      rw [Bool.and_eq_true, reductionExpr_iff] at h
      obtain ⟨rfl, h1⟩ := h
      exact ⟨lhs, compound, rhs, rfl, h1⟩
    | _ => exact nomatch h
  · rintro ⟨lhs, compound, rhs, rfl, h⟩
    show (true && reductionExpr lhs rhs) = true
    rw [Bool.true_and, reductionExpr_iff]
    exact h

/-- `a(i) = sum(j, B(i,j)) * c(i)` is reduction notation, `a(i) = sum(j, B(i,j)) * c(j)` is not. -/
example : ReductionExpr [0] (.mul (.reduction 1 (.access [0, 1])) (.access [0])) ∧
    ¬ReductionExpr [0] (.mul (.reduction 1 (.access [0, 1])) (.access [1])) := by
  unfold ReductionExpr
  rw [← reductionExpr_iff, ← reductionExpr_iff]
  decide

/-- C87: the check for scheduled reduction notation gives the answer of the check without a schedule, whatever
the relations are. -/
theorem scheduled_same (rels : List Rel) (s : Stmt) :
    isReductionNotationScheduled rels s = isReductionNotation s := by
  cases s with
  | assign lhs compound rhs valid =>
    show (valid && scheduledExpr rels lhs true rhs) = (valid && reductionExpr lhs rhs)
    rw [scheduledExpr_eq, Bool.true_and]
  | _ => rfl

/-- C87 fails for scheduled reduction notation: after `split(j, j0, j1)`, a reduction over both pieces does not
bind `j`, although the pieces determine it. -/
theorem scheduled_reduction_fails :
    isReductionNotationScheduled [.split 1 2 3]
      (.assign [0] false (.reduction 2 (.reduction 3 (.access [0, 1]))) true) = false ∧
    Known [.split 1 2 3] [2, 3] 1 := by
  refine ⟨by decide, .derived (r := .split 1 2 3) List.mem_cons_self List.mem_cons_self fun c hc => .loop ?_⟩
  exact hc

/-! ### Concrete notation -/

theorem known_nil {loops : List Var} {v : Var} : Known [] loops v ↔ v ∈ loops := by
  constructor
  · intro h
    cases h with
    | loop h => exact h
    | derived h => exact nomatch h
  · exact .loop

/-- C87: a statement without scheduling relations, in which nothing is yielded, is taken for concrete notation
exactly if it is concrete notation.  The missing part is about `yield` (`yield_fails`) and relations. -/
theorem concrete_unscheduled_partial {s : Stmt} (hr : ∀ t rels, s ≠ .suchThat t rels) (hy : NoYield s) :
    isConcreteNotation s = true ↔ Concrete [] s := by
  have hc : isConcreteNotation s = (concreteStmt [] false false [] [] s).1 := by
    cases s with
    | suchThat t rels => exact absurd rfl (hr t rels)
    | _ => rfl
  rw [hc, concrete_iff_all]
  exact concreteStmt_iff Schedule.nil.good ⟨(fun r h => nomatch h), .inl (fun r h => nomatch h)⟩ s false false [] [] []
    (fun _ => Iff.rfl) (.inl rfl) (fun _ _ _ _ _ _ _ r hr => nomatch hr) hy

/-- C87: a nest of loops with scheduling relations is taken for concrete notation exactly if it is concrete
notation, given that the body uses the variables of the program (not those that commands introduced).  Missing:
several loops beside each other (`sibling_fails`), introduced variables (`derived_fails`), `yield`. -/
theorem concrete_scheduled_partial {rels : List Rel} (hs : Schedule rels) (hp : Plain rels) {loops : List Var}
    {s : Stmt} (hn : NoLoops s) (hy : NoYield (nest loops s))
    (ho : ∀ t producer inWhere around, At t producer inWhere around (nest loops s) →
      ∀ v, Uses t v → Original rels v) :
    isConcreteNotation (.suchThat (nest loops s) rels) = true ↔ Concrete rels (nest loops s) := by
  rw [concrete_iff_all]
  exact concrete_nest_iff hs.good hp hn loops [] [] [] (fun _ => Iff.rfl) (fun _ => Iff.rfl) ho hy

/-! An example: matrix multiplication, tiled. -/

/-- `A(i,j) += B(i,k) * C(k,j)` with `i`, `j`, `k` = 0, 3, 8. -/
def product : Stmt := .assign [0, 3] true (.mul (.access [0, 8]) (.access [8, 3])) true

theorem at_product {t p w L loops} (h : At t p w L (nest loops product)) :
    t = product ∨ ∃ v s, t = .forall_ v s := by
  induction loops generalizing p w L with
  | nil =>
    rcases at_iff.1 h with ⟨h, _⟩ | ⟨s, _, _, _, _, _, _, hb, _⟩
    · exact .inl h
    · exact nomatch hb
  | cons v loops ih =>
    rcases at_iff.1 h with ⟨h, _⟩ | ⟨s, _, _, _, _, _, _, hb, ha, _⟩
    · exact .inr ⟨_, _, h⟩
    · cases hb
      exact ih ha

theorem product_noLoops : NoLoops product := by
  intro t v p w L h
  rcases at_iff.1 h with ⟨h, _⟩ | ⟨s, _, _, _, _, _, _, hb, _⟩
  · exact nomatch h
  · exact nomatch hb

theorem product_noYield (loops : List Var) : NoYield (nest loops product) := by
  intro vars e p w L h
  rcases at_product h with h | ⟨v, s, h⟩ <;> exact nomatch h

theorem product_uses {v : Var} (h : Uses product v) : v = 0 ∨ v = 3 ∨ v = 8 := by
  cases h with
  | lhs h =>
    simp at h
    rcases h with h | h <;> simp [h]
  | rhs h =>
    simp only [UsedInExpr, inside_mul, inside_access] at h
    rcases h with ⟨vs, hvs, h⟩ | h
    · rcases hvs with hvs | hvs | hvs
      · exact nomatch hvs
      · cases hvs
        simp at h
        rcases h with h | h <;> simp [h]
      · cases hvs
        simp at h
        rcases h with h | h <;> simp [h]
    · rcases h with h | h | h <;> exact nomatch h

theorem product_original (loops : List Var) : ∀ t p w L, At t p w L (nest loops product) →
    ∀ v, Uses t v → Original tiles v := by
  intro t p w L h v hv
  rcases at_product h with rfl | ⟨v, s, rfl⟩
  · rcases product_uses hv with rfl | rfl | rfl <;> (unfold Original; decide)
  · exact nomatch hv

/-- The hypotheses are met by the tiled product, which is concrete notation. -/
example : Concrete tiles (nest [6, 2, 8, 7] product) :=
  (concrete_scheduled_partial tiles_schedule tiles_plain product_noLoops (product_noYield _)
    (product_original _)).1 (by decide)

/-- Without the loop over `k` it is not. -/
example : ¬Concrete tiles (nest [6, 2, 7] product) := fun h =>
  absurd ((concrete_scheduled_partial tiles_schedule tiles_plain product_noLoops (product_noYield _)
    (product_original _)).2 h) (by decide)

/-- A statement with a workspace: `where(forall(j, A(i,j) = w(j)), forall(k, forall(j, w(j) = B(i,k)*C(k,j))))`
is not accumulating in the producer and is accepted there. -/
example : isConcreteNotation (.forall_ 0 (.where_ (.forall_ 1 (.assign [0, 1] false (.access [1]) true))
    (.forall_ 2 (.forall_ 1 (.assign [1] false (.mul (.access [0, 2]) (.access [2, 1])) true))))) = true := by decide

/-! ### Scheduling commands keep statements concrete -/

theorem known_weaken {rels rels' : List Rel} {L L' : List Var} {v : Var} (hr : ∀ r ∈ rels, r ∈ rels')
    (hl : ∀ l ∈ L, Known rels' L' l) (h : Known rels L v) : Known rels' L' v := by
  induction h with
  | loop h => exact hl _ h
  | derived h1 h2 _ ih => exact .derived (hr _ h1) h2 ih

theorem allOK_nest {rels : List Rel} {s : Stmt} : ∀ (L B : List Var),
    AllOK rels false false B (nest L s) ↔ AllOK rels false false (B ++ L) s
  | [], B => by rw [List.append_nil]; rfl
  | v :: L, B => by
    have ih := allOK_nest (rels := rels) (s := s) L (B ++ [v])
    rw [List.append_assoc] at ih
    rw [← List.singleton_append, ← ih]
    show AllOK rels false false B (.forall_ v (nest L s)) ↔ _
    rw [allOK_iff (u := .forall_ v (nest L s))]
    constructor
    · intro h
      exact h.2 _ _ _ _ .forall_
    · intro h
      refine ⟨node_trivial (by intro v h; exact nomatch h) (by intro v h; exact nomatch h)
        (by simp) (by simp), ?_⟩
      intro s' p2 w2 L2 hb
      cases hb
      exact h

/-- C87: a scheduling command that replaces the loops over the variables it consumes by loops over the variables
it introduces turns an accepted statement into an accepted statement. -/
theorem schedule_keeps_partial {rels : List Rel} {r : Rel} (hs : Schedule rels) (hp : Plain rels)
    (hs' : Schedule (rels ++ [r])) (hp' : Plain (rels ++ [r])) {outer inner : List Var} {s : Stmt} (hn : NoLoops s)
    (hy : NoYield s)
    (ho : ∀ t producer inWhere around, At t producer inWhere around s → ∀ v, Uses t v → Original (rels ++ [r]) v)
    (h : isConcreteNotation (.suchThat (nest (outer ++ r.parents ++ inner) s) rels) = true) :
    isConcreteNotation (.suchThat (nest (outer ++ r.children ++ inner) s) (rels ++ [r])) = true := by
  have at_nest : ∀ (L : List Var) {t p w B}, At t p w B (nest L s) →
      (∃ p w B, At t p w B s) ∨ ∃ v u, t = .forall_ v u := by
    intro L
    induction L with
    | nil => exact fun h => .inl ⟨_, _, _, h⟩
    | cons v L ih =>
      intro t p w B h
      rcases at_iff.1 h with ⟨h, _⟩ | ⟨s, _, _, _, _, _, _, hb, ha, _⟩
      · exact .inr ⟨_, _, h⟩
      · cases hb
        exact ih ha
  have hyn : ∀ L, NoYield (nest L s) := by
    intro L vars e p w B h
    rcases at_nest L h with ⟨_, _, _, h⟩ | ⟨v, u, h⟩
    · exact hy _ _ _ _ _ h
    · exact nomatch h
  have hon : ∀ L t p w B, At t p w B (nest L s) → ∀ v, Uses t v → Original (rels ++ [r]) v := by
    intro L t p w B h v hv
    rcases at_nest L h with ⟨_, _, _, h⟩ | ⟨v, u, rfl⟩
    · exact ho _ _ _ _ h v hv
    · exact nomatch hv
  have hon' : ∀ L t p w B, At t p w B (nest L s) → ∀ v, Uses t v → Original rels v :=
    fun L t p w B h v hv q hq => hon L t p w B h v hv q (List.mem_append_left _ hq)
  rw [concrete_scheduled_partial hs hp hn (hyn _) (hon' _), concrete_iff_all, allOK_nest] at h
  rw [concrete_scheduled_partial hs' hp' hn (hyn _) (hon _), concrete_iff_all, allOK_nest]
  intro t p w L ht
  obtain ⟨h1, h2⟩ := h t p w L ht
  refine ⟨fun v hv => known_weaken (fun q hq => List.mem_append_left _ hq) ?_ (h1 v hv), h2⟩
  intro l hl
  simp only [List.nil_append, List.mem_append] at hl
  have keep : ∀ l, l ∈ outer ∨ l ∈ inner ∨ l ∈ L → Known (rels ++ [r]) ([] ++ (outer ++ r.children ++ inner) ++ L) l := by
    intro l hl
    refine .loop ?_
    simp only [List.nil_append, List.mem_append]
    rcases hl with hl | hl | hl <;> simp [hl]
  rcases hl with ((hl | hl) | hl) | hl
  · exact keep l (.inl hl)
  · refine .derived (List.mem_append_right _ List.mem_cons_self) hl fun c hc => .loop ?_
    simp [hc]
  · exact keep l (.inr (.inl hl))
  · exact keep l (.inr (.inr hl))

/-- The hypotheses are met by fusing the loops over tiles of the tiled product. -/
example : isConcreteNotation (.suchThat (nest [6, 2, 8, 5] product)
    [.split 0 1 2, .split 3 4 5, .fuse 1 4 6]) = true := by
  have hs : Schedule [.split 0 1 2, .split 3 4 5] :=
    (Schedule.nil.add (r := .split 0 1 2) (by decide) (by decide) (by decide) (by decide)).add
      (r := .split 3 4 5) (by decide) (by decide) (by decide) (by decide)
  refine schedule_keeps_partial (rels := [.split 0 1 2, .split 3 4 5]) (r := .fuse 1 4 6) (outer := [])
    (inner := [2, 8, 5]) hs ⟨by decide, .inl (by decide)⟩
    (hs.add (by decide) (by decide) (by decide) (by decide)) ⟨by decide, .inl (by decide)⟩ product_noLoops
    (product_noYield []) ?_ (by decide)
  intro t p w L h v hv
  rcases at_product (loops := []) h with rfl | ⟨v, s, rfl⟩
  · rcases product_uses hv with rfl | rfl | rfl <;> (unfold Original; decide)
  · exact nomatch hv

/-- C87: every variable that an accepted nest of loops uses is one that the generated loops declare (see C86). -/
theorem accepted_declared_partial {rels : List Rel} (hs : Schedule rels) (hp : Plain rels) (ha : PiecesApart rels)
    {loops : List Var} (hnd : loops.Nodup) (hl : ∀ l ∈ loops, Leaf rels l) {s : Stmt} (hn : NoLoops s)
    (hy : NoYield (nest loops s))
    (ho : ∀ t producer inWhere around, At t producer inWhere around (nest loops s) →
      ∀ v, Uses t v → Original rels v)
    (h : isConcreteNotation (.suchThat (nest loops s) rels) = true) :
    ∀ t producer inWhere around, At t producer inWhere around s → ∀ v, Uses t v → v ∈ declarations rels loops := by
  rw [concrete_scheduled_partial hs hp hn hy ho, concrete_iff_all, allOK_nest] at h
  intro t p w L ht v hv
  have hnone : ∀ {t p w L} {s : Stmt}, NoLoops s → At t p w L s → L = [] := by
    intro t p w L s hn ht
    induction ht with
    | here => rfl
    | step _ hb ih =>
      rw [ih (hn.below hb), List.append_nil]
      cases hb
      · exact absurd .here (hn _ _ _ _ _)
      all_goals rfl
  have hk := (h t p w L ht).1 v hv
  rw [hnone hn ht, List.append_nil, List.nil_append] at hk
  exact ((recovery_partial hs hp ha hnd hl).2.1 v).2 hk

example : ∀ v, Uses product v → v ∈ declarations tiles [6, 2, 8, 7] :=
  accepted_declared_partial tiles_schedule tiles_plain tiles_apart (by decide) (by unfold Leaf; decide)
    product_noLoops (product_noYield _) (product_original _) (by decide) product false false [] .here

/-! ### Where the check accepts too much -/

theorem not_known_nil' {rels : List Rel} {v : Var} (h : Known rels [] v) : False := not_known_nil v h

/-- C87 fails for loops beside each other: the variables of loops that have ended still count when the check
decides what can be recovered.  Here `i` (0) is used outside of all loops and accepted, because a loop nest over
both of its pieces comes before. -/
theorem sibling_fails :
    let use : Stmt := .assign [0] false (.access [0]) true
    let s : Stmt := .multi (nest [1, 2] use) use
    isConcreteNotation (.suchThat s [.split 0 1 2]) = true ∧ ¬Concrete [.split 0 1 2] s ∧
      Schedule [.split 0 1 2] ∧ Plain [.split 0 1 2] ∧ isConcreteNotation (.suchThat
        (.multi (.assign [0] false (.access [0]) true) (nest [1, 2] (.assign [0] false (.access [0]) true)))
        [.split 0 1 2]) = false := by
  refine ⟨by decide, fun h => ?_, Schedule.nil.add (r := .split 0 1 2) (by decide) (by decide) (by decide)
    (by decide), ⟨by decide, .inl (by decide)⟩, by decide⟩
  have := h.1 _ _ _ _ (.step (.here (s := .assign [0] false (.access [0]) true)) .right) 0 (.lhs (by simp))
  exact not_known_nil _ this

/-- C87 fails for variables that commands introduced: no loop has to bind them.  The statement uses `i0` (1),
a piece of `i`, in loops over neither of the pieces. -/
theorem derived_fails :
    let s : Stmt := .forall_ 5 (.assign [5] false (.mul (.access [5]) (.ivar 1)) true)
    isConcreteNotation (.suchThat s [.split 0 1 2]) = true ∧ ¬Concrete [.split 0 1 2] s := by
  refine ⟨by decide, fun h => ?_⟩
  have := h.1 _ _ _ _ (.step .here .forall_) 1 (.rhs (.inr (.part .refl .mulR)))
  cases this with
  | loop h => exact absurd h (by decide)
  | derived h1 h2 _ =>
    rw [List.mem_singleton.1 h1] at h2
    exact absurd h2 (by decide)

/-- C87 fails for `yield`: the coordinates that are yielded are not looked at. -/
theorem yield_fails :
    let s : Stmt := .forall_ 0 (.yield [0, 1] (.access [0]))
    isConcreteNotation s = true ∧ ¬Concrete [] s := by
  refine ⟨by decide, fun h => ?_⟩
  have := h.1 _ _ _ _ (.step .here .forall_) 1 (.yieldVars (by simp))
  exact absurd (known_nil.1 this) (by decide)

/-- Dimensions are only compared in assignments outside of where statements: with a workspace, an assignment
whose dimensions do not match is accepted; without, it is rejected. -/
theorem where_dimensions_fails :
    isConcreteNotation (.forall_ 0 (.where_ (.assign [0] false (.access []) true)
      (.assign [] false (.access [0]) false))) = true ∧
    isConcreteNotation (.forall_ 0 (.assign [0] false (.access [0]) false)) = false := by decide

end Verif.Notation
