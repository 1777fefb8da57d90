import Verif.Recover.Lemmas

/-!
# Index variables are recovered inside the loops

C86.  Scheduling commands replace index variables by new ones; the expression still uses the old ones.  The
kernel must compute the old variables from the loop variables before they are used.
-/

namespace Verif.Recover

/-! ### A way to check that pieces stay apart -/

theorem derives_mem {rels : List Rel} (f : Var → List Var)
    (h1 : ∀ r ∈ rels, ∀ c ∈ r.children, c ∈ f c)
    (h2 : ∀ r ∈ rels, ∀ p ∈ r.parents, ∀ c ∈ r.children, ∀ d ∈ f c, d ∈ f p) {v d : Var}
    (hv : v ∈ f v) (h : Derives rels v d) : d ∈ f v := by
  induction h with
  | refl => exact hv
  | step h3 h4 h5 _ ih => exact h2 _ h3 _ h4 _ h5 _ (ih (h1 _ h3 _ h5))

theorem apart_of {rels : List Rel} (f : Var → List Var)
    (h1 : ∀ r ∈ rels, ∀ c ∈ r.children, c ∈ f c)
    (h2 : ∀ r ∈ rels, ∀ p ∈ r.parents, ∀ c ∈ r.children, ∀ d ∈ f c, d ∈ f p)
    (h3 : ∀ r ∈ rels, ∀ c ∈ r.children, ∀ c' ∈ r.children, c ≠ c' → ∀ d ∈ f c, d ∉ f c') :
    PiecesApart rels := by
  intro r hr c hc c' hc' hne d hd
  exact h3 r hr c hc c' hc' hne d (derives_mem f h1 h2 (h1 r hr c hc) hd.1)
    (derives_mem f h1 h2 (h1 r hr c' hc') hd.2)

/-! ### The theorems -/

/-- C86: for every schedule of splits, divides, bounds and fuses (or of splits, divides, bounds and position
loops) that does not fuse pieces of one variable again, and for every order of the loops, the kernel
declares every variable that the loops determine exactly once, no other variables, and each one after
everything it is computed from.

Partial: schedules with precomputed workspaces, with fused position loops (their outer variable is left to a
while loop, property C54), and schedules that fuse pieces of one variable are excluded; for the
last the claim is false, see `joined_fails`. -/
theorem recovery_partial {rels : List Rel} (hs : Schedule rels) (hp : Plain rels) (ha : PiecesApart rels)
    {loops : List Var} (hn : loops.Nodup) (hl : ∀ l ∈ loops, Leaf rels l) :
    (declarations rels loops).Nodup ∧
      (∀ v, v ∈ declarations rels loops ↔ Known rels loops v) ∧
      InOrder rels loops [] (declarations rels loops) := by
  have g := hs.good
  obtain ⟨h1, _, h3, h4⟩ := declare_spec g hp ha loops [] [] hl (by simp) hn (by simp) (by
    intro v
    constructor
    · intro h; exact nomatch h
    · intro h
      exfalso
      obtain ⟨ρ, _, hρ⟩ := g.rank
      induction h with
      | loop h => exact nomatch h
      | @derived v r hr hv hc ih =>
        cases hcs : r.children with
        | nil => exact children_ne_nil r hcs
        | cons c _ => exact ih c (by rw [hcs]; exact List.mem_cons_self))
  refine ⟨h1, fun v => ?_, h4⟩
  have h := h3 v
  simp only [List.not_mem_nil, false_or, List.append_nil] at h
  show v ∈ declareFrom rels [] loops ↔ _
  rw [h]
  constructor
  · exact fun k => k.mono fun d hd => .loop (List.mem_reverse.1 hd)
  · exact fun k => k.mono fun d hd => .loop (List.mem_reverse.2 hd)

/-- C86: when the loops run over all variables that were not replaced, every variable of the schedule — in
particular every variable of the expression that a command replaced — is declared exactly once. -/
theorem all_variables_partial {rels : List Rel} (hs : Schedule rels) (hp : Plain rels) (ha : PiecesApart rels)
    {loops : List Var} (hn : loops.Nodup) (hl : ∀ l ∈ loops, Leaf rels l)
    (hall : ∀ r ∈ rels, ∀ c ∈ r.children, Leaf rels c → c ∈ loops) :
    ∀ r ∈ rels, ∀ v, v ∈ r.parents ∨ v ∈ r.children → (declarations rels loops).count v = 1 := by
  intro r hr v hv
  obtain ⟨h1, h2, _⟩ := recovery_partial hs hp ha hn hl
  have g := hs.good
  obtain ⟨ρ, _, hρ⟩ := g.rank
  have hk : ∀ n v, ρ v < n → (∃ r ∈ rels, v ∈ r.parents ∨ v ∈ r.children) → Known rels loops v := by
    intro n
    induction n with
    | zero => intro v h; omega
    | succ n ih =>
      intro v hlt ⟨r, hr, hv⟩
      by_cases hleaf : Leaf rels v
      · rcases hv with hv | hv
        · exact absurd hv (hleaf r hr)
        · exact .loop (hall r hr v hv hleaf)
      · refine (known_iff g).2 (.inr ⟨hleaf, fun r' hr' hv' c hc => ih c ?_ ⟨r', hr', .inr hc⟩⟩)
        have := hρ r' hr' v hv' c hc
        omega
  have hm := (h2 v).2 (hk (ρ v + 1) v (by omega) ⟨r, hr, hv⟩)
  exact (h1.count (a := v)).trans (by rw [if_pos hm])

/-- A tiled and fused schedule: `i` (0) is split into 1 and 2, `j` (3) into 4 and 5, the outer pieces are
fused into 6, the inner piece of `j` gets a bound (7). -/
def tiles : List Rel := [.split 0 1 2, .split 3 4 5, .fuse 1 4 6, .bound 5 7]

theorem tiles_schedule : Schedule tiles :=
  (((Schedule.nil.add (r := .split 0 1 2) (by decide) (by decide) (by decide) (by decide)).add
    (r := .split 3 4 5) (by decide) (by decide) (by decide) (by decide)).add
    (r := .fuse 1 4 6) (by decide) (by decide) (by decide) (by decide)).add
    (r := .bound 5 7) (by decide) (by decide) (by decide) (by decide)

theorem tiles_plain : Plain tiles := ⟨by decide, .inl (by decide)⟩

theorem tiles_apart : PiecesApart tiles := by
  refine apart_of (fun v => match v with
    | 0 => [0, 1, 2, 6] | 1 => [1, 6] | 2 => [2] | 3 => [3, 4, 5, 6, 7] | 4 => [4, 6] | 5 => [5, 7]
    | 6 => [6] | 7 => [7] | _ => []) ?_ ?_ ?_ <;> decide

/-- The hypotheses of `recovery_partial` and `all_variables_partial` are met by the tiled schedule with its
loops in an order in which both variables are completed late. -/
example : (declarations tiles [7, 2, 6]).Nodup ∧
    (∀ v, v ∈ declarations tiles [7, 2, 6] ↔ Known tiles [7, 2, 6] v) ∧
    InOrder tiles [7, 2, 6] [] (declarations tiles [7, 2, 6]) :=
  recovery_partial tiles_schedule tiles_plain tiles_apart (by decide) (by unfold Leaf; decide)

example : ∀ r ∈ tiles, ∀ v, v ∈ r.parents ∨ v ∈ r.children → (declarations tiles [7, 2, 6]).count v = 1 :=
  all_variables_partial tiles_schedule tiles_plain tiles_apart (by decide) (by unfold Leaf; decide) (by unfold Leaf; decide)

example : declarations tiles [7, 2, 6] = [7, 5, 2, 6, 1, 0, 4, 3] := by decide

/-- C86, why the pieces must stay apart, for every schedule: if two variables that replaced `p` become known
through the same loop, the kernel declares `p` nowhere — although the loops determine it, and although
`isRecoverable` says so. -/
theorem joined_never_declared {rels : List Rel} (hs : Schedule rels) (hp : Plain rels)
    {before after : List Var} {l : Var} (hl : ∀ x ∈ before ++ l :: after, Leaf rels x)
    {r : Rel} (hr : r ∈ rels) {p c c' : Var} (hpr : p ∈ r.parents) (hc : c ∈ r.children) (hc' : c' ∈ r.children)
    (hne : c ≠ c') (hknown : ∀ x ∈ r.children, Known rels (before ++ [l]) x)
    (hu : ¬Known rels before c) (hu' : ¬Known rels before c') :
    Known rels (before ++ l :: after) p ∧ isRecoverable rels p (before ++ l :: after) = true ∧
      p ∉ declarations rels (before ++ l :: after) := by
  have g := hs.good
  have hk : ∀ x ∈ r.children, Known rels (before ++ l :: after) x := fun x hx =>
    (hknown x hx).mono fun d hd => .loop (by
      simp only [List.mem_append, List.mem_cons, List.not_mem_nil, or_false] at hd ⊢
      rcases hd with h | h
      · exact .inl h
      · exact .inr (.inl h))
  have hpn : ¬Leaf rels p := fun h => h r hr hpr
  refine ⟨.derived hr hpr hk, (isRecoverable_iff g hp p _).2 fun r' hr' hp' x hx => ?_, fun hm => ?_⟩
  · rw [g.par hr' hr hp' hpr] at hx
    exact hk x hx
  · obtain ⟨pre, m, post, hsplit, hin⟩ := mem_declare _ [] p hm
    have hmem : m ∈ before ++ l :: after := by rw [hsplit]; simp
    rcases hin with rfl | hin
    · exact hpn (hl p hmem)
    · rw [List.append_nil] at hin
      have hpre : ∀ d ∈ pre, Leaf rels d := fun d hd => hl d (by rw [hsplit]; simp [hd])
      have hkn : Known rels (m :: pre.reverse) p :=
        newly_known g hp (fun d hd => List.mem_cons_of_mem _ hd) _ m p (.loop List.mem_cons_self) hin
      have hun : ¬Known rels pre.reverse p :=
        newly_unknown g hp (fun d hd => hpre d (List.mem_reverse.1 hd)) _ m p hin
      -- the loop that declares `p` is `l`
      have hpos : pre = before ∧ m = l := by
        rcases List.append_eq_append_iff.1 hsplit with ⟨a, h1, h2⟩ | ⟨a, h1, h2⟩
        · cases a with
          | nil =>
            simp only [List.nil_append, List.cons.injEq] at h2
            exact ⟨by simpa using h1, h2.1.symm⟩
          | cons x a =>
            simp only [List.cons_append, List.cons.injEq] at h2
            refine absurd ?_ hun
            refine .derived hr hpr fun y hy => (hknown y hy).mono fun d hd => .loop ?_
            rw [h1, ← h2.1]
            simp only [List.mem_append, List.mem_reverse, List.mem_cons, List.not_mem_nil, or_false] at hd ⊢
            rcases hd with h | h
            · exact .inl h
            · exact .inr (.inl h)
        · cases a with
          | nil =>
            simp only [List.nil_append, List.cons.injEq] at h2
            exact ⟨by simpa using h1.symm, h2.1⟩
          | cons x a =>
            simp only [List.cons_append, List.cons.injEq] at h2
            have hkb : Known rels before p := hkn.mono fun d hd => .loop (by
              rw [h1, ← h2.1]
              simp only [List.mem_append, List.mem_reverse, List.mem_cons] at hd ⊢
              rcases hd with h | h
              · exact .inr (.inl h)
              · exact .inl h)
            rcases (known_iff g).1 hkb with h | h
            · exact absurd (hl p (List.mem_append_left _ h)) hpn
            · exact absurd (h.2 r hr hpr c hc) hu
      obtain ⟨rfl, rfl⟩ := hpos
      obtain ⟨x, _, hup⟩ := newly_from g hp _ m p hin
      obtain ⟨r', h1, h2, h3⟩ := hup.1
      rw [g.par h1 hr h3 hpr] at h2
      have hb : ∀ y, Known rels pre.reverse y → Known rels pre y := fun y k =>
        k.mono fun d hd => .loop (List.mem_reverse.1 hd)
      have hready := hup.2.2 r hr hpr
      by_cases hcx : c = x
      · have hc'x : c' ≠ x := fun h => hne (hcx.trans h.symm)
        exact hu' (hb _ (sibling_known g hr h2 hc' hc'x (hready c' hc')))
      · exact hu (hb _ (sibling_known g hr h2 hc hcx (hready c hc)))

/-- Splitting a loop and fusing its pieces again. -/
def resplit : List Rel := [.split 0 1 2, .fuse 1 2 3]

theorem resplit_schedule : Schedule resplit :=
  (Schedule.nil.add (r := .split 0 1 2) (by decide) (by decide) (by decide) (by decide)).add
    (r := .fuse 1 2 3) (by decide) (by decide) (by decide) (by decide)

theorem not_known_nil {rels : List Rel} (v : Var) : ¬Known rels [] v := by
  intro h
  induction h with
  | loop h => exact nomatch h
  | @derived v r hr hv hc ih =>
    cases hcs : r.children with
    | nil => exact children_ne_nil r hcs
    | cons c _ => exact ih c (by rw [hcs]; exact List.mem_cons_self)

/-- C86 fails for schedules that fuse the pieces of a variable: the loop over the fused variable 3 determines
variable 0, but the kernel never declares it, and code that uses it does not compile.  (The hypotheses of
`joined_never_declared` are met by this schedule.) -/
theorem joined_fails : Schedule resplit ∧ Known resplit [3] 0 ∧ isRecoverable resplit 0 [3] = true ∧
    0 ∉ declarations resplit [3] := by
  have h3 : Known resplit [3] 3 := .loop List.mem_cons_self
  have h : ∀ x ∈ (Rel.fuse 1 2 3).children, Known resplit [3] x := by
    intro x hx
    rw [List.mem_singleton.1 hx]
    exact h3
  refine ⟨resplit_schedule, joined_never_declared (before := []) (after := []) (l := 3) resplit_schedule
    ⟨by decide, .inl (by decide)⟩ (by unfold Leaf; decide) (r := .split 0 1 2) (by decide)
    (p := 0) (c := 1) (c' := 2) (by decide) (by decide) (by decide) (by decide) ?_ (not_known_nil 1)
    (not_known_nil 2)⟩
  intro x hx
  rcases List.mem_cons.1 hx with rfl | hx
  · exact .derived (r := .fuse 1 2 3) (by decide) (by decide) h
  · rw [List.mem_singleton.1 hx]
    exact .derived (r := .fuse 1 2 3) (by decide) (by decide) h

example : declarations resplit [3] = [3, 1, 2] := by decide

/-- C86 fails further up as well: when variable 0 was itself a piece of variable 9, the kernel computes 9 from
0, which is declared nowhere. -/
theorem joined_order_fails :
    declarations [.split 9 0 4, .split 0 1 2, .fuse 1 2 3] [3, 4] = [3, 1, 2, 4, 9] ∧
      ¬InOrder [.split 9 0 4, .split 0 1 2, .fuse 1 2 3] [3, 4] []
        (declarations [.split 9 0 4, .split 0 1 2, .fuse 1 2 3] [3, 4]) := by
  have h : declarations [.split 9 0 4, .split 0 1 2, .fuse 1 2 3] [3, 4] = [3, 1, 2, 4, 9] := by decide
  refine ⟨h, ?_⟩
  rw [h]
  unfold InOrder InOrder InOrder InOrder InOrder InOrder
  decide

end Verif.Recover
