import Verif.Algebra.Lemmas
/-
Properties C45 and C47.
-/
namespace Verif.Algebra

/-! ### C45: De Morgan normalisation -/

/-- C45: rewriting an iteration-space description does not change which points belong
to it, whatever regions a point is in. -/
theorem demorgan_preserves (a : Alg) (inRegion : Nat → Prop) :
    Mem inRegion (dispatch a) ↔ Mem inRegion a :=
  mem_dispatch inRegion a

/-- C45: after the rewriting complements are applied to regions only. -/
theorem demorgan_normal (a : Alg) : Normal (dispatch a) := normal_dispatch a

/-- C45: a description that is normal already is left as it is. -/
theorem demorgan_fixes : ∀ (a : Alg), Normal a → dispatch a = a
  | .region _, _ => rfl
  | .compl (.region _), _ => rfl
  | .compl (.compl _), h => h.elim
  | .compl (.inter _ _), h => h.elim
  | .compl (.union _ _), h => h.elim
  | .inter a b, h => by
    simp only [dispatch, demorgan_fixes a h.1, demorgan_fixes b h.2]
  | .union a b, h => by
    simp only [dispatch, demorgan_fixes a h.1, demorgan_fixes b h.2]

/-- The complement of an intersection with a complement. -/
example :
    dispatch (.compl (.inter (.region 0) (.compl (.union (.region 1) (.region 2))))) =
      .union (.compl (.region 0)) (.union (.region 1) (.region 2)) := rfl

/-! ### C47: annihilators and identities -/

section
variable {V : Type} [DecidableEq V]

/-- C47: if the operator has the declared annihilator and the scan replaces a call by
it, the call has that value for all values of the other arguments. -/
theorem annihilator_sound (op : List V → V) (p : Decl V) (hp : HasAnnihilator op p)
    (args : List (Arg V)) (e : Arg V) (h : annihilates p args = some (some e))
    (env : Nat → V) : argVal env e = op (args.map (argVal env)) := by
  obtain ⟨rfl, i, hi, hx⟩ := annScan_some h
  symm
  apply hp _ i (declared_of_pos hi)
  simp [List.getElem?_map, hx, argVal]

/-- C47: and the scan finds the annihilator wherever it is written at a declared
position. -/
theorem annihilator_complete (p : Decl V) (args : List (Arg V))
    (hpos : ∀ i ∈ p.positions, i < args.length) (i : Nat) (hi : Declared p i)
    (hx : args[i]? = some (.lit p.val)) : annihilates p args = some (some (.lit p.val)) := by
  have hlt : i < args.length := (List.getElem?_eq_some_iff.mp hx).1
  have hmem : i ∈ p.pos args.length := by
    unfold Decl.pos
    split
    · exact List.mem_range.mpr hlt
    · rename_i he
      rcases hi with hi | hi
      · rw [hi] at he; exact absurd rfl he
      · exact hi
  have hin : ∀ j ∈ p.pos args.length, j < args.length := by
    intro j hj
    unfold Decl.pos at hj
    split at hj
    · exact List.mem_range.mp hj
    · exact hpos j hj
  have key : ∀ ps : List Nat, (∀ j ∈ ps, j < args.length) → annScan p.val args ps ≠ none := by
    intro ps
    induction ps with
    | nil => intro _; simp [annScan]
    | cons j ps ih =>
      intro hps
      have hj := hps j List.mem_cons_self
      unfold annScan
      rw [List.getElem?_eq_getElem hj]
      simp only
      split
      · simp
      · exact ih (fun k hk => hps k (List.mem_cons_of_mem _ hk))
  unfold annihilates
  cases hs : annScan p.val args (p.pos args.length) with
  | none => exact absurd hs (key _ hin)
  | some r =>
    cases r with
    | none =>
      obtain ⟨e, he, hne⟩ := annScan_none hs i hmem
      rw [hx] at he
      exact absurd (Option.some.inj he).symm hne
    | some e => rw [(annScan_some hs).1]

/-- C47: if the operator has the declared identity and the declared positions are
distinct, whatever the scan replaces a call by has the value of the call. -/
theorem identity_sound (op : List V → V) (p : Decl V) (hp : HasIdentity op p)
    (hnd : p.positions.Nodup) (args : List (Arg V)) (hne : args ≠ []) (e : Arg V)
    (h : simplify p args = some (some e)) (env : Nat → V) :
    argVal env e = op (args.map (argVal env)) := by
  obtain ⟨⟨k, t⟩, hs, hr⟩ := Option.map_eq_some_iff.mp h
  have hnd' := pos_nodup hnd args.length
  have hlen0 : 0 < args.length := List.length_pos_iff.mpr hne
  unfold idResult at hr
  simp only at hr
  split at hr
  · cases hr
  · rename_i hk
    have hin := idScan_range hs (by omega)
    split at hr
    · rename_i hc
      obtain ⟨rfl, _, hl⟩ := hc
      obtain ⟨j, x, hj, h1, h2, h3⟩ := idScan_one hnd' hs
      have hpl : 0 < (p.pos args.length).length := List.length_pos_of_mem hj
      have hall : ∀ i, i < args.length → i ∈ p.pos args.length := by
        intro i hi
        exact mem_of_full hnd' hin (by omega) hi
      have hex : e = x := by rw [h2] at hr; exact (Option.some.inj hr).symm
      subst hex
      symm
      apply hp _ j
      · simp [List.getElem?_map, h1]
      · intro i hi hij
        have hi' : i < args.length := by simpa using hi
        refine ⟨declared_of_pos (hall i hi'), ?_⟩
        rw [List.getElem?_map, h3 i (hall i hi') hij]
        rfl
    · rename_i hc
      split at hr
      · rename_i hl
        have hle := length_le_bound hnd' hin
        have hk0 : k = 0 := by omega
        subst hk0
        have hz := idScan_zero hs
        have hall : ∀ i, i < args.length → i ∈ p.pos args.length := by
          intro i hi
          exact mem_of_full hnd' hin (by omega) hi
        have hex : e = .lit p.val := (Option.some.inj hr).symm
        subst hex
        symm
        apply hp _ 0
        · rw [List.getElem?_map, hz 0 (hall 0 hlen0)]
          rfl
        · intro i hi _
          have hi' : i < args.length := by simpa using hi
          refine ⟨declared_of_pos (hall i hi'), ?_⟩
          rw [List.getElem?_map, hz i (hall i hi')]
          rfl
      · cases hr

/-- Addition of all arguments has the identity 0 and no restriction on positions; a
call with one other argument is simplified to it. -/
example : HasIdentity (fun l : List Int => l.foldl (· + ·) 0) ⟨0, []⟩ ∧
    simplify (V := Int) ⟨0, []⟩ [.lit 0, .expr 7, .lit 0] = some (some (.expr 7)) := by
  refine ⟨?_, by decide⟩
  have hz : ∀ (l : List Int) (c : Int), (∀ i : Nat, i < l.length → l[i]? = some 0) →
      l.foldl (· + ·) c = c := by
    intro l
    induction l with
    | nil => intro c _; rfl
    | cons a l ih =>
      intro c h
      have ha : a = 0 := by simpa using h 0 (by simp)
      rw [List.foldl_cons, ih]
      · omega
      · intro i hi; simpa using h (i + 1) (by simpa using hi)
  have key : ∀ (l : List Int) (k : Nat) (x c : Int), l[k]? = some x →
      (∀ i : Nat, i < l.length → i ≠ k → l[i]? = some 0) → l.foldl (· + ·) c = c + x := by
    intro l
    induction l with
    | nil => intro k x c h; simp at h
    | cons a l ih =>
      intro k x c h h2
      cases k with
      | zero =>
        have ha : a = x := by simpa using h
        rw [List.foldl_cons, hz, ha]
        intro i hi
        simpa using h2 (i + 1) (by simpa using hi) (by omega)
      | succ k =>
        have ha : a = 0 := by simpa using h2 0 (by simp) (by omega)
        rw [List.foldl_cons, ih k x (c + a) (by simpa using h)]
        · omega
        · intro i hi hik
          simpa using h2 (i + 1) (by simpa using hi) (by omega)
  intro args k x hk h
  have h0 := key args k x 0 hk (fun i hi hik => (h i hi hik).2)
  show List.foldl _ 0 args = x
  rw [h0]
  omega

/-- Multiplication has the annihilator 0 at every position. -/
example : HasAnnihilator (fun l : List Int => l.foldl (· * ·) 1) ⟨0, []⟩ ∧
    annihilates (V := Int) ⟨0, []⟩ [.expr 3, .lit 0] = some (some (.lit 0)) := by
  refine ⟨?_, by decide⟩
  have hz : ∀ l : List Int, l.foldl (· * ·) 0 = 0 := by
    intro l
    induction l with
    | nil => rfl
    | cons a l ih => rw [List.foldl_cons, Int.zero_mul, ih]
  have key : ∀ (l : List Int) (i : Nat) (c : Int), l[i]? = some 0 → l.foldl (· * ·) c = 0 := by
    intro l
    induction l with
    | nil => intro i c h; simp at h
    | cons a l ih =>
      intro i c h
      cases i with
      | zero =>
        have ha : a = 0 := by simpa using h
        rw [List.foldl_cons, ha, Int.mul_zero, hz]
      | succ i => rw [List.foldl_cons]; exact ih i _ (by simpa using h)
  intro args i _ h
  exact key args i 1 h

/-- C47 fails without distinct positions: a declaration that names a position twice
makes the scan return the identity although another argument has another value. -/
theorem identity_repeated_position_fails :
    ∃ (op : List Int → Int) (p : Decl Int) (args : List (Arg Int)) (e : Arg Int)
      (env : Nat → Int),
      HasIdentity op p ∧ simplify p args = some (some e) ∧
        argVal env e ≠ op (args.map (argVal env)) := by
  refine ⟨fun l => match l with | [a, b] => a - b | [a] => a | _ => 0, ⟨0, [1, 1]⟩,
    [.expr 0, .lit 0], .lit 0, fun _ => 5, ?_, by decide, by decide⟩
  intro args k x hk h
  match args with
  | [] => simp at hk
  | [a] =>
    have : k = 0 := by
      have := (List.getElem?_eq_some_iff.mp hk).1
      simpa using this
    subst this
    simpa using hk
  | [a, b] =>
    have hk2 : k < 2 := by simpa using (List.getElem?_eq_some_iff.mp hk).1
    match k with
    | 0 =>
      have hb : b = 0 := by simpa using (h 1 (by simp) (by omega)).2
      have ha : a = x := by simpa using hk
      simp [hb, ha]
    | 1 =>
      have := (h 0 (by simp) (by omega)).1
      simp [Declared] at this
  | a :: b :: c :: l =>
    by_cases hk0 : k = 0
    · have := (h 2 (by simp) (by omega)).1
      simp [Declared] at this
    · have := (h 0 (by simp) (by omega)).1
      simp [Declared] at this

/-! ### C47: a call of a user-defined operator when operands are exhausted -/

/-- C47 (also C22): when operands are exhausted and their value is zero, the rewritten
call has the value of the call. -/
theorem zero_call_sound_partial (op : List V → V) (zero : V) (ann ident : Option (Decl V))
    (hann : ∀ p, ann = some p → HasAnnihilator op p)
    (hid : ∀ p, ident = some p → HasIdentity op p ∧ p.positions.Nodup)
    (exhausted : Nat → Bool) (args : List (Arg V)) (hne : args ≠ []) (c : Call V)
    (h : zeroCall zero ann ident exhausted args = some c) (env : Nat → V)
    (henv : ∀ n, exhausted n = true → env n = zero) :
    callVal op env c = op (args.map (argVal env)) := by
  have hargs : (args.map (zeroArg zero exhausted)).map (argVal env) = args.map (argVal env) := by
    rw [List.map_map]
    apply List.map_congr_left
    intro a _
    exact argVal_zeroArg henv a
  have hne' : args.map (zeroArg zero exhausted) ≠ [] := by simpa using hne
  rw [← hargs]
  unfold zeroCall at h
  simp only at h
  generalize args.map (zeroArg zero exhausted) = as at *
  have hident : ∀ c, zeroIdentity ident as = some c → callVal op env c = op (as.map (argVal env)) := by
    intro c hc
    unfold zeroIdentity at hc
    split at hc
    · cases hc; rfl
    · rename_i p
      obtain ⟨r, hs, rfl⟩ := Option.map_eq_some_iff.mp hc
      cases r with
      | none => rfl
      | some e => exact identity_sound op p (hid p rfl).1 (hid p rfl).2 as hne' e hs env
  split at h
  · exact hident c h
  · rename_i p
    obtain ⟨r, hs, hr⟩ := Option.bind_eq_some_iff.mp h
    cases r with
    | none => exact hident c hr
    | some e =>
      cases hr
      exact annihilator_sound op p (hann p rfl) as e hs env

end

/-- A product of an exhausted and another operand is the annihilator. -/
example : zeroCall (V := Int) 0 (some ⟨0, []⟩) (some ⟨1, []⟩) (fun n => n == 1)
    [.expr 0, .expr 1] = some (.arg (.lit 0)) := by decide

/-- C47 fails for operands whose fill value is not zero: an exhausted operand is
replaced by zero, not by its fill value. -/
theorem zero_call_fill_fails :
    ∃ (op : List Int → Int) (ann : Decl Int) (args : List (Arg Int)) (exhausted : Nat → Bool)
      (c : Call Int) (env : Nat → Int) (fill : Int),
      HasAnnihilator op ann ∧ zeroCall 0 (some ann) none exhausted args = some c ∧
        (∀ n, exhausted n = true → env n = fill) ∧
        callVal op env c ≠ op (args.map (argVal env)) := by
  refine ⟨fun l => if 0 ∈ l then 0 else 7, ⟨0, []⟩, [.expr 0, .expr 1], fun n => n == 1,
    .arg (.lit 0), fun _ => 5, 5, ?_, by decide, fun _ _ => rfl, by decide⟩
  intro args i _ h
  have : (0 : Int) ∈ args := List.mem_of_getElem? h
  simp [this]

/-! ### C47: the iteration space inferred from the properties -/

section
variable {V : Type} [DecidableEq V]

/-- C47: where the inferred iteration space leaves points out, the operator has at all
of them the same value, its annihilator or its identity, so nothing but that value is
lost.  `fills` are the inferred fill values of the operands: outside its own region an
operand has its fill value. -/
theorem inferred_space_partial (op : List V → V) (ann ident : Option (Decl V))
    (hann : ∀ p, ann = some p → HasAnnihilator op p)
    (hid : ∀ p, ident = some p → HasIdentity op p ∧ p.positions = [])
    (fills : List (Option V)) (alg : Alg) (h : inferAlg ann ident fills = some alg) :
    (∀ inRegion, Mem inRegion alg) ∨
    ∃ p, (ann = some p ∨ ident = some p) ∧
      ∀ (inRegion : Nat → Prop) (vals : List V), vals.length = fills.length →
        (∀ i f, fills[i]? = some (some f) → ¬ inRegion i → vals[i]? = some f) →
        ¬ Mem inRegion alg → op vals = p.val := by
  have hident : identityOrDefault ident fills = some alg → (∀ inRegion, Mem inRegion alg) ∨
    ∃ p, (ann = some p ∨ ident = some p) ∧
      ∀ (inRegion : Nat → Prop) (vals : List V), vals.length = fills.length →
        (∀ i f, fills[i]? = some (some f) → ¬ inRegion i → vals[i]? = some f) →
        ¬ Mem inRegion alg → op vals = p.val := by
    intro h
    unfold identityOrDefault at h
    split at h
    · exact Or.inl fun R => mem_defaultAlg h
    · rename_i p _
      split at h
      · rename_i alg' ha
        cases h
        right
        refine ⟨p, Or.inr rfl, ?_⟩
        intro R vals hlen hfill hout
        unfold identityAlg at ha
        split at ha
        · cases ha
        · rename_i hl
          split at ha
          · cases ha
          · rename_i hpos
            have hemp : p.positions = [] := (hid p rfl).2
            have hall : ∀ f ∈ fills, f = some p.val := by
              have : fills.all (fun f => decide (f = some p.val)) = true := by
                apply Classical.byContradiction
                intro hc
                exact hpos ⟨by simp [hemp], hc⟩
              simpa using this
            rw [mem_foldAlg_union ha] at hout
            have hv : ∀ i, i < vals.length → vals[i]? = some p.val := by
              intro i hi
              have hi' : i < fills.length := hlen ▸ hi
              apply hfill i p.val
              · rw [List.getElem?_eq_getElem hi', hall _ (List.getElem_mem hi')]
              · intro hR
                exact hout ⟨i, List.mem_range.mpr hi', hR⟩
            apply (hid p rfl).1 vals 0
            · exact hv 0 (by omega)
            · intro i hi _
              exact ⟨Or.inl hemp, hv i hi⟩
      · exact Or.inl fun R => mem_defaultAlg h
  unfold inferAlg at h
  split at h
  · exact hident h
  · rename_i p
    split at h
    · cases h
    · rename_i alg' ha
      cases h
      right
      refine ⟨p, Or.inl rfl, ?_⟩
      intro R vals hlen hfill hout
      unfold annihilatorAlg at ha
      split at ha
      · cases ha
      · obtain ⟨l, hl, ha⟩ := Option.map_eq_some_iff.mp ha
        rw [mem_foldAlg_inter ha] at hout
        have : ∃ m, m ∈ l ∧ ¬ R m := by
          apply Classical.byContradiction
          intro hc
          apply hout
          intro m hm
          apply Classical.byContradiction
          intro hR
          exact hc ⟨m, hm, hR⟩
        obtain ⟨m, hm, hR⟩ := this
        obtain ⟨hp, hf⟩ := (toIntersect_mem hl m).mp hm
        exact hann p rfl vals m (declared_of_pos hp) (hfill m _ hf hR)
    · exact hident h

end

/-- A product of two operands with fill value 0 is only computed where both are
stored, one with fill values 0 and 3 where the first is. -/
example : inferAlg (V := Int) (some ⟨0, []⟩) none [some 0, some 0] =
      some (.inter (.region 0) (.region 1)) ∧
    inferAlg (V := Int) (some ⟨0, []⟩) none [some 0, some 3] = some (.region 0) ∧
    inferAlg (V := Int) none (some ⟨0, []⟩) [some 0, some 0] =
      some (.union (.region 0) (.region 1)) ∧
    inferAlg (V := Int) none (some ⟨0, []⟩) [some 0, some 1] =
      some (.union (.union (.region 0) (.region 1)) (.compl (.union (.region 0) (.region 1)))) := by
  decide

/-- C47 fails for an identity declared at some positions: the fill values are not looked
at, so points are left out where the operator's value is not the identity. -/
theorem inferred_space_positional_fails :
    ∃ (op : List Int → Int) (p : Decl Int) (fills : List (Option Int)) (alg : Alg)
      (inRegion : Nat → Prop) (vals : List Int),
      HasIdentity op p ∧ inferAlg none (some p) fills = some alg ∧
      vals.length = fills.length ∧
      (∀ i f, fills[i]? = some (some f) → ¬ inRegion i → vals[i]? = some f) ∧
      ¬ Mem inRegion alg ∧ op vals ≠ p.val := by
  refine ⟨fun l => match l with | [a, b] => a - b | [a] => a | _ => 0, ⟨0, [1]⟩,
    [some 5, some 3], .union (.region 0) (.region 1), fun _ => False, [5, 3], ?_, by decide,
    rfl, ?_, by simp [Mem], by decide⟩
  · intro args k x hk h
    match args with
    | [] => simp at hk
    | [a] =>
      have : k = 0 := by
        have := (List.getElem?_eq_some_iff.mp hk).1
        simpa using this
      subst this
      simpa using hk
    | [a, b] =>
      have hk2 : k < 2 := by simpa using (List.getElem?_eq_some_iff.mp hk).1
      match k with
      | 0 =>
        have hb : b = 0 := by simpa using (h 1 (by simp) (by omega)).2
        have ha : a = x := by simpa using hk
        simp [hb, ha]
      | 1 =>
        have := (h 0 (by simp) (by omega)).1
        simp [Declared] at this
    | a :: b :: c :: l =>
      by_cases hk0 : k = 0
      · have := (h 2 (by simp) (by omega)).1
        simp [Declared] at this
      · have := (h 0 (by simp) (by omega)).1
        simp [Declared] at this
  · intro i f hf _
    match i with
    | 0 => simpa using hf
    | 1 => simpa using hf
    | i + 2 => simp at hf

/-! ### C47: early exit from reduction loops -/

/-- C47: leaving a reduction loop as soon as the annihilator is reached does not change
the result.  Every location gets the operator folded over all values of the right-hand
side at that location, provided the operator has the annihilator as its first argument
(the value reduced so far) and there is a reduction loop at all. -/
theorem early_exit_partial {V : Type} [DecidableEq V] (op : List V → V)
    (ann : Option (Decl V)) (hann : ∀ p, ann = some p → HasAnnihilator op p ∧ Declared p 0)
    (n : Nest V) (hred : ∃ l ∈ n.loops, l.1 ∉ n.lhs) (s : List Nat → V) (k : List Nat) :
    generated op ann n s k = reduced op n (s k) k := by
  unfold generated reduced
  rw [← foldl_step, ← run_none]
  cases hc : shortCircuitAllowed n with
  | false => rfl
  | true =>
    cases ann with
    | none => rfl
    | some p =>
      simp only [if_true, Option.map_some]
      obtain ⟨hp, h0⟩ := hann p rfl
      obtain ⟨l, hl, hlf⟩ := hred
      rw [run_exit (fun r => hp _ 0 h0 rfl) (List.ne_nil_of_mem hl)]
      exact freeFirst_last hc ⟨l.1, List.mem_map_of_mem hl, hlf⟩

/-- `a(i) = or over j of b(i,j)`, free loop first: early exits are emitted and the rows
are reduced. -/
example :
    let n : Nest Bool := ⟨[(0, 2), (1, 3)], [0], fun e => some (e 0 == 1 && e 1 == 1)⟩
    let op : List Bool → Bool := fun l => l.any id
    shortCircuitAllowed n = true ∧ HasAnnihilator op ⟨true, []⟩ ∧
      (∃ l ∈ n.loops, l.1 ∉ n.lhs) ∧
      generated op (some ⟨true, []⟩) n (fun _ => false) [0] = false ∧
      generated op (some ⟨true, []⟩) n (fun _ => false) [1] = true := by
  refine ⟨by decide, ?_, ⟨(1, 3), by simp, by simp⟩, by decide, by decide⟩
  intro args i _ h
  have : true ∈ args := List.mem_of_getElem? h
  simpa using this

/-- C47 fails when there is no reduction loop: the check on the loop order passes, and
the `break` leaves a loop whose other iterations compute other components. -/
theorem early_exit_no_reduction_fails :
    ∃ (op : List Bool → Bool) (p : Decl Bool) (n : Nest Bool) (s : List Nat → Bool)
      (k : List Nat), HasAnnihilator op p ∧ p.positions = [] ∧
      generated op (some p) n s k ≠ reduced op n (s k) k := by
  refine ⟨fun l => l.any id, ⟨true, []⟩, ⟨[(0, 2)], [0], fun _ => some true⟩, fun _ => false,
    [1], ?_, rfl, by decide⟩
  intro args i _ h
  have : true ∈ args := List.mem_of_getElem? h
  simpa using this

/-- C47 fails for annihilators declared for the second argument only: the early exit
ignores the positions. -/
theorem early_exit_position_fails :
    ∃ (op : List Int → Int) (p : Decl Int) (n : Nest Int) (s : List Nat → Int)
      (k : List Nat), HasAnnihilator op p ∧ p.positions = [1] ∧
      (∃ l ∈ n.loops, l.1 ∉ n.lhs) ∧
      generated op (some p) n s k ≠ reduced op n (s k) k := by
  refine ⟨fun l => match l with | [a, b] => if b = 0 then 0 else a + b | _ => 0, ⟨0, [1]⟩,
    ⟨[(0, 3)], [], fun e => some (e 0)⟩, fun _ => 0, [], ?_, rfl, ⟨(0, 3), by simp, by simp⟩,
    by decide⟩
  intro args i hi h
  have h1 : i = 1 := by simpa [Declared] using hi
  subst h1
  match args with
  | [] => simp at h
  | [a] => simp at h
  | [a, b] =>
    have hb : b = 0 := by simpa using h
    simp [hb]
  | a :: b :: c :: l => rfl

/-- Reversing the loop order is noticed: no early exit is emitted then. -/
example : shortCircuitAllowed (V := Bool) ⟨[(1, 3), (0, 2)], [0], fun _ => none⟩ = false := by
  decide

end Verif.Algebra
