import Verif.Scoped.Model
/-! Property C34. -/
namespace Verif.Scoped

variable {K V : Type} [DecidableEq K]

/-- Operations that stay inside the scope they start in: every `unscope` closes a scope opened in the
sequence, and every scope opened is closed. -/
inductive Balanced : List (Op K V) → Prop
  | nil : Balanced []
  | insert (k v os) : Balanced os → Balanced (Op.insert k v :: os)
  | remove (k os) : Balanced os → Balanced (Op.remove k :: os)
  | block (a b) : Balanced a → Balanced b → Balanced (Op.scope :: a ++ Op.unscope :: b)

/-- The log of the operations a declaration block sees: specification of lexical scoping. A history is
a stack of blocks, innermost first; each block lists its declarations, oldest first. -/
abbrev History (K V : Type) := List (List (K × V))

/-- The declarations in force after the operations without `remove`. -/
def history : History K V → List (Op K V) → History K V
  | h, [] => h
  | h, .scope :: os => history ([] :: h) os
  | _ :: h, .unscope :: os => history h os
  | b :: h, .insert k v :: os => history ((b ++ [(k, v)]) :: h) os
  | h, _ :: os => history h os

/-- Lexical lookup: the first declaration of `k` in the innermost block that declares it. -/
def visible : History K V → K → Option V
  | [], _ => none
  | b :: h, k => match b.find? (fun d => d.1 = k) with | some d => some d.2 | none => visible h k

def opIsRemove : Op K V → Bool
  | .remove _ => true
  | _ => false

def agrees (s : SMap K V) (h : History K V) : Prop :=
  s.length = h.length ∧ ∀ i (hi : i < s.length) (hj : i < h.length) k,
    s[i] k = ((h[i]).find? (fun d => d.1 = k)).map (·.2)

theorem agrees_cons {m : Scope K V} {s : SMap K V} {b : List (K × V)} {h : History K V} :
    agrees (m :: s) (b :: h) ↔ (∀ k, m k = (b.find? (fun d => d.1 = k)).map (·.2)) ∧ agrees s h := by
  constructor
  · rintro ⟨h1, h2⟩
    refine ⟨h2 0 (by simp) (by simp), by simpa using h1, ?_⟩
    intro i hi hj k
    have := h2 (i + 1) (by simp; omega) (by simp; omega) k
    simpa using this
  · rintro ⟨h1, h2, h3⟩
    refine ⟨by simpa using h2, ?_⟩
    intro i hi hj k
    cases i with
    | zero => exact h1 k
    | succ i => exact h3 i (by simpa using hi) (by simpa using hj) k

theorem agrees_get {s : SMap K V} {h : History K V} (ha : agrees s h) (k : K) : get s k = visible h k := by
  induction s generalizing h with
  | nil =>
    cases h with
    | nil => rfl
    | cons b h => exact absurd ha.1 (by simp)
  | cons m s ih =>
    cases h with
    | nil => exact absurd ha.1 (by simp)
    | cons b h =>
      obtain ⟨h1, h2⟩ := agrees_cons.1 ha
      unfold get visible
      rw [h1 k]
      cases b.find? (fun d => decide (d.1 = k)) with
      | none => exact ih h2
      | some d => rfl

/-- C34. After any sequence of operations without `remove` that the code accepts, a lookup returns the
declaration of the innermost open block that declares the key. -/
theorem scoped_lookup (os : List (Op K V)) (hno : ∀ o ∈ os, opIsRemove o = false) (s : SMap K V)
    (hrun : run initial os = some s) (k : K) : get s k = visible (history [[]] os) k := by
  have main : ∀ (os : List (Op K V)) (s0 : SMap K V) (h0 : History K V) (s : SMap K V),
      (∀ o ∈ os, opIsRemove o = false) → agrees s0 h0 → run s0 os = some s → agrees s (history h0 os) := by
    intro os
    induction os with
    | nil =>
      intro s0 h0 s _ ha hr
      have : s0 = s := Option.some.inj hr
      rw [← this]; exact ha
    | cons o os ih =>
      intro s0 h0 s hno ha hr
      have hno' : ∀ o ∈ os, opIsRemove o = false := fun o ho => hno o (List.mem_cons_of_mem _ ho)
      cases o with
      | scope =>
        have : agrees ((fun _ => none) :: s0) ([] :: h0) := agrees_cons.2 ⟨fun k => rfl, ha⟩
        exact ih _ _ s hno' this hr
      | unscope =>
        cases s0 with
        | nil => exact absurd hr (by simp [run, step])
        | cons m s0 =>
          cases h0 with
          | nil => exact absurd ha.1 (by simp)
          | cons b h0 => exact ih _ _ s hno' (agrees_cons.1 ha).2 hr
      | insert k v =>
        cases s0 with
        | nil => exact absurd hr (by simp [run, step])
        | cons m s0 =>
          cases h0 with
          | nil => exact absurd ha.1 (by simp)
          | cons b h0 =>
            obtain ⟨h1, h2⟩ := agrees_cons.1 ha
            refine ih _ _ s hno' (agrees_cons.2 ⟨?_, h2⟩) hr
            intro k'
            unfold insertScope
            rw [List.find?_append]
            by_cases hk : k' = k
            · subst hk
              rw [if_pos rfl, h1 k']
              cases b.find? (fun d => decide (d.1 = k')) with
              | none => simp
              | some d => rfl
            · rw [if_neg hk, h1 k']
              have : List.find? (fun d : K × V => decide (d.1 = k')) [(k, v)] = none := by
                have : ¬ k = k' := fun h => hk h.symm
                simp [this]
              rw [this]
              cases b.find? (fun d => decide (d.1 = k')) <;> rfl
      | remove k => exact absurd (hno _ List.mem_cons_self) (by simp [opIsRemove])
  exact agrees_get (main os initial [[]] s hno (agrees_cons.2 ⟨fun _ => rfl, rfl, fun i hi => absurd hi (by simp)⟩) hrun) k

omit [DecidableEq K] in
/-- `contains` says whether `get` finds a binding. -/
theorem scoped_contains (s : SMap K V) (k : K) : contains s k = (get s k).isSome := by
  induction s with
  | nil => rfl
  | cons m s ih => unfold contains get; cases m k <;> simp [ih]

theorem run_append (s : SMap K V) (a b : List (Op K V)) : run s (a ++ b) = (run s a).bind (run · b) := by
  induction a generalizing s with
  | nil => rfl
  | cons o a ih =>
    show (step s o).bind (run · (a ++ b)) = ((step s o).bind (run · a)).bind (run · b)
    cases step s o with
    | none => rfl
    | some s' => exact ih s'

theorem balanced_tail (os : List (Op K V)) (hb : Balanced os) (hno : ∀ o ∈ os, opIsRemove o = false) :
    ∀ (m : Scope K V) (s : SMap K V), ∃ m', run (m :: s) os = some (m' :: s) := by
  induction hb with
  | nil => intro m s; exact ⟨m, rfl⟩
  | insert k v os _ ih =>
    intro m s
    exact ih (fun o ho => hno o (List.mem_cons_of_mem _ ho)) _ s
  | remove k os => exact absurd (hno _ List.mem_cons_self) (by simp [opIsRemove])
  | block a b _ _ iha ihb =>
    intro m s
    have hna : ∀ o ∈ a, opIsRemove o = false := fun o ho =>
      hno o (by simp [ho])
    have hnb : ∀ o ∈ b, opIsRemove o = false := fun o ho =>
      hno o (by simp [ho])
    obtain ⟨m1, h1⟩ := iha hna (fun _ => none) (m :: s)
    obtain ⟨m2, h2⟩ := ihb hnb m s
    refine ⟨m2, ?_⟩
    show (run ((fun _ => none) :: m :: s) (a ++ Op.unscope :: b)) = _
    rw [run_append, h1]
    exact h2

/-- C34. Opening a scope, running any balanced sequence of operations without `remove` and closing the
scope restores the map that was there before. -/
theorem scoped_restore (os : List (Op K V)) (hb : Balanced os) (hno : ∀ o ∈ os, opIsRemove o = false)
    (s : SMap K V) : run s (Op.scope :: os ++ [Op.unscope]) = some s := by
  obtain ⟨m, h⟩ := balanced_tail os hb hno (fun _ => none) s
  show run ((fun _ => none) :: s) (os ++ [Op.unscope]) = some s
  rw [run_append, h]
  rfl

/-- Every `remove` in the sequence, run from `s`, finds its key in the innermost scope. -/
def removesLocal : SMap K V → List (Op K V) → Prop
  | _, [] => True
  | s, o :: os =>
    (∀ k, o = Op.remove k → ∃ m ms, s = m :: ms ∧ (m k).isSome = true) ∧
      ∀ s', step s o = some s' → removesLocal s' os

theorem removesLocal_append {s s' : SMap K V} {a b : List (Op K V)} (h : removesLocal s (a ++ b))
    (hr : run s a = some s') : removesLocal s a ∧ removesLocal s' b := by
  induction a generalizing s with
  | nil => exact ⟨trivial, by rw [← Option.some.inj hr]; exact h⟩
  | cons o a ih =>
    cases hs : step s o with
    | none => exact absurd hr (by simp [run, hs])
    | some s1 =>
      have hr' : run s1 a = some s' := by simpa [run, hs] using hr
      obtain ⟨h1, h2⟩ := ih (h.2 s1 hs) hr'
      refine ⟨⟨h.1, ?_⟩, h2⟩
      intro s2 hs2
      rw [hs] at hs2
      rw [← Option.some.inj hs2]; exact h1

theorem removesLocal_prefix {s : SMap K V} {a b : List (Op K V)} (h : removesLocal s (a ++ b)) :
    removesLocal s a := by
  induction a generalizing s with
  | nil => trivial
  | cons o a ih => exact ⟨h.1, fun s' hs => ih (h.2 s' hs)⟩

theorem balanced_tail_local (os : List (Op K V)) (hb : Balanced os) :
    ∀ (m : Scope K V) (s : SMap K V), removesLocal (m :: s) os → ∃ m', run (m :: s) os = some (m' :: s) := by
  induction hb with
  | nil => intro m s _; exact ⟨m, rfl⟩
  | insert k v os _ ih => intro m s h; exact ih _ s (h.2 _ rfl)
  | remove k os _ ih =>
    intro m s h
    obtain ⟨m', ms, he, hk⟩ := h.1 k rfl
    have h1 := (List.cons.inj he).1
    rw [← h1] at hk
    have hst : step (m :: s) (Op.remove k) = some (eraseScope m k :: s) := by
      show remove (m :: s) k = _
      unfold remove
      cases hm : m k with
      | none => rw [hm] at hk; exact absurd hk (by simp)
      | some v => rfl
    obtain ⟨m2, h2⟩ := ih (eraseScope m k) s (h.2 _ hst)
    exact ⟨m2, by show (step (m :: s) (Op.remove k)).bind _ = _; rw [hst]; exact h2⟩
  | block a b _ _ iha ihb =>
    intro m s h
    have h' : removesLocal ((fun _ => none) :: m :: s) (a ++ Op.unscope :: b) := h.2 _ rfl
    obtain ⟨m1, h1⟩ := iha (fun _ => none) (m :: s) (removesLocal_prefix h')
    obtain ⟨_, h3⟩ := removesLocal_append h' h1
    obtain ⟨m2, h2⟩ := ihb m s (h3.2 _ rfl)
    refine ⟨m2, ?_⟩
    show (run ((fun _ => none) :: m :: s) (a ++ Op.unscope :: b)) = _
    rw [run_append, h1]
    exact h2

/-- C34 with `remove`: closing a scope restores the map provided that keys are removed only in the
scope that binds them. (Without the proviso it is false, see `scoped_restore_remove_fails`.) -/
theorem scoped_restore_remove_partial (os : List (Op K V)) (hb : Balanced os) (s : SMap K V)
    (hl : removesLocal ((fun _ => none) :: s) os) :
    run s (Op.scope :: os ++ [Op.unscope]) = some s := by
  obtain ⟨m, h⟩ := balanced_tail_local os hb (fun _ => none) s hl
  show run ((fun _ => none) :: s) (os ++ [Op.unscope]) = some s
  rw [run_append, h]
  rfl

example : removesLocal ((fun _ => none) :: (initial : SMap Nat Nat)) [.insert 0 1, .remove 0] := by
  refine ⟨(fun k h => nomatch h), fun s' hs => ?_⟩
  have : s' = insertScope (fun _ => none) 0 1 :: initial := (Option.some.inj hs).symm
  rw [this]
  refine ⟨fun k h => ?_, fun _ _ => trivial⟩
  injection h with h
  exact ⟨_, _, rfl, by rw [← h]; rfl⟩

/-- C34 is false in the presence of `remove`: removing a key inside a scope removes the binding of an
outer scope, which closing the inner scope does not restore. -/
theorem scoped_restore_remove_fails : ∃ (s : SMap Nat Nat) (os : List (Op Nat Nat)) (s' : SMap Nat Nat),
    Balanced os ∧ run s (Op.scope :: os ++ [Op.unscope]) = some s' ∧ get s 0 ≠ get s' 0 :=
  ⟨[fun k => if k = 0 then some 7 else none], [.remove 0], _, .remove 0 [] .nil, rfl, by decide⟩

example : Balanced ([.insert 0 1, .scope, .insert 0 2, .unscope, .insert 1 3] : List (Op Nat Nat)) :=
  .insert 0 1 _ (.block [.insert 0 2] [.insert 1 3] (.insert 0 2 _ .nil) (.insert 1 3 _ .nil))

example : ((run (initial : SMap Nat Nat) [.insert 0 1, .scope, .insert 0 2]).map (get · 0)) = some (some 2) := by
  decide

end Verif.Scoped
