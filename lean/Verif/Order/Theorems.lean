import Verif.Order.Lemmas
/-!
C72: index variables, accesses and iterators are told apart.
-/
namespace Verif.Order
open Spec

/-! ### Index variables -/

/-- Index variables made one after the other, unnamed or with names, are all different, if the given names
are different and none of them is an `i` followed by a number.  (Partial: without the last condition the
statement is false, `index_variables_fails`.) -/
theorem index_variables_partial (counter : Nat) (ms : List Made)
    (hdiff : ms.Pairwise fun a b => ∀ n, a = .named n → b ≠ .named n)
    (hform : ∀ n, .named n ∈ ms → ∀ k, n ≠ 'i' :: dec k) :
    (names counter ms).Pairwise fun a b => varEq a b = false := by
  induction ms generalizing counter with
  | nil => exact List.Pairwise.nil
  | cons m ms ih =>
    have hd := List.pairwise_cons.mp hdiff
    have hf : ∀ n, .named n ∈ ms → ∀ k, n ≠ 'i' :: dec k := fun n hn => hform n (by simp [hn])
    cases m with
    | unnamed =>
      refine List.pairwise_cons.mpr ⟨fun x hx => ?_, ih (counter + 1) hd.2 hf⟩
      simp only [varEq, decide_eq_false_iff_not]
      intro he
      rcases generated_mem_names ms (counter + 1) x hx with ⟨k, hk, hxk⟩ | hx'
      · rw [hxk] at he
        have := generated_inj he
        omega
      · exact hf x hx' counter he.symm
    | named n =>
      refine List.pairwise_cons.mpr ⟨fun x hx => ?_, ih counter hd.2 hf⟩
      simp only [varEq, decide_eq_false_iff_not]
      intro he
      rcases generated_mem_names ms counter x hx with ⟨k, _, hxk⟩ | hx'
      · exact hform n (by simp) k (he.trans hxk)
      · exact hd.1 _ hx' n rfl (by rw [he])

/-- Meets the hypotheses: `IndexVar i("i"), j("j"), k, l;`. -/
example : (names 7 [.named ['i'], .named ['j'], .unnamed, .unnamed]).Pairwise fun a b => varEq a b = false := by
  refine index_variables_partial 7 _ (by simp) ?_
  intro n hn k h
  have hc : n = ['i'] ∨ n = ['j'] := by simpa using hn
  rcases hc with rfl | rfl
  · exact dec_ne_nil k (List.cons.inj h).2.symm
  · cases (List.cons.inj h).1

/-- Whatever the state of the counter, an unnamed index variable and one with a name chosen by the user can
be the same variable. -/
theorem index_variables_fails (counter : Nat) : ∃ n, ∃ a b, names counter [.unnamed, .named n] = [a, b] ∧
    varEq a b = true :=
  ⟨generated counter, _, _, rfl, by simp [varEq]⟩

/-- In a new process: `IndexVar j, i("i0")`. -/
example : names 0 [.unnamed, .named ['i', '0']] = [['i', '0'], ['i', '0']] := by decide +kernel

/-- `operator<` of index variables is an order on names. -/
theorem index_variable_order : TotalOrder (fun _ : Name => True) varLess := varLess_total

/-! ### Accesses -/

/-- `operator==` of accesses says whether all parts are the same. -/
theorem access_equal (a b : Access) : accessEq a b = true ↔ a = b := by
  cases a; cases b
  simp [accessEq, and_assoc]

/-- The accesses of a statement are ordered as the maps of the compiler require, and different accesses are
different keys, if no two of them have windows and index sets ordered in opposite ways, and no two index sets
are ordered opposite to the addresses of their tensors.  (Partial: without these conditions the statement is
false, `access_order_fails`.) -/
theorem access_order_partial (S : Access → Prop)
    (hset : ∀ a b, S a → S b → ∀ p ∈ a.sets, ∀ q ∈ b.sets, ¬ SetsOpposed p.2 q.2)
    (hopp : ∀ a b, S a → S b → ¬ Opposed a b) :
    TotalOrder S accessLess ∧ TotalOrder (fun m : ModeAccess => S m.access) modeAccessLess :=
  ⟨accessLess_total hset hopp, modeAccessLess_total (accessLess_total hset hopp)⟩

/-- Accesses without index sets are always told apart, with any windows and strides. -/
theorem access_order_windows :
    TotalOrder (fun a : Access => a.sets = []) accessLess ∧
      TotalOrder (fun m : ModeAccess => m.access.sets = []) modeAccessLess := by
  refine access_order_partial _ ?_ ?_
  · intro a b ha _ p hp
    rw [ha] at hp; simp at hp
  · rintro a b ha hb ⟨_, _, _, h⟩
    rw [ha, hb] at h; simp [lexLess] at h

/-- `A(i(lo,hi,s))` for a window. -/
def windowed (lo hi s : Int) : Access := ⟨5, [['i']], [(0, ⟨lo, hi, s⟩)], []⟩

/-- `A(i({...}))` for an index set in the tensor at the given address. -/
def projected (s : List Int) (tensor : Nat) : Access := ⟨5, [['i']], [], [(0, ⟨s, tensor⟩)]⟩

/-- Meets the hypotheses of `access_order_windows`, and of `access_order_partial` with index sets. -/
example : (windowed 0 4 1).sets = [] ∧ accessLess (windowed 0 4 1) (windowed 0 4 2) = true := by decide

example : TotalOrder (fun a => a = projected [1, 2] 10 ∨ a = projected [3, 4] 20) accessLess := by
  refine (access_order_partial _ ?_ ?_).1
  · rintro a b (rfl | rfl) (rfl | rfl) p hp q hq <;>
      simp only [projected, List.mem_singleton] at hp hq <;> subst hp <;> subst hq <;>
      simp [SetsOpposed, lexLess, intLess]
  · rintro a b (rfl | rfl) (rfl | rfl) ⟨_, _, h, _⟩ <;> simp [projected, lexLess] at h

/-- Two accesses with index sets can each be smaller than the other, depending on where the tensors of the
index sets are in memory; the same happens, wherever they are, with windows and index sets in opposite
order. -/
theorem access_order_fails :
    (accessLess (projected [3, 4] 10) (projected [1, 2] 20) = true ∧
      accessLess (projected [1, 2] 20) (projected [3, 4] 10) = true) ∧
    ∀ p q : Nat,
      let a : Access := ⟨0, [['i'], ['j']], [(0, ⟨0, 2, 1⟩)], [(1, ⟨[3, 4], p⟩)]⟩
      let b : Access := ⟨0, [['i'], ['j']], [(0, ⟨1, 3, 1⟩)], [(1, ⟨[1, 2], q⟩)]⟩
      accessLess a b = true ∧ accessLess b a = true := by
  refine ⟨by decide, fun p q => ?_⟩
  simp [accessLess, lexLess, pairLess, windowLess, indexSetLess, intLess]

/-! ### Maps -/

/-- Maps of the compiler keyed by accesses: every key that was inserted is found, with the value that was
inserted first, and no other key; whatever has been inserted, in whatever order, however the tree was
re-balanced.  (Partial: for accesses as in `access_order_partial`.) -/
theorem lookup_partial {ν : Type} (S : Access → Prop)
    (hset : ∀ a b, S a → S b → ∀ p ∈ a.sets, ∀ q ∈ b.sets, ¬ SetsOpposed p.2 q.2)
    (hopp : ∀ a b, S a → S b → ¬ Opposed a b)
    {log : List (ModeAccess × ν)} {t : Tree ModeAccess ν} (h : Inserted modeAccessLess log t)
    (hlog : ∀ e ∈ log, S e.1.access) (k : ModeAccess) (hk : S k.access) :
    t.find modeAccessLess k = firstInserted log k := by
  have ho := (access_order_partial S hset hopp).2
  obtain ⟨hs, hf⟩ := inserted_spec ho h hlog
  rw [find_spec ho hk t hs, hf k]

/-- The tree after insertions in order, without re-balancing. -/
def insertAll (es : List (ModeAccess × Nat)) : Tree ModeAccess Nat :=
  es.foldl (fun t e => Tree.insert modeAccessLess e.1 e.2 t) .leaf

theorem inserted_insertAll (es : List (ModeAccess × Nat)) :
    Inserted modeAccessLess es.reverse (insertAll es) := by
  have h : ∀ (es log : List (ModeAccess × Nat)) (t : Tree ModeAccess Nat), Inserted modeAccessLess log t →
      Inserted modeAccessLess (es.reverse ++ log)
        (es.foldl (fun t e => Tree.insert modeAccessLess e.1 e.2 t) t) := by
    intro es
    induction es with
    | nil => intro log t ht; exact ht
    | cons e es ih =>
      intro log t ht
      have := ih ((e.1, e.2) :: log) _ (Inserted.insert _ ht rfl)
      simpa using this
  have := h es [] .leaf .empty
  rw [List.append_nil] at this
  exact this

/-- Meets the hypotheses: the levels of `A(i(0,2)) * A(i(1,3)) * A(i(0,2))`; the third access finds the
iterators of the first. -/
example : (insertAll [(⟨windowed 0 2 1, 0⟩, 1), (⟨windowed 0 2 1, 1⟩, 2), (⟨windowed 1 3 1, 0⟩, 3),
    (⟨windowed 1 3 1, 1⟩, 4), (⟨windowed 0 2 1, 0⟩, 5), (⟨windowed 0 2 1, 1⟩, 6)]).find modeAccessLess
      ⟨windowed 0 2 1, 1⟩ = some 2 := by
  refine (lookup_partial (fun a => a.sets = []) ?_ ?_ (inserted_insertAll _) ?_ _ rfl).trans (by decide)
  · intro a b ha _ p hp
    rw [ha] at hp; simp at hp
  · rintro a b ha hb ⟨_, _, _, h⟩
    rw [ha, hb] at h; simp [lexLess] at h
  · intro e he
    simp only [List.reverse_cons, List.reverse_nil, List.nil_append, List.cons_append, List.mem_cons,
      List.not_mem_nil, or_false] at he
    rcases he with rfl | rfl | rfl | rfl | rfl | rfl <;> rfl

/-- The level iterators of `s = A(i({3,4})) * A(i({1,2}))`, in the order in which the compiler inserts them,
with the tensor of the first index set at the lower address: the level of the second access is not found,
and compiling the statement ends with an internal error.  (The red-black tree of the standard library has
this shape if the tensor variable of `s` is below that of `A`: no insertion makes it rotate.) -/
theorem lookup_fails :
    let a := projected [3, 4] 10
    let b := projected [1, 2] 20
    let s : Access := ⟨2, [], [], []⟩
    let es : List (ModeAccess × Nat) := [(⟨a, 0⟩, 0), (⟨a, 1⟩, 1), (⟨b, 0⟩, 2), (⟨b, 1⟩, 3), (⟨s, 0⟩, 4)]
    (⟨b, 1⟩, 3) ∈ es ∧ (insertAll es).find modeAccessLess ⟨b, 1⟩ = none ∧
      (insertAll es).find modeAccessLess ⟨a, 1⟩ = some 1 := by
  decide +kernel

/-! ### Iterators -/

/-- Comparing iterators of a statement is never undefined, `==` holds exactly for an iterator and itself, and
`<` compares the addresses; for every number of accesses of every tensor, also when a tensor is accessed
several times at the same index variables, and every placement in memory.  `tick k` is the state of the name
counter when the `k`-th iterator is made.  (Partial: the index variables must not have names that are
generated for root iterators, `iterators_fails`.) -/
theorem iterators_partial (addr tick : Nat → Nat) (haddr : ∀ i j, addr i = addr j → i = j)
    (htick : ∀ i j, tick i = tick j → i = j) (vars : List Name) (hvars : vars.Nodup)
    (accs : List (Nat × List Name)) (hfresh : ∀ a ∈ accs, ∀ v ∈ a.2, ∀ k, v ≠ 'i' :: dec (tick k))
    (i j : Nat) (x y : Iter) (hx : (allIters addr tick vars accs)[i]? = some x)
    (hy : (allIters addr tick vars accs)[j]? = some y) :
    x.eq y = some (decide (i = j)) ∧ x.less y = some (decide (addr i < addr j)) := by
  have hc : Contents addr tick (fun v => ∀ k, v ≠ 'i' :: dec (tick k)) 0 none (allIters addr tick vars accs) :=
    allIters_contents hfresh
  have he := eq_spec haddr htick (fun v h k => h k) hc
    (fun i j a b v h1 h2 => by
      have e1 := allIters_dim h1
      have e2 := allIters_dim h2
      obtain ⟨hi, hvi⟩ := List.getElem?_eq_some_iff.mp e1
      obtain ⟨hj, hvj⟩ := List.getElem?_eq_some_iff.mp e2
      exact nodup_index hvars hvi hvj) i j x y hx hy
  refine ⟨he, ?_⟩
  have ax := (Contents.get _ 0 none hc i x hx).addr_eq
  have ay := (Contents.get _ 0 none hc j y hy).addr_eq
  rw [Nat.zero_add] at ax ay
  unfold Iter.less
  rw [he]
  by_cases hij : i = j
  · subst hij; simp
  · simp [hij, ax, ay]

/-- Meets the hypotheses: `forall(i, forall(j, ... A(i,j) * A(i,j) ...))`; the two levels for `j` differ. -/
example : ((allIters (fun k => 8 * k) (fun k => k + 3) [['i'], ['j']] [(0, [['i'], ['j']]), (0, [['i'], ['j']])])[4]?.bind
    fun x => ((allIters (fun k => 8 * k) (fun k => k + 3) [['i'], ['j']]
      [(0, [['i'], ['j']]), (0, [['i'], ['j']])])[7]?).bind fun y => x.eq y) = some false := by
  have h := iterators_partial (fun k => 8 * k) (fun k => k + 3) (fun i j h => by omega) (fun i j h => by omega)
    [['i'], ['j']] (by decide) [(0, [['i'], ['j']]), (0, [['i'], ['j']])]
    (by
      intro a ha v hv k hk
      have : v = ['i'] ∨ v = ['j'] := by
        simp only [List.mem_cons, List.not_mem_nil, or_false, or_self] at ha
        subst ha
        simpa using hv
      rcases this with rfl | rfl
      · exact dec_ne_nil _ (List.cons.inj hk).2.symm
      · cases (List.cons.inj hk).1)
    4 7 _ _ rfl rfl
  exact h.1

/-- With a user variable named `i3`, the iterators of `A(i3)` can be such that the root iterator of the
access has been given the same name; comparing the root with the level reads through a null pointer. -/
theorem iterators_fails :
    ∃ tick : Nat → Nat, (∀ i j, tick i = tick j → i = j) ∧
      allIters id tick [['i', '3']] [(0, [['i', '3']])] =
        [.dim 0 ['i', '3'], .root 1 ['i', '3'] 0, .level 2 ['i', '3'] 0 (.root 1 ['i', '3'] 0)] ∧
      Iter.less (.root 1 ['i', '3'] 0) (.level 2 ['i', '3'] 0 (.root 1 ['i', '3'] 0)) = none :=
  ⟨fun k => k + 2, fun i j h => by dsimp only at h; omega, by decide +kernel, by decide +kernel⟩

end Verif.Order
