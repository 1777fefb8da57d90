import Verif.Kernel.Lemmas
/-
Properties C48 and C40: statements that are found equal up to renaming compute the same, and
the kernel cache answers with kernels that compute what was asked for.
-/
namespace Verif.Kernel

/-- Isomorphic statements have a one-to-one correspondence of their tensors, with equal types
and formats, under which they compute the same.  Missing: index variables used as values and
tensors with different fill values, for which it is false, see below. -/
theorem isomorphic_computes_partial {info : Nat → Info} {a b : Stmt} (h : isomorphic info a b = true)
    (hi : a.usesIdx = false) :
    ∃ ts, OneToOne ts ∧ (∀ t ∈ a.tensors, ∃ u ∈ b.tensors, (t, u) ∈ ts) ∧
      (∀ u ∈ b.tensors, ∃ t ∈ a.tensors, (t, u) ∈ ts) ∧
      List.Forall₂ (fun t u => (t, u) ∈ ts) a.results b.results ∧
      (∀ p ∈ ts, (info p.1).ctype = (info p.2).ctype ∧ (info p.1).dims = (info p.2).dims ∧
        (info p.1).format = (info p.2).format) ∧
      ((∀ p ∈ ts, (info p.1).fill = (info p.2).fill) →
        ∀ (V : Type) (S : Sem V), ComputesSame S info ts a b) := by
  obtain ⟨m, ⟨hT, hV, hI⟩, hr⟩ := isomorphic_spec h
  refine ⟨m.ts, hT, ?_, ?_, results_same hr, ?_, ?_⟩
  · intro t ht
    obtain ⟨x, hx, rfl⟩ := List.mem_map.mp ht
    obtain ⟨y, hy, hxy⟩ := exists_right hr.accs hx
    exact ⟨y.1, List.mem_map_of_mem hy, hxy.1⟩
  · intro u hu
    obtain ⟨y, hy, rfl⟩ := List.mem_map.mp hu
    obtain ⟨x, hx, hxy⟩ := exists_left hr.accs hy
    exact ⟨x.1, List.mem_map_of_mem hx, hxy.1⟩
  · intro p hp
    have := hI p hp
    simpa [sameInfo, and_assoc] using this
  · intro hf V S shape shape' σ σ' hs hσ p hp
    unfold run
    exact exec_same S hT hV hf (extent_same hV hr hs) hr hi (fun _ _ => rfl)
      (clear_same S hT hf (results_same hr) hσ) p hp

/-- A statement in which tensors and index variables are renamed, to tensors of the same type
and format, is found isomorphic. -/
theorem isomorphic_renamed {info : Nat → Info} {f g : Nat → Nat} (hf : ∀ x y, f x = f y → x = y)
    (hg : ∀ x y, g x = g y → x = y) (a : Stmt) (hi : a.usesIdx = false)
    (ht : ∀ t ∈ a.tensors, (info t).ctype = (info (f t)).ctype ∧ (info t).dims = (info (f t)).dims ∧
      (info t).format = (info (f t)).format) : isomorphic info a (a.rename f g) = true := by
  unfold isomorphic
  obtain ⟨m', h, _⟩ := checkStmt_graph (info := info) hf hg a hi (by
    intro x hx
    have := ht x.1 (List.mem_map_of_mem hx)
    simp [sameInfo, this]) (m := ⟨[], []⟩) ⟨by simp, by simp⟩
  rw [h]; rfl

/-! ### Examples -/

/-- A vector or matrix of fixed size, all of one type and format, with fill value 0. -/
def plainInfo : Nat → Info := fun _ => ⟨0, [some 4, some 4], 0, 0⟩

def serial : Attrs := ⟨0, 0, 0, 0⟩

/-- `C(i,j) += A(i,k) * B(k,j)`. -/
def product (c a b i j k : Nat) : Stmt :=
  .loop i serial (.loop k serial (.loop j serial
    (.assign c false [i, j] [.plain, .plain] (some 0)
      (.bin 2 (.acc a false [i, k] [.plain, .plain]) (.acc b false [k, j] [.plain, .plain])))))

/-- Products of other tensors with other variables are isomorphic. -/
example : isomorphic plainInfo (product 0 1 2 0 1 2) (product 5 4 3 2 0 1) = true := by decide

/-- A product with a transposed matrix, a square and a product of two tensors are not. -/
example : isomorphic plainInfo (product 0 1 2 0 1 2)
    (.loop 0 serial (.loop 2 serial (.loop 1 serial
    (.assign 0 false [0, 1] [.plain, .plain] (some 0)
      (.bin 2 (.acc 1 false [0, 2] [.plain, .plain]) (.acc 2 false [1, 2] [.plain, .plain])))))) = false ∧
    isomorphic plainInfo (product 0 1 1 0 1 2) (product 0 1 2 0 1 2) = false ∧
    isomorphic plainInfo (product 0 1 2 0 1 2) (product 0 1 1 0 1 2) = false := by decide

/-- Arithmetic of natural numbers. -/
def natSem : Sem Nat where
  lit c := c
  idx v := v
  view _ x := x
  un _ x := x
  bin o x y := if o = 2 then x * y else x + y
  red _ l := l.sum
  upd o x y := if o = none then y else x + y
  fill c := c

/-- `A(x,y) = i` in loops `x, y`. -/
def rowIndex (x y : Nat) : Stmt :=
  .loop x serial (.loop y serial (.assign 0 false [x, y] [.plain, .plain] none (.idx 0)))

/-- An index variable used as a value is compared as it is, without the renaming: `A(i,j) = i`
in loops `i, j` and `A(j,i) = i` in loops `j, i` are found isomorphic, although one computes
the row and the other the column. -/
theorem isomorphic_index_fails : isomorphic plainInfo (rowIndex 0 1) (rowIndex 1 0) = true ∧
    run natSem plainInfo (fun _ => [2, 2]) (rowIndex 0 1) (fun _ _ => 0) 0 [0, 1] = 0 ∧
    run natSem plainInfo (fun _ => [2, 2]) (rowIndex 1 0) (fun _ _ => 0) 0 [0, 1] = 1 := by
  refine ⟨by decide, ?_, ?_⟩ <;> decide +kernel

/-- Tensor 1 has the fill value 7. -/
def fillInfo : Nat → Info := fun t => ⟨0, [some 4], 0, if t = 1 then 7 else 0⟩

/-- `T(i) += B(i)`. -/
def addTo (t : Nat) : Stmt :=
  .loop 0 serial (.assign t false [0] [.plain] (some 0) (.acc 2 false [0] [.plain]))

/-- Fill values are not compared: the same assignment to tensors with fill values 0 and 7 is
found isomorphic. -/
theorem isomorphic_fill_fails : isomorphic fillInfo (addTo 0) (addTo 1) = true ∧
    run natSem fillInfo (fun _ => [4]) (addTo 0) (fun _ _ => 0) 0 [3] = 0 ∧
    run natSem fillInfo (fun _ => [4]) (addTo 1) (fun _ _ => 0) 1 [3] = 7 := by
  refine ⟨by decide, ?_, ?_⟩ <;> decide +kernel

/-! ### The kernel cache -/

theorem compileAll_iso {info : Nat → Info} (hrefl : ∀ s : Stmt, s.usesIdx = false → isomorphic info s s = true) :
    ∀ (rs : List Request) (cache : List Kernel), (∀ r ∈ rs, r.stmt.usesIdx = false) →
    ∀ x ∈ compileAll info cache rs, isomorphic info x.1.stmt x.2.stmt = true ∧ x.1 ∈ rs ∧
      (x.2 ∈ cache ∨ ∃ r ∈ rs, x.2 = ⟨r.stmt, r.assemble⟩)
  | [], _, _, _, h => by simp [compileAll] at h
  | r :: rs, cache, hi, x, h => by
    simp only [compileAll, List.mem_cons] at h
    have hc : (∃ k, (compile info cache r) = (k, cache) ∧ k ∈ cache ∧ isomorphic info r.stmt k.stmt = true) ∨
        (compile info cache r) = (⟨r.stmt, r.assemble⟩, ⟨r.stmt, r.assemble⟩ :: cache) := by
      unfold compile
      split
      · rename_i k hk
        exact Or.inl ⟨k, rfl, List.mem_of_find?_eq_some hk,
          List.find?_some (p := fun k : Kernel => isomorphic info r.stmt k.stmt) hk⟩
      · exact Or.inr rfl
    rcases h with rfl | h
    · rcases hc with ⟨k, h1, h2, h3⟩ | h1
      · rw [h1]; exact ⟨h3, List.mem_cons_self, Or.inl h2⟩
      · rw [h1]
        exact ⟨hrefl _ (hi r List.mem_cons_self), List.mem_cons_self, Or.inr ⟨r, List.mem_cons_self, rfl⟩⟩
    · obtain ⟨g1, g2, g3⟩ := compileAll_iso hrefl rs _ (fun r hr => hi r (List.mem_cons_of_mem _ hr)) x h
      refine ⟨g1, List.mem_cons_of_mem _ g2, ?_⟩
      rcases g3 with g3 | ⟨r', hr', g3⟩
      · rcases hc with ⟨k, h1, _, _⟩ | h1
        · rw [h1] at g3; exact Or.inl g3
        · rw [h1] at g3
          rcases List.mem_cons.mp g3 with g3 | g3
          · exact Or.inr ⟨r, List.mem_cons_self, g3⟩
          · exact Or.inl g3
      · exact Or.inr ⟨r', List.mem_cons_of_mem _ hr', g3⟩

/-- Every request in a history, starting with an empty cache, is answered with a kernel of some
request whose statement computes, on the corresponding tensors, what the requested one does.
Missing: index variables as values, different fill values, and the flag, see below. -/
theorem cache_partial {info : Nat → Info} {rs : List Request} (hi : ∀ r ∈ rs, r.stmt.usesIdx = false)
    {r : Request} {k : Kernel} (h : (r, k) ∈ compileAll info [] rs) :
    (∃ r' ∈ rs, k = ⟨r'.stmt, r'.assemble⟩) ∧
    ∃ ts, OneToOne ts ∧ (∀ t ∈ r.stmt.tensors, ∃ u ∈ k.stmt.tensors, (t, u) ∈ ts) ∧
      (∀ u ∈ k.stmt.tensors, ∃ t ∈ r.stmt.tensors, (t, u) ∈ ts) ∧
      List.Forall₂ (fun t u => (t, u) ∈ ts) r.stmt.results k.stmt.results ∧
      ((∀ p ∈ ts, (info p.1).fill = (info p.2).fill) →
        ∀ (V : Type) (S : Sem V), ComputesSame S info ts r.stmt k.stmt) := by
  have hrefl : ∀ s : Stmt, s.usesIdx = false → isomorphic info s s = true := by
    intro s hs
    have h := isomorphic_renamed (info := info) (f := id) (g := id) (fun _ _ e => e) (fun _ _ e => e) s hs
      (fun _ _ => ⟨rfl, rfl, rfl⟩)
    rwa [rename_id] at h
  obtain ⟨h1, h2, h3⟩ := compileAll_iso hrefl rs [] hi _ h
  refine ⟨?_, ?_⟩
  · rcases h3 with h3 | h3
    · simp at h3
    · exact h3
  · obtain ⟨ts, g1, g2, g3, g4, _, g5⟩ := isomorphic_computes_partial h1 (hi _ h2)
    exact ⟨ts, g1, g2, g3, g4, g5⟩

/-- The second of two isomorphic requests is answered with the first kernel. -/
example : compileAll plainInfo [] [⟨product 0 1 2 0 1 2, false⟩, ⟨product 5 4 3 2 0 1, false⟩] =
    [(⟨product 0 1 2 0 1 2, false⟩, ⟨product 0 1 2 0 1 2, false⟩),
     (⟨product 5 4 3 2 0 1, false⟩, ⟨product 0 1 2 0 1 2, false⟩)] := by decide

/-- If all requests are made with the same flag, kernels have it too. -/
theorem cache_flag_partial {info : Nat → Info} {rs : List Request} {f : Bool}
    (hi : ∀ r ∈ rs, r.stmt.usesIdx = false) (hf : ∀ r ∈ rs, r.assemble = f) {r : Request} {k : Kernel}
    (h : (r, k) ∈ compileAll info [] rs) : k.assemble = f := by
  obtain ⟨⟨r', hr', rfl⟩, _⟩ := cache_partial hi h
  exact hf r' hr'

/-- The flag is not part of the key: a kernel that assembles while it computes is asked for,
and one that does not is returned. -/
theorem cache_flag_fails :
    (compileAll plainInfo [] [⟨addTo 0, false⟩, ⟨addTo 0, true⟩]).getLast? =
      some (⟨addTo 0, true⟩, ⟨addTo 0, false⟩) := by decide

/-- The kernel for `A(i,j) = i` is used for `A(j,i) = i`. -/
theorem cache_index_fails :
    (compileAll plainInfo [] [⟨rowIndex 0 1, false⟩, ⟨rowIndex 1 0, false⟩]).getLast? =
      some (⟨rowIndex 1 0, false⟩, ⟨rowIndex 0 1, false⟩) ∧
    run natSem plainInfo (fun _ => [2, 2]) (rowIndex 1 0) (fun _ _ => 0) 0 [0, 1] ≠
      run natSem plainInfo (fun _ => [2, 2]) (rowIndex 0 1) (fun _ _ => 0) 0 [0, 1] := by
  refine ⟨by decide, ?_⟩
  decide +kernel

end Verif.Kernel
