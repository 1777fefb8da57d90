import Verif.Generate.Grids
/-!
C94: generated tensors are tensors of the size that is asked for.
-/
namespace Verif.Generate
open Verif.Options (Fill)

/-- Exact arithmetic and vectors in their first order, for the examples. -/
def exactArith : Arith := ⟨fun q n => (q.num * n + q.den - 1) / q.den, fun q n => q.num * n / q.den⟩

def still (dims : List Nat) : Shuffles := ⟨vecStart (dims.headD 0), allStart dims, axisStart dims, fun _ => axisStart dims 1, fun _ _ => axisStart dims 2⟩

theorem exact_rounded : Rounded exactArith := by
  refine ⟨fun n => ?_, fun q n h => ?_, fun q n h => ?_, fun q n h => ⟨?_, ?_⟩⟩
  · show (1 * n + 1 - 1) / 1 = n
    rw [Nat.div_one]; omega
  · show (q.num * n + q.den - 1) / q.den ≤ n
    rcases Nat.eq_zero_or_pos q.den with h0 | h0
    · rw [h0, Nat.div_zero]; omega
    · rw [Nat.div_le_iff_le_mul_add_pred h0]
      have : q.num * n ≤ q.den * n := Nat.mul_le_mul_right n h
      omega
  · show q.num * n / q.den ≤ n
    rcases Nat.eq_zero_or_pos q.den with h0 | h0
    · rw [h0, Nat.div_zero]; omega
    · exact Nat.div_le_of_le_mul (Nat.mul_le_mul_right n h)
  · exact Nat.div_le_div_right (by omega)
  · show (q.num * n + q.den - 1) / q.den ≤ q.num * n / q.den + 1
    have : (q.num * n + q.den) / q.den = q.num * n / q.den + 1 := Nat.add_div_right _ h
    rw [← this]
    exact Nat.div_le_div_right (by omega)

theorem still_shuffled (dims : List Nat) : Shuffled dims (still dims) := ⟨.refl _, .refl _, fun _ => .refl _, fun _ => .refl _, fun _ _ => .refl _⟩

/-! ### Dense tensors -/

/-- C94. Dense and uniform vectors, matrices and tensors of order 3 have every coordinate, once. -/
theorem dense_complete {a : Arith} {s : Shuffles} {dims : List Nat} {f : Fill} (ha : Rounded a) (hf : f = .dense ∨ f = .uniform)
    (h1 : 1 ≤ dims.length) (h3 : dims.length ≤ 3) : ∃ cs, fillTensor a s dims f = .ok cs ∧ Complete dims cs := by
  match dims with
  | [] => exact absurd h1 (by simp)
  | [n] =>
    refine ⟨_, ?_, complete_of (grid1 (k := n) (X := fun i => i) (fun _ h => h) (fun _ _ _ _ h => h)) ?_⟩
    · rcases hf with rfl | rfl <;> exact loop_ok fun _ _ => rfl
    · intro c hc
      obtain ⟨i, hi, rfl⟩ := inside1.mp hc
      exact mem_loop.mpr ⟨i, hi, by simp⟩
  | [m, n] =>
    refine ⟨_, ?_, complete_of (grid2 (r := m) (k := n) (X := fun i _ => i) (Y := fun _ j => j) (fun _ _ h _ => h) (fun _ _ _ h => h) (fun _ _ _ _ _ _ _ _ h h' => ⟨h, h'⟩)) ?_⟩
    · rcases hf with rfl | rfl <;>
      · refine loop_ok fun i _ => ?_
        show loop (a.upTo one n) _ = _
        rw [ha.exact]
        exact loop_ok fun _ _ => rfl
    · intro c hc
      obtain ⟨i, j, hi, hj, rfl⟩ := inside2.mp hc
      exact mem_grid2.mpr ⟨i, j, hi, hj, rfl⟩
  | [d, e, g] =>
    refine ⟨_, ?_, complete_of (grid3 (r := d) (k := e) (l := g) (X := fun i _ _ => i) (Y := fun _ j _ => j) (Z := fun _ _ k => k) (fun _ _ _ h _ _ => h) (fun _ _ _ _ h _ => h)
      (fun _ _ _ _ _ h => h) (fun _ _ _ _ _ _ _ _ _ _ _ _ h h' h'' => ⟨h, h', h''⟩)) ?_⟩
    · rcases hf with rfl | rfl <;>
      · refine loop_ok fun i _ => loop_ok fun j _ => ?_
        show loop (a.upTo one g) _ = _
        rw [ha.exact]
        exact loop_ok fun _ _ => rfl
    · intro c hc
      obtain ⟨i, j, k, hi, hj, hk, rfl⟩ := inside3.mp hc
      exact mem_grid3.mpr ⟨i, j, k, hi, hj, hk, rfl⟩
  | _ :: _ :: _ :: _ :: _ => exact absurd h3 (by simp)

example : ∃ cs, fillTensor exactArith (still [2, 3]) [2, 3] .dense = .ok cs ∧ Complete [2, 3] cs := dense_complete exact_rounded (.inl rfl) (by decide) (by decide)

/-! ### Random tensors -/

/-- C94. Random vectors, and random matrices and tensors of order 3 whose sizes are equal, have every coordinate, once. Partial: it
is false for all other matrices (`random_fails`). -/
theorem random_complete_partial {a : Arith} {s : Shuffles} {k n : Nat} (ha : Rounded a) (hs : Shuffled (List.replicate k n) s) (h1 : 1 ≤ k) (h3 : k ≤ 3) :
    ∃ cs, fillTensor a s (List.replicate k n) .random = .ok cs ∧ Complete (List.replicate k n) cs := by
  match k with
  | 0 => exact absurd h1 (by simp)
  | 1 =>
    refine ⟨_, loop_ok (g := fun i => [[(i : Int)]]) fun _ _ => rfl, complete_of (grid1 (k := n) (X := fun i => i) (fun _ h => h) (fun _ _ _ _ h => h)) ?_⟩
    intro c hc
    obtain ⟨i, hi, rfl⟩ := inside1.mp hc
    exact mem_loop.mpr ⟨i, hi, by simp⟩
  | 2 =>
    have hall : s.all.Perm (List.range (n * n)) := by
      have := hs.all
      simpa [allStart, List.replicate] using this
    have hrun : fillTensor a s [n, n] .random = .ok ((List.range (n * n)).flatMap fun i => [[((nth s.all i % n : Nat) : Int), ((nth s.all i / n : Nat) : Int)]]) := by
      show loop (a.upTo one s.all.length) _ = _
      rw [ha.exact, perm_length hall]
      refine loop_ok fun i hi => ?_
      rw [read_ok (by rw [perm_length hall]; exact hi)]; rfl
    refine ⟨_, hrun, ⟨fun c => ?_, ?_⟩⟩
    · rw [mem_loop]
      constructor
      · rintro ⟨i, hi, e⟩
        have hlt := perm_lt hall hi
        have hn : 0 < n := by
          rcases Nat.eq_zero_or_pos n with h | h
          · subst h; simp at hlt
          · exact h
        exact inside2.mpr ⟨_, _, Nat.mod_lt _ hn, Nat.div_lt_of_lt_mul hlt, List.mem_singleton.mp e⟩
      · intro h
        obtain ⟨i, j, hi, hj, rfl⟩ := inside2.mp h
        obtain ⟨p, hp, e⟩ := perm_surj hall (add_lt hi hj)
        refine ⟨p, hp, ?_⟩
        rw [e, (div_mod_add hi).1, (div_mod_add hi).2]
        simp
    · refine nodup_loop (fun _ _ => by simp) ?_
      intro i j c hi hj h1 h2
      have e := (List.mem_singleton.mp h1).symm.trans (List.mem_singleton.mp h2)
      injection e with e1 e
      injection e with e2 _
      exact perm_inj hall hi hj (pair_inj (n := n) (by omega) (by omega))
  | 3 =>
    have hall : s.all.Perm (List.range (n * (n * n))) := by
      have := hs.all
      simpa [allStart, List.replicate] using this
    have hrun : fillTensor a s [n, n, n] .random = .ok ((List.range (n * (n * n))).flatMap fun i =>
        [[((nth s.all i % n : Nat) : Int), ((nth s.all i / n % n : Nat) : Int), ((nth s.all i / n / n : Nat) : Int)]]) := by
      show loop (a.upTo one s.all.length) _ = _
      rw [ha.exact, perm_length hall]
      refine loop_ok fun i hi => ?_
      rw [read_ok (by rw [perm_length hall]; exact hi)]; rfl
    refine ⟨_, hrun, ⟨fun c => ?_, ?_⟩⟩
    · rw [mem_loop]
      constructor
      · rintro ⟨i, hi, e⟩
        have hlt := perm_lt hall hi
        have hn : 0 < n := by
          rcases Nat.eq_zero_or_pos n with h | h
          · subst h; simp at hlt
          · exact h
        exact inside3.mpr ⟨_, _, _, Nat.mod_lt _ hn, Nat.mod_lt _ hn, Nat.div_lt_of_lt_mul (Nat.div_lt_of_lt_mul hlt), List.mem_singleton.mp e⟩
      · intro h
        obtain ⟨i, j, k, hi, hj, hk, rfl⟩ := inside3.mp h
        have hjk := add_lt hj hk
        have hijk := add_lt hi hjk
        rw [Nat.mul_comm (n * n) n] at hijk
        obtain ⟨p, hp, e⟩ := perm_surj hall hijk
        refine ⟨p, hp, ?_⟩
        rw [e, (div_mod_add hi).1, (div_mod_add hi).2, (div_mod_add hj).1, (div_mod_add hj).2]
        simp
    · refine nodup_loop (fun _ _ => by simp) ?_
      intro i j c hi hj h1 h2
      have e := (List.mem_singleton.mp h1).symm.trans (List.mem_singleton.mp h2)
      injection e with e1 e
      injection e with e2 e
      injection e with e3 _
      exact perm_inj hall hi hj (pair_inj (n := n) (by omega) (pair_inj (n := n) (by omega) (by omega)))
  | k + 4 => exact absurd h3 (by omega)

example : ∃ cs, fillTensor exactArith (still [3, 3]) [3, 3] .random = .ok cs ∧ Complete [3, 3] cs :=
  random_complete_partial (k := 2) exact_rounded (still_shuffled _) (by decide) (by decide)

/-- A random matrix that is not square always has a coordinate outside, whatever the order. -/
theorem random_fails {a : Arith} {s : Shuffles} {m n : Nat} (ha : Rounded a) (hs : Shuffled [m, n] s) (hm : 0 < m) (hn : 0 < n) (hne : m ≠ n) :
    ∃ cs, fillTensor a s [m, n] .random = .ok cs ∧ ∃ c ∈ cs, ¬ Inside [m, n] c := by
  have hall : s.all.Perm (List.range (m * n)) := by
    have := hs.all
    simpa [allStart] using this
  have hrun : fillTensor a s [m, n] .random = .ok ((List.range (m * n)).flatMap fun i => [[((nth s.all i % n : Nat) : Int), ((nth s.all i / n : Nat) : Int)]]) := by
    show loop (a.upTo one s.all.length) _ = _
    rw [ha.exact, perm_length hall]
    refine loop_ok fun i hi => ?_
    rw [read_ok (by rw [perm_length hall]; exact hi)]; rfl
  refine ⟨_, hrun, ?_⟩
  rcases Nat.lt_or_gt_of_ne hne with h | h
  · obtain ⟨p, hp, e⟩ := perm_surj hall (x := m + n * 0) (by rw [Nat.mul_zero, Nat.add_zero]; exact (Nat.lt_mul_iff_one_lt_right hm).mpr (by omega))
    refine ⟨_, mem_loop.mpr ⟨p, hp, List.mem_singleton.mpr rfl⟩, ?_⟩
    rw [e, (div_mod_add h).1, (div_mod_add h).2]
    intro hc
    obtain ⟨i, j, hi, hj, e⟩ := inside2.mp hc
    injection e with e1 _
    omega
  · obtain ⟨p, hp, e⟩ := perm_surj hall (x := 0 + n * n) (add_lt hn h)
    refine ⟨_, mem_loop.mpr ⟨p, hp, List.mem_singleton.mpr rfl⟩, ?_⟩
    rw [e, (div_mod_add hn).1, (div_mod_add hn).2]
    intro hc
    obtain ⟨i, j, hi, hj, e⟩ := inside2.mp hc
    injection e with e1 e
    injection e with e2 _
    omega

example : ∃ cs, fillTensor exactArith (still [2, 3]) [2, 3] .random = .ok cs ∧ ∃ c ∈ cs, ¬ Inside [2, 3] c :=
  random_fails exact_rounded (still_shuffled _) (by decide) (by decide) (by decide)

/-! ### Sparse tensors -/

/-- C94. Sparse and hypersparse matrices of all sizes have entries inside, each once; there are as many as the product of the parts
of rows and columns that the factors 0.07 and 0.005 give, up to rounding. -/
theorem sparse_matrix {a : Arith} {s : Shuffles} {m n : Nat} {f : Fill} {q : Frac} (ha : Rounded a) (hs : Shuffled [m, n] s)
    (hf : (f = .sparse ∧ q = ⟨7, 100⟩) ∨ (f = .hyperSparse ∧ q = ⟨5, 1000⟩)) :
    ∃ cs r k, fillTensor a s [m, n] f = .ok cs ∧ Entries [m, n] cs ∧ cs.length = r * k
      ∧ q.num * m / q.den ≤ r ∧ r ≤ q.num * m / q.den + 1 ∧ q.num * n / q.den ≤ k ∧ k ≤ q.num * n / q.den + 1 := by
  have hq : q.num ≤ q.den ∧ 0 < q.den := by rcases hf with ⟨_, rfl⟩ | ⟨_, rfl⟩ <;> exact ⟨by decide, by decide⟩
  have hr := ha.upTo_le q m hq.1
  have hk := ha.upTo_le q n hq.1
  have hx : (s.axis 0).Perm (List.range m) := hs.axis 0
  have hy : ∀ i, (s.mid i).Perm (List.range n) := hs.mid
  have hrun : fillTensor a s [m, n] f = .ok ((List.range (a.upTo q m)).flatMap fun i => (List.range (a.upTo q n)).flatMap fun j =>
      [[(nth (s.axis 0) i : Int), (nth (s.mid i) j : Int)]]) := by
    have : loop (a.upTo q m) (fun i => loop (a.upTo q n) fun j => (read (s.axis 0) i).bind fun x => (read (s.mid i) j).bind fun y => .ok [[(x : Int), (y : Int)]]) =
        .ok ((List.range (a.upTo q m)).flatMap fun i => (List.range (a.upTo q n)).flatMap fun j => [[(nth (s.axis 0) i : Int), (nth (s.mid i) j : Int)]]) := by
      refine loop_ok fun i hi => loop_ok fun j hj => ?_
      rw [read_ok (by rw [perm_length hx]; omega)]
      show (read (s.mid i) j).bind _ = _
      rw [read_ok (by rw [perm_length (hy i)]; omega)]; rfl
    rcases hf with ⟨rfl, rfl⟩ | ⟨rfl, rfl⟩ <;> exact this
  refine ⟨_, _, _, hrun, grid2 ?_ ?_ ?_, length_grid2, (ha.close q m hq.2).1, (ha.close q m hq.2).2, (ha.close q n hq.2).1, (ha.close q n hq.2).2⟩
  · intro i j hi hj; exact perm_lt hx (by omega)
  · intro i j hi hj; exact perm_lt (hy i) (by omega)
  · intro i j i' j' hi hj hi' hj' e1 e2
    have := perm_inj hx (by omega) (by omega) e1
    subst this
    exact ⟨rfl, perm_inj (hy i) (by omega) (by omega) e2⟩

example : ∃ cs r k, fillTensor exactArith (still [200, 30]) [200, 30] .sparse = .ok cs ∧ Entries [200, 30] cs ∧ cs.length = r * k ∧ 14 ≤ r ∧ 2 ≤ k := by
  obtain ⟨cs, r, k, h0, h1, h2, h3, _, h5, _⟩ := sparse_matrix (q := ⟨7, 100⟩) exact_rounded (still_shuffled [200, 30]) (.inl ⟨rfl, rfl⟩)
  exact ⟨cs, r, k, h0, h1, h2, h3, h5⟩

/-- C94. Sparse tensors of order 3 whose sizes are equal have entries inside, each once. Partial: it is false for other sizes
(`sparse3_outside_fails`, `sparse3_read_fails`). -/
theorem sparse3_partial {a : Arith} {s : Shuffles} {n : Nat} {f : Fill} {q : Frac} (ha : Rounded a) (hs : Shuffled [n, n, n] s)
    (hf : (f = .sparse ∧ q = ⟨7, 100⟩) ∨ (f = .hyperSparse ∧ q = ⟨5, 1000⟩)) :
    ∃ cs r, fillTensor a s [n, n, n] f = .ok cs ∧ Entries [n, n, n] cs ∧ cs.length = r * (r * r) ∧ q.num * n / q.den ≤ r ∧ r ≤ q.num * n / q.den + 1 := by
  have hq : q.num ≤ q.den ∧ 0 < q.den := by rcases hf with ⟨_, rfl⟩ | ⟨_, rfl⟩ <;> exact ⟨by decide, by decide⟩
  have hr := ha.upTo_le q n hq.1
  have hx : (s.axis 0).Perm (List.range n) := hs.axis 0
  have hy : ∀ i, (s.mid i).Perm (List.range n) := hs.mid
  have hz : ∀ i j, (s.inner i j).Perm (List.range n) := hs.inner
  have hrun : fillTensor a s [n, n, n] f = .ok ((List.range (a.upTo q n)).flatMap fun i => (List.range (a.upTo q n)).flatMap fun j => (List.range (a.upTo q n)).flatMap fun k =>
      [[(nth (s.axis 0) i : Int), (nth (s.mid i) j : Int), (nth (s.inner i j) k : Int)]]) := by
    have : loop (a.upTo q n) (fun i => loop (a.upTo q n) fun j => loop (a.upTo q n) fun k =>
          (read (s.axis 0) i).bind fun x => (read (s.mid i) j).bind fun y => (read (s.inner i j) k).bind fun z => .ok [[(x : Int), (y : Int), (z : Int)]]) =
        .ok ((List.range (a.upTo q n)).flatMap fun i => (List.range (a.upTo q n)).flatMap fun j => (List.range (a.upTo q n)).flatMap fun k =>
          [[(nth (s.axis 0) i : Int), (nth (s.mid i) j : Int), (nth (s.inner i j) k : Int)]]) := by
      refine loop_ok fun i hi => loop_ok fun j hj => loop_ok fun k hk => ?_
      rw [read_ok (by rw [perm_length hx]; omega)]
      show (read (s.mid i) j).bind _ = _
      rw [read_ok (by rw [perm_length (hy i)]; omega)]
      show (read (s.inner i j) k).bind _ = _
      rw [read_ok (by rw [perm_length (hz i j)]; omega)]; rfl
    rcases hf with ⟨rfl, rfl⟩ | ⟨rfl, rfl⟩ <;> exact this
  refine ⟨_, a.upTo q n, hrun, grid3 ?_ ?_ ?_ ?_, length_grid3, (ha.close q n hq.2).1, (ha.close q n hq.2).2⟩
  · intro i j k hi hj hk; exact perm_lt hx (by omega)
  · intro i j k hi hj hk; exact perm_lt (hy i) (by omega)
  · intro i j k hi hj hk; exact perm_lt (hz i j) (by omega)
  · intro i j k i' j' k' hi hj hk hi' hj' hk' e1 e2 e3
    have := perm_inj hx (by omega) (by omega) e1
    subst this
    have := perm_inj (hy i) (by omega) (by omega) e2
    subst this
    exact ⟨rfl, rfl, perm_inj (hz i j) (by omega) (by omega) e3⟩

example : ∃ cs r, fillTensor exactArith (still [30, 30, 30]) [30, 30, 30] .sparse = .ok cs ∧ Entries [30, 30, 30] cs ∧ cs.length = r * (r * r) ∧ 2 ≤ r := by
  obtain ⟨cs, r, h0, h1, h2, h3, _⟩ := sparse3_partial (q := ⟨7, 100⟩) exact_rounded (still_shuffled [30, 30, 30]) (.inl ⟨rfl, rfl⟩)
  exact ⟨cs, r, h0, h1, h2, h3⟩

/-- C94. Sparse and hypersparse vectors have coordinates inside. Partial: coordinates may be inserted more than once
(`sparse_vector_fails`). -/
theorem sparse_vector_partial {a : Arith} {s : Shuffles} {n : Nat} {f : Fill} (ha : Rounded a) (hs : Shuffled [n] s) (hf : f = .sparse ∨ f = .hyperSparse) :
    ∃ cs, fillTensor a s [n] f = .ok cs ∧ ∀ c ∈ cs, Inside [n] c := by
  have hv : s.vec.Perm (vecStart n) := hs.vec
  have hlen : s.vec.length = n + n := by
    rw [hv.length_eq]; simp [vecStart]
  have key : ∀ q : Frac, q.num ≤ q.den → ∃ cs, loop (a.trunc q n) (fun i => (read s.vec i).bind fun p => .ok [[(p : Int)]]) = .ok cs ∧ ∀ c ∈ cs, Inside [n] c := by
    intro q hq
    have ht := ha.trunc_le q n hq
    refine ⟨_, loop_ok (g := fun i => [[(nth s.vec i : Int)]]) fun i hi => by rw [read_ok (by omega)]; rfl, ?_⟩
    intro c hc
    obtain ⟨i, hi, e⟩ := mem_loop.mp hc
    refine inside1.mpr ⟨nth s.vec i, ?_, List.mem_singleton.mp e⟩
    have hm := hv.mem_iff.mp (nth_mem (l := s.vec) (i := i) (by omega))
    unfold vecStart at hm
    rcases List.mem_append.mp hm with hm | hm
    · rw [(List.mem_replicate.mp hm).2]; omega
    · exact List.mem_range.mp hm
  rcases hf with rfl | rfl <;> exact key _ (by decide)

example : ∃ cs, fillTensor exactArith (still [300]) [300] .sparse = .ok cs ∧ ∀ c ∈ cs, Inside [300] c :=
  sparse_vector_partial exact_rounded (still_shuffled _) (.inl rfl)

/-- A sparse vector with 100 elements should have 7 entries and may have one: the vector of positions begins with 100 zeros. -/
theorem sparse_vector_fails : ∃ s, Shuffled [100] s ∧ fillTensor exactArith s [100] .sparse = .ok (List.replicate 7 [0]) :=
  ⟨still [100], still_shuffled _, by decide +kernel⟩

/-- In a sparse tensor of order 3, coordinates of the second and third mode are as large as those of the first may be. -/
theorem sparse3_outside_fails : ∃ s cs, Shuffled [4, 2, 2] s ∧ fillTensor exactArith s [4, 2, 2] .sparse = .ok cs ∧ ∃ c ∈ cs, ¬ Inside [4, 2, 2] c := by
  refine ⟨⟨vecStart 4, allStart [4, 2, 2], fun _ => [0, 1, 2, 3], fun _ => [3, 2, 1, 0], fun _ _ => [0, 1, 2, 3]⟩, [[0, 3, 0]], ?_, by decide +kernel, [0, 3, 0], by simp, ?_⟩
  · have h : [3, 2, 1, 0].Perm (List.range 4) := by decide +kernel
    exact ⟨.refl _, .refl _, fun _ => .refl _, fun _ => h, fun _ _ => .refl _⟩
  · intro h
    obtain ⟨i, j, k, hi, hj, hk, e⟩ := inside3.mp h
    injection e with _ e
    injection e with e _
    omega

/-- If the second mode is much larger than the first, elements behind the end of the vector of positions are read. -/
theorem sparse3_read_fails {s : Shuffles} (hs : Shuffled [2, 100, 2] s) : fillTensor exactArith s [2, 100, 2] .sparse = .undefined := by
  have hx : (s.axis 0).Perm (List.range 2) := hs.axis 0
  have hy : ∀ i, (s.mid i).Perm (List.range 2) := hs.mid
  have hz : ∀ i j, (s.inner i j).Perm (List.range 2) := hs.inner
  have e2 : exactArith.upTo ⟨7, 100⟩ 2 = 1 := by decide
  have e100 : exactArith.upTo ⟨7, 100⟩ 100 = 7 := by decide
  show loop (exactArith.upTo ⟨7, 100⟩ 2) (fun i => loop (exactArith.upTo ⟨7, 100⟩ 100) fun j => loop (exactArith.upTo ⟨7, 100⟩ 2) fun k =>
    (read (s.axis 0) i).bind fun x => (read (s.mid i) j).bind fun y => (read (s.inner i j) k).bind fun z => .ok [[(x : Int), (y : Int), (z : Int)]]) = _
  rw [e2, e100]
  refine loop_undefined (i := 0) (by omega) ?_ (fun j hj => absurd hj (by omega))
  refine loop_undefined (i := 2) (by omega) ?_ ?_
  · refine loop_undefined (i := 0) (by omega) ?_ (fun j hj => absurd hj (by omega))
    rw [read_ok (by rw [perm_length hx]; omega)]
    show (read (s.mid 0) 2).bind _ = _
    rw [read_undefined (by rw [perm_length (hy 0)]; omega)]; rfl
  · intro j hj
    refine ⟨_, loop_ok (g := fun k => [[(nth (s.axis 0) 0 : Int), (nth (s.mid 0) j : Int), (nth (s.inner 0 j) k : Int)]]) fun k hk => ?_⟩
    rw [read_ok (by rw [perm_length hx]; omega)]
    show (read (s.mid 0) j).bind _ = _
    rw [read_ok (by rw [perm_length (hy 0)]; omega)]
    show (read (s.inner 0 j) k).bind _ = _
    rw [read_ok (by rw [perm_length (hz 0 j)]; omega)]; rfl

example : Shuffled [2, 100, 2] (still [2, 100, 2]) := still_shuffled _

/-! ### Slices -/

/-- C94. A sliced matrix (`l`) has whole rows: as many as the factor 0.01 gives, up to rounding, with all columns, and each
coordinate once. -/
theorem slicing_rows {a : Arith} {s : Shuffles} {m n : Nat} (ha : Rounded a) (hs : Shuffled [m, n] s) :
    ∃ cs r, fillTensor a s [m, n] .slicingH = .ok cs ∧ Entries [m, n] cs ∧ cs.length = r * n ∧ m / 100 ≤ r ∧ r ≤ m / 100 + 1
      ∧ ∀ (x y : Int) (j : Nat), [x, y] ∈ cs → j < n → [x, (j : Int)] ∈ cs := by
  have hr := ha.upTo_le ⟨1, 100⟩ m (by decide)
  have hx : (s.axis 0).Perm (List.range m) := hs.axis 0
  have hy : (s.axis 1).Perm (List.range n) := hs.axis 1
  have hrun : fillTensor a s [m, n] .slicingH = .ok ((List.range (a.upTo ⟨1, 100⟩ m)).flatMap fun i => (List.range n).flatMap fun j =>
      [[(nth (s.axis 0) i : Int), (nth (s.axis 1) j : Int)]]) := by
    show loop (a.upTo ⟨1, 100⟩ m) _ = _
    refine loop_ok fun i hi => ?_
    rw [ha.exact]
    refine loop_ok fun j hj => ?_
    rw [read_ok (by rw [perm_length hx]; omega)]
    show (read (s.axis 1) j).bind _ = _
    rw [read_ok (by rw [perm_length hy]; omega)]; rfl
  have hc := ha.close ⟨1, 100⟩ m (by decide)
  simp only [Nat.one_mul] at hc
  refine ⟨_, _, hrun, grid2 ?_ ?_ ?_, length_grid2, hc.1, hc.2, ?_⟩
  · intro i j hi hj; exact perm_lt hx (by omega)
  · intro i j hi hj; exact perm_lt hy (by omega)
  · intro i j i' j' hi hj hi' hj' e1 e2
    exact ⟨perm_inj hx (by omega) (by omega) e1, perm_inj hy (by omega) (by omega) e2⟩
  · intro x y j h hj
    obtain ⟨i, _, hi, _, e⟩ := mem_grid2.mp h
    injection e with e _
    obtain ⟨p, hp, e'⟩ := perm_surj hy hj
    exact mem_grid2.mpr ⟨i, p, hi, hp, by rw [e, e']⟩

example : ∃ cs r, fillTensor exactArith (still [300, 5]) [300, 5] .slicingH = .ok cs ∧ Entries [300, 5] cs ∧ cs.length = r * 5 ∧ 3 ≤ r := by
  obtain ⟨cs, r, h0, h1, h2, h3, _⟩ := slicing_rows exact_rounded (still_shuffled [300, 5])
  exact ⟨cs, r, h0, h1, h2, h3⟩

/-- C94. A square matrix that is sliced the other way (`v`) has whole columns. Partial: the bounds of the loops are swapped, so for
other matrices it is false (`slicing_columns_fails`). -/
theorem slicing_columns_partial {a : Arith} {s : Shuffles} {n : Nat} (ha : Rounded a) (hs : Shuffled [n, n] s) :
    ∃ cs r, fillTensor a s [n, n] .slicingV = .ok cs ∧ Entries [n, n] cs ∧ cs.length = r * n ∧ n / 100 ≤ r ∧ r ≤ n / 100 + 1
      ∧ ∀ (x y : Int) (i : Nat), [x, y] ∈ cs → i < n → [(i : Int), y] ∈ cs := by
  have hr := ha.upTo_le ⟨1, 100⟩ n (by decide)
  have hx : (s.axis 0).Perm (List.range n) := hs.axis 0
  have hy : (s.axis 1).Perm (List.range n) := hs.axis 1
  have hrun : fillTensor a s [n, n] .slicingV = .ok ((List.range (a.upTo ⟨1, 100⟩ n)).flatMap fun j => (List.range n).flatMap fun i =>
      [[(nth (s.axis 0) i : Int), (nth (s.axis 1) j : Int)]]) := by
    show loop (a.upTo ⟨1, 100⟩ n) _ = _
    refine loop_ok fun j hj => ?_
    rw [ha.exact]
    refine loop_ok fun i hi => ?_
    rw [read_ok (by rw [perm_length hx]; omega)]
    show (read (s.axis 1) j).bind _ = _
    rw [read_ok (by rw [perm_length hy]; omega)]; rfl
  have hc := ha.close ⟨1, 100⟩ n (by decide)
  simp only [Nat.one_mul] at hc
  refine ⟨_, _, hrun, grid2 ?_ ?_ ?_, length_grid2, hc.1, hc.2, ?_⟩
  · intro j i hj hi; exact perm_lt hx (by omega)
  · intro j i hj hi; exact perm_lt hy (by omega)
  · intro j i j' i' hj hi hj' hi' e1 e2
    exact ⟨perm_inj hy (by omega) (by omega) e2, perm_inj hx (by omega) (by omega) e1⟩
  · intro x y i h hi
    obtain ⟨j, _, hj, _, e⟩ := mem_grid2.mp h
    injection e with _ e
    injection e with e _
    obtain ⟨p, hp, e'⟩ := perm_surj hx hi
    exact mem_grid2.mpr ⟨j, p, hj, hp, by rw [e, e']⟩

example : ∃ cs r, fillTensor exactArith (still [300, 300]) [300, 300] .slicingV = .ok cs ∧ Entries [300, 300] cs ∧ cs.length = r * 300 ∧ 3 ≤ r := by
  obtain ⟨cs, r, h0, h1, h2, h3, _⟩ := slicing_columns_partial exact_rounded (still_shuffled [300, 300])
  exact ⟨cs, r, h0, h1, h2, h3⟩

/-- If there are more columns than rows, and a hundred rows or more, elements behind the end of the vector of rows are read. -/
theorem slicing_columns_fails {a : Arith} {s : Shuffles} {m n : Nat} (ha : Rounded a) (hs : Shuffled [m, n] s) (hm : 100 ≤ m) (hn : m < n) :
    fillTensor a s [m, n] .slicingV = .undefined := by
  have hx : (s.axis 0).Perm (List.range m) := hs.axis 0
  have hy : (s.axis 1).Perm (List.range n) := hs.axis 1
  have hc := (ha.close ⟨1, 100⟩ m (by decide)).1
  simp only [Nat.one_mul] at hc
  have : 1 ≤ m / 100 := (Nat.le_div_iff_mul_le (by omega)).mpr (by omega)
  show loop (a.upTo ⟨1, 100⟩ m) _ = _
  refine loop_undefined (i := 0) (by omega) ?_ (fun j hj => absurd hj (by omega))
  rw [ha.exact]
  refine loop_undefined (i := m) hn ?_ ?_
  · rw [read_undefined (by rw [perm_length hx]; omega)]; rfl
  · intro i hi
    refine ⟨[[(nth (s.axis 0) i : Int), (nth (s.axis 1) 0 : Int)]], ?_⟩
    rw [read_ok (by rw [perm_length hx]; omega)]
    show (read (s.axis 1) 0).bind _ = _
    rw [read_ok (by rw [perm_length hy]; omega)]
    rfl

example : fillTensor exactArith (still [100, 200]) [100, 200] .slicingV = .undefined := slicing_columns_fails exact_rounded (still_shuffled _) (by decide) (by decide)

/-! ### Finite element matrices -/

theorem mem_femAt {m i : Nat} {c : List Int} (hi : i < m - 1) : c ∈ femAt m i ↔
    c = [(i : Int), (i : Int)] ∨ c = [((i + 1 : Nat) : Int), (i : Int)] ∨ c = [(i : Int), ((i + 1 : Nat) : Int)] ∨
      (i + 3 < m ∧ (c = [((i + 3 : Nat) : Int), (i : Int)] ∨ c = [(i : Int), ((i + 3 : Nat) : Int)])) := by
  unfold femAt
  by_cases h : (i : Int) < (m : Int) - 3
  · rw [if_pos h]
    have : i + 3 < m := by omega
    simp only [List.mem_append, List.mem_cons, List.not_mem_nil, or_false, this, true_and, Int.natCast_add]
    simp only [or_assoc]
    exact Iff.rfl
  · rw [if_neg h]
    have : ¬ i + 3 < m := by omega
    simp only [List.mem_append, List.mem_cons, List.not_mem_nil, or_false, this, false_and, Int.natCast_add]
    exact Iff.rfl

theorem femAt_nodup (m i : Nat) : (femAt m i).Nodup := by
  unfold femAt
  have h1 : ∀ x : Int, x + 1 ≠ x := fun x => by omega
  have h2 : ∀ x : Int, x ≠ x + 1 := fun x => by omega
  have h3 : ∀ x : Int, x ≠ x + 3 := fun x => by omega
  have h4 : ∀ x : Int, x + 1 ≠ x + 3 := fun x => by omega
  have h5 : ∀ x : Int, x + 3 ≠ x := fun x => by omega
  split <;> simp [h1, h2, h3, h4, h5]

/-- C94. A finite element matrix has the diagonal and the diagonals at distance one and three, and each coordinate once; it has a row
at least and as many columns as rows at least. Partial: it is false for matrices with fewer columns than rows and for empty
ones (`fem_columns_fails`, `fem_empty_fails`). -/
theorem fem_partial {a : Arith} {s : Shuffles} {m n : Nat} (hm : 0 < m) (hmn : m ≤ n) :
    ∃ cs, fillTensor a s [m, n] .fem = .ok cs ∧ Entries [m, n] cs ∧ ∀ c, c ∈ cs ↔ Fem m c := by
  have hrun : fillTensor a s [m, n] .fem = .ok ((List.range (m - 1)).flatMap (femAt m) ++ [[(m : Int) - 1, (m : Int) - 1]]) := by
    show femFill m = _
    unfold femFill
    rw [loop_ok (g := femAt m) fun _ _ => rfl]; rfl
  have hlast : [(m : Int) - 1, (m : Int) - 1] = [((m - 1 : Nat) : Int), ((m - 1 : Nat) : Int)] := by
    have : ((m - 1 : Nat) : Int) = (m : Int) - 1 := by omega
    rw [this]
  have hmem : ∀ c, c ∈ (List.range (m - 1)).flatMap (femAt m) ++ [[(m : Int) - 1, (m : Int) - 1]] ↔ Fem m c := by
    intro c
    rw [List.mem_append, mem_loop, List.mem_singleton, hlast]
    constructor
    · rintro (⟨i, hi, h⟩ | rfl)
      · rcases (mem_femAt hi).mp h with rfl | rfl | rfl | ⟨h3, rfl | rfl⟩
        · exact ⟨i, i, rfl, by omega, by omega, .inl rfl⟩
        · exact ⟨i + 1, i, rfl, by omega, by omega, .inr (.inl rfl)⟩
        · exact ⟨i, i + 1, rfl, by omega, by omega, .inr (.inr (.inl rfl))⟩
        · exact ⟨i + 3, i, rfl, by omega, by omega, .inr (.inr (.inr (.inl rfl)))⟩
        · exact ⟨i, i + 3, rfl, by omega, by omega, .inr (.inr (.inr (.inr rfl)))⟩
      · exact ⟨m - 1, m - 1, rfl, by omega, by omega, .inl rfl⟩
    · rintro ⟨i, j, rfl, hi, hj, h⟩
      rcases h with rfl | rfl | rfl | rfl | rfl
      · by_cases e : i = m - 1
        · subst e; exact .inr rfl
        · exact .inl ⟨i, by omega, (mem_femAt (by omega)).mpr (.inl rfl)⟩
      · exact .inl ⟨j, by omega, (mem_femAt (by omega)).mpr (.inr (.inl rfl))⟩
      · exact .inl ⟨i, by omega, (mem_femAt (by omega)).mpr (.inr (.inr (.inl rfl)))⟩
      · exact .inl ⟨j, by omega, (mem_femAt (by omega)).mpr (.inr (.inr (.inr ⟨hi, .inl rfl⟩)))⟩
      · exact .inl ⟨i, by omega, (mem_femAt (by omega)).mpr (.inr (.inr (.inr ⟨hj, .inr rfl⟩)))⟩
  have hleast : ∀ {i : Nat} {x y : Int}, i < m - 1 → [x, y] ∈ femAt m i → (x = i ∧ i ≤ y) ∨ (y = i ∧ i ≤ x) := by
    intro i x y hi h
    rcases (mem_femAt hi).mp h with e | e | e | ⟨_, e | e⟩ <;>
    · injection e with e1 e
      injection e with e2 _
      omega
  refine ⟨_, hrun, ⟨fun c hc => ?_, ?_⟩, hmem⟩
  · obtain ⟨i, j, rfl, hi, hj, _⟩ := (hmem c).mp hc
    exact inside2.mpr ⟨i, j, hi, by omega, rfl⟩
  · rw [List.nodup_append]
    refine ⟨nodup_loop (fun i _ => femAt_nodup m i) ?_, by simp, ?_⟩
    · intro i j c hi hj h1 h2
      obtain ⟨x, y, rfl, _⟩ := (hmem c).mp (List.mem_append_left _ (mem_loop.mpr ⟨i, hi, h1⟩))
      have a1 := hleast hi h1
      have a2 := hleast hj h2
      omega
    · intro c hc d hd e
      subst e
      obtain ⟨i, hi, h⟩ := mem_loop.mp hc
      rw [List.mem_singleton.mp hd] at h
      have := hleast hi h
      omega

example : ∃ cs, fillTensor exactArith (still [5, 6]) [5, 6] .fem = .ok cs ∧ Entries [5, 6] cs ∧ [(4 : Int), 1] ∈ cs := by
  obtain ⟨cs, h0, h1, h2⟩ := fem_partial (a := exactArith) (s := still [5, 6]) (m := 5) (n := 6) (by decide) (by decide)
  exact ⟨cs, h0, h1, (h2 _).mpr ⟨4, 1, rfl, by decide, by decide, by decide⟩⟩

/-- With fewer columns than rows there is always a coordinate outside. -/
theorem fem_columns_fails {a : Arith} {s : Shuffles} {m n : Nat} (h : n < m) : ∃ cs, fillTensor a s [m, n] .fem = .ok cs ∧ ∃ c ∈ cs, ¬ Inside [m, n] c := by
  refine ⟨(List.range (m - 1)).flatMap (femAt m) ++ [[(m : Int) - 1, (m : Int) - 1]], ?_, [(m : Int) - 1, (m : Int) - 1], List.mem_append_right _ (List.mem_singleton.mpr rfl), ?_⟩
  · show femFill m = _
    unfold femFill
    rw [loop_ok (g := femAt m) fun _ _ => rfl]; rfl
  · intro hc
    obtain ⟨i, j, hi, hj, e⟩ := inside2.mp hc
    injection e with e1 e
    injection e with e2 _
    omega

/-- In a matrix without rows the coordinate (-1, -1) is inserted. -/
theorem fem_empty_fails (a : Arith) (s : Shuffles) (n : Nat) : fillTensor a s [0, n] .fem = .ok [[-1, -1]] := rfl

/-! ### All -/

/-- The filling with blocks, which the help offers, ends the program with an exception for every tensor: it is not in the table of
factors. -/
theorem blocked_fails (a : Arith) (s : Shuffles) (dims : List Nat) : fillTensor a s dims .blocked = .crash := rfl

/-- Tensors of other orders are rejected. -/
theorem order_rejected {a : Arith} {s : Shuffles} {dims : List Nat} {f : Fill} (hf : f ≠ .blocked) (h : dims.length = 0 ∨ 3 < dims.length) : fillTensor a s dims f = .error := by
  have key : ∀ q, factor f = some q → fillTensor a s dims f = .error := by
    intro q hq
    unfold fillTensor
    rw [hq]
    match dims, h with
    | [], _ => rfl
    | [_], h => exact absurd h (by simp)
    | [_, _], h => exact absurd h (by simp)
    | [_, _, _], h => exact absurd h (by simp)
    | _ :: _ :: _ :: _ :: _, _ => rfl
  cases f <;> first | exact absurd rfl hf | exact key _ rfl

example : fillTensor exactArith (still [2, 2, 2, 2]) [2, 2, 2, 2] .dense = .error := order_rejected (by decide) (by decide)

/-- C94. For tensors of order 1 to 3 whose sizes are equal and not zero, every filling of the help other than `b` either is reported as one that is
not available, or inserts coordinates of the tensor only. Partial: see the theorems above for other sizes. -/
theorem generated_inside_partial {a : Arith} {s : Shuffles} {k n : Nat} {f : Fill} (ha : Rounded a) (hs : Shuffled (List.replicate k n) s) (hn : 0 < n) (hf : f ≠ .blocked) :
    fillTensor a s (List.replicate k n) f = .error ∨ ∃ cs, fillTensor a s (List.replicate k n) f = .ok cs ∧ ∀ c ∈ cs, Inside (List.replicate k n) c := by
  match k with
  | 0 => exact .inl (order_rejected hf (.inl rfl))
  | k + 4 => exact .inl (order_rejected hf (.inr (by simp [List.length_replicate])))
  | 1 =>
    cases f with
    | dense => exact .inr (let ⟨cs, h, hc⟩ := dense_complete ha (.inl rfl) (by simp) (by simp); ⟨cs, h, fun c h => (hc.1 c).mp h⟩)
    | uniform => exact .inr (let ⟨cs, h, hc⟩ := dense_complete ha (.inr rfl) (by simp) (by simp); ⟨cs, h, fun c h => (hc.1 c).mp h⟩)
    | random => exact .inr (let ⟨cs, h, hc⟩ := random_complete_partial ha hs (by simp) (by simp); ⟨cs, h, fun c h => (hc.1 c).mp h⟩)
    | sparse => exact .inr (sparse_vector_partial ha hs (.inl rfl))
    | hyperSparse => exact .inr (sparse_vector_partial ha hs (.inr rfl))
    | blocked => exact absurd rfl hf
    | slicingV => exact .inl rfl
    | slicingH => exact .inl rfl
    | fem => exact .inl rfl
  | 2 =>
    cases f with
    | dense => exact .inr (let ⟨cs, h, hc⟩ := dense_complete ha (.inl rfl) (by simp) (by simp); ⟨cs, h, fun c h => (hc.1 c).mp h⟩)
    | uniform => exact .inr (let ⟨cs, h, hc⟩ := dense_complete ha (.inr rfl) (by simp) (by simp); ⟨cs, h, fun c h => (hc.1 c).mp h⟩)
    | random => exact .inr (let ⟨cs, h, hc⟩ := random_complete_partial ha hs (by simp) (by simp); ⟨cs, h, fun c h => (hc.1 c).mp h⟩)
    | sparse => exact .inr (let ⟨cs, _, _, h, hc, _⟩ := sparse_matrix ha hs (.inl ⟨rfl, rfl⟩); ⟨cs, h, hc.1⟩)
    | hyperSparse => exact .inr (let ⟨cs, _, _, h, hc, _⟩ := sparse_matrix ha hs (.inr ⟨rfl, rfl⟩); ⟨cs, h, hc.1⟩)
    | blocked => exact absurd rfl hf
    | slicingV => exact .inr (let ⟨cs, _, h, hc, _⟩ := slicing_columns_partial ha hs; ⟨cs, h, hc.1⟩)
    | slicingH => exact .inr (let ⟨cs, _, h, hc, _⟩ := slicing_rows ha hs; ⟨cs, h, hc.1⟩)
    | fem => exact .inr (let ⟨cs, h, hc, _⟩ := fem_partial (a := a) (s := s) hn (Nat.le_refl n); ⟨cs, h, hc.1⟩)
  | 3 =>
    cases f with
    | dense => exact .inr (let ⟨cs, h, hc⟩ := dense_complete ha (.inl rfl) (by simp) (by simp); ⟨cs, h, fun c h => (hc.1 c).mp h⟩)
    | uniform => exact .inr (let ⟨cs, h, hc⟩ := dense_complete ha (.inr rfl) (by simp) (by simp); ⟨cs, h, fun c h => (hc.1 c).mp h⟩)
    | random => exact .inr (let ⟨cs, h, hc⟩ := random_complete_partial ha hs (by simp) (by simp); ⟨cs, h, fun c h => (hc.1 c).mp h⟩)
    | sparse => exact .inr (let ⟨cs, _, h, hc, _⟩ := sparse3_partial ha hs (.inl ⟨rfl, rfl⟩); ⟨cs, h, hc.1⟩)
    | hyperSparse => exact .inr (let ⟨cs, _, h, hc, _⟩ := sparse3_partial ha hs (.inr ⟨rfl, rfl⟩); ⟨cs, h, hc.1⟩)
    | blocked => exact absurd rfl hf
    | slicingV => exact .inl rfl
    | slicingH => exact .inl rfl
    | fem => exact .inl rfl

example : ∃ cs, fillTensor exactArith (still [4, 4]) [4, 4] .fem = .ok cs ∧ ∀ c ∈ cs, Inside [4, 4] c :=
  (generated_inside_partial (k := 2) exact_rounded (still_shuffled _) (by decide) (by decide)).resolve_left (by decide +kernel)

end Verif.Generate
