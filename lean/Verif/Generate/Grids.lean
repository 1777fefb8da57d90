import Verif.Generate.Lemmas
/-! Nested loops that insert coordinates. -/
namespace Verif.Generate

theorem grid1 {k n : Nat} {X : Nat → Nat} (h : ∀ i, i < k → X i < n) (hi : ∀ i j, i < k → j < k → X i = X j → i = j) :
    Entries [n] ((List.range k).flatMap fun i => [[(X i : Int)]]) := by
  refine ⟨fun c hc => ?_, nodup_loop (fun i _ => by simp) ?_⟩
  · obtain ⟨i, hik, e⟩ := mem_loop.mp hc
    exact inside1.mpr ⟨X i, h i hik, List.mem_singleton.mp e⟩
  · intro i j c hik hjk h1 h2
    have e := (List.mem_singleton.mp h1).symm.trans (List.mem_singleton.mp h2)
    injection e with e _
    exact hi i j hik hjk (by omega)

theorem mem_grid2 {r k : Nat} {X Y : Nat → Nat → Nat} {c : List Int} :
    c ∈ ((List.range r).flatMap fun i => (List.range k).flatMap fun j => [[(X i j : Int), (Y i j : Int)]]) ↔ ∃ i j, i < r ∧ j < k ∧ c = [(X i j : Int), (Y i j : Int)] := by
  rw [mem_loop]
  constructor
  · rintro ⟨i, hi, h⟩
    obtain ⟨j, hj, h⟩ := mem_loop.mp h
    exact ⟨i, j, hi, hj, List.mem_singleton.mp h⟩
  · rintro ⟨i, j, hi, hj, h⟩
    exact ⟨i, hi, mem_loop.mpr ⟨j, hj, List.mem_singleton.mpr h⟩⟩

theorem grid2 {r k m n : Nat} {X Y : Nat → Nat → Nat} (hX : ∀ i j, i < r → j < k → X i j < m) (hY : ∀ i j, i < r → j < k → Y i j < n)
    (hi : ∀ i j i' j', i < r → j < k → i' < r → j' < k → X i j = X i' j' → Y i j = Y i' j' → i = i' ∧ j = j') :
    Entries [m, n] ((List.range r).flatMap fun i => (List.range k).flatMap fun j => [[(X i j : Int), (Y i j : Int)]]) := by
  have key : ∀ i j i' j', i < r → j < k → i' < r → j' < k → [(X i j : Int), (Y i j : Int)] = [(X i' j' : Int), (Y i' j' : Int)] → i = i' ∧ j = j' := by
    intro i j i' j' h1 h2 h3 h4 e
    injection e with e1 e
    injection e with e2 _
    exact hi i j i' j' h1 h2 h3 h4 (by omega) (by omega)
  refine ⟨fun c hc => ?_, nodup_loop (fun i hir => nodup_loop (fun j _ => by simp) ?_) ?_⟩
  · obtain ⟨i, j, h1, h2, e⟩ := mem_grid2.mp hc
    exact inside2.mpr ⟨X i j, Y i j, hX i j h1 h2, hY i j h1 h2, e⟩
  · intro j j' c hj hj' h1 h2
    exact (key i j i j' hir hj hir hj' ((List.mem_singleton.mp h1).symm.trans (List.mem_singleton.mp h2))).2
  · intro i i' c hir hir' h1 h2
    obtain ⟨j, hj, e1⟩ := mem_loop.mp h1
    obtain ⟨j', hj', e2⟩ := mem_loop.mp h2
    exact (key i j i' j' hir hj hir' hj' ((List.mem_singleton.mp e1).symm.trans (List.mem_singleton.mp e2))).1

theorem length_grid2 {r k : Nat} {X Y : Nat → Nat → Nat} :
    ((List.range r).flatMap fun i => (List.range k).flatMap fun j => [[(X i j : Int), (Y i j : Int)]]).length = r * k :=
  length_loop fun i _ => (length_loop (n := 1) fun _ _ => rfl).trans (Nat.mul_one _)

theorem mem_grid3 {r k l : Nat} {X Y Z : Nat → Nat → Nat → Nat} {c : List Int} :
    c ∈ ((List.range r).flatMap fun h => (List.range k).flatMap fun i => (List.range l).flatMap fun j => [[(X h i j : Int), (Y h i j : Int), (Z h i j : Int)]]) ↔
      ∃ h i j, h < r ∧ i < k ∧ j < l ∧ c = [(X h i j : Int), (Y h i j : Int), (Z h i j : Int)] := by
  rw [mem_loop]
  constructor
  · rintro ⟨h, hh, e⟩
    obtain ⟨i, hi, e⟩ := mem_loop.mp e
    obtain ⟨j, hj, e⟩ := mem_loop.mp e
    exact ⟨h, i, j, hh, hi, hj, List.mem_singleton.mp e⟩
  · rintro ⟨h, i, j, hh, hi, hj, e⟩
    exact ⟨h, hh, mem_loop.mpr ⟨i, hi, mem_loop.mpr ⟨j, hj, List.mem_singleton.mpr e⟩⟩⟩

theorem grid3 {r k l m n o : Nat} {X Y Z : Nat → Nat → Nat → Nat} (hX : ∀ h i j, h < r → i < k → j < l → X h i j < m) (hY : ∀ h i j, h < r → i < k → j < l → Y h i j < n)
    (hZ : ∀ h i j, h < r → i < k → j < l → Z h i j < o)
    (hinj : ∀ h i j h' i' j', h < r → i < k → j < l → h' < r → i' < k → j' < l → X h i j = X h' i' j' → Y h i j = Y h' i' j' → Z h i j = Z h' i' j' → h = h' ∧ i = i' ∧ j = j') :
    Entries [m, n, o] ((List.range r).flatMap fun h => (List.range k).flatMap fun i => (List.range l).flatMap fun j =>
      [[(X h i j : Int), (Y h i j : Int), (Z h i j : Int)]]) := by
  have key : ∀ h i j h' i' j', h < r → i < k → j < l → h' < r → i' < k → j' < l →
      [(X h i j : Int), (Y h i j : Int), (Z h i j : Int)] = [(X h' i' j' : Int), (Y h' i' j' : Int), (Z h' i' j' : Int)] → h = h' ∧ i = i' ∧ j = j' := by
    intro h i j h' i' j' h1 h2 h3 h4 h5 h6 e
    injection e with e1 e
    injection e with e2 e
    injection e with e3 _
    exact hinj h i j h' i' j' h1 h2 h3 h4 h5 h6 (by omega) (by omega) (by omega)
  refine ⟨fun c hc => ?_, nodup_loop (fun h hh => nodup_loop (fun i hi => nodup_loop (fun j _ => by simp) ?_) ?_) ?_⟩
  · obtain ⟨h, i, j, h1, h2, h3, e⟩ := mem_grid3.mp hc
    exact inside3.mpr ⟨_, _, _, hX h i j h1 h2 h3, hY h i j h1 h2 h3, hZ h i j h1 h2 h3, e⟩
  · intro j j' c hj hj' h1 h2
    exact (key h i j h i j' hh hi hj hh hi hj' ((List.mem_singleton.mp h1).symm.trans (List.mem_singleton.mp h2))).2.2
  · intro i i' c hi hi' h1 h2
    obtain ⟨j, hj, e1⟩ := mem_loop.mp h1
    obtain ⟨j', hj', e2⟩ := mem_loop.mp h2
    exact (key h i j h i' j' hh hi hj hh hi' hj' ((List.mem_singleton.mp e1).symm.trans (List.mem_singleton.mp e2))).2.1
  · intro h h' c hh hh' h1 h2
    obtain ⟨i, hi, e1⟩ := mem_loop.mp h1
    obtain ⟨j, hj, e1⟩ := mem_loop.mp e1
    obtain ⟨i', hi', e2⟩ := mem_loop.mp h2
    obtain ⟨j', hj', e2⟩ := mem_loop.mp e2
    exact (key h i j h' i' j' hh hi hj hh' hi' hj' ((List.mem_singleton.mp e1).symm.trans (List.mem_singleton.mp e2))).1

theorem length_grid3 {r k l : Nat} {X Y Z : Nat → Nat → Nat → Nat} :
    ((List.range r).flatMap fun h => (List.range k).flatMap fun i => (List.range l).flatMap fun j =>
      [[(X h i j : Int), (Y h i j : Int), (Z h i j : Int)]]).length = r * (k * l) :=
  length_loop fun _ _ => length_loop fun _ _ => (length_loop (n := 1) fun _ _ => rfl).trans (Nat.mul_one _)

theorem complete_of {dims : List Nat} {cs : List (List Int)} (h : Entries dims cs) (hall : ∀ c, Inside dims c → c ∈ cs) : Complete dims cs :=
  ⟨fun c => ⟨h.1 c, hall c⟩, h.2⟩

end Verif.Generate
