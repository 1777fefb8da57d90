import Verif.Spmm.Model
/-! Lemmas on loops that update one component per iteration, for `Verif/Spmm/Theorems.lean`. -/
namespace Verif.Spmm
open Verif.Kernel

variable {V : Type}

/-- A loop that updates component `c j` of the tensor `t` in iteration `j`. -/
def sweep (t : Nat) (c : Nat → List Nat) (u : Nat → V → V) (js : List Nat) (σ : Store V) : Store V :=
  js.foldl (fun σ j => put σ t (c j) (u j (σ t (c j)))) σ

theorem put_same (σ : Store V) (t : Nat) (c : List Nat) (r : V) : put σ t c r t c = r := by
  simp [put]

theorem put_other (σ : Store V) (t : Nat) (c : List Nat) (r : V) {t' : Nat} {c' : List Nat}
    (h : ¬(t' = t ∧ c' = c)) : put σ t c r t' c' = σ t' c' := by
  simp only [put, if_neg h]

theorem sweep_off (t : Nat) (c : Nat → List Nat) (u : Nat → V → V) (js : List Nat) (σ : Store V) {t' : Nat}
    (h : t' ≠ t) : sweep t c u js σ t' = σ t' := by
  induction js generalizing σ with
  | nil => rfl
  | cons j js ih =>
    simp only [sweep, List.foldl_cons]
    refine (ih _).trans ?_
    funext c'
    exact put_other _ _ _ _ (fun e => h e.1)

theorem sweep_rest (t : Nat) (c : Nat → List Nat) (u : Nat → V → V) (js : List Nat) (σ : Store V) {c' : List Nat}
    (h : ∀ j ∈ js, c' ≠ c j) : sweep t c u js σ t c' = σ t c' := by
  induction js generalizing σ with
  | nil => rfl
  | cons j js ih =>
    simp only [sweep, List.foldl_cons]
    refine (ih _ (fun x hx => h x (List.mem_cons_of_mem _ hx))).trans ?_
    exact put_other _ _ _ _ (fun e => h j List.mem_cons_self e.2)

theorem sweep_at (t : Nat) (c : Nat → List Nat) (hc : ∀ a b, c a = c b → a = b) (u : Nat → V → V) (js : List Nat)
    (hn : js.Nodup) (σ : Store V) {j : Nat} (hj : j ∈ js) : sweep t c u js σ t (c j) = u j (σ t (c j)) := by
  induction js generalizing σ with
  | nil => simp at hj
  | cons x js ih =>
    simp only [sweep, List.foldl_cons]
    rcases List.mem_cons.1 hj with rfl | hj'
    · refine (sweep_rest t c u js _ ?_).trans (put_same _ _ _ _)
      intro y hy e
      exact (List.nodup_cons.1 hn).1 (hc _ _ e ▸ hy)
    · refine (ih (List.nodup_cons.1 hn).2 _ hj').trans ?_
      rw [put_other]
      rintro ⟨-, e⟩
      exact (List.nodup_cons.1 hn).1 (hc _ _ e ▸ hj')

/-- Such loops in a loop. -/
def sweeps (t : Nat) (c : Nat → List Nat) (u : Nat → Nat → V → V) (ks js : List Nat) (σ : Store V) : Store V :=
  ks.foldl (fun σ k => sweep t c (u k) js σ) σ

theorem sweeps_off (t : Nat) (c : Nat → List Nat) (u : Nat → Nat → V → V) (ks js : List Nat) (σ : Store V) {t' : Nat}
    (h : t' ≠ t) : sweeps t c u ks js σ t' = σ t' := by
  induction ks generalizing σ with
  | nil => rfl
  | cons k ks ih =>
    simp only [sweeps, List.foldl_cons]
    exact (ih _).trans (sweep_off _ _ _ _ _ h)

theorem sweeps_rest (t : Nat) (c : Nat → List Nat) (u : Nat → Nat → V → V) (ks js : List Nat) (σ : Store V)
    {c' : List Nat} (h : ∀ j ∈ js, c' ≠ c j) : sweeps t c u ks js σ t c' = σ t c' := by
  induction ks generalizing σ with
  | nil => rfl
  | cons k ks ih =>
    simp only [sweeps, List.foldl_cons]
    exact (ih _).trans (sweep_rest _ _ _ _ _ h)

theorem sweeps_at (t : Nat) (c : Nat → List Nat) (hc : ∀ a b, c a = c b → a = b) (u : Nat → Nat → V → V)
    (ks js : List Nat) (hn : js.Nodup) (σ : Store V) {j : Nat} (hj : j ∈ js) :
    sweeps t c u ks js σ t (c j) = ks.foldl (fun x k => u k j x) (σ t (c j)) := by
  induction ks generalizing σ with
  | nil => rfl
  | cons k ks ih =>
    simp only [sweeps, List.foldl_cons]
    refine (ih _).trans ?_
    rw [sweep_at t c hc (u k) js hn σ hj]

/-- A loop whose body is an update as long as the other tensors are as before is a sweep. -/
theorem foldl_sweep (t : Nat) (c : Nat → List Nat) (u : Nat → V → V) (step : Store V → Nat → Store V)
    (σ₀ : Store V)
    (hs : ∀ σ j, (∀ t', t' ≠ t → σ t' = σ₀ t') → step σ j = put σ t (c j) (u j (σ t (c j))))
    (js : List Nat) (σ : Store V) (h : ∀ t', t' ≠ t → σ t' = σ₀ t') :
    js.foldl step σ = sweep t c u js σ := by
  induction js generalizing σ with
  | nil => rfl
  | cons j js ih =>
    simp only [sweep, List.foldl_cons]
    rw [hs σ j h]
    refine ih _ (fun t' ht => ?_)
    rw [← h t' ht]
    funext c'
    exact put_other _ _ _ _ (fun e => ht e.1)

theorem foldl_sweeps (t : Nat) (c : Nat → List Nat) (u : Nat → Nat → V → V) (step : Store V → Nat → Store V)
    (σ₀ : Store V) (js : List Nat)
    (hs : ∀ σ k, (∀ t', t' ≠ t → σ t' = σ₀ t') → step σ k = sweep t c (u k) js σ)
    (ks : List Nat) (σ : Store V) (h : ∀ t', t' ≠ t → σ t' = σ₀ t') :
    ks.foldl step σ = sweeps t c u ks js σ := by
  induction ks generalizing σ with
  | nil => rfl
  | cons k ks ih =>
    simp only [sweeps, List.foldl_cons]
    rw [hs σ k h]
    exact ih _ (fun t' ht => (sweep_off _ _ _ _ _ ht).trans (h t' ht))

/-- One row of the product, as it is written. -/
theorem row_plain (S : Sem V) (info : Nat → Info) (dim : Nat → Nat) (cd : Codes) {i k j A B C : Nat} (sA sB sC : Bool)
    (op : Option Nat) (a2 a3 : Attrs) (hik : i ≠ k) (hij : i ≠ j) (hkj : k ≠ j) (hB : A ≠ B) (hC : A ≠ C) (ρ : Env) (σ : Store V) :
    exec S info dim (.loop k a2 (.loop j a3 (.assign A sA [i, j] (plainModes [i, j]) op
      (.bin cd.mul (.acc B sB [i, k] (plainModes [i, k])) (.acc C sC [k, j] (plainModes [k, j])))))) ρ σ =
    sweeps A (fun y => [ρ i, y])
      (fun z y x => S.upd op x (S.bin cd.mul (S.view sB (σ B [ρ i, z])) (S.view sC (σ C [z, y]))))
      (List.range (dim k)) (List.range (dim j)) σ := by
  simp only [exec]
  refine foldl_sweeps _ _ _ _ σ _ ?_ _ _ (fun _ _ => rfl)
  intro σ1 z h1
  refine foldl_sweep _ _ _ _ σ1 ?_ _ _ (fun _ _ => rfl)
  intro σ2 y h2
  have e1 : (Env.set (Env.set ρ k z) j y) i = ρ i := by simp [Env.set, hik, hij]
  have e2 : (Env.set (Env.set ρ k z) j y) k = z := by simp [Env.set, hkj]
  have e3 : (Env.set (Env.set ρ k z) j y) j = y := by simp [Env.set]
  simp only [exec, eval, coords, plainModes, List.map_cons, List.map_nil, List.zipWith_cons_cons, List.zipWith_nil_left, Mode.coord, e1, e2, e3]
  rw [h2 B (Ne.symm hB), h1 B (Ne.symm hB), h2 C (Ne.symm hC), h1 C (Ne.symm hC)]

/-- One row of the product, computed in the temporary. -/
theorem row_temp (S : Sem V) (info : Nat → Info) (dim : Nat → Nat) (cd : Codes) {i k j A B C w : Nat}
    (hik : i ≠ k) (hij : i ≠ j) (hkj : k ≠ j) (hwA : w ≠ A) (hB : w ≠ B) (hC : w ≠ C)
    (hupd : ∀ x y, S.upd none x y = y) (hview : ∀ x, S.view false x = x) (ρ : Env) (σ : Store V) :
    exec S info dim (.wher
      (.loop j plainLoop (.assign A false [i, j] (plainModes [i, j]) none (.acc w false [j] (plainModes [j]))))
      (.loop k plainLoop (.loop j plainLoop (.assign w false [j] (plainModes [j]) (some cd.add)
        (.bin cd.mul (.acc B false [i, k] (plainModes [i, k])) (.acc C false [k, j] (plainModes [k, j]))))))) ρ σ =
    sweep A (fun y => [ρ i, y])
      (fun y _ => if y < dim j then (List.range (dim k)).foldl
        (fun x z => S.upd (some cd.add) x (S.bin cd.mul (σ B [ρ i, z]) (σ C [z, y]))) (S.fill (info w).fill) else S.fill (info w).fill)
      (List.range (dim j)) σ := by
  have hp : ∀ σ0 : Store V, exec S info dim (.loop k plainLoop (.loop j plainLoop (.assign w false [j] (plainModes [j]) (some cd.add)
        (.bin cd.mul (.acc B false [i, k] (plainModes [i, k])) (.acc C false [k, j] (plainModes [k, j])))))) ρ σ0 =
      sweeps w (fun y => [y])
        (fun z y x => S.upd (some cd.add) x (S.bin cd.mul (σ0 B [ρ i, z]) (σ0 C [z, y])))
        (List.range (dim k)) (List.range (dim j)) σ0 := by
    intro σ0
    simp only [exec]
    refine foldl_sweeps _ _ _ _ σ0 _ ?_ _ _ (fun _ _ => rfl)
    intro σ1 z h1
    refine foldl_sweep _ _ _ _ σ1 ?_ _ _ (fun _ _ => rfl)
    intro σ2 y h2
    have e1 : (Env.set (Env.set ρ k z) j y) i = ρ i := by simp [Env.set, hik, hij]
    have e2 : (Env.set (Env.set ρ k z) j y) k = z := by simp [Env.set, hkj]
    have e3 : (Env.set (Env.set ρ k z) j y) j = y := by simp [Env.set]
    simp only [exec, eval, coords, plainModes, List.map_cons, List.map_nil, List.zipWith_cons_cons, List.zipWith_nil_left, Mode.coord, e1, e2, e3, hview]
    rw [h2 B (Ne.symm hB), h1 B (Ne.symm hB), h2 C (Ne.symm hC), h1 C (Ne.symm hC)]
  have hcons : ∀ σ0 : Store V, exec S info dim (.loop j plainLoop (.assign A false [i, j] (plainModes [i, j]) none (.acc w false [j] (plainModes [j])))) ρ σ0 =
      sweep A (fun y => [ρ i, y]) (fun y _ => σ0 w [y]) (List.range (dim j)) σ0 := by
    intro σ0
    simp only [exec]
    refine foldl_sweep _ _ _ _ σ0 ?_ _ _ (fun _ _ => rfl)
    intro σ1 y h1
    have e1 : (Env.set ρ j y) i = ρ i := by simp [Env.set, hij]
    have e3 : (Env.set ρ j y) j = y := by simp [Env.set]
    simp only [eval, coords, plainModes, List.map_cons, List.map_nil, List.zipWith_cons_cons, List.zipWith_nil_left, Mode.coord, e1, e3, hview, hupd]
    rw [h1 w hwA]
  rw [exec, hp, hcons]
  have hcB : clear S info [w] σ B = σ B := by simp [clear, Ne.symm hB]
  have hcC : clear S info [w] σ C = σ C := by simp [clear, Ne.symm hC]
  have hcA : clear S info [w] σ A = σ A := by simp [clear, Ne.symm hwA]
  have hcw : ∀ c, clear S info [w] σ w c = S.fill (info w).fill := by simp [clear]
  simp only [Stmt.results, hcB, hcC]
  funext t' c'
  by_cases h : t' = w
  · subst h
    simp only [restore, List.mem_singleton, if_true]
    rw [sweep_off _ _ _ _ _ hwA]
  · simp only [restore, List.mem_singleton, if_neg h]
    by_cases hA : t' = A
    · subst hA
      by_cases hc : ∃ y ∈ List.range (dim j), c' = [ρ i, y]
      · obtain ⟨y, hy, rfl⟩ := hc
        have hinj : ∀ a b : Nat, [ρ i, a] = [ρ i, b] → a = b := by intro a b e; simpa using e
        have hlt := List.mem_range.1 hy
        rw [sweep_at t' (fun y => [ρ i, y]) hinj _ _ List.nodup_range _ hy,
          sweep_at t' (fun y => [ρ i, y]) hinj _ _ List.nodup_range _ hy,
          sweeps_at w (fun y => [y]) (by intro a b e; simpa using e) _ _ _ List.nodup_range _ hy, if_pos hlt, hcw]
      · have hc' : ∀ y ∈ List.range (dim j), c' ≠ [ρ i, y] := fun y hy e => hc ⟨y, hy, e⟩
        rw [sweep_rest _ _ _ _ _ hc', sweep_rest _ _ _ _ _ hc', sweeps_off _ _ _ _ _ _ (Ne.symm hwA), hcA]
    · rw [sweep_off _ _ _ _ _ hA, sweep_off _ _ _ _ _ hA, sweeps_off _ _ _ _ _ _ h]
      simp [clear, h]

/-- Both rows are the same if the row of the result is still unset. -/
theorem row_same (S : Sem V) (info : Nat → Info) (dim : Nat → Nat) (cd : Codes) {i k j A B C w : Nat} (a2 a3 : Attrs)
    (hik : i ≠ k) (hij : i ≠ j) (hkj : k ≠ j) (hAB : A ≠ B) (hAC : A ≠ C) (hwA : w ≠ A) (hB : w ≠ B) (hC : w ≠ C)
    (hupd : ∀ x y, S.upd none x y = y) (hview : ∀ x, S.view false x = x)
    (hfill : S.fill (info w).fill = S.fill (info A).fill) (ρ : Env) (σ : Store V)
    (hσ : ∀ y, σ A [ρ i, y] = S.fill (info A).fill) :
    exec S info dim (.loop k a2 (.loop j a3 (.assign A false [i, j] (plainModes [i, j]) (some cd.add)
      (.bin cd.mul (.acc B false [i, k] (plainModes [i, k])) (.acc C false [k, j] (plainModes [k, j])))))) ρ σ =
    exec S info dim (.wher
      (.loop j plainLoop (.assign A false [i, j] (plainModes [i, j]) none (.acc w false [j] (plainModes [j]))))
      (.loop k plainLoop (.loop j plainLoop (.assign w false [j] (plainModes [j]) (some cd.add)
        (.bin cd.mul (.acc B false [i, k] (plainModes [i, k])) (.acc C false [k, j] (plainModes [k, j]))))))) ρ σ := by
  rw [row_plain S info dim cd false false false (some cd.add) a2 a3 hik hij hkj hAB hAC,
    row_temp S info dim cd hik hij hkj hwA hB hC hupd hview]
  have hinj : ∀ a b : Nat, [ρ i, a] = [ρ i, b] → a = b := by intro a b e; simpa using e
  funext t' c'
  by_cases hA : t' = A
  · subst hA
    by_cases hc : ∃ y ∈ List.range (dim j), c' = [ρ i, y]
    · obtain ⟨y, hy, rfl⟩ := hc
      rw [sweep_at t' (fun y => [ρ i, y]) hinj _ _ List.nodup_range _ hy,
        sweeps_at t' (fun y => [ρ i, y]) hinj _ _ _ List.nodup_range _ hy, if_pos (List.mem_range.1 hy), hσ, hfill]
      simp only [hview]
    · have hc' : ∀ y ∈ List.range (dim j), c' ≠ [ρ i, y] := fun y hy e => hc ⟨y, hy, e⟩
      rw [sweep_rest _ _ _ _ _ hc', sweeps_rest _ _ _ _ _ _ hc']
  · rw [sweep_off _ _ _ _ _ hA, sweeps_off _ _ _ _ _ _ hA]

/-- A row changes nothing outside of it. -/
theorem row_rest (S : Sem V) (info : Nat → Info) (dim : Nat → Nat) (cd : Codes) {i k j A B C : Nat} (a2 a3 : Attrs)
    (hik : i ≠ k) (hij : i ≠ j) (hkj : k ≠ j) (hAB : A ≠ B) (hAC : A ≠ C) (ρ : Env) (σ : Store V) {x y : Nat} (hx : x ≠ ρ i) :
    exec S info dim (.loop k a2 (.loop j a3 (.assign A false [i, j] (plainModes [i, j]) (some cd.add)
      (.bin cd.mul (.acc B false [i, k] (plainModes [i, k])) (.acc C false [k, j] (plainModes [k, j])))))) ρ σ A [x, y] =
    σ A [x, y] := by
  rw [row_plain S info dim cd false false false (some cd.add) a2 a3 hik hij hkj hAB hAC]
  refine sweeps_rest _ _ _ _ _ _ ?_
  intro z _ e
  simp only [List.cons.injEq] at e
  exact hx e.1

/-- All rows. -/
theorem rows_same (S : Sem V) (info : Nat → Info) (dim : Nat → Nat) (cd : Codes) {i k j A B C w : Nat} (a1 a2 a3 : Attrs)
    (hik : i ≠ k) (hij : i ≠ j) (hkj : k ≠ j) (hAB : A ≠ B) (hAC : A ≠ C) (hwA : w ≠ A) (hB : w ≠ B) (hC : w ≠ C)
    (hupd : ∀ x y, S.upd none x y = y) (hview : ∀ x, S.view false x = x)
    (hfill : S.fill (info w).fill = S.fill (info A).fill) (ρ : Env) (σ : Store V)
    (hσ : ∀ x y, σ A [x, y] = S.fill (info A).fill) :
    exec S info dim (.loop i a1 (.loop k a2 (.loop j a3 (.assign A false [i, j] (plainModes [i, j]) (some cd.add)
      (.bin cd.mul (.acc B false [i, k] (plainModes [i, k])) (.acc C false [k, j] (plainModes [k, j]))))))) ρ σ =
    exec S info dim (withTemporary cd w i k j A B C) ρ σ := by
  rw [exec, withTemporary, exec]
  suffices H : ∀ (rows : List Nat) (σ : Store V), rows.Nodup → (∀ x ∈ rows, ∀ y, σ A [x, y] = S.fill (info A).fill) →
      rows.foldl (fun σ v => exec S info dim (.loop k a2 (.loop j a3 (.assign A false [i, j] (plainModes [i, j]) (some cd.add)
        (.bin cd.mul (.acc B false [i, k] (plainModes [i, k])) (.acc C false [k, j] (plainModes [k, j])))))) (ρ.set i v) σ) σ =
      rows.foldl (fun σ v => exec S info dim (.wher
        (.loop j plainLoop (.assign A false [i, j] (plainModes [i, j]) none (.acc w false [j] (plainModes [j]))))
        (.loop k plainLoop (.loop j plainLoop (.assign w false [j] (plainModes [j]) (some cd.add)
          (.bin cd.mul (.acc B false [i, k] (plainModes [i, k])) (.acc C false [k, j] (plainModes [k, j]))))))) (ρ.set i v) σ) σ by
    exact H _ σ List.nodup_range (fun x _ y => hσ x y)
  intro rows
  induction rows with
  | nil => intro σ _ _; rfl
  | cons r rows ih =>
    intro σ hn h
    have hr : (Env.set ρ i r) i = r := by simp [Env.set]
    simp only [List.foldl_cons]
    rw [← row_same S info dim cd a2 a3 hik hij hkj hAB hAC hwA hB hC hupd hview hfill (ρ.set i r) σ
      (fun y => by rw [hr]; exact h r List.mem_cons_self y)]
    refine ih _ (List.nodup_cons.1 hn).2 (fun x hx y => ?_)
    rw [row_rest S info dim cd a2 a3 hik hij hkj hAB hAC]
    · exact h x (List.mem_cons_of_mem _ hx) y
    · rw [hr]
      rintro rfl
      exact (List.nodup_cons.1 hn).1 hx

end Verif.Spmm
