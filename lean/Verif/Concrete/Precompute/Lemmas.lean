import Verif.Concrete.Reorder.Lemmas
import Verif.Concrete.Precompute.Model
import Verif.Concrete.Precompute.Spec
/-
Lemmas about precomputing.
-/
namespace Verif.Concrete

set_option linter.unusedSectionVars false

variable {R : Type} [CommRing R]

/-! ### Nests that start from zero -/

/-- A nest of loops around an assignment to a tensor that is zero. -/
theorem exec_zero_nest {dim : Nat → Nat} {L : List Nat} {a : Nat} {lhs : List Nat} {plus : Bool}
    {r : Expr R} {σ : Store R} (ρ : Env) (ha : a ∉ r.tensors) (hz : ∀ x, σ a x = 0)
    (hp : plus = true ∨ L.Nodup ∧ ∀ i ∈ L, i ∈ lhs) :
    exec dim (loops L (.assign a lhs plus r)) ρ σ =
      fun u x => if u = a then
        sumOver dim L (fun ρ' => if lhs.map ρ' = x then eval dim σ ρ' r else 0) ρ else σ u x := by
  rw [exec_loops]
  -- a plain assignment may as well accumulate
  have hplus : ∀ (l : List Env) (τ : Store R), (l.map fun ρ => lhs.map ρ).Nodup →
      (∀ ρ ∈ l, τ a (lhs.map ρ) = 0) →
      l.foldl (fun σ ρ => exec dim (.assign a lhs false r) ρ σ) τ =
        l.foldl (fun σ ρ => exec dim (.assign a lhs true r) ρ σ) τ := by
    intro l
    induction l with
    | nil => intro τ _ _; rfl
    | cons ρ' l ih =>
      intro τ hn h0
      simp only [List.map_cons, List.nodup_cons] at hn
      rw [List.foldl_cons, List.foldl_cons]
      have e : exec dim (.assign a lhs false r) ρ' τ = exec dim (.assign a lhs true r) ρ' τ := by
        simp [exec, h0 ρ' List.mem_cons_self]
      rw [e]
      refine ih _ hn.2 ?_
      intro ρ2 h2
      have : lhs.map ρ2 ≠ lhs.map ρ' := fun he => hn.1 (he ▸ List.mem_map_of_mem h2)
      simp only [exec, put, true_and, if_neg this]
      exact h0 ρ2 (List.mem_cons_of_mem _ h2)
  have hacc : ∀ (l : List Env) (τ : Store R), (∀ u, u ≠ a → τ u = σ u) →
      l.foldl (fun σ ρ => exec dim (.assign a lhs true r) ρ σ) τ =
        fun u x => if u = a then
          τ a x + (l.map fun ρ' => if lhs.map ρ' = x then eval dim σ ρ' r else 0).sum
        else σ u x := by
    intro l
    induction l with
    | nil =>
      intro τ hτ
      funext u x
      simp only [List.foldl_nil, List.map_nil, List.sum_nil, add_zero]
      split
      · rename_i h; rw [h]
      · rename_i h; rw [hτ u h]
    | cons ρ' l ih =>
      intro τ hτ
      rw [List.foldl_cons, ih]
      · funext u x
        split
        · simp only [exec, if_true, put, true_and, List.map_cons, List.sum_cons]
          rw [eval_store (σ' := σ) r ρ' fun u hu => hτ u (fun e => ha (e ▸ hu))]
          by_cases hx : x = lhs.map ρ'
          · subst hx; simp; ring
          · simp [hx, Ne.symm hx]
        · rfl
      · intro u hu
        simp only [exec]
        rw [put_ne_tensor _ _ _ hu]; exact hτ u hu
  have hall : (envs dim L ρ).foldl (fun σ ρ => exec dim (.assign a lhs plus r) ρ σ) σ =
      (envs dim L ρ).foldl (fun σ ρ => exec dim (.assign a lhs true r) ρ σ) σ := by
    cases plus with
    | true => rfl
    | false =>
      rcases hp with hp | ⟨hn, hl⟩
      · simp at hp
      · refine hplus _ _ ?_ fun ρ _ => hz _
        have hk := nodup_keys (dim := dim) (ρ := ρ) hn
        unfold List.Nodup at hk ⊢
        rw [List.pairwise_map] at hk ⊢
        refine hk.imp ?_
        intro ρ1 ρ2 h12 he
        apply h12
        refine List.map_congr_left fun i hi => ?_
        exact List.map_inj_left.mp he i (hl i hi)
  rw [hall, hacc _ σ fun _ _ => rfl]
  funext u x
  rw [sum_envs, hz x, zero_add]

/-- Only one value of the variables contributes. -/
theorem sumOver_pick {dim : Nat → Nat} {f : Env → R} : ∀ (is y : List Nat) (ρ : Env), is.Nodup →
    InBox dim is y → sumOver dim is (fun ρ' => if is.map ρ' = y then f ρ' else 0) ρ =
      f (bind is y ρ) := by
  intro is
  induction is with
  | nil =>
    intro y ρ _ hy
    cases hy
    simp [sumOver, bind]
  | cons i is ih =>
    intro y ρ hn hy
    cases hy with
    | cons hv hy' =>
      rename_i v y'
      simp only [List.nodup_cons] at hn
      simp only [sumOver]
      rw [Finset.sum_eq_single v]
      · show _ = f (bind is y' (ρ.set i v))
        rw [← ih y' (ρ.set i v) hn.2 hy']
        refine sumOver_congr is _ fun ρ' hρ' => ?_
        have : ρ' i = v := by rw [hρ' i hn.1, Env.set_same]
        simp [this]
      · intro w _ hw
        have hz : ∀ ρ', (∀ j, j ∉ is → ρ' j = (ρ.set i w) j) →
            (if (i :: is).map ρ' = v :: y' then f ρ' else 0) = (fun _ => (0 : R)) ρ' := by
          intro ρ' hρ'
          have : ρ' i = w := by rw [hρ' i hn.1, Env.set_same]
          simp [this, hw]
        rw [sumOver_congr is _ hz]
        have : ∀ (is : List Nat) (ρ : Env), sumOver dim is (fun _ => (0 : R)) ρ = 0 := by
          intro is
          induction is with
          | nil => intro _; rfl
          | cons j is ih => intro ρ; simp [sumOver, ih]
        exact this is _
      · intro h
        simp only [Finset.mem_range] at h
        exact absurd hv h

/-! ### Filling and renaming -/

theorem eval_fill {dim : Nat → Nat} {σ σ' : Store R} {ρ : Env} {h : Nat} {x x' : Expr R}
    (hx : eval dim σ' ρ x = eval dim σ ρ x') : ∀ (c : Expr R), c.sumFree →
    (∀ u ∈ c.tensors, u ≠ h → σ' u = σ u) → eval dim σ' ρ (c.fill h x) = eval dim σ ρ (c.fill h x')
  | .lit _, _, _ => rfl
  | .acc t is, _, ht => by
    simp only [Expr.fill]
    split
    · exact hx
    · rename_i hth
      simp only [eval]
      rw [ht t (by simp [Expr.tensors]) hth]
  | .neg a, hc, ht => by simp only [Expr.fill, eval]; rw [eval_fill hx a hc ht]
  | .add a b, hc, ht => by
    simp only [Expr.tensors, List.mem_append] at ht
    simp only [Expr.fill, eval]
    rw [eval_fill hx a hc.1 fun u hu => ht u (Or.inl hu), eval_fill hx b hc.2 fun u hu => ht u (Or.inr hu)]
  | .sub a b, hc, ht => by
    simp only [Expr.tensors, List.mem_append] at ht
    simp only [Expr.fill, eval]
    rw [eval_fill hx a hc.1 fun u hu => ht u (Or.inl hu), eval_fill hx b hc.2 fun u hu => ht u (Or.inr hu)]
  | .mul a b, hc, ht => by
    simp only [Expr.tensors, List.mem_append] at ht
    simp only [Expr.fill, eval]
    rw [eval_fill hx a hc.1 fun u hu => ht u (Or.inl hu), eval_fill hx b hc.2 fun u hu => ht u (Or.inr hu)]
  | .red _ _, hc, _ => absurd hc (by simp [Expr.sumFree])

theorem eval_rename {dim : Nat → Nat} {σ : Store R} {ρ : Env} {f : Nat → Nat} : ∀ (e : Expr R),
    e.sumFree → eval dim σ ρ (e.rename f) = eval dim σ (fun v => ρ (f v)) e
  | .lit _, _ => rfl
  | .acc t is, _ => by simp only [Expr.rename, eval, List.map_map]; rfl
  | .neg a, h => by simp only [Expr.rename, eval]; rw [eval_rename a h]
  | .add a b, h => by simp only [Expr.rename, eval]; rw [eval_rename a h.1, eval_rename b h.2]
  | .sub a b, h => by simp only [Expr.rename, eval]; rw [eval_rename a h.1, eval_rename b h.2]
  | .mul a b, h => by simp only [Expr.rename, eval]; rw [eval_rename a h.1, eval_rename b h.2]
  | .red _ _, h => absurd h (by simp [Expr.sumFree])

theorem varsAll_rename (f : Nat → Nat) : ∀ (e : Expr R), (e.rename f).varsAll = e.varsAll.map f
  | .lit _ => rfl
  | .acc _ _ => rfl
  | .neg a => varsAll_rename f a
  | .add a b => by simp [Expr.rename, Expr.varsAll, varsAll_rename f a, varsAll_rename f b]
  | .sub a b => by simp [Expr.rename, Expr.varsAll, varsAll_rename f a, varsAll_rename f b]
  | .mul a b => by simp [Expr.rename, Expr.varsAll, varsAll_rename f a, varsAll_rename f b]
  | .red _ a => varsAll_rename f a

theorem tensors_rename (f : Nat → Nat) : ∀ (e : Expr R), (e.rename f).tensors = e.tensors
  | .lit _ => rfl
  | .acc _ _ => rfl
  | .neg a => tensors_rename f a
  | .add a b => by simp [Expr.rename, Expr.tensors, tensors_rename f a, tensors_rename f b]
  | .sub a b => by simp [Expr.rename, Expr.tensors, tensors_rename f a, tensors_rename f b]
  | .mul a b => by simp [Expr.rename, Expr.tensors, tensors_rename f a, tensors_rename f b]
  | .red _ a => tensors_rename f a

theorem tensors_fill {h : Nat} {x : Expr R} {u : Nat} : ∀ (c : Expr R), u ∈ (c.fill h x).tensors →
    u ∈ x.tensors ∨ (u ∈ c.tensors ∧ u ≠ h)
  | .lit _, hu => by simp [Expr.fill, Expr.tensors] at hu
  | .acc t is, hu => by
    simp only [Expr.fill] at hu
    split at hu
    · exact Or.inl hu
    · rename_i ht
      simp only [Expr.tensors, List.mem_singleton] at hu
      subst hu
      exact Or.inr ⟨by simp [Expr.tensors], ht⟩
  | .neg a, hu => tensors_fill a hu
  | .add a b, hu => by
    simp only [Expr.fill, Expr.tensors, List.mem_append] at hu ⊢
    rcases hu with hu | hu
    · rcases tensors_fill a hu with h | h
      · exact Or.inl h
      · exact Or.inr ⟨Or.inl h.1, h.2⟩
    · rcases tensors_fill b hu with h | h
      · exact Or.inl h
      · exact Or.inr ⟨Or.inr h.1, h.2⟩
  | .sub a b, hu => by
    simp only [Expr.fill, Expr.tensors, List.mem_append] at hu ⊢
    rcases hu with hu | hu
    · rcases tensors_fill a hu with h | h
      · exact Or.inl h
      · exact Or.inr ⟨Or.inl h.1, h.2⟩
    · rcases tensors_fill b hu with h | h
      · exact Or.inl h
      · exact Or.inr ⟨Or.inr h.1, h.2⟩
  | .mul a b, hu => by
    simp only [Expr.fill, Expr.tensors, List.mem_append] at hu ⊢
    rcases hu with hu | hu
    · rcases tensors_fill a hu with h | h
      · exact Or.inl h
      · exact Or.inr ⟨Or.inl h.1, h.2⟩
    · rcases tensors_fill b hu with h | h
      · exact Or.inl h
      · exact Or.inr ⟨Or.inr h.1, h.2⟩
  | .red _ a, hu => tensors_fill a hu

/-- Without the marker nothing is filled in. -/
theorem fill_notMem {h : Nat} {x : Expr R} : ∀ (c : Expr R), h ∉ c.tensors → c.fill h x = c
  | .lit _, _ => rfl
  | .acc t is, hc => by
    simp only [Expr.tensors, List.mem_singleton] at hc
    simp [Expr.fill, Ne.symm hc]
  | .neg a, hc => by simp only [Expr.fill]; rw [fill_notMem a hc]
  | .add a b, hc => by
    simp only [Expr.tensors, List.mem_append, not_or] at hc
    simp only [Expr.fill]; rw [fill_notMem a hc.1, fill_notMem b hc.2]
  | .sub a b, hc => by
    simp only [Expr.tensors, List.mem_append, not_or] at hc
    simp only [Expr.fill]; rw [fill_notMem a hc.1, fill_notMem b hc.2]
  | .mul a b, hc => by
    simp only [Expr.tensors, List.mem_append, not_or] at hc
    simp only [Expr.fill]; rw [fill_notMem a hc.1, fill_notMem b hc.2]
  | .red i a, hc => by simp only [Expr.fill]; rw [fill_notMem a hc]

theorem varsAll_fill {h : Nat} {x : Expr R} {v : Nat} : ∀ (c : Expr R),
    v ∈ (c.fill h (.lit 0)).varsAll → v ∈ (c.fill h x).varsAll
  | .lit _, hv => hv
  | .acc t is, hv => by
    simp only [Expr.fill] at hv ⊢
    split at hv
    · simp [Expr.varsAll] at hv
    · rename_i ht
      simpa [ht] using hv
  | .neg a, hv => varsAll_fill a hv
  | .add a b, hv => by
    simp only [Expr.fill, Expr.varsAll, List.mem_append] at hv ⊢
    exact hv.imp (varsAll_fill a) (varsAll_fill b)
  | .sub a b, hv => by
    simp only [Expr.fill, Expr.varsAll, List.mem_append] at hv ⊢
    exact hv.imp (varsAll_fill a) (varsAll_fill b)
  | .mul a b, hv => by
    simp only [Expr.fill, Expr.varsAll, List.mem_append] at hv ⊢
    exact hv.imp (varsAll_fill a) (varsAll_fill b)
  | .red _ a, hv => varsAll_fill a hv

/-- A sum can be moved out of an expression that is linear in the marker. -/
theorem eval_fill_linear {dim : Nat → Nat} {σ : Store R} {h : Nat} {e : Expr R} {p : List Nat} :
    ∀ (c : Expr R) (ρ : Env), c.linearIn h →
    (∀ v ∈ p, v ∉ (c.fill h (.lit 0)).varsAll) →
    eval dim σ ρ (c.fill h (p.foldr .red e)) =
      sumOver dim p (fun ρ => eval dim σ ρ (c.fill h e)) ρ := by
  intro c
  induction c with
  | lit r => intro ρ hl; exact absurd hl (by simp [Expr.linearIn])
  | red i a _ => intro ρ hl; exact absurd hl (by simp [Expr.linearIn])
  | acc t is =>
    intro ρ hl _
    simp only [Expr.linearIn] at hl
    simp only [Expr.fill, hl, if_true]
    exact eval_foldr_red e p ρ
  | neg a ih =>
    intro ρ hl hp
    simp only [Expr.fill, eval]
    rw [ih ρ hl hp, sumOver_neg]
  | add a b iha ihb =>
    intro ρ hl hp
    simp only [Expr.fill, Expr.varsAll, List.mem_append, not_or] at hp
    simp only [Expr.fill, eval]
    rw [iha ρ hl.1 (fun v hv => (hp v hv).1), ihb ρ hl.2 (fun v hv => (hp v hv).2), sumOver_add]
  | sub a b iha ihb =>
    intro ρ hl hp
    simp only [Expr.fill, Expr.varsAll, List.mem_append, not_or] at hp
    simp only [Expr.fill, eval]
    rw [iha ρ hl.1 (fun v hv => (hp v hv).1), ihb ρ hl.2 (fun v hv => (hp v hv).2), sumOver_sub]
  | mul a b iha ihb =>
    intro ρ hl hp
    simp only [Expr.fill, Expr.varsAll, List.mem_append, not_or] at hp
    have hconst : ∀ (x : Expr R), (∀ v ∈ p, v ∉ x.varsAll) → ∀ ρ',
        (∀ j, j ∉ p → ρ' j = ρ j) → eval dim σ ρ' x = eval dim σ ρ x := by
      intro x hx ρ' hρ'
      refine eval_env x _ _ fun i hi => hρ' i fun hip => hx i hip hi
    simp only [Expr.fill, eval]
    rcases hl with ⟨hl, hb⟩ | ⟨ha, hl⟩
    · have hb' : ∀ x : Expr R, b.fill h x = b := fun x => fill_notMem b hb
      rw [iha ρ hl (fun v hv => (hp v hv).1)]
      simp only [hb'] at hp ⊢
      have := sumOver_mul (dim := dim) (f := fun ρ => eval dim σ ρ b)
        (g := fun ρ => eval dim σ ρ (a.fill h e)) p ρ (hconst b fun v hv => (hp v hv).2)
      simp only [mul_comm] at this ⊢
      rw [this]
    · have ha' : ∀ x : Expr R, a.fill h x = a := fun x => fill_notMem a ha
      rw [ihb ρ hl (fun v hv => (hp v hv).2)]
      simp only [ha'] at hp ⊢
      rw [← sumOver_mul (dim := dim) (f := fun ρ => eval dim σ ρ a)
        (g := fun ρ => eval dim σ ρ (b.fill h e)) p ρ (hconst a fun v hv => (hp v hv).1)]

/-! ### Substituted variables -/

theorem substVar_notMem : ∀ (is iws : List Nat) (v : Nat), v ∉ is → substVar is iws v = v
  | [], _, _, _ => rfl
  | _ :: _, [], _, _ => rfl
  | i :: is, w :: iws, v, h => by
    simp only [List.mem_cons, not_or] at h
    simp [substVar, h.1, substVar_notMem is iws v h.2]

theorem substVar_map : ∀ (is iws : List Nat), is.Nodup → is.length = iws.length →
    is.map (substVar is iws) = iws
  | [], iws, _, hl => by
    have : iws = [] := List.length_eq_zero_iff.mp (by simpa using hl.symm)
    simp [this]
  | i :: is, [], _, hl => by simp at hl
  | i :: is, w :: iws, hn, hl => by
    simp only [List.nodup_cons] at hn
    simp only [List.map_cons, substVar, if_true, List.cons.injEq, true_and]
    refine Eq.trans (List.map_congr_left fun v hv => ?_) (substVar_map is iws hn.2 (by simpa using hl))
    have : v ≠ i := fun e => hn.1 (e ▸ hv)
    simp [this]

theorem substVar_mem (is iws : List Nat) (hn : is.Nodup) (hl : is.length = iws.length) {v : Nat}
    (hv : v ∈ is) : substVar is iws v ∈ iws := by
  have := List.mem_map_of_mem (f := substVar is iws) hv
  rwa [substVar_map is iws hn hl] at this

/-! ### Distribution of loops -/

theorem distribute_spec {is iws : List Nat} {inC inP : Nat → Bool} : ∀ (l : List Nat),
    (∀ v ∈ l, v ∈ is ∨ inC v = true ∨ inP v = true) →
    ∃ p, l.Perm ((distribute is iws inC inP l).consumer ++ p ++ (distribute is iws inC inP l).outer) ∧
      (distribute is iws inC inP l).producer.Perm
        (((distribute is iws inC inP l).consumer.filter is.contains).map (substVar is iws) ++ p) ∧
      (∀ v ∈ p, v ∉ is ∧ inP v = true ∧ inC v = false) ∧
      (∀ v ∈ (distribute is iws inC inP l).consumer, v ∈ is ∨ (inC v = true ∧ inP v = false)) := by
  intro l
  induction l with
  | nil => intro _; exact ⟨[], by simp [distribute]⟩
  | cons i l ih =>
    intro h
    obtain ⟨p, h1, h2, h3, h4⟩ := ih fun v hv => h v (List.mem_cons_of_mem _ hv)
    by_cases hi : i ∈ is
    · have hd : distribute is iws inC inP (i :: l) = ⟨substVar is iws i :: (distribute is iws inC inP l).producer,
          i :: (distribute is iws inC inP l).consumer, (distribute is iws inC inP l).outer⟩ := by
        simp [distribute, hi]
      rw [hd]
      refine ⟨p, ?_, ?_, h3, ?_⟩
      · simpa using h1
      · simpa [hi] using h2
      · intro v hv
        rcases List.mem_cons.mp hv with rfl | hv
        · exact Or.inl hi
        · exact h4 v hv
    · have hc : is.contains i = false := by simpa using hi
      by_cases hb : inC i && inP i
      · have hd : distribute is iws inC inP (i :: l) = ⟨[], [], i :: l⟩ := by
          simp [distribute, hi, hb]
        rw [hd]
        exact ⟨[], by simp⟩
      · by_cases hC : inC i = true
        · have hP : inP i = false := by simpa [hC] using hb
          have hd : distribute is iws inC inP (i :: l) = ⟨(distribute is iws inC inP l).producer,
              i :: (distribute is iws inC inP l).consumer, (distribute is iws inC inP l).outer⟩ := by
            simp [distribute, hi, hC, hP]
          rw [hd]
          refine ⟨p, by simpa using h1, by simpa [hi] using h2, h3, ?_⟩
          intro v hv
          rcases List.mem_cons.mp hv with rfl | hv
          · exact Or.inr ⟨hC, hP⟩
          · exact h4 v hv
        · have hC' : inC i = false := by simpa using hC
          have hP : inP i = true := by
            rcases h i List.mem_cons_self with h | h | h
            · exact absurd h hi
            · exact absurd h hC
            · exact h
          have hd : distribute is iws inC inP (i :: l) = ⟨i :: (distribute is iws inC inP l).producer,
              (distribute is iws inC inP l).consumer, (distribute is iws inC inP l).outer⟩ := by
            simp [distribute, hi, hC', hP]
          rw [hd]
          refine ⟨i :: p, ?_, ?_, ?_, h4⟩
          · refine (h1.cons i).trans ?_
            simp only [List.append_assoc, List.cons_append]
            exact List.perm_middle.symm
          · exact (h2.cons i).trans List.perm_middle.symm
          · intro v hv
            rcases List.mem_cons.mp hv with rfl | hv
            · exact ⟨hi, hP, hC'⟩
            · exact h3 v hv

/-! ### The where statement -/

theorem sumOver_rel {dim : Nat → Nat} {f g : Env → R} {Q : Env → Env → Prop} : ∀ (p : List Nat)
    (ρ1 ρ2 : Env), (∀ i ∈ p, ∀ v ρ1 ρ2, Q ρ1 ρ2 → Q (ρ1.set i v) (ρ2.set i v)) →
    (∀ ρ1 ρ2, Q ρ1 ρ2 → f ρ1 = g ρ2) → Q ρ1 ρ2 → sumOver dim p f ρ1 = sumOver dim p g ρ2
  | [], ρ1, ρ2, _, hf, hq => hf ρ1 ρ2 hq
  | i :: p, ρ1, ρ2, hs, hf, hq =>
    Finset.sum_congr rfl fun v _ =>
      sumOver_rel p _ _ (fun j hj => hs j (List.mem_cons_of_mem _ hj)) hf
        (hs i List.mem_cons_self v ρ1 ρ2 hq)

/-- A where statement computes what the consumer would compute from a sum. -/
theorem exec_where_sum {dim : Nat → Nat} {is iws C P p lhs : List Nat} {a ws h : Nat}
    {pc pp : Bool} {c e : Expr R} (hP : P.Perm (iws ++ p)) (hni : is.Nodup) (hnw : iws.Nodup)
    (hl : is.length = iws.length) (hdim : iws.map dim = is.map dim)
    (hpw : ∀ v ∈ p, v ∉ iws ∧ v ∉ is) (hv : ∀ v ∈ e.varsAll, v ∉ is → v ∉ C ∧ v ∉ iws)
    (hC : ∀ i ∈ is, i ∈ C) (hwe : ws ∉ e.tensors) (hwa : ws ≠ a) (hwc : ws ∉ c.tensors)
    (hae : a ∉ e.tensors) (hac : a ∉ c.tensors) (he : e.sumFree) (hc : c.sumFree)
    (hpp : pp = true ∨ p = []) (ρ : Env) (τ : Store R) :
    exec dim (.wher (loops C (.assign a lhs pc (c.fill h (.acc ws is))))
      (loops P (.assign ws iws pp (e.rename (substVar is iws))))) ρ τ =
    exec dim (loops C (.assign a lhs pc (c.fill h (p.foldr .red e)))) ρ τ := by
  -- the producer
  have hprod := exec_zero_nest (dim := dim) (L := P) (a := ws) (lhs := iws) (plus := pp)
    (r := e.rename (substVar is iws)) (σ := clear [ws] τ) ρ (by rwa [tensors_rename])
    (by intro x; simp [clear]) (by
      rcases hpp with h | h
      · exact Or.inl h
      · subst h
        rw [List.append_nil] at hP
        exact Or.inr ⟨hP.nodup_iff.mpr hnw, fun i hi => hP.mem_iff.mp hi⟩)
  generalize hπ : exec dim (loops P (.assign ws iws pp (e.rename (substVar is iws)))) ρ
    (clear [ws] τ) = π at hprod
  have hπo : ∀ u, u ≠ ws → π u = τ u := by
    intro u hu; rw [hprod]; funext x; simp [hu, clear]
  have hmap := substVar_map is iws hni hl
  -- what the consumer finds in the workspace
  have hπw : ∀ ρ' ∈ envs dim C ρ, π ws (is.map ρ') =
      sumOver dim p (fun ρ => eval dim τ ρ e) ρ' := by
    intro ρ' hρ'
    obtain ⟨q1, q2⟩ := mem_envs hρ'
    have hbox : InBox dim iws (is.map ρ') := by
      have : ∀ (is iws : List Nat), (∀ i ∈ is, ρ' i < dim i) → iws.map dim = is.map dim →
          InBox dim iws (is.map ρ') := by
        intro is
        induction is with
        | nil => intro iws _ h; simp at h; subst h; exact List.Forall₂.nil
        | cons i is ih =>
          intro iws hlt hd
          cases iws with
          | nil => simp at hd
          | cons w iws =>
            simp only [List.map_cons, List.cons.injEq] at hd
            exact List.Forall₂.cons (by rw [hd.1]; exact hlt i List.mem_cons_self)
              (ih iws (fun j hj => hlt j (List.mem_cons_of_mem _ hj)) hd.2)
      exact this is iws (fun i hi => q2 i (hC i hi)) hdim
    rw [hprod]
    simp only [if_true]
    rw [sumOver_perm hP, sumOver_append]
    have hpull : ∀ ρ1, sumOver dim p (fun ρ2 => if iws.map ρ2 = is.map ρ' then
        eval dim (clear [ws] τ) ρ2 (e.rename (substVar is iws)) else 0) ρ1 =
        if iws.map ρ1 = is.map ρ' then sumOver dim p
          (fun ρ2 => eval dim τ ρ2 (e.rename (substVar is iws))) ρ1 else 0 := by
      intro ρ1
      have hkey : ∀ ρ2, (∀ j, j ∉ p → ρ2 j = ρ1 j) → iws.map ρ2 = iws.map ρ1 := by
        intro ρ2 h2
        exact List.map_congr_left fun w hw => h2 w fun hp => (hpw w hp).1 hw
      have hev : ∀ ρ2, eval dim (clear [ws] τ) ρ2 (e.rename (substVar is iws)) =
          eval dim τ ρ2 (e.rename (substVar is iws)) := by
        intro ρ2
        refine eval_store _ _ fun u hu => ?_
        rw [tensors_rename] at hu
        have : u ≠ ws := fun e => hwe (e ▸ hu)
        simp [clear, this]
      split
      · rename_i hk
        refine sumOver_congr p ρ1 fun ρ2 h2 => ?_
        rw [hkey ρ2 h2, if_pos hk, hev]
      · rename_i hk
        have : sumOver dim p (fun ρ2 => if iws.map ρ2 = is.map ρ' then
            eval dim (clear [ws] τ) ρ2 (e.rename (substVar is iws)) else 0) ρ1 =
            sumOver dim p (fun _ => (0 : R)) ρ1 := by
          refine sumOver_congr p ρ1 fun ρ2 h2 => ?_
          rw [hkey ρ2 h2, if_neg hk]
        rw [this]
        have hz : ∀ (p : List Nat) (ρ : Env), sumOver dim p (fun _ => (0 : R)) ρ = 0 := by
          intro p
          induction p with
          | nil => intro _; rfl
          | cons j p ih => intro ρ; simp [sumOver, ih]
        exact hz p ρ1
    rw [sumOver_congr (g := fun ρ1 => if iws.map ρ1 = is.map ρ' then sumOver dim p
          (fun ρ2 => eval dim τ ρ2 (e.rename (substVar is iws))) ρ1 else 0) iws ρ
        fun ρ1 _ => hpull ρ1,
      sumOver_pick iws _ ρ hnw hbox]
    refine sumOver_rel (Q := fun ρ1 ρ2 => ∀ v ∈ e.varsAll, ρ1 (substVar is iws v) = ρ2 v) p _ _ ?_ ?_ ?_
    · intro i hi w ρ1 ρ2 hQ v hve
      by_cases hvi : v = i
      · subst hvi
        rw [substVar_notMem is iws v (hpw v hi).2, Env.set_same, Env.set_same]
      · rw [Env.set_ne _ _ hvi, Env.set_ne, hQ v hve]
        by_cases hvis : v ∈ is
        · intro e
          exact (hpw i hi).1 (e ▸ substVar_mem is iws hni hl hvis)
        · rw [substVar_notMem is iws v hvis]; exact hvi
    · intro ρ1 ρ2 hQ
      rw [eval_rename e he]
      exact eval_env e _ _ hQ
    · intro v hve
      by_cases hvis : v ∈ is
      · have hk := bind_key hnw ρ hbox
        generalize bind iws (is.map ρ') ρ = β at hk ⊢
        conv at hk => lhs; rw [← hmap]
        rw [List.map_map] at hk
        exact List.map_inj_left.mp hk v hvis
      · obtain ⟨g1, g2⟩ := hv v hve hvis
        rw [substVar_notMem is iws v hvis, bind_notMem _ _ _ _ g2, q1 v g1]
  -- the consumer
  have hcons : ∀ (l : List Env) (τ1 τ2 : Store R), (∀ ρ' ∈ l, ρ' ∈ envs dim C ρ) →
      (∀ u, u ≠ ws → τ1 u = τ2 u) → τ1 ws = π ws → (∀ u, u ≠ a → τ2 u = τ u) →
      ∀ u, u ≠ ws →
      l.foldl (fun σ ρ => exec dim (.assign a lhs pc (c.fill h (.acc ws is))) ρ σ) τ1 u =
      l.foldl (fun σ ρ => exec dim (.assign a lhs pc (c.fill h (p.foldr .red e))) ρ σ) τ2 u := by
    intro l
    induction l with
    | nil => intro τ1 τ2 _ h1 _ _ u hu; exact h1 u hu
    | cons ρ' l ih =>
      intro τ1 τ2 hl' h1 h2 h3 u hu
      rw [List.foldl_cons, List.foldl_cons]
      have hval : eval dim τ1 ρ' (c.fill h (.acc ws is)) =
          eval dim τ2 ρ' (c.fill h (p.foldr .red e)) := by
        refine eval_fill ?_ c hc ?_
        · simp only [eval]
          rw [h2, hπw ρ' (hl' ρ' List.mem_cons_self), eval_foldr_red]
          refine sumOver_congr p ρ' fun ρ2 _ => eval_store e _ fun u hu => ?_
          exact (h3 u fun e => hae (e ▸ hu)).symm
        · intro u hu _
          exact h1 u fun e => hwc (e ▸ hu)
      refine ih _ _ (fun ρ2 h => hl' ρ2 (List.mem_cons_of_mem _ h)) ?_ ?_ ?_ u hu
      · intro u hu
        simp only [exec, hval]
        rw [h1 a (Ne.symm hwa)]
        by_cases hua : u = a
        · subst hua
          funext x
          simp only [put, true_and]
          rw [h1 u hu]
        · rw [put_ne_tensor _ _ _ hua, put_ne_tensor _ _ _ hua, h1 u hu]
      · simp only [exec]
        rw [put_ne_tensor _ _ _ hwa]; exact h2
      · intro u hu
        simp only [exec]
        rw [put_ne_tensor _ _ _ hu]; exact h3 u hu
  have hout : (loops P (.assign ws iws pp (e.rename (substVar is iws)))).results = [ws] := by
    rw [results_target, target_loops]; rfl
  simp only [exec, hout, hπ]
  funext u
  by_cases hu : u = ws
  · subst hu
    simp only [restore, List.mem_singleton, if_true]
    refine (exec_other _ _ _ _ ?_).symm
    rw [target_loops]; exact hwa
  · simp only [restore, List.mem_singleton, hu, if_false]
    rw [exec_loops, exec_loops]
    exact hcons _ π τ (fun _ h => h) hπo rfl (fun _ _ => rfl) u hu

/-! ### Operators -/

theorem length_le_of_subset {l l' : List Nat} (hn : l.Nodup) (h : ∀ v ∈ l, v ∈ l') :
    l.length ≤ l'.length :=
  (List.subperm_of_subset hn h).length_le

theorem nodup_eraseDups' : ∀ (l : List Nat), l.eraseDups.Nodup := by
  intro l
  induction h : l.length using Nat.strong_induction_on generalizing l with
  | _ n ih =>
    cases l with
    | nil => simp
    | cons a l =>
      rw [List.eraseDups_cons]
      refine List.nodup_cons.mpr ⟨?_, ?_⟩
      · simp [List.mem_eraseDups]
      · refine ih _ ?_ _ rfl
        subst h
        exact Nat.lt_succ_of_le (List.length_filter_le _ _)

/-- If the right-hand side has a variable that the left-hand side has not, and they have one
in common, the assignment accumulates. -/
theorem setRel_plus {l r : List Nat} (h1 : ∃ v ∈ r, v ∉ l) (h2 : l = [] ∨ ∃ v ∈ r, v ∈ l) :
    relPlus (setRel l r) = true := by
  obtain ⟨v, hv, hvl⟩ := h1
  have hlt : (r.eraseDups.filter l.contains).length < r.eraseDups.length := by
    refine List.length_filter_lt_length_iff_exists.mpr ⟨v, by simpa [List.mem_eraseDups] using hv, by simpa using hvl⟩
  have hle : (r.eraseDups.filter l.contains).length ≤ l.eraseDups.length := by
    refine length_le_of_subset ((nodup_eraseDups' r).filter _) fun w hw => ?_
    rw [List.mem_eraseDups]
    simpa using (List.mem_filter.mp hw).2
  unfold setRel
  simp only
  split
  · rename_i h0
    rcases h2 with h2 | ⟨w, hw, hwl⟩
    · subst h2; simp [relPlus]
    · exfalso
      rw [List.length_eq_zero_iff, List.filter_eq_nil_iff] at h0
      exact h0 w (by simpa [List.mem_eraseDups] using hw) (by simpa using hwl)
  · rw [if_neg (by omega)]
    split
    · rfl
    · rw [if_neg (by omega), if_pos (by omega)]; rfl

theorem fill_vars {h : Nat} {x : Expr R} {v : Nat} (hv : v ∈ x.varsAll) : ∀ (c : Expr R),
    h ∈ c.tensors → v ∈ (c.fill h x).varsAll
  | .lit _, hc => by simp [Expr.tensors] at hc
  | .acc t is, hc => by
    simp only [Expr.tensors, List.mem_singleton] at hc
    simpa [Expr.fill, hc] using hv
  | .neg a, hc => fill_vars hv a hc
  | .add a b, hc => by
    simp only [Expr.tensors, List.mem_append] at hc
    simp only [Expr.fill, Expr.varsAll, List.mem_append]
    exact hc.imp (fill_vars hv a) (fill_vars hv b)
  | .sub a b, hc => by
    simp only [Expr.tensors, List.mem_append] at hc
    simp only [Expr.fill, Expr.varsAll, List.mem_append]
    exact hc.imp (fill_vars hv a) (fill_vars hv b)
  | .mul a b, hc => by
    simp only [Expr.tensors, List.mem_append] at hc
    simp only [Expr.fill, Expr.varsAll, List.mem_append]
    exact hc.imp (fill_vars hv a) (fill_vars hv b)
  | .red _ a, hc => fill_vars hv a hc

theorem loops_append (is js : List Nat) (s : Stmt R) : loops (is ++ js) s = loops is (loops js s) := by
  simp [loops, List.foldr_append]

/-- A precompute does not change what is computed. -/
theorem precompute_ok {dim : Nat → Nat} {q : Pre R} {L lhs : List Nat} {a h : Nat} {plus : Bool}
    {c : Expr R} {σ : Store R} (hL : L.Nodup) (hni : q.is.Nodup) (hnw : q.iws.Nodup)
    (hl : q.is.length = q.iws.length) (hdim : q.iws.map dim = q.is.map dim)
    (hfresh : ∀ w ∈ q.iws, w ∈ q.is ∨ (w ∉ L ∧ w ∉ q.e.varsAll))
    (hin : ∀ i ∈ q.is, i ∈ L ∧ i ∉ (q.split L lhs h c).outer)
    (huse : ∀ v ∈ L, v ∈ lhs ∨ v ∈ (q.consumerRhs h c).varsAll ∨ v ∈ q.e.varsAll)
    (hlin : (∃ v ∈ L, v ∉ lhs ∧ v ∉ (q.consumerRhs h c).varsAll) → c.linearIn h)
    (hpc : q.consumerPlus L lhs h c = true ∨
      ∀ v ∈ (q.split L lhs h c).consumer ++ (q.split L lhs h c).outer, v ∈ lhs)
    (hpp : q.producerPlus L lhs h c = true ∨ ∀ v ∈ L, v ∈ lhs ∨ v ∈ (q.consumerRhs h c).varsAll)
    (hwe : q.ws ∉ q.e.tensors) (hwa : q.ws ≠ a) (hwc : q.ws ∉ c.tensors)
    (hae : a ∉ q.e.tensors) (hac : a ∉ c.tensors) (he : q.e.sumFree) (hc : c.sumFree)
    (hh : h ∈ c.tensors) (hplus : plus = true ∨ ∀ v ∈ L, v ∈ lhs) (hz : ∀ x, σ a x = 0) (ρ : Env) :
    exec dim (precompute q L a lhs h c) ρ σ =
      exec dim (loops L (.assign a lhs plus (c.fill h q.e))) ρ σ := by
  -- how the loops are distributed
  have hd := distribute_spec (is := q.is) (iws := q.iws)
    (inC := fun v => lhs.contains v || (q.consumerRhs h c).varsAll.contains v)
    (inP := fun v => q.iws.contains v || q.producerRhs.varsAll.contains v) L.reverse (by
      intro v hv
      have hv' : v ∈ L := by simpa using hv
      by_cases hvi : v ∈ q.is
      · exact Or.inl hvi
      rcases huse v hv' with h | h | h
      · right; left; simp [h]
      · right; left; simp [h]
      · right; right
        have : v ∈ q.producerRhs.varsAll := by
          rw [Pre.producerRhs, varsAll_rename]
          refine List.mem_map.mpr ⟨v, h, substVar_notMem _ _ _ hvi⟩
        simp [this])
  obtain ⟨p, h1, h2, h3, h4⟩ := hd
  rw [show distribute q.is q.iws (fun v => lhs.contains v || (q.consumerRhs h c).varsAll.contains v)
    (fun v => q.iws.contains v || q.producerRhs.varsAll.contains v) L.reverse = q.split L lhs h c
    from rfl] at h1 h2 h4
  generalize hs : q.split L lhs h c = d at h1 h2 h4 hin hpc
  have hperm : L.Perm (d.consumer ++ p ++ d.outer) := (List.reverse_perm L).symm.trans h1
  have hmem : ∀ v, v ∈ L ↔ (v ∈ d.consumer ∨ v ∈ p) ∨ v ∈ d.outer := by
    intro v; rw [hperm.mem_iff]; simp [or_assoc]
  have hnod := hperm.nodup_iff.mp hL
  rw [List.nodup_append, List.nodup_append] at hnod
  have hCd : d.consumer.Nodup := hnod.1.1
  have hCp : ∀ v ∈ d.consumer, v ∉ p := fun v hv hp => hnod.1.2.2 v hv v hp rfl
  have hpL : ∀ v ∈ p, v ∈ L ∧ v ∉ lhs ∧ v ∉ (q.consumerRhs h c).varsAll := by
    intro v hv
    obtain ⟨_, _, g⟩ := h3 v hv
    simp only [Bool.or_eq_false_iff] at g
    refine ⟨(hmem v).mpr (Or.inl (Or.inr hv)), by simpa using g.1, by simpa using g.2⟩
  have hisC : ∀ i ∈ q.is, i ∈ d.consumer := by
    intro i hi
    obtain ⟨g1, g2⟩ := hin i hi
    rcases (hmem i).mp g1 with (g | g) | g
    · exact g
    · exact absurd hi (h3 i g).1
    · exact absurd g g2
  have hP : d.producer.Perm (q.iws ++ p) := by
    refine h2.trans (List.Perm.append_right p ?_)
    have : (d.consumer.filter q.is.contains).Perm q.is := by
      refine (List.perm_ext_iff_of_nodup (hCd.filter _) hni).mpr fun v => ?_
      simp only [List.mem_filter, List.contains_iff_mem]
      exact ⟨fun h => h.2, fun h => ⟨hisC v h, h⟩⟩
    have := this.map (substVar q.is q.iws)
    rwa [substVar_map _ _ hni hl] at this
  have hpiw : ∀ v ∈ p, v ∉ q.iws ∧ v ∉ q.is := by
    intro v hv
    refine ⟨fun hw => ?_, (h3 v hv).1⟩
    rcases hfresh v hw with g | g
    · exact (h3 v hv).1 g
    · exact g.1 (hpL v hv).1
  have hp0 : q.producerPlus L lhs h c = true ∨ p = [] := by
    rcases hpp with g | g
    · exact Or.inl g
    · right
      refine List.eq_nil_iff_forall_not_mem.mpr fun v hv => ?_
      obtain ⟨k1, k2, k3⟩ := hpL v hv
      rcases g v k1 with g | g
      · exact k2 g
      · exact k3 g
  have hve : ∀ v ∈ q.e.varsAll, v ∉ q.is → v ∉ d.consumer.reverse ∧ v ∉ q.iws := by
    intro v hv hvi
    refine ⟨fun hC => ?_, fun hw => ?_⟩
    · rcases h4 v (by simpa using hC) with g | ⟨_, g⟩
      · exact hvi g
      · simp only [Bool.or_eq_false_iff] at g
        have : v ∈ q.producerRhs.varsAll := by
          rw [Pre.producerRhs, varsAll_rename]
          refine List.mem_map.mpr ⟨v, hv, substVar_notMem _ _ _ hvi⟩
        simp [this] at g
    · rcases hfresh v hw with g | g
      · exact hvi g
      · exact g.2 hv
  -- the where statement
  have hw : ∀ ρ τ, exec dim (.wher
      (loops d.consumer.reverse (.assign a lhs (q.consumerPlus L lhs h c) (q.consumerRhs h c)))
      (loops d.producer.reverse (.assign q.ws q.iws (q.producerPlus L lhs h c) q.producerRhs))) ρ τ =
      exec dim (loops d.consumer.reverse
        (.assign a lhs (q.consumerPlus L lhs h c) (c.fill h (p.foldr .red q.e)))) ρ τ := by
    intro ρ τ
    exact exec_where_sum (p := p) ((List.reverse_perm _).trans hP) hni hnw hl hdim hpiw hve
      (fun i hi => by simpa using hisC i hi) hwe hwa hwc hae hac he hc hp0 ρ τ
  have htens : ∀ x : Expr R, x.tensors = q.e.tensors → a ∉ (c.fill h x).tensors := by
    intro x hx hu
    rcases tensors_fill c hu with g | g
    · rw [hx] at g; exact hae g
    · exact hac g.1
  have htr : (p.foldr Expr.red q.e).tensors = q.e.tensors := by
    clear * -
    induction p with
    | nil => rfl
    | cons i p ih => exact ih
  have hresult : exec dim (precompute q L a lhs h c) ρ σ =
      exec dim (loops (d.outer.reverse ++ d.consumer.reverse)
        (.assign a lhs (q.consumerPlus L lhs h c) (c.fill h (p.foldr .red q.e)))) ρ σ := by
    unfold precompute
    simp only [hs]
    rw [loops_append, exec_loops, exec_loops]
    exact foldl_congr_mem _ _ fun τ ρ' _ => hw ρ' τ
  rw [hresult, exec_zero_nest ρ (htens _ htr) hz, exec_zero_nest ρ (htens _ rfl) hz]
  · funext u x
    split
    · have hp' : L.Perm ((d.outer.reverse ++ d.consumer.reverse) ++ p) := by
        refine hperm.trans ?_
        refine List.Perm.trans ?_ (List.Perm.append_right p
          ((List.reverse_perm _).symm.append (List.reverse_perm _).symm))
        rw [List.append_assoc d.outer]
        exact List.perm_append_comm
      rw [sumOver_perm hp', sumOver_append _ p]
      refine sumOver_congr _ _ fun ρ' _ => ?_
      have hkey : ∀ ρ2, (∀ j, j ∉ p → ρ2 j = ρ' j) → lhs.map ρ2 = lhs.map ρ' := by
        intro ρ2 g
        exact List.map_congr_left fun i hi => g i fun hp => (hpL i hp).2.1 hi
      have hsum : eval dim σ ρ' (c.fill h (p.foldr .red q.e)) =
          sumOver dim p (fun ρ => eval dim σ ρ (c.fill h q.e)) ρ' := by
        cases hpn : p with
        | nil => rfl
        | cons v p' =>
          rw [← hpn]
          refine eval_fill_linear c ρ' (hlin ⟨v, hpL v (by simp [hpn])⟩) fun w hw hwv => ?_
          exact (hpL w hw).2.2 (varsAll_fill c hwv)
      split
      · rename_i hk
        rw [hsum]
        refine sumOver_congr p _ fun ρ2 g => ?_
        rw [hkey ρ2 g, if_pos hk]
      · rename_i hk
        have : sumOver dim p (fun ρ2 => if lhs.map ρ2 = x then eval dim σ ρ2 (c.fill h q.e) else 0) ρ' =
            sumOver dim p (fun _ => (0 : R)) ρ' := by
          refine sumOver_congr p ρ' fun ρ2 g => ?_
          rw [hkey ρ2 g, if_neg hk]
        rw [this]
        have hz : ∀ (p : List Nat) (ρ : Env), sumOver dim p (fun _ => (0 : R)) ρ = 0 := by
          intro p
          induction p with
          | nil => intro _; rfl
          | cons j p ih => intro ρ; simp [sumOver, ih]
        exact (hz p ρ').symm
    · rfl
  · rcases hplus with g | g
    · exact Or.inl g
    · exact Or.inr ⟨hL, g⟩
  · rcases hpc with g | g
    · exact Or.inl g
    · refine Or.inr ⟨?_, fun v hv => g v ?_⟩
      · have : (d.outer.reverse ++ d.consumer.reverse).Perm (d.consumer ++ d.outer) :=
          List.perm_append_comm.trans ((List.reverse_perm _).append (List.reverse_perm _))
        refine this.nodup_iff.mpr ?_
        rw [List.nodup_append]
        exact ⟨hCd, hnod.2.1, fun x hx y hy => hnod.2.2 x (List.mem_append_left _ hx) y hy⟩
      · simp only [List.mem_append, List.mem_reverse] at hv ⊢
        exact hv.symm

end Verif.Concrete
