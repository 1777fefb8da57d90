import Verif.Concrete.Reorder.Lemmas
import Verif.Concrete.Promote.Model
import Verif.Concrete.Promote.Spec
/-
Lemmas about scalar promotion.
-/
namespace Verif.Concrete

variable {R : Type}

/-! ### Replacing the left-hand side -/

theorem target_computed : ∀ (s : Stmt R), s.target ∈ s.computed
  | .assign _ _ _ _ => by simp [Stmt.target, Stmt.computed]
  | .loop _ s => target_computed s
  | .wher c p => List.mem_append_left _ (target_computed c)

theorem replaceLhs_id {t w : Nat} {is js : List Nat} : ∀ (s : Stmt R), t ∉ s.computed →
    replaceLhs t is w js s = s
  | .assign t' is' plus e, h => by
    have : t' ≠ t := fun e => h (by simp [Stmt.computed, e])
    simp [replaceLhs, this]
  | .loop i s, h => by simp only [replaceLhs, replaceLhs_id s h]
  | .wher c p, h => by
    simp only [Stmt.computed, List.mem_append, not_or] at h
    simp only [replaceLhs, replaceLhs_id c h.1, replaceLhs_id p h.2]

/-- On a statement whose result is computed once, only the assignment of the result is
replaced. -/
theorem replaceLhs_wher {w : Nat} {js : List Nat} {c p : Stmt R} (h : (Stmt.wher c p).distinct) :
    replaceLhs c.target c.targetVars w js (.wher c p) =
      .wher (replaceLhs c.target c.targetVars w js c) p := by
  simp only [replaceLhs, replaceLhs_id p h.2.2]

theorem replaceLhs_target {w : Nat} {js : List Nat} : ∀ (s : Stmt R),
    (replaceLhs s.target s.targetVars w js s).target = w ∧
    (replaceLhs s.target s.targetVars w js s).targetVars = js ∧
    (replaceLhs s.target s.targetVars w js s).accumulates = s.accumulates
  | .assign t is plus e => by simp [replaceLhs, Stmt.target, Stmt.targetVars, Stmt.accumulates]
  | .loop i s => replaceLhs_target s
  | .wher c p => replaceLhs_target c

theorem replaceLhs_reads {w : Nat} {js : List Nat} : ∀ (s : Stmt R), s.distinct →
    (replaceLhs s.target s.targetVars w js s).reads = s.reads
  | .assign t is plus e, _ => by simp [replaceLhs, Stmt.target, Stmt.targetVars, Stmt.reads]
  | .loop i s, h => replaceLhs_reads s h
  | .wher c p, h => by
    rw [show (Stmt.wher c p).target = c.target from rfl,
      show (Stmt.wher c p).targetVars = c.targetVars from rfl, replaceLhs_wher h]
    simp only [Stmt.reads, replaceLhs_reads c h.1]

theorem tensorsBelow_mono {n m : Nat} (h : n ≤ m) : ∀ {s : Stmt R}, s.tensorsBelow n → s.tensorsBelow m
  | .assign _ _ _ _, hs => ⟨by have := hs.1; omega, fun u hu => by have := hs.2 u hu; omega⟩
  | .loop _ s, hs => tensorsBelow_mono (s := s) h hs
  | .wher c p, hs => ⟨tensorsBelow_mono h hs.1, tensorsBelow_mono h hs.2⟩

theorem tensorsBelow_computed {n : Nat} : ∀ {s : Stmt R}, s.tensorsBelow n → ∀ u ∈ s.computed, u < n
  | .assign t _ _ _, hs, u, hu => by simp [Stmt.computed] at hu; exact hu ▸ hs.1
  | .loop _ s, hs, u, hu => tensorsBelow_computed (s := s) hs u hu
  | .wher c p, hs, u, hu => by
    rcases List.mem_append.mp hu with h | h
    · exact tensorsBelow_computed hs.1 u h
    · exact tensorsBelow_computed hs.2 u h

theorem below_reads {n : Nat} : ∀ {s : Stmt R}, s.tensorsBelow n → ∀ u ∈ s.reads, u < n
  | .assign t _ _ _, hs, u, hu => hs.2 u hu
  | .loop _ s, hs, u, hu => below_reads (s := s) hs u hu
  | .wher c p, hs, u, hu => by
    rcases List.mem_append.mp hu with h | h
    · exact below_reads hs.1 u (List.mem_filter.mp h).1
    · exact below_reads hs.2 u h

/-- The replaced statement is well-formed. -/
theorem replaceLhs_wf {w : Nat} {js : List Nat} : ∀ (s : Stmt R), s.distinct → s.wellFormed →
    s.tensorsBelow w → (replaceLhs s.target s.targetVars w js s).wellFormed
  | .assign t is plus e, _, _, hb => by
    simp only [replaceLhs, Stmt.target, Stmt.targetVars, and_self, if_true, Stmt.wellFormed]
    intro hw; have := hb.2 w hw; omega
  | .loop i s, hd, hw, hb => replaceLhs_wf s hd hw hb
  | .wher c p, hd, hw, hb => by
    rw [show (Stmt.wher c p).target = c.target from rfl,
      show (Stmt.wher c p).targetVars = c.targetVars from rfl, replaceLhs_wher hd]
    refine ⟨replaceLhs_wf c hd.1 hw.1 hb.1, hw.2.1, ?_, ?_⟩
    · rw [(replaceLhs_target c).1]; intro h; have := below_reads hb.2 w h; omega
    · rw [(replaceLhs_target c).1]; rintro rfl
      have := tensorsBelow_computed hb.2 _ (target_computed p); omega

theorem replaceLhs_loopVars {t w : Nat} {is js : List Nat} : ∀ (s : Stmt R),
    ∀ above, s.noShadow above → (replaceLhs t is w js s).noShadow above
  | .assign t' is' plus e, _, _ => by simp only [replaceLhs]; split <;> trivial
  | .loop i s, above, h => ⟨h.1, replaceLhs_loopVars s _ h.2⟩
  | .wher c p, above, h => ⟨replaceLhs_loopVars c _ h.1, replaceLhs_loopVars p _ h.2⟩

theorem replaceLhs_computed {t w : Nat} {is js : List Nat} : ∀ (s : Stmt R),
    ∀ u ∈ (replaceLhs t is w js s).computed, u = w ∨ u ∈ s.computed
  | .assign t' is' plus e, u, h => by
    simp only [replaceLhs] at h
    split at h
    · simp [Stmt.computed] at h; exact Or.inl h
    · exact Or.inr h
  | .loop i s, u, h => replaceLhs_computed s u h
  | .wher c p, u, h => by
    rcases List.mem_append.mp h with h | h
    · exact (replaceLhs_computed c u h).imp_right (List.mem_append_left _)
    · exact (replaceLhs_computed p u h).imp_right (List.mem_append_right _)

theorem replaceLhs_below {t w n : Nat} {is js : List Nat} (hn : w < n) : ∀ (s : Stmt R), s.tensorsBelow n →
    (replaceLhs t is w js s).tensorsBelow n
  | .assign t' is' plus e, h => by
    simp only [replaceLhs]
    split
    · exact ⟨hn, h.2⟩
    · exact h
  | .loop i s, h => replaceLhs_below hn s h
  | .wher c p, h => ⟨replaceLhs_below hn c h.1, replaceLhs_below hn p h.2⟩

theorem replaceLhs_distinct {w : Nat} {js : List Nat} : ∀ (s : Stmt R), s.distinct →
    s.tensorsBelow w → (replaceLhs s.target s.targetVars w js s).distinct
  | .assign t is plus e, _, _ => by simp [replaceLhs, Stmt.target, Stmt.targetVars, Stmt.distinct]
  | .loop i s, h, hb => replaceLhs_distinct s h hb
  | .wher c p, h, hb => by
    rw [show (Stmt.wher c p).target = c.target from rfl,
      show (Stmt.wher c p).targetVars = c.targetVars from rfl, replaceLhs_wher h]
    refine ⟨replaceLhs_distinct c h.1 hb.1, h.2.1, ?_⟩
    rw [(replaceLhs_target c).1]; intro hw; have := tensorsBelow_computed hb.2 w hw; omega

variable [CommRing R]

theorem map_set_notMem {is : List Nat} {i v : Nat} {ρ : Env} (h : i ∉ is) :
    is.map (ρ.set i v) = is.map ρ := by
  apply List.map_congr_left
  intro j hj
  exact Env.set_ne _ _ (fun e => h (e ▸ hj))

/-- The replaced statement does to the other component what the statement does to its own. -/
theorem exec_replaceLhs {dim : Nat → Nat} {w : Nat} {js : List Nat} : ∀ (s : Stmt R), s.distinct →
    s.wellFormed → s.tensorsBelow w → ∀ (above : List Nat), s.noShadow above →
    (∀ i ∈ s.targetVars, i ∈ above) → (∀ j ∈ js, j ∈ above) → ∀ (ρ : Env) (σ σ' : Store R),
    (∀ u ∈ s.reads, σ u = σ' u) → σ s.target (s.targetVars.map ρ) = σ' w (js.map ρ) →
    exec dim s ρ σ s.target (s.targetVars.map ρ) =
      exec dim (replaceLhs s.target s.targetVars w js s) ρ σ' w (js.map ρ) := by
  intro s
  induction s with
  | assign t is plus e =>
    intro _ _ _ _ _ _ _ ρ σ σ' hr h0
    simp only [replaceLhs, Stmt.target, Stmt.targetVars, and_self, if_true, exec, put_same]
    simp only [Stmt.target, Stmt.targetVars] at h0
    rw [eval_store e ρ hr, h0]
  | loop i s ih =>
    intro hd hw hb above hn hv hj ρ σ σ' hr h0
    simp only [Stmt.target, Stmt.targetVars] at hv h0 ⊢
    simp only [replaceLhs, exec]
    have hi1 : i ∉ s.targetVars := fun h => hn.1 (hv i h)
    have hi2 : i ∉ js := fun h => hn.1 (hj i h)
    have hnr := target_notMem_reads (s := s) hw
    generalize List.range (dim i) = l
    induction l generalizing σ σ' with
    | nil => exact h0
    | cons v l ihl =>
      simp only [List.foldl_cons]
      refine ihl _ _ ?_ ?_
      · intro u hu
        have hu : u ∈ s.reads := hu
        rw [exec_other _ _ _ _ (fun e => hnr (e ▸ hu)), exec_other _ _ _ _ ?_]
        · exact hr u hu
        · rw [(replaceLhs_target s).1]; have := below_reads hb u hu; omega
      · have := ih hd hw hb (i :: above) hn.2 (fun k hk => List.mem_cons_of_mem _ (hv k hk))
          (fun k hk => List.mem_cons_of_mem _ (hj k hk)) (ρ.set i v) σ σ' hr
        simp only [map_set_notMem hi1, map_set_notMem hi2] at this
        exact this h0
  | wher c p ihc ihp =>
    intro hd hw hb above hn hv hj ρ σ σ' hr h0
    rw [show (Stmt.wher c p).target = c.target from rfl,
      show (Stmt.wher c p).targetVars = c.targetVars from rfl] at *
    rw [replaceLhs_wher hd]
    obtain ⟨h1, h2, h3, h4⟩ := hw
    have hpw : w ≠ p.target := by
      have := tensorsBelow_computed hb.2 _ (target_computed p); omega
    have e2 : exec dim (.wher (replaceLhs c.target c.targetVars w js c) p) ρ σ' w (js.map ρ) =
        exec dim (replaceLhs c.target c.targetVars w js c) ρ (exec dim p ρ (clear [p.target] σ')) w
          (js.map ρ) := by
      simp only [exec, results_target]; simp [restore, hpw]
    rw [exec_wher _ _ _ _ h4, e2]
    simp only [Stmt.reads, List.mem_append, List.mem_filter] at hr
    refine ihc hd.1 h1 hb.1 above hn.1 hv hj ρ _ _ ?_ ?_
    · intro u hu
      by_cases hut : u = p.target
      · subst hut
        funext y
        refine (exec_local (dim := dim) p h2 ρ _ _ y ?_).1 (by simp [clear])
        intro x hx
        have hxt : x ≠ p.target := fun e => target_notMem_reads h2 (e ▸ hx)
        simp [clear, hxt, hr x (Or.inr hx)]
      · rw [exec_other _ _ _ _ hut, exec_other _ _ _ _ hut]
        simp [clear, hut, hr u (Or.inl ⟨hu, by simpa using hut⟩)]
    · rw [exec_other _ _ _ _ h4, exec_other _ _ _ _ hpw]
      simp [clear, h4, hpw, h0]

theorem exec_wher_eq {dim : Nat → Nat} (c p : Stmt R) (ρ : Env) (σ : Store R) :
    exec dim (.wher c p) ρ σ =
      restore p.results σ (exec dim c ρ (exec dim p ρ (clear p.results σ))) := by rw [exec]

theorem exec_assign_eq {dim : Nat → Nat} (t : Nat) (is : List Nat) (plus : Bool) (e : Expr R) (ρ : Env)
    (σ : Store R) : exec dim (.assign t is plus e) ρ σ =
      put σ t (is.map ρ) (if plus then σ t (is.map ρ) + eval dim σ ρ e else eval dim σ ρ e) := by
  rw [exec]

/-- Accumulating into another component first, that starts at zero, and adding that. -/
theorem exec_hoist {dim : Nat → Nat} {w : Nat} {i : Nat} {s : Stmt R} {above : List Nat} {op : Bool}
    (hd : s.distinct) (hw : s.wellFormed) (hb : s.tensorsBelow w) (hn : (Stmt.loop i s).noShadow above)
    (hv : ∀ k ∈ s.targetVars, k ∈ above) (ha : s.accumulates = true) (ρ : Env) (σ : Store R)
    (h0 : op = true ∨ σ s.target (s.targetVars.map ρ) = 0) :
    exec dim (.wher (.assign s.target s.targetVars op (.acc w []))
      (.loop i (replaceLhs s.target s.targetVars w [] s))) ρ σ = exec dim (.loop i s) ρ σ := by
  have hwt : s.target ≠ w := by have := tensorsBelow_computed hb _ (target_computed s); omega
  have hnr := target_notMem_reads (s := .loop i s) hw
  have htl : (replaceLhs s.target s.targetVars w [] (.loop i s)).target = w :=
    (replaceLhs_target (.loop i s)).1
  have key := exec_replaceLhs (dim := dim) (w := w) (js := []) (.loop i s) hd hw hb above hn hv
    (by simp) ρ (put σ s.target (s.targetVars.map ρ) 0) (clear [w] σ) (by
      intro u hu
      have h1 : u ≠ s.target := fun e => hnr (e ▸ hu)
      have h2 : u ≠ w := by have := below_reads (s := .loop i s) hb u hu; omega
      rw [put_ne_tensor _ _ _ h1]; simp [clear, h2])
    (by simp [Stmt.target, Stmt.targetVars, put_same, clear])
  have hadd := (exec_local (dim := dim) (.loop i s) hw ρ (put σ s.target (s.targetVars.map ρ) 0) σ
    (s.targetVars.map ρ) (by
      intro u hu
      exact put_ne_tensor _ _ _ (fun e => hnr (e ▸ hu)))).2 ha
  have e1 : ∀ u c, exec dim (.wher (.assign s.target s.targetVars op (.acc w []))
      (.loop i (replaceLhs s.target s.targetVars w [] s))) ρ σ u c =
      if u = w then σ u c else
      put (exec dim (replaceLhs s.target s.targetVars w [] (.loop i s)) ρ (clear [w] σ)) s.target
        (s.targetVars.map ρ)
        (if op then σ s.target (s.targetVars.map ρ) +
            exec dim (.loop i s) ρ (put σ s.target (s.targetVars.map ρ) 0) s.target (s.targetVars.map ρ)
          else
            exec dim (.loop i s) ρ (put σ s.target (s.targetVars.map ρ) 0) s.target (s.targetVars.map ρ)) u c := by
    intro u c
    have hres : (Stmt.loop i (replaceLhs s.target s.targetVars w [] s)).results = [w] := by
      rw [results_target]; exact congrArg (fun x => [x]) htl
    rw [exec_wher_eq, hres]
    simp only [restore, List.mem_singleton]
    split
    · rfl
    · rw [exec_assign_eq]
      simp only [eval, List.map_nil]
      have hk : exec dim (.loop i (replaceLhs s.target s.targetVars w [] s)) ρ (clear [w] σ) w [] =
        exec dim (.loop i s) ρ (put σ s.target (s.targetVars.map ρ) 0) s.target (s.targetVars.map ρ) :=
        key.symm
      rw [hk]
      have ht : exec dim (.loop i (replaceLhs s.target s.targetVars w [] s)) ρ (clear [w] σ) s.target =
          σ s.target := by
        rw [exec_other _ _ _ _ (by rw [show (Stmt.loop i (replaceLhs s.target s.targetVars w [] s)).target = w from htl]; exact hwt)]
        simp [clear, hwt]
      rw [ht]
      rfl
  funext u c
  rw [e1]
  split
  · rename_i hu
    subst hu
    rw [exec_other _ _ _ _ (by rw [show (Stmt.loop i s).target = s.target from rfl]; exact hwt.symm)]
  · rename_i hu
    by_cases hut : u = s.target
    · subst hut
      by_cases hc : c = s.targetVars.map ρ
      · subst hc
        rw [put_same]
        simp only [Stmt.target, put_same] at hadd
        rcases h0 with h0 | h0
        · subst h0; simp only [if_true]; linear_combination hadd
        · rw [h0] at hadd ⊢
          split <;> linear_combination hadd
      · have : exec dim (.loop i s) ρ σ s.target c = σ s.target c := by
          by_contra hne
          obtain ⟨ρ', h1, h2⟩ := exec_footprint (.loop i s) ρ σ c s.targetVars above hw hn hv hne
          apply hc
          rw [← h2]
          exact List.map_congr_left h1
        rw [this]
        simp only [put, hc, and_false, if_false]
        rw [exec_other _ _ _ _ (by rw [htl]; exact hwt)]
        simp [clear, hwt]
    · rw [put_ne_tensor _ _ _ hut, exec_other _ _ _ _ (by rw [htl]; exact hu),
        exec_other (.loop i s) _ _ _ hut]
      simp [clear, hu]

/-! ### Promotion -/

theorem promote_shape {whole scalars : Bool} : ∀ (s : Stmt R) (above : List Nat) (hoisted : Bool)
    (n : Nat), (promote whole scalars above hoisted n s).1.target = s.target ∧
    (promote whole scalars above hoisted n s).1.targetVars = s.targetVars ∧
    (hoisted = true → (promote whole scalars above hoisted n s).1.accumulates = s.accumulates) ∧
    n ≤ (promote whole scalars above hoisted n s).2
  | .assign _ _ _ _, _, _, _ => by simp [promote]
  | .loop i s, above, hoisted, n => by
    obtain ⟨h1, h2, h3, h4⟩ := promote_shape (whole := whole) (scalars := scalars) s (i :: above)
      (hoisted || hoistHere scalars hoisted above s.targetVars) n
    simp only [promote]
    split
    · rename_i hh
      refine ⟨rfl, rfl, fun h => ?_, by omega⟩
      subst h; simp [hoistHere] at hh
    · refine ⟨h1, h2, fun h => h3 (by simp [h]), h4⟩
  | .wher c p, above, hoisted, n => by
    obtain ⟨h1, h2, h3, h4⟩ := promote_shape (whole := whole) (scalars := scalars) p above false n
    obtain ⟨g1, g2, g3, g4⟩ := promote_shape (whole := whole) (scalars := scalars) c above hoisted (promote whole scalars above false n p).2
    exact ⟨g1, g2, g3, Nat.le_trans h4 g4⟩

theorem promote_keeps {whole scalars : Bool} : ∀ (s : Stmt R) (above : List Nat) (hoisted : Bool)
    (n : Nat), s.tensorsBelow n → s.wellFormed → s.noShadow above → s.distinct →
    (promote whole scalars above hoisted n s).1.tensorsBelow (promote whole scalars above hoisted n s).2 ∧
    (promote whole scalars above hoisted n s).1.wellFormed ∧
    (promote whole scalars above hoisted n s).1.noShadow above ∧
    (promote whole scalars above hoisted n s).1.distinct ∧
    (promote whole scalars above hoisted n s).1.reads = s.reads ∧
    (∀ u ∈ (promote whole scalars above hoisted n s).1.computed, u ∈ s.computed ∨ n ≤ u)
  | .assign _ _ _ _, _, _, _, hb, hw, hn, hd =>
    ⟨hb, hw, hn, hd, rfl, fun _ h => Or.inl h⟩
  | .loop i s, above, hoisted, n, hb, hw, hn, hd => by
    obtain ⟨h1, h2, h3, h4, h5, h6⟩ := promote_keeps (whole := whole) (scalars := scalars) s (i :: above)
      (hoisted || hoistHere scalars hoisted above s.targetVars) n hb hw hn.2 hd
    obtain ⟨g1, g2, g3, g4⟩ := promote_shape (whole := whole) (scalars := scalars) s (i :: above)
      (hoisted || hoistHere scalars hoisted above s.targetVars) n
    simp only [promote]
    generalize promote whole scalars (i :: above)
      (hoisted || hoistHere scalars hoisted above s.targetVars) n s = q at *
    rw [← g1, ← g2]
    split
    · refine ⟨⟨⟨?_, ?_⟩, ?_⟩, ⟨?_, ?_, ?_, ?_⟩, ⟨trivial, hn.1, ?_⟩, ⟨trivial, ?_, ?_⟩, ?_, ?_⟩
      · have := tensorsBelow_computed h1 _ (target_computed q.1); omega
      · intro u hu; simp [Expr.tensors] at hu; omega
      · exact replaceLhs_below (by omega) (.loop i q.1) (tensorsBelow_mono (s := .loop i q.1) (by omega) h1)
      · simp only [Stmt.wellFormed, Expr.tensors, List.mem_singleton]
        have := tensorsBelow_computed h1 _ (target_computed q.1); omega
      · exact replaceLhs_wf (.loop i q.1) h4 h2 h1
      · rw [show (Stmt.loop i (replaceLhs q.1.target q.1.targetVars q.2 [] q.1)).reads = q.1.reads from
          replaceLhs_reads q.1 h4]
        exact target_notMem_reads h2
      · rw [show (Stmt.loop i (replaceLhs q.1.target q.1.targetVars q.2 [] q.1)).target = q.2 from
          (replaceLhs_target q.1).1]
        have := tensorsBelow_computed h1 _ (target_computed q.1)
        simp only [Stmt.target]; omega
      · exact replaceLhs_loopVars _ _ h3
      · exact replaceLhs_distinct (.loop i q.1) h4 h1
      · simp only [Stmt.target]
        intro hu
        -- after the replacement the result is not computed any more
        have : ∀ (s : Stmt R), s.distinct → s.tensorsBelow q.2 →
            s.target ∉ (replaceLhs s.target s.targetVars q.2 [] s).computed := by
          intro s
          induction s with
          | assign t is plus e =>
            intro _ hb
            simp only [replaceLhs, Stmt.target, Stmt.targetVars, and_self, if_true, Stmt.computed,
              List.mem_singleton]
            have := hb.1; omega
          | loop i s ih => exact ih
          | wher c p ihc ihp =>
            intro hd hb
            rw [show (Stmt.wher c p).target = c.target from rfl,
              show (Stmt.wher c p).targetVars = c.targetVars from rfl, replaceLhs_wher hd]
            simp only [Stmt.computed, List.mem_append, not_or]
            exact ⟨ihc hd.1 hb.1, hd.2.2⟩
        exact this q.1 h4 h1 hu
      · simp only [Stmt.reads, Expr.tensors]
        rw [show (Stmt.loop i (replaceLhs q.1.target q.1.targetVars q.2 [] q.1)).target = q.2 from
          (replaceLhs_target q.1).1, replaceLhs_reads q.1 h4]
        simpa using h5
      · intro u hu
        simp only [Stmt.computed, List.mem_append, List.mem_singleton] at hu
        rcases hu with hu | hu
        · subst hu; rw [g1]; exact Or.inl (target_computed s)
        · rcases replaceLhs_computed q.1 u hu with hu | hu
          · exact Or.inr (by omega)
          · exact h6 u hu
    · exact ⟨h1, h2, ⟨hn.1, h3⟩, h4, h5, h6⟩
  | .wher c p, above, hoisted, n, hb, hw, hn, hd => by
    obtain ⟨h1, h2, h3, h4, h5, h6⟩ := promote_keeps (whole := whole) (scalars := scalars) p above
      false n hb.2 hw.2.1 hn.2 hd.2.1
    obtain ⟨g1, g2, g3, g4⟩ := promote_shape (whole := whole) (scalars := scalars) p above false n
    obtain ⟨k1, k2, k3, k4, k5, k6⟩ := promote_keeps (whole := whole) (scalars := scalars) c above
      hoisted (promote whole scalars above false n p).2 (tensorsBelow_mono g4 hb.1) hw.1 hn.1 hd.1
    obtain ⟨l1, l2, l3, l4⟩ := promote_shape (whole := whole) (scalars := scalars) c above hoisted
      (promote whole scalars above false n p).2
    simp only [promote]
    have hct := tensorsBelow_computed hb.1 _ (target_computed c)
    refine ⟨⟨k1, tensorsBelow_mono l4 h1⟩, ⟨k2, h2, ?_, ?_⟩, ⟨k3, h3⟩, ⟨k4, h4, ?_⟩, ?_, ?_⟩
    · rw [l1, h5]; exact hw.2.2.1
    · rw [l1, g1]; exact hw.2.2.2
    · rw [l1]; intro hu
      rcases h6 _ hu with hu | hu
      · exact hd.2.2 hu
      · omega
    · simp only [Stmt.reads, k5, g1, h5]
    · intro u hu
      simp only [Stmt.computed, List.mem_append] at hu ⊢
      rcases hu with hu | hu
      · rcases k6 u hu with hu | hu
        · exact Or.inl (Or.inl hu)
        · exact Or.inr (by omega)
      · rcases h6 u hu with hu | hu
        · exact Or.inl (Or.inr hu)
        · exact Or.inr hu

theorem hoistHere_spec {scalars hoisted : Bool} {above tv : List Nat}
    (h : hoistHere scalars hoisted above tv = true) : hoisted = false ∧ ∀ k ∈ tv, k ∈ above := by
  simp only [hoistHere, Bool.and_eq_true, Bool.not_eq_true', List.all_eq_true,
    List.contains_iff_mem] at h
  exact ⟨h.1.1, h.2⟩

/-- Loops in order with an invariant on the iterations to come. -/
theorem foldl_invariant {α β : Type} {f g : β → α → β} (I : List α → β → Prop)
    (h : ∀ a l b, I (a :: l) b → f b a = g b a ∧ I l (g b a)) :
    ∀ (l : List α) (b : β), I l b → l.foldl f b = l.foldl g b
  | [], _, _ => rfl
  | a :: l, b, hi => by
    obtain ⟨h1, h2⟩ := h a l b hi
    simp only [List.foldl_cons, h1]
    exact foldl_invariant I h l _ h2

theorem exec_promote {dim : Nat → Nat} {whole scalars : Bool} : ∀ (s : Stmt R) (above : List Nat)
    (hoisted : Bool) (n : Nat), s.tensorsBelow n → s.wellFormed → s.noShadow above → s.distinct →
    s.singleWrite → ∀ (ρ : Env) (σ : Store R),
    (whole = true → hoisted = false → (∀ j ∈ above, j ∈ s.targetVars) →
      ∀ ρ' : Env, (∀ j ∈ above, ρ' j = ρ j) → σ s.target (s.targetVars.map ρ') = 0) →
    exec dim (promote whole scalars above hoisted n s).1 ρ σ = exec dim s ρ σ := by
  intro s
  induction s with
  | assign t is plus e => intros; rfl
  | loop i s ih =>
    intro above hoisted n hb hw hn hd hs ρ σ hz
    obtain ⟨k1, k2, k3, k4, k5, k6⟩ := promote_keeps (whole := whole) (scalars := scalars) s
      (i :: above) (hoisted || hoistHere scalars hoisted above s.targetVars) n hb hw hn.2 hd
    obtain ⟨l1, l2, l3, l4⟩ := promote_shape (whole := whole) (scalars := scalars) s
      (i :: above) (hoisted || hoistHere scalars hoisted above s.targetVars) n
    have ih := ih (i :: above) (hoisted || hoistHere scalars hoisted above s.targetVars) n hb hw hn.2
      hd hs.2
    simp only [promote]
    split
    · rename_i hh
      obtain ⟨hh1, hh2⟩ := hoistHere_spec hh
      rw [hh] at k1 k2 k3 k4 k5 k6 l1 l2 l3 l4 ih ⊢
      generalize promote whole scalars (i :: above) (hoisted || true) n s = q at *
      have hacc : s.accumulates = true := by
        rcases hs.1 with h | h
        · exact h
        · exact absurd (hh2 _ h) hn.1
      have hq : q.1.accumulates = true := by rw [l3 (by simp)]; exact hacc
      rw [← l1, ← l2]
      rw [exec_hoist k4 k2 k1 ⟨hn.1, k3⟩ (by rw [l2]; exact hh2) hq ρ σ ?_]
      · simp only [exec]
        have : (fun (σ : Store R) (v : Nat) => exec dim q.1 (ρ.set i v) σ) =
            fun σ v => exec dim s (ρ.set i v) σ := by
          funext σ v
          exact ih _ _ (by intro _ h; simp at h)
        rw [this]
      · rw [l1, l2]
        unfold hoistPlus
        by_cases hwh : (whole && (s.targetVars.all above.contains && above.all s.targetVars.contains)) = true
        · right
          simp only [Bool.and_eq_true, List.all_eq_true, List.contains_iff_mem] at hwh
          exact hz hwh.1 hh1 hwh.2.2 ρ (fun _ _ => rfl)
        · left; simp only [hwh]; exact hacc
    · rename_i hh
      simp only [Bool.not_eq_true] at hh
      rw [hh] at ih ⊢
      simp only [Bool.or_false] at ih ⊢
      simp only [exec]
      refine foldl_invariant (fun (l : List Nat) (σ : Store R) => l.Nodup ∧
        (whole = true → hoisted = false → (∀ j ∈ i :: above, j ∈ s.targetVars) →
          ∀ v ∈ l, ∀ ρ' : Env, (∀ j ∈ i :: above, ρ' j = (ρ.set i v) j) →
            σ s.target (s.targetVars.map ρ') = 0)) ?_ _ _ ⟨List.nodup_range, ?_⟩
      · intro v l σ hI
        refine ⟨ih _ _ ?_, (List.nodup_cons.mp hI.1).2, ?_⟩
        · intro h1 h2 h3 ρ' h4
          exact hI.2 h1 h2 h3 v List.mem_cons_self ρ' h4
        · intro h1 h2 h3 v' hv' ρ' h4
          have h0 := hI.2 h1 h2 h3 v' (List.mem_cons_of_mem _ hv') ρ' h4
          by_contra hne
          rw [← h0] at hne
          obtain ⟨ρ'', e1, e2⟩ := exec_footprint s (ρ.set i v) σ (s.targetVars.map ρ') [i] (i :: above)
            hw hn.2 (by simp) hne
          have e3 : ρ'' i = v := by rw [e1 i (by simp), Env.set_same]
          have e4 : ρ' i = v' := by rw [h4 i List.mem_cons_self, Env.set_same]
          have e5 : ρ'' i = ρ' i := List.map_inj_left.mp e2 i (h3 i List.mem_cons_self)
          have : v = v' := by rw [← e3, e5, e4]
          exact (List.nodup_cons.mp hI.1).1 (this ▸ hv')
      · intro h1 h2 h3 v hv ρ' h4
        refine hz h1 h2 (fun j hj => h3 j (List.mem_cons_of_mem _ hj)) ρ' ?_
        intro j hj
        rw [h4 j (List.mem_cons_of_mem _ hj), Env.set_ne]
        rintro rfl; exact hn.1 hj
  | wher c p ihc ihp =>
    intro above hoisted n hb hw hn hd hs ρ σ hz
    obtain ⟨g1, g2, g3, g4⟩ := promote_shape (whole := whole) (scalars := scalars) p above false n
    simp only [promote, exec, results_target, g1]
    rw [ihp above false n hb.2 hw.2.1 hn.2 hd.2.1 hs.2 ρ _ (by
      intro _ _ _ ρ' _; simp [clear])]
    rw [ihc above hoisted _ (tensorsBelow_mono g4 hb.1) hw.1 hn.1 hd.1 hs.1 ρ _ (by
      intro h1 h2 h3 ρ' h4
      rw [exec_other _ _ _ _ hw.2.2.2]
      simp only [clear, List.mem_singleton, hw.2.2.2, if_false]
      exact hz h1 h2 h3 ρ' h4)]


/-! ### Nothing is left to promote -/

theorem promote_promoted {whole scalars : Bool} : ∀ (s : Stmt R) (above : List Nat) (n : Nat),
    s.tensorsBelow n → s.wellFormed → s.noShadow above → s.distinct →
    (promote whole scalars above false n s).1.promoted above ∧
    ∀ w, (replaceLhs s.target s.targetVars w [] (promote whole scalars above true n s).1).promoted above
  | .assign t is plus e, _, _, _, _, _, _ => by
    refine ⟨trivial, fun w => ?_⟩
    simp only [promote, replaceLhs, Stmt.target, Stmt.targetVars, and_self, if_true, Stmt.promoted]
  | .loop i s, above, n, hb, hw, hn, hd => by
    obtain ⟨h1, h2⟩ := promote_promoted (whole := whole) (scalars := scalars) s (i :: above) n hb hw
      hn.2 hd
    have hr : ∀ w (q : Stmt R), q.target = s.target → q.targetVars = s.targetVars →
        (replaceLhs s.target s.targetVars w [] q).targetVars = [] := by
      intro w q h1 h2; rw [← h1, ← h2]; exact (replaceLhs_target q).2.1
    obtain ⟨g1, g2, _, _⟩ := promote_shape (whole := whole) (scalars := scalars) s (i :: above) true n
    refine ⟨?_, fun w => ?_⟩
    · simp only [promote, Bool.false_or]
      split
      · rename_i hh
        rw [hh]
        exact ⟨trivial, fun _ => hr _ _ g1 g2, h2 _⟩
      · rename_i hh
        simp only [Bool.not_eq_true] at hh
        rw [hh]
        refine ⟨fun hall => ?_, h1⟩
        obtain ⟨k1, k2, _, _⟩ := promote_shape (whole := whole) (scalars := scalars) s (i :: above)
          false n
        rw [k2] at hall ⊢
        by_contra hne
        have : hoistHere scalars false above s.targetVars = true := by
          simp only [hoistHere, Bool.and_eq_true, Bool.not_false, List.all_eq_true,
            List.contains_iff_mem, Bool.or_eq_true, Bool.not_eq_true', true_and]
          exact ⟨Or.inr (by simpa using hne), hall⟩
        rw [this] at hh; exact Bool.noConfusion hh
    · have hh : hoistHere scalars true above s.targetVars = false := by simp [hoistHere]
      simp only [promote, hh, Bool.true_or, Bool.false_eq_true, if_false]
      exact ⟨fun _ => hr _ _ g1 g2, h2 w⟩
  | .wher c p, above, n, hb, hw, hn, hd => by
    obtain ⟨h1, _⟩ := promote_promoted (whole := whole) (scalars := scalars) p above n hb.2 hw.2.1
      hn.2 hd.2.1
    obtain ⟨g1, g2, g3, g4⟩ := promote_shape (whole := whole) (scalars := scalars) p above false n
    obtain ⟨k1, k2⟩ := promote_promoted (whole := whole) (scalars := scalars) c above
      (promote whole scalars above false n p).2 (tensorsBelow_mono g4 hb.1) hw.1 hn.1 hd.1
    refine ⟨⟨k1, h1⟩, fun w => ?_⟩
    simp only [promote, replaceLhs]
    refine ⟨k2 w, ?_⟩
    rw [replaceLhs_id]
    · exact h1
    · intro hu
      obtain ⟨_, _, _, _, _, h6⟩ := promote_keeps (whole := whole) (scalars := scalars) p above false n
        hb.2 hw.2.1 hn.2 hd.2.1
      rcases h6 _ hu with hu | hu
      · exact hd.2.2 hu
      · have := tensorsBelow_computed hb.1 _ (target_computed c)
        simp only [Stmt.target] at hu; omega

end Verif.Concrete
