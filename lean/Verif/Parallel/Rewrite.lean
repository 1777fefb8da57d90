import Verif.Parallel.Conditions
import Verif.Parallel.Lemmas
/-
Lemmas about the rewrites for parallel loops.
-/
namespace Verif.Parallel

open Concrete

variable {R : Type}

/-! ### Statements that are accepted -/

theorem exclusive_raceFree {strat : Strategy} {i : Nat} : ∀ (s : Stmt R) (temps : List Nat),
    Exclusive i s → raceFree strat i temps s
  | .assign _ _ _ _, _, _ => trivial
  | .loop j s, temps, h => by
    simp only [raceFree]
    split
    · rename_i hj; exact Or.inl (h.1 hj)
    · exact exclusive_raceFree s temps h.2
  | .wher c p, temps, h => ⟨exclusive_raceFree c _ h.1, exclusive_raceFree p _ h.2⟩

theorem targetVars_of_con {i : Nat} : ∀ (s : Stmt R) (loops pro con : List Nat), i ∈ con → i ∈ loops →
    i ∉ pro → i ∉ reductionVars loops pro con s → i ∈ s.targetVars
  | .assign t is plus e, loops, pro, con, hc, _, hp, h => by
    by_contra hne
    exact h (by simp [reductionVars, hc, hp]; exact Or.inr hne)
  | .loop j s, loops, pro, con, hc, hl, hp, h =>
    targetVars_of_con s (loops ++ [j]) pro con hc (by simp [hl]) hp h
  | .wher c p, loops, pro, con, hc, hl, hp, h => by
    simp only [reductionVars, List.mem_append, not_or] at h
    exact targetVars_of_con c loops pro loops hl hl hp h.2

theorem targetVars_of_used {i : Nat} : ∀ (s : Stmt R) (loops pro con : List Nat), i ∈ loops →
    i ∉ pro → i ∉ reductionVars loops pro con s → Used.Mentions i s → i ∈ s.targetVars
  | .assign t is plus e, loops, pro, con, _, hp, h, hm => by
    by_contra hne
    rcases hm with hm | hm
    · exact hne hm
    · exact h (by simp [reductionVars, hm, hp]; exact Or.inl hne)
  | .loop j s, loops, pro, con, hl, hp, h, hm =>
    targetVars_of_used s (loops ++ [j]) pro con (by simp [hl]) hp h hm
  | .wher c p, loops, pro, con, hl, hp, h, _ => by
    simp only [reductionVars, List.mem_append, not_or] at h
    exact targetVars_of_con c loops pro loops hl hl hp h.2

theorem accepted_exclusive {i : Nat} : ∀ (s : Stmt R) (loops pro con above : List Nat),
    (∀ k ∈ loops, k ∈ above) → (∀ k ∈ pro, k ∈ above) → s.noShadow above →
    i ∉ reductionVars loops pro con s → Used i s → Exclusive i s
  | .assign t is plus e, _, _, _, _, _, _, _, _, _ => trivial
  | .loop j s, loops, pro, con, above, hl, hp, hn, h, hu => by
    refine ⟨fun hj => ?_, accepted_exclusive s (loops ++ [j]) pro con (j :: above) ?_ ?_ hn.2 h hu.2⟩
    · subst hj
      exact targetVars_of_used s (loops ++ [j]) pro con (by simp) (fun hm => hn.1 (hp _ hm)) h (hu.1 rfl)
    · intro k hk
      simp only [List.mem_append, List.mem_singleton] at hk
      rcases hk with hk | hk
      · exact List.mem_cons_of_mem _ (hl k hk)
      · exact hk ▸ List.mem_cons_self
    · exact fun k hk => List.mem_cons_of_mem _ (hp k hk)
  | .wher c p, loops, pro, con, above, hl, hp, hn, h, hu => by
    simp only [reductionVars, List.mem_append, not_or] at h
    exact ⟨accepted_exclusive c loops pro loops above hl hp hn.1 h.2 hu.1,
      accepted_exclusive p loops loops con above hl hl hn.2 h.1 hu.2⟩

theorem mentions_accessVars {i : Nat} : ∀ (s : Stmt R), Used.Mentions i s → i ∈ accessVars s
  | .assign _ _ _ _, h => by simpa [accessVars, Used.Mentions] using h
  | .loop _ s, h => mentions_accessVars s h
  | .wher c p, h => by
    simp only [accessVars, List.mem_append]
    exact h.symm.imp (mentions_accessVars p) (mentions_accessVars c)

theorem unused_exclusive {i : Nat} : ∀ (s : Stmt R), i ∉ accessVars s → Used i s → Exclusive i s
  | .assign _ _ _ _, _, _ => trivial
  | .loop j s, h, hu => ⟨fun hj => absurd (mentions_accessVars s (hu.1 hj)) h, unused_exclusive s h hu.2⟩
  | .wher c p, h, hu => by
    simp only [accessVars, List.mem_append, not_or] at h
    exact ⟨unused_exclusive c h.2 hu.1, unused_exclusive p h.1 hu.2⟩

/-- If the variable is no reduction variable, each iteration has its own coordinates. -/
theorem isReduction_exclusive {i : Nat} {s : Stmt R} (h : isReduction s i = false) (hn : s.noShadow [])
    (hu : Used i s) : Exclusive i s := by
  by_cases hm : i ∈ accessVars s
  · refine accepted_exclusive s [] [] [] [] (by simp) (by simp) hn ?_ hu
    simp only [isReduction, Bool.and_eq_false_iff] at h
    rcases h with h | h
    · simp [hm] at h
    · simpa using h
  · exact unused_exclusive s hm hu

theorem reductionVars_pro {i : Nat} : ∀ (s : Stmt R) (loops pro con : List Nat), i ∈ loops → i ∈ pro →
    i ∉ reductionVars loops pro con s
  | .assign t is plus e, _, _, _, _, hp => by simp [reductionVars, hp]
  | .loop j s, loops, pro, con, hl, hp => reductionVars_pro s _ pro con (by simp [hl]) hp
  | .wher c p, loops, pro, con, hl, hp => by
    simp only [reductionVars, List.mem_append, not_or]
    exact ⟨reductionVars_pro p _ _ _ hl hl, reductionVars_pro c _ _ _ hl hp⟩

theorem reductionVars_stored {i : Nat} : ∀ (s : Stmt R) (loops pro con : List Nat), i ∈ loops →
    i ∈ s.targetVars → i ∉ reductionVars loops pro con s
  | .assign t is plus e, _, _, _, _, hp => by
    simp only [Stmt.targetVars] at hp
    simp [reductionVars, hp]
  | .loop j s, loops, pro, con, hl, hp => reductionVars_stored s _ pro con (by simp [hl]) hp
  | .wher c p, loops, pro, con, hl, hp => by
    simp only [reductionVars, List.mem_append, not_or]
    exact ⟨reductionVars_pro p _ _ _ hl hl, reductionVars_stored c _ _ _ hl hp⟩

theorem exclusive_accepted {i : Nat} : ∀ (s : Stmt R) (loops pro con : List Nat), i ∉ loops → i ∉ con →
    Exclusive i s → Bound i s → i ∉ reductionVars loops pro con s
  | .assign t is plus e, _, _, _, _, hc, _, hb => by simp [reductionVars, hc, hb.2]
  | .loop j s, loops, pro, con, hl, hc, he, hb => by
    by_cases hj : j = i
    · exact reductionVars_stored s _ pro con (by simp [hj]) (he.1 hj)
    · refine exclusive_accepted s _ pro con ?_ hc he.2 (hb.resolve_left hj)
      simp only [List.mem_append, List.mem_singleton, not_or]
      exact ⟨hl, fun e => hj e.symm⟩
  | .wher c p, loops, pro, con, hl, hc, he, hb => by
    simp only [reductionVars, List.mem_append, not_or]
    exact ⟨exclusive_accepted p _ _ _ hl hc he.2 hb.2, exclusive_accepted c _ _ _ hl hl he.1 hb.1⟩

/-! ### Promotion -/

variable [CommRing R]

theorem exclusive_accumulating {i : Nat} : ∀ (s : Stmt R) (above temps : List Nat), Exclusive i s →
    Accumulating i above temps s
  | .assign _ _ _ _, _, _, _ => trivial
  | .loop j s, above, temps, h => ⟨fun hj => Or.inl (h.1 hj), exclusive_accumulating s _ _ h.2⟩
  | .wher c p, above, temps, h => ⟨exclusive_accumulating c _ _ h.1, exclusive_accumulating p _ _ h.2⟩

theorem promote_accumulates {whole scalars : Bool} : ∀ (s : Stmt R) (above : List Nat) (hoisted : Bool)
    (n : Nat), (whole = false ∨ ∃ k ∈ above, k ∉ s.targetVars) →
    (promote whole scalars above hoisted n s).1.accumulates = s.accumulates
  | .assign _ _ _ _, _, _, _, _ => rfl
  | .loop j s, above, hoisted, n, h => by
    simp only [promote]
    split
    · have : hoistPlus whole s.accumulates above s.targetVars = s.accumulates := by
        unfold hoistPlus
        rw [if_neg]
        rcases h with h | ⟨k, h1, h2⟩
        · simp [h]
        · simp only [Bool.and_eq_true, List.all_eq_true, List.contains_iff_mem, not_and]
          exact fun _ _ hh => h2 (hh k h1)
      simp only [Stmt.accumulates, this]
    · refine promote_accumulates s (j :: above) _ n (h.imp_right ?_)
      rintro ⟨k, h1, h2⟩
      exact ⟨k, List.mem_cons_of_mem _ h1, h2⟩
  | .wher c p, above, hoisted, n, h => promote_accumulates c above hoisted _ h

/-- What is replaced has no loop over `i` around it. -/
theorem raceFree_promote {strat : Strategy} {i N : Nat} : ∀ (s : Stmt R) (above temps temps' : List Nat)
    (n : Nat), s.tensorsBelow N → N ≤ n → s.wellFormed → s.noShadow above → s.distinct →
    (∀ t ∈ temps', t ∈ temps ∨ N ≤ t) →
    (strat = .atomics ∧ Accumulating i above temps s ∨ Exclusive i s) →
    raceFree strat i temps' (promote true false above false n s).1 ∧
    ∀ w, s.targetVars ≠ [] → (∀ k ∈ s.targetVars, k ∈ above) →
      raceFree strat i temps' (replaceLhs s.target s.targetVars w [] (promote true false above true n s).1)
  | .assign t is plus e, _, _, _, _, _, _, _, _, _, _, _ => by
    refine ⟨trivial, fun w _ _ => ?_⟩
    simp only [promote, replaceLhs, Stmt.target, Stmt.targetVars, and_self, if_true, raceFree]
  | .loop j s, above, temps, temps', n, hb, hN, hw, hn, hd, ht, h => by
    have h' : strat = .atomics ∧ Accumulating i (j :: above) temps s ∨ Exclusive i s :=
      h.imp (fun h => ⟨h.1, h.2.2⟩) (fun h => h.2)
    have hloop : j = i → i ∈ s.targetVars ∨ (strat = .atomics ∧ s.accumulates = true ∧
        ((∃ k ∈ s.targetVars, k ∉ above) ∨ (s.targetVars = [] ∧ s.target ∉ temps))) := by
      intro hj
      rcases h with ⟨h1, h⟩ | h
      · exact (h.1 hj).imp_right fun h => ⟨h1, h⟩
      · exact Or.inl (h.1 hj)
    have hnone : s.targetVars ≠ [] → (∀ k ∈ s.targetVars, k ∈ above) → j ≠ i := by
      intro h1 h2 hj
      rcases hloop hj with h | ⟨_, _, ⟨k, h3, h4⟩ | ⟨h3, _⟩⟩
      · exact hn.1 (h2 j (hj ▸ h))
      · exact h4 (h2 k h3)
      · exact h1 h3
    have below : ∀ k ∈ s.targetVars, k ∈ above → k ∈ j :: above := fun k _ h => List.mem_cons_of_mem _ h
    refine ⟨?_, fun w h1 h2 => ?_⟩
    · simp only [promote, Bool.false_or]
      split
      · rename_i hh
        rw [hh]
        obtain ⟨_, hh2⟩ := hoistHere_spec hh
        have hh1 : s.targetVars ≠ [] := by
          intro he; simp [hoistHere, he] at hh
        refine ⟨trivial, ?_⟩
        simp only [raceFree, hnone hh1 hh2, if_false]
        refine (raceFree_promote s (j :: above) temps _ n hb hN hw hn.2 hd ?_ h').2 _ hh1
          (fun k hk => List.mem_cons_of_mem _ (hh2 k hk))
        obtain ⟨g1, g2, _, g4⟩ := promote_shape (whole := true) (scalars := false) s (j :: above) true n
        have hT : (Stmt.loop j (replaceLhs s.target s.targetVars
            (promote true false (j :: above) true n s).2 []
            (promote true false (j :: above) true n s).1)).target =
            (promote true false (j :: above) true n s).2 := by
          have := (replaceLhs_target (w := (promote true false (j :: above) true n s).2) (js := [])
            (promote true false (j :: above) true n s).1).1
          rw [g1, g2] at this
          exact this
        rw [hT]
        intro t htm
        rcases List.mem_cons.mp htm with e | htm
        · right; omega
        · exact ht t htm
      · rename_i hh
        simp only [Bool.not_eq_true] at hh
        rw [hh]
        obtain ⟨g1, g2, _, _⟩ := promote_shape (whole := true) (scalars := false) s (j :: above) false n
        simp only [raceFree]
        split
        · rename_i hj
          rw [g1, g2]
          rcases hloop hj with h | ⟨h1, h2, h3⟩
          · exact Or.inl h
          · by_cases hi : i ∈ s.targetVars
            · exact Or.inl hi
            · right
              refine ⟨h1, ?_, ?_⟩
              · rw [promote_accumulates s (j :: above) false n (Or.inr ⟨j, List.mem_cons_self, hj ▸ hi⟩)]
                exact h2
              · rcases h3 with ⟨k, h3, _⟩ | ⟨_, h3⟩
                · exact Or.inl (List.ne_nil_of_mem h3)
                · right
                  intro hm
                  rcases ht _ hm with hm | hm
                  · exact h3 hm
                  · have := tensorsBelow_computed (s := s) hb _ (target_computed s); omega
        · exact (raceFree_promote s (j :: above) temps temps' n hb hN hw hn.2 hd ht h').1
    · have hh : hoistHere false true above s.targetVars = false := by simp [hoistHere]
      simp only [promote, hh, Bool.true_or, Bool.false_eq_true, if_false, replaceLhs, raceFree,
        hnone h1 h2]
      exact (raceFree_promote s (j :: above) temps temps' n hb hN hw hn.2 hd ht h').2 w h1
        (fun k hk => List.mem_cons_of_mem _ (h2 k hk))
  | .wher c p, above, temps, temps', n, hb, hN, hw, hn, hd, ht, h => by
    obtain ⟨g1, g2, g3, g4⟩ := promote_shape (whole := true) (scalars := false) p above false n
    obtain ⟨k1, k2⟩ := raceFree_promote c above temps temps' (promote true false above false n p).2 hb.1
      (by omega) hw.1 hn.1 hd.1 ht (h.imp (fun h => ⟨h.1, h.2.1⟩) (fun h => h.1))
    obtain ⟨l1, l2⟩ := raceFree_promote (strat := strat) (i := i) p above (p.target :: temps)
      (p.target :: temps') n hb.2 hN
      hw.2.1 hn.2 hd.2.1 (by
        intro t htm
        rcases List.mem_cons.mp htm with e | htm
        · exact Or.inl (e ▸ List.mem_cons_self)
        · exact (ht t htm).imp_left (List.mem_cons_of_mem _))
      (h.imp (fun h => ⟨h.1, h.2.2⟩) (fun h => h.2))
    refine ⟨⟨k1, ?_⟩, fun w h1 h2 => ⟨k2 w h1 h2, ?_⟩⟩
    · rw [g1]; exact l1
    · rw [replaceLhs_id]
      · rw [g1]; exact l1
      · intro hu
        obtain ⟨_, _, _, _, _, h6⟩ := promote_keeps (whole := true) (scalars := false) p above false n
          (tensorsBelow_mono hN hb.2) hw.2.1 hn.2 hd.2.1
        rcases h6 _ hu with hu | hu
        · exact hd.2.2 hu
        · have := tensorsBelow_computed hb.1 _ (target_computed c)
          simp only [Stmt.target] at hu; omega

theorem replaceLhs_singleWrite {w : Nat} {js : List Nat} : ∀ (s : Stmt R), s.distinct → s.accumulates = true →
    s.singleWrite → (replaceLhs s.target s.targetVars w js s).singleWrite
  | .assign t is plus e, _, _, _ => by simp [replaceLhs, Stmt.target, Stmt.targetVars, Stmt.singleWrite]
  | .loop i s, hd, ha, hs =>
    ⟨Or.inl ((replaceLhs_target s).2.2.trans ha), replaceLhs_singleWrite s hd ha hs.2⟩
  | .wher c p, hd, ha, hs => by
    rw [show (Stmt.wher c p).target = c.target from rfl,
      show (Stmt.wher c p).targetVars = c.targetVars from rfl, replaceLhs_wher hd]
    exact ⟨replaceLhs_singleWrite c hd.1 ha hs.1, hs.2⟩

theorem promote_singleWrite {scalars : Bool} : ∀ (s : Stmt R) (above : List Nat) (hoisted : Bool)
    (n : Nat), s.tensorsBelow n → s.wellFormed → s.noShadow above → s.distinct → s.singleWrite →
    (promote false scalars above hoisted n s).1.singleWrite
  | .assign _ _ _ _, _, _, _, _, _, _, _, _ => trivial
  | .loop j s, above, hoisted, n, hb, hw, hn, hd, hs => by
    have ih := promote_singleWrite (scalars := scalars) s (j :: above)
      (hoisted || hoistHere scalars hoisted above s.targetVars) n hb hw hn.2 hd hs.2
    obtain ⟨g1, g2, g3, g4⟩ := promote_shape (whole := false) (scalars := scalars) s (j :: above)
      (hoisted || hoistHere scalars hoisted above s.targetVars) n
    obtain ⟨k1, k2, k3, k4, k5, k6⟩ := promote_keeps (whole := false) (scalars := scalars) s (j :: above)
      (hoisted || hoistHere scalars hoisted above s.targetVars) n hb hw hn.2 hd
    have ha := promote_accumulates (whole := false) (scalars := scalars) s (j :: above)
      (hoisted || hoistHere scalars hoisted above s.targetVars) n (Or.inl rfl)
    simp only [promote]
    split
    · rename_i hh
      obtain ⟨_, hh2⟩ := hoistHere_spec hh
      have hacc : s.accumulates = true := by
        rcases hs.1 with h | h
        · exact h
        · exact absurd (hh2 _ h) hn.1
      generalize promote false scalars (j :: above)
        (hoisted || hoistHere scalars hoisted above s.targetVars) n s = q at *
      rw [← g1, ← g2]
      refine ⟨trivial, Or.inl ?_, replaceLhs_singleWrite q.1 k4 (ha.trans hacc) ih⟩
      exact (replaceLhs_target q.1).2.2.trans (ha.trans hacc)
    · refine ⟨?_, ih⟩
      rw [ha, g2]; exact hs.1
  | .wher c p, above, hoisted, n, hb, hw, hn, hd, hs => by
    obtain ⟨g1, g2, g3, g4⟩ := promote_shape (whole := false) (scalars := scalars) p above false n
    exact ⟨promote_singleWrite c above hoisted _ (tensorsBelow_mono g4 hb.1) hw.1 hn.1 hd.1 hs.1,
      promote_singleWrite p above false n hb.2 hw.2.1 hn.2 hd.2.1 hs.2⟩

theorem promote_noShadow {whole scalars : Bool} : ∀ (s : Stmt R) (above above' : List Nat) (hoisted : Bool)
    (n : Nat), s.noShadow above' → (promote whole scalars above hoisted n s).1.noShadow above'
  | .assign _ _ _ _, _, _, _, _, _ => trivial
  | .loop j s, above, above', hoisted, n, h => by
    have ih := promote_noShadow (whole := whole) (scalars := scalars) s (j :: above) (j :: above')
      (hoisted || hoistHere scalars hoisted above s.targetVars) n h.2
    simp only [promote]
    split
    · exact ⟨trivial, h.1, replaceLhs_loopVars _ _ ih⟩
    · exact ⟨h.1, ih⟩
  | .wher c p, above, above', hoisted, n, h =>
    ⟨promote_noShadow c _ _ _ _ h.1, promote_noShadow p _ _ _ _ h.2⟩

/-! ### Reducing later -/

theorem reducedBy_all {i : Nat} : ∀ (s : Stmt R), OneComponent.All i s → reducedBy i s = []
  | .assign _ is _ e, h => by
    simp only [reducedBy]
    rw [if_neg]
    simp only [Bool.and_eq_true, List.contains_iff_mem, Bool.not_eq_true', not_and]
    intro he
    simpa using h he
  | .loop _ s, h => reducedBy_all s h
  | .wher c p, h => by simp only [reducedBy, reducedBy_all c h.1, reducedBy_all p h.2, List.append_nil]

theorem reducedBy_temps {i : Nat} {x : Nat × List Nat × Bool} : ∀ (s : Stmt R), OneComponent.Temps i s →
    reducedBy i s = [x] → x = (s.target, s.targetVars, s.accumulates)
  | .assign _ is _ e, _, h => by
    simp only [reducedBy] at h
    split at h
    · simp only [List.cons.injEq, and_true] at h; exact h.symm
    · simp at h
  | .loop _ s, ht, h => reducedBy_temps s ht h
  | .wher c p, ht, h => by
    simp only [reducedBy, reducedBy_all p ht.2, List.nil_append] at h
    exact reducedBy_temps c ht.1 h

theorem fresh_targetVars {i : Nat} : ∀ (s : Stmt R), Fresh i s → i ∉ s.targetVars
  | .assign _ _ _ _, h => h.1
  | .loop _ s, h => fresh_targetVars s h.2
  | .wher c _, h => fresh_targetVars c h.1

theorem exec_reduceLater {dim : Nat → Nat} {n i i' : Nat} {s : Stmt R} {above : List Nat}
    (hd : s.distinct) (hw : s.wellFormed) (hb : s.tensorsBelow n) (hn : (Stmt.loop i s).noShadow above)
    (hv : ∀ k ∈ s.targetVars, k ∈ above) (ha : s.accumulates = true) (hi' : i' ∉ s.targetVars)
    (hdim : dim i' = dim i) (ρ : Env) (σ : Store R) :
    exec dim (.wher (.loop i' (.assign s.target s.targetVars true (.acc n [i'])))
      (.loop i (replaceLhs s.target s.targetVars n [i] s))) ρ σ = exec dim (.loop i s) ρ σ := by
  have hTn : s.target ≠ n := by have := tensorsBelow_computed hb _ (target_computed s); omega
  have hnr := target_notMem_reads hw
  have hiT : i ∉ s.targetVars := fun h => hn.1 (hv i h)
  obtain ⟨hl1, hl2, hl3⟩ := replaceLhs_target (w := n) (js := [i]) s
  have hwf := replaceLhs_wf (js := [i]) s hd hw hb
  have hns := replaceLhs_loopVars (t := s.target) (is := s.targetVars) (w := n) (js := [i]) s _ hn.2
  generalize hbd : replaceLhs s.target s.targetVars n [i] s = b at *
  -- the workspace after the loop
  have hP : ∀ v < dim i, exec dim (.loop i b) ρ (clear [n] σ) n [v] =
      exec dim s (ρ.set i v) σ s.target (s.targetVars.map ρ) - σ s.target (s.targetVars.map ρ) := by
    intro v hvd
    have hsum := loop_sum (dim := dim) (i := i) (above := above) hwf hns (Or.inr (by rw [hl2]; simp)) ρ
      (clear [n] σ) [v]
    rw [hl1] at hsum
    rw [hsum]
    have hz : clear [n] σ n [v] = 0 := by simp [clear]
    rw [hz, zero_add]
    rw [Finset.sum_eq_single v]
    · have key := exec_replaceLhs (dim := dim) (w := n) (js := [i]) s hd hw hb (i :: above) hn.2
        (fun k hk => List.mem_cons_of_mem _ (hv k hk)) (by simp) (ρ.set i v)
        (put σ s.target (s.targetVars.map ρ) 0) (clear [n] σ) (by
          intro u hu
          have h1 : u ≠ s.target := fun e => hnr (e ▸ hu)
          have h2 : u ≠ n := by have := below_reads hb u hu; omega
          rw [put_ne_tensor _ _ _ h1]; simp [clear, h2])
        (by rw [map_set_notMem hiT, put_same]; simp [clear])
      rw [hbd, map_set_notMem hiT, List.map_cons, List.map_nil, Env.set_same] at key
      rw [← key]
      have hadd := (exec_local (dim := dim) s hw (ρ.set i v) (put σ s.target (s.targetVars.map ρ) 0) σ
        (s.targetVars.map ρ) (by
          intro u hu
          exact put_ne_tensor _ _ _ (fun e => hnr (e ▸ hu)))).2 ha
      rw [put_same] at hadd
      linear_combination hadd
    · intro w _ hwv
      rw [sub_eq_zero, ← hz]
      by_contra hne
      rw [← hl1] at hne
      obtain ⟨ρ', h1, h2⟩ := exec_footprint b (ρ.set i w) _ [v] [i] (i :: above) hwf hns (by simp) hne
      rw [hl2] at h2
      have h1 := h1 i (by simp)
      rw [Env.set_same] at h1
      simp only [List.map_cons, List.map_nil, List.cons.injEq, and_true] at h2
      exact hwv (h1.symm.trans h2)
    · intro h; exact absurd (Finset.mem_range.mpr hvd) h
  have hres : (Stmt.loop i b).results = [n] := by rw [results_target]; exact congrArg (fun x => [x]) hl1
  have hT : (Stmt.loop i b).target = n := hl1
  rw [exec_wher_eq, hres]
  have hPo : ∀ u, u ≠ n → exec dim (.loop i b) ρ (clear [n] σ) u = σ u := by
    intro u hu
    rw [exec_other _ _ _ _ (by rw [hT]; exact hu)]
    simp [clear, hu]
  generalize hPd : exec dim (.loop i b) ρ (clear [n] σ) = P at *
  have hcw : (Stmt.assign s.target s.targetVars true (.acc n [i']) : Stmt R).wellFormed := by
    simp only [Stmt.wellFormed, Expr.tensors, List.mem_singleton]; exact hTn
  funext u c
  simp only [restore, List.mem_singleton]
  split
  · rename_i hu
    subst hu
    rw [exec_other (.loop i s) _ _ _ (by rw [show (Stmt.loop i s).target = s.target from rfl]; exact hTn.symm)]
  · rename_i hu
    by_cases hut : u = s.target
    · subst hut
      have h2 := loop_sum (dim := dim) (i := i') (above := []) (s := Stmt.assign s.target s.targetVars true
        (.acc n [i'])) hcw (by trivial) (Or.inl rfl) ρ P c
      have h1 := loop_sum (dim := dim) (above := above) hw hn.2 (Or.inl ha) ρ σ c
      rw [h1]
      rw [show (Stmt.assign s.target s.targetVars true (.acc n [i']) : Stmt R).target = s.target from rfl]
        at h2
      rw [h2, hPo _ hu, hdim]
      congr 1
      refine Finset.sum_congr rfl fun v hvr => ?_
      rw [exec_assign_eq, map_set_notMem hi', hPo _ hu]
      simp only [if_true, eval, List.map_cons, List.map_nil, Env.set_same]
      by_cases hc : c = s.targetVars.map ρ
      · subst hc
        rw [put_same, hP v (Finset.mem_range.mp hvr)]
        ring
      · have e1 : exec dim s (ρ.set i v) σ s.target c = σ s.target c := by
          by_contra hne
          obtain ⟨ρ', h1, h2⟩ := exec_footprint s (ρ.set i v) σ c s.targetVars (i :: above) hw hn.2
            (fun k hk => List.mem_cons_of_mem _ (hv k hk)) hne
          apply hc
          rw [← h2]
          refine List.map_congr_left fun k hk => ?_
          rw [h1 k hk, Env.set_ne]
          rintro rfl; exact hiT hk
        rw [e1]
        simp only [put, hc, and_false, if_false, hPo _ hu]
    · rw [exec_other _ _ _ _ (by exact hut), hPo u hu, exec_other (.loop i s) _ _ _ hut]

/-! ### The rewrite -/

/-- What is kept. -/
structure Good (n : Nat) (above : List Nat) (s : Stmt R) : Prop where
  below : s.tensorsBelow n
  wf : s.wellFormed
  shadow : s.noShadow above
  dist : s.distinct
  single : s.singleWrite

theorem noShadow_exclusive {i : Nat} : ∀ (s : Stmt R) (above : List Nat), s.noShadow above → i ∈ above →
    Exclusive i s
  | .assign _ _ _ _, _, _, _ => trivial
  | .loop j s, above, hn, hi => ⟨fun hj => absurd (hj ▸ hi) hn.1,
      noShadow_exclusive s (j :: above) hn.2 (List.mem_cons_of_mem _ hi)⟩
  | .wher c p, above, hn, hi => ⟨noShadow_exclusive c above hn.1 hi, noShadow_exclusive p above hn.2 hi⟩

/-- What is known about a rewritten statement. -/
structure Kept (dim : Nat → Nat) (n : Nat) (above : List Nat) (s : Stmt R) (r : Stmt R × Nat) : Prop where
  good : Good r.2 above r.1
  le : n ≤ r.2
  target : r.1.target = s.target
  vars : r.1.targetVars = s.targetVars
  acc : r.1.accumulates = s.accumulates
  reads : r.1.reads = s.reads
  computed : ∀ u ∈ r.1.computed, u ∈ s.computed ∨ n ≤ u
  exec : ∀ ρ σ, exec dim r.1 ρ σ = exec dim s ρ σ

theorem Kept.refl {dim : Nat → Nat} {n : Nat} {above : List Nat} {s : Stmt R} (h : Good n above s) :
    Kept dim n above s (s, n) :=
  ⟨h, Nat.le_refl _, rfl, rfl, rfl, rfl, fun _ h => Or.inl h, fun _ _ => rfl⟩

theorem parallelLoop_kept {dim : Nat → Nat} {strat : Strategy} {red : Bool} {i i' n : Nat}
    {above : List Nat} {s : Stmt R} {r : Stmt R × Nat} (h : parallelLoop strat red i i' n s = some r)
    (hg : Good n above (.loop i s)) (hc : strat = .temporary → red = true → s.accumulates = true ∧
      (∀ k ∈ s.targetVars, k ∈ above) ∧ OneComponent.Temps i s ∧ Fresh i' s ∧ i' ∉ above ∧
      dim i' = dim i) :
    Kept dim n above (.loop i s) r := by
  obtain ⟨hb, hw, hn, hd, hs⟩ := hg
  cases strat with
  | ignoreRaces => simp only [parallelLoop, Option.some.injEq] at h; exact h ▸ Kept.refl ⟨hb, hw, hn, hd, hs⟩
  | noRaces =>
    simp only [parallelLoop] at h
    split at h
    · simp at h
    · simp only [Option.some.injEq] at h; exact h ▸ Kept.refl ⟨hb, hw, hn, hd, hs⟩
  | atomics =>
    simp only [parallelLoop, Option.some.injEq] at h
    subst h
    have hn0 : s.noShadow [] := noShadow_mono (by simp) hn.2
    obtain ⟨k1, k2, k3, k4, k5, k6⟩ := promote_keeps (whole := false) (scalars := true) s [] false n hb hw
      hn0 hd
    obtain ⟨l1, l2, l3, l4⟩ := promote_shape (whole := false) (scalars := true) s [] false n
    have la := promote_accumulates (whole := false) (scalars := true) s [] false n (Or.inl rfl)
    refine ⟨⟨k1, k2, ⟨hn.1, promote_noShadow _ _ _ _ _ hn.2⟩, k4, ?_, promote_singleWrite s [] false n hb hw hn0 hd
      hs.2⟩, l4, l1, l2, la, k5, k6, ?_⟩
    · rw [la, l2]; exact hs.1
    · intro ρ σ
      simp only [Concrete.exec]
      have : (fun (σ : Store R) (v : Nat) =>
          Concrete.exec dim (promote false true [] false n s).1 (ρ.set i v) σ) =
          fun σ v => Concrete.exec dim s (ρ.set i v) σ := by
        funext σ v
        exact exec_promote s [] false n hb hw hn0 hd hs.2 _ σ (by simp)
      rw [this]
  | temporary =>
    simp only [parallelLoop] at h
    split at h
    · rename_i hred
      obtain ⟨c1, c2, c3, c4, c5, c6⟩ := hc rfl hred
      unfold reduceLater at h
      split at h
      · rename_i t is plus hx
        simp only [Option.some.injEq] at h
        have := reducedBy_temps s c3 hx
        simp only [Prod.mk.injEq] at this
        obtain ⟨rfl, rfl, rfl⟩ := this
        subst h
        have hTn : s.target < n := tensorsBelow_computed hb _ (target_computed s)
        obtain ⟨t1, t2, t3⟩ := replaceLhs_target (w := n) (js := [i]) s
        have hcomp : s.target ∉ (replaceLhs s.target s.targetVars n [i] s).computed := by
          have : ∀ (s : Stmt R), s.distinct → s.tensorsBelow n →
              s.target ∉ (replaceLhs s.target s.targetVars n [i] s).computed := by
            intro s
            induction s with
            | assign t is plus e =>
              intro _ hb
              simp only [replaceLhs, Stmt.target, Stmt.targetVars, and_self, if_true, Stmt.computed,
                List.mem_singleton]
              have := hb.1; omega
            | loop i s ih => exact ih
            | wher c p ihc ihp =>
              intro hd hb
              rw [show (Stmt.wher c p).target = c.target from rfl,
                show (Stmt.wher c p).targetVars = c.targetVars from rfl, replaceLhs_wher hd]
              simp only [Stmt.computed, List.mem_append, not_or]
              exact ⟨ihc hd.1 hb.1, hd.2.2⟩
          exact this s hd hb
        refine ⟨⟨⟨⟨?_, ?_⟩, ?_⟩, ⟨?_, ?_, ?_, ?_⟩, ⟨⟨c5, trivial⟩, hn.1, ?_⟩, ⟨trivial, ?_, ?_⟩, ⟨⟨Or.inl c1, trivial⟩,
          Or.inr ?_, ?_⟩⟩, by simp, rfl, rfl, rfl, ?_, ?_, ?_⟩
        · omega
        · intro u hu; simp [Expr.tensors] at hu; omega
        · exact replaceLhs_below (by omega) (.loop i s) (tensorsBelow_mono (s := .loop i s) (by omega) hb)
        · simp only [Stmt.wellFormed, Expr.tensors, List.mem_singleton]; omega
        · exact replaceLhs_wf s hd hw hb
        · rw [show (Stmt.loop i (replaceLhs s.target s.targetVars n [i] s)).reads = s.reads from
            replaceLhs_reads s hd]
          exact target_notMem_reads hw
        · rw [show (Stmt.loop i (replaceLhs s.target s.targetVars n [i] s)).target = n from t1]
          simp only [Stmt.target]; omega
        · exact replaceLhs_loopVars _ _ hn.2
        · exact replaceLhs_distinct s hd hb
        · exact hcomp
        · rw [t2]; simp
        · exact replaceLhs_singleWrite s hd c1 hs.2
        · simp only [Stmt.reads, Expr.tensors, Stmt.target, t1, replaceLhs_reads s hd]; simp
        · intro u hu
          simp only [Stmt.computed, List.mem_append, List.mem_singleton] at hu
          rcases hu with hu | hu
          · subst hu; exact Or.inl (target_computed s)
          · exact (replaceLhs_computed s u hu).symm.imp_right (fun e => by omega)
        · intro ρ σ
          rw [c1]
          exact exec_reduceLater (s := s) hd hw hb hn c2 c1 (fresh_targetVars s c4) c6 ρ σ
      · simp at h
    · simp only [Option.some.injEq] at h; exact h ▸ Kept.refl ⟨hb, hw, hn, hd, hs⟩

theorem rewrite_kept {dim : Nat → Nat} {strat : Strategy} {red : Bool} {i i' : Nat} : ∀ (s : Stmt R)
    (n : Nat) (above : List Nat) (r : Stmt R × Nat), rewriteParallel strat red i i' n s = some r →
    Good n above s → (strat = .temporary → red = true → OneComponent i above s ∧ Fresh i' s ∧ i' ∉ above ∧
      dim i' = dim i) → Kept dim n above s r
  | .assign t is plus e, n, above, r, h, hg, _ => by
    simp only [rewriteParallel, Option.some.injEq] at h
    exact h ▸ Kept.refl hg
  | .loop j s, n, above, r, h, hg, hc => by
    simp only [rewriteParallel] at h
    split at h
    · rename_i hj
      subst hj
      refine parallelLoop_kept h hg fun h1 h2 => ?_
      obtain ⟨a1, a2, a3, a4⟩ := hc h1 h2
      obtain ⟨b1, b2, b3⟩ := a1.1 rfl
      exact ⟨b1, b2, b3, a2.2, a3, a4⟩
    · obtain ⟨hb, hw, hn, hd, hs⟩ := hg
      simp only [Option.map_eq_some_iff] at h
      obtain ⟨q, hq, rfl⟩ := h
      have ih := rewrite_kept s n (j :: above) q hq ⟨hb, hw, hn.2, hd, hs.2⟩ (by
        intro h1 h2
        obtain ⟨a1, a2, a3, a4⟩ := hc h1 h2
        refine ⟨a1.2, a2.2, ?_, a4⟩
        simp only [List.mem_cons, not_or]
        exact ⟨fun e => a2.1 e.symm, a3⟩)
      refine ⟨⟨ih.good.below, ih.good.wf, ⟨hn.1, ih.good.shadow⟩, ih.good.dist, ?_, ih.good.single⟩, ih.le, ih.target,
        ih.vars, ih.acc, ih.reads, ih.computed, ?_⟩
      · rw [ih.acc, ih.vars]; exact hs.1
      · intro ρ σ
        simp only [Concrete.exec]
        have : (fun (σ : Store R) (v : Nat) => Concrete.exec dim q.1 (ρ.set j v) σ) =
            fun σ v => Concrete.exec dim s (ρ.set j v) σ := by
          funext σ v; exact ih.exec _ _
        rw [this]
  | .wher c p, n, above, r, h, hg, hc => by
    obtain ⟨hb, hw, hn, hd, hs⟩ := hg
    simp only [rewriteParallel, Option.bind_eq_some_iff, Option.map_eq_some_iff] at h
    obtain ⟨p', hp', c', hc', rfl⟩ := h
    have ihp := rewrite_kept p n above p' hp' ⟨hb.2, hw.2.1, hn.2, hd.2.1, hs.2⟩ (fun h1 h2 => by
      obtain ⟨a1, a2, a3, a4⟩ := hc h1 h2
      exact ⟨a1.2, a2.2, a3, a4⟩)
    have ihc := rewrite_kept c p'.2 above c' hc' ⟨tensorsBelow_mono ihp.le hb.1, hw.1, hn.1, hd.1, hs.1⟩
      (fun h1 h2 => by
        obtain ⟨a1, a2, a3, a4⟩ := hc h1 h2
        exact ⟨a1.1, a2.1, a3, a4⟩)
    have hct := tensorsBelow_computed hb.1 _ (target_computed c)
    have hle1 := ihp.le
    have hle2 := ihc.le
    refine ⟨⟨⟨ihc.good.below, tensorsBelow_mono ihc.le ihp.good.below⟩, ⟨ihc.good.wf, ihp.good.wf, ?_, ?_⟩,
      ⟨ihc.good.shadow, ihp.good.shadow⟩, ⟨ihc.good.dist, ihp.good.dist, ?_⟩,
      ⟨ihc.good.single, ihp.good.single⟩⟩, by simp only; omega, ihc.target, ihc.vars, ihc.acc, ?_, ?_, ?_⟩
    · rw [ihc.target, ihp.reads]; exact hw.2.2.1
    · rw [ihc.target, ihp.target]; exact hw.2.2.2
    · rw [ihc.target]; intro hu
      rcases ihp.computed _ hu with hu | hu
      · exact hd.2.2 hu
      · omega
    · simp only [Stmt.reads, ihc.reads, ihp.target, ihp.reads]
    · intro u hu
      simp only [Stmt.computed, List.mem_append] at hu ⊢
      rcases hu with hu | hu
      · rcases ihc.computed u hu with hu | hu
        · exact Or.inl (Or.inl hu)
        · exact Or.inr (by omega)
      · exact (ihp.computed u hu).imp_left Or.inr
    · intro ρ σ
      simp only [Concrete.exec, results_target, ihp.target, ihp.exec, ihc.exec]

theorem rewrite_exclusive {strat : Strategy} {red : Bool} {i i' : Nat} (hst : strat = .noRaces ∨ strat = .temporary)
    (hi : i' ≠ i) : ∀ (s : Stmt R)
    (n : Nat) (above : List Nat) (r : Stmt R × Nat), rewriteParallel strat red i i' n s = some r →
    s.noShadow above → (strat = .temporary → red = true → OneComponent i above s) →
    (red = false → Exclusive i s) → Exclusive i r.1
  | .assign t is plus e, n, above, r, h, _, _, _ => by
    simp only [rewriteParallel, Option.some.injEq] at h
    exact h ▸ trivial
  | .loop j s, n, above, r, h, hn, ho, he => by
    simp only [rewriteParallel] at h
    split at h
    · rename_i hj
      subst hj
      rcases hst with rfl | rfl
      · simp only [parallelLoop] at h
        split at h
        · simp at h
        · rename_i hred
          simp only [Option.some.injEq] at h
          exact h ▸ he (by simpa using hred)
      · simp only [parallelLoop] at h
        split at h
        · rename_i hred
          obtain ⟨o1, o2, o3⟩ := (ho rfl hred).1 rfl
          unfold reduceLater at h
          split at h
          · rename_i t is plus hx
            simp only [Option.some.injEq] at h
            have := reducedBy_temps s o3 hx
            simp only [Prod.mk.injEq] at this
            obtain ⟨rfl, rfl, rfl⟩ := this
            subst h
            refine ⟨⟨fun e => absurd e hi, trivial⟩, fun _ => ?_, ?_⟩
            · rw [(replaceLhs_target s).2.1]; simp
            · exact noShadow_exclusive _ (j :: above) (replaceLhs_loopVars _ _ hn.2) List.mem_cons_self
          · simp at h
        · rename_i hred
          simp only [Option.some.injEq] at h
          exact h ▸ he (by simpa using hred)
    · rename_i hj
      simp only [Option.map_eq_some_iff] at h
      obtain ⟨q, hq, rfl⟩ := h
      exact ⟨fun e => absurd e hj, rewrite_exclusive hst hi s n (j :: above) q hq hn.2 (fun h1 h2 => (ho h1 h2).2)
        (fun hr => (he hr).2)⟩
  | .wher c p, n, above, r, h, hn, ho, he => by
    simp only [rewriteParallel, Option.bind_eq_some_iff, Option.map_eq_some_iff] at h
    obtain ⟨p', hp', c', hc', rfl⟩ := h
    exact ⟨rewrite_exclusive hst hi c _ above c' hc' hn.1 (fun h1 h2 => (ho h1 h2).1) (fun hr => (he hr).1),
      rewrite_exclusive hst hi p _ above p' hp' hn.2 (fun h1 h2 => (ho h1 h2).2) (fun hr => (he hr).2)⟩

theorem rewrite_accumulating {dim : Nat → Nat} {red : Bool} {i i' : Nat} : ∀ (s : Stmt R) (n : Nat)
    (above temps : List Nat) (r : Stmt R × Nat), rewriteParallel .atomics red i i' n s = some r →
    Good n above s → Accumulating i above temps s → Accumulating i above temps r.1
  | .assign t is plus e, n, above, temps, r, h, _, _ => by
    simp only [rewriteParallel, Option.some.injEq] at h
    exact h ▸ trivial
  | .loop j s, n, above, temps, r, h, hg, ha => by
    simp only [rewriteParallel] at h
    split at h
    · rename_i hj
      subst hj
      simp only [parallelLoop, Option.some.injEq] at h
      subst h
      obtain ⟨l1, l2, l3, l4⟩ := promote_shape (whole := false) (scalars := true) s [] false n
      have la := promote_accumulates (whole := false) (scalars := true) s [] false n (Or.inl rfl)
      refine ⟨?_, exclusive_accumulating _ _ _ (noShadow_exclusive _ (j :: above)
        (promote_noShadow _ _ _ _ _ hg.shadow.2) List.mem_cons_self)⟩
      rw [l1, l2, la]
      exact ha.1
    · rename_i hj
      simp only [Option.map_eq_some_iff] at h
      obtain ⟨q, hq, rfl⟩ := h
      exact ⟨fun e => absurd e hj, rewrite_accumulating (dim := dim) s n (j :: above) temps q hq
        ⟨hg.below, hg.wf, hg.shadow.2, hg.dist, hg.single.2⟩ ha.2⟩
  | .wher c p, n, above, temps, r, h, hg, ha => by
    simp only [rewriteParallel, Option.bind_eq_some_iff, Option.map_eq_some_iff] at h
    obtain ⟨p', hp', c', hc', rfl⟩ := h
    have gp : Good n above p := ⟨hg.below.2, hg.wf.2.1, hg.shadow.2, hg.dist.2.1, hg.single.2⟩
    have kp := rewrite_kept (dim := dim) p n above p' hp' gp (by simp)
    refine ⟨rewrite_accumulating (dim := dim) c p'.2 above temps c' hc'
      ⟨tensorsBelow_mono kp.le hg.below.1, hg.wf.1, hg.shadow.1, hg.dist.1, hg.single.1⟩ ha.1, ?_⟩
    rw [kp.target]
    exact rewrite_accumulating (dim := dim) p n above _ p' hp' gp ha.2

/-- Compiling a statement that was rewritten. -/
theorem compiled_runs {dim : Nat → Nat} {strat : Strategy} {i n : Nat} {s : Stmt R} {r : Stmt R × Nat}
    (hk : Kept dim n [] s r) (h : strat = .atomics ∧ Accumulating i [] [] r.1 ∨ Exclusive i r.1)
    (ρ : Env) (σ σ' : Store R) (h0 : ∀ c, σ s.target c = 0) :
    Runs dim (lower strat i 0 [] (scalarPromote r.2 r.1)) ρ σ σ' ↔ σ' = exec dim s ρ σ := by
  obtain ⟨hb, hw, hn, hd, hs⟩ := hk.good
  obtain ⟨k1, k2, k3, k4, k5, k6⟩ := promote_keeps (whole := true) (scalars := false) r.1 [] false r.2 hb hw
    hn hd
  rw [runs_lower (scalarPromote r.2 r.1) [] [] k2 k3
    (raceFree_promote r.1 [] [] [] r.2 hb (Nat.le_refl _) hw hn hd (by simp) h).1]
  rw [show scalarPromote r.2 r.1 = (promote true false [] false r.2 r.1).1 from rfl,
    exec_promote r.1 [] false r.2 hb hw hn hd hs ρ σ (fun _ _ _ _ _ => by rw [hk.target]; exact h0 _), hk.exec]

end Verif.Parallel
