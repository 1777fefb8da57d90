import Mathlib.Tactic.LinearCombination
import Verif.Concrete.Lemmas
import Verif.Concrete.Reorder.Model
import Verif.Concrete.Reorder.Spec
/-
Lemmas about the reordering of loops.
-/
namespace Verif.Concrete

set_option linter.unusedSectionVars false

variable {R : Type} [CommRing R]

/-! ### What statements depend on and change -/

theorem results_target : ∀ (s : Stmt R), s.results = [s.target]
  | .assign _ _ _ _ => rfl
  | .loop _ s => results_target s
  | .wher c _ => results_target c

theorem target_loops (s : Stmt R) : ∀ (is : List Nat), (loops is s).target = s.target
  | [] => rfl
  | _ :: is => target_loops s is

theorem targetVars_loops (s : Stmt R) : ∀ (is : List Nat), (loops is s).targetVars = s.targetVars
  | [] => rfl
  | _ :: is => targetVars_loops s is

theorem accumulates_loops (s : Stmt R) : ∀ (is : List Nat), (loops is s).accumulates = s.accumulates
  | [] => rfl
  | _ :: is => accumulates_loops s is

theorem wellFormed_loops (s : Stmt R) : ∀ (is : List Nat), (loops is s).wellFormed ↔ s.wellFormed
  | [] => Iff.rfl
  | _ :: is => wellFormed_loops s is

theorem target_notMem_reads : ∀ {s : Stmt R}, s.wellFormed → s.target ∉ s.reads := by
  intro s
  induction s with
  | assign t is plus e => intro h; exact h
  | loop i s ih => intro h; exact ih h
  | wher c p ihc ihp =>
    rintro ⟨h1, h2, h3, h4⟩
    simp only [Stmt.reads, Stmt.target, List.mem_append, List.mem_filter, not_or, not_and]
    exact ⟨fun h => absurd h (ihc h1), h3⟩

theorem exec_wher {dim : Nat → Nat} (c p : Stmt R) (ρ : Env) (σ : Store R) (h : c.target ≠ p.target) :
    exec dim (.wher c p) ρ σ c.target = exec dim c ρ (exec dim p ρ (clear [p.target] σ)) c.target := by
  simp only [exec, results_target]
  simp [restore, h]

/-- Only the target is changed. -/
theorem exec_other {dim : Nat → Nat} : ∀ (s : Stmt R) (ρ : Env) (σ : Store R) (u : Nat),
    u ≠ s.target → exec dim s ρ σ u = σ u := by
  intro s
  induction s with
  | assign t is plus e => intro ρ σ u hu; exact put_ne_tensor _ _ _ hu
  | loop i s ih =>
    intro ρ σ u hu
    simp only [exec]
    generalize List.range (dim i) = l
    induction l generalizing σ with
    | nil => rfl
    | cons v l ihl => rw [List.foldl_cons, ihl, ih _ _ _ hu]
  | wher c p ihc ihp =>
    intro ρ σ u hu
    simp only [exec, results_target, restore, List.mem_singleton]
    split
    · rfl
    · rename_i hp
      rw [ihc _ _ _ hu, ihp _ _ _ hp]
      simp [clear, hp]

/-- Stores that agree on the tensors read and on one component of the target agree on that
component afterwards; and if the statement accumulates, what is added is the same. -/
theorem exec_local {dim : Nat → Nat} : ∀ (s : Stmt R), s.wellFormed → ∀ (ρ : Env) (σ σ' : Store R)
    (c : List Nat), (∀ u ∈ s.reads, σ u = σ' u) →
    (σ s.target c = σ' s.target c → exec dim s ρ σ s.target c = exec dim s ρ σ' s.target c) ∧
    (s.accumulates = true →
      exec dim s ρ σ s.target c - σ s.target c = exec dim s ρ σ' s.target c - σ' s.target c) := by
  intro s
  induction s with
  | assign t is plus e =>
    intro h ρ σ σ' c hr
    have he : eval dim σ ρ e = eval dim σ' ρ e := eval_store e ρ hr
    simp only [exec, Stmt.target, Stmt.accumulates, put, true_and]
    constructor
    · intro hc
      split
      · rename_i h; subst h; rw [he, hc]
      · exact hc
    · intro hp
      subst hp
      split
      · rename_i h; subst h; simp [he]
      · simp
  | loop i s ih =>
    intro h ρ σ σ' c hr
    simp only [exec, Stmt.target, Stmt.accumulates]
    generalize List.range (dim i) = l
    induction l generalizing σ σ' with
    | nil => simp
    | cons v l ihl =>
      have hnr := target_notMem_reads (s := s) h
      have hr' : ∀ u ∈ s.reads, exec dim s (ρ.set i v) σ u = exec dim s (ρ.set i v) σ' u := by
        intro u hu
        have hut : u ≠ s.target := fun e => hnr (e ▸ hu)
        rw [exec_other _ _ _ _ hut, exec_other _ _ _ _ hut]; exact hr u hu
      obtain ⟨a1, a2⟩ := ih h (ρ.set i v) σ σ' c hr
      obtain ⟨b1, b2⟩ := ihl _ _ hr'
      simp only [List.foldl_cons]
      refine ⟨fun hc => b1 (a1 hc), fun hp => ?_⟩
      have e1 := a2 hp
      have e2 := b2 hp
      linear_combination e1 + e2
  | wher c p ihc ihp =>
    rintro ⟨h1, h2, h3, h4⟩ ρ σ σ' x hr
    simp only [Stmt.reads, List.mem_append, List.mem_filter] at hr
    show (σ c.target x = σ' c.target x → exec dim (.wher c p) ρ σ c.target x =
        exec dim (.wher c p) ρ σ' c.target x) ∧ (c.accumulates = true →
        exec dim (.wher c p) ρ σ c.target x - σ c.target x =
          exec dim (.wher c p) ρ σ' c.target x - σ' c.target x)
    rw [exec_wher _ _ _ _ h4, exec_wher _ _ _ _ h4]
    have hp : ∀ u ∈ p.reads, clear [p.target] σ u = clear [p.target] σ' u := by
      intro u hu
      have hut : u ≠ p.target := fun e => target_notMem_reads h2 (e ▸ hu)
      simp [clear, hut, hr u (Or.inr hu)]
    have hc : ∀ u ∈ c.reads, exec dim p ρ (clear [p.target] σ) u =
        exec dim p ρ (clear [p.target] σ') u := by
      intro u hu
      by_cases hut : u = p.target
      · subst hut
        funext y
        exact (ihp h2 ρ _ _ y hp).1 (by simp [clear])
      · rw [exec_other _ _ _ _ hut, exec_other _ _ _ _ hut]
        simp [clear, hut, hr u (Or.inl ⟨hu, by simpa using hut⟩)]
    have hs : ∀ σ : Store R, exec dim p ρ (clear [p.target] σ) c.target x = σ c.target x := by
      intro σ
      rw [exec_other _ _ _ _ h4]; simp [clear, h4]
    obtain ⟨a1, a2⟩ := ihc h1 ρ _ _ x hc
    rw [hs, hs] at a1 a2
    exact ⟨a1, a2⟩

/-- A component that is changed has the coordinates of the index variables. -/
theorem exec_footprint {dim : Nat → Nat} : ∀ (s : Stmt R) (ρ : Env) (σ : Store R) (c : List Nat)
    (is above : List Nat), s.wellFormed → s.noShadow above → (∀ i ∈ is, i ∈ above) →
    exec dim s ρ σ s.target c ≠ σ s.target c →
    ∃ ρ' : Env, (∀ i ∈ is, ρ' i = ρ i) ∧ s.targetVars.map ρ' = c := by
  intro s
  induction s with
  | assign t is plus e =>
    intro ρ σ c js above _ _ _ h
    simp only [exec, Stmt.target, put, true_and] at h
    by_cases hc : c = is.map ρ
    · exact ⟨ρ, fun _ _ => rfl, hc.symm⟩
    · simp [hc] at h
  | loop i s ih =>
    intro ρ σ c js above hw hn hj h
    simp only [exec, Stmt.target] at h
    generalize List.range (dim i) = l at h
    induction l generalizing σ with
    | nil => simp at h
    | cons v l ihl =>
      rw [List.foldl_cons] at h
      by_cases h' : exec dim s (ρ.set i v) σ s.target c = σ s.target c
      · rw [← h'] at h
        exact ihl _ h
      · obtain ⟨ρ', h1, h2⟩ := ih (ρ.set i v) σ c js (i :: above) hw hn.2
          (fun k hk => List.mem_cons_of_mem _ (hj k hk)) h'
        refine ⟨ρ', fun k hk => ?_, h2⟩
        rw [h1 k hk, Env.set_ne]
        rintro rfl
        exact hn.1 (hj _ hk)
  | wher c p ihc ihp =>
    rintro ρ σ x js above ⟨h1, _, _, h4⟩ hn hj h
    rw [show (Stmt.wher c p).target = c.target from rfl, exec_wher _ _ _ _ h4] at h
    refine ihc ρ (exec dim p ρ (clear [p.target] σ)) x js above h1 hn.1 hj ?_
    intro he
    apply h
    rw [he, exec_other _ _ _ _ h4]; simp [clear, h4]

/-! ### Iterations commute -/

theorem envs_ne {dim : Nat → Nat} {is : List Nat} {ρ ρ1 ρ2 : Env} (h1 : ρ1 ∈ envs dim is ρ)
    (h2 : ρ2 ∈ envs dim is ρ) (h : ρ1 ≠ ρ2) : ∃ i ∈ is, ρ1 i ≠ ρ2 i := by
  by_contra hc
  push Not at hc
  apply h
  funext j
  by_cases hj : j ∈ is
  · exact hc j hj
  · rw [(mem_envs h1).1 j hj, (mem_envs h2).1 j hj]

theorem exec_commute {dim : Nat → Nat} {s : Stmt R} {is above : List Nat} (hw : s.wellFormed)
    (hn : s.noShadow above) (hi : ∀ i ∈ is, i ∈ above)
    (hs : s.accumulates = true ∨ ∀ i ∈ is, i ∈ s.targetVars) {ρ ρ1 ρ2 : Env}
    (h1 : ρ1 ∈ envs dim is ρ) (h2 : ρ2 ∈ envs dim is ρ) (σ : Store R) :
    exec dim s ρ1 (exec dim s ρ2 σ) = exec dim s ρ2 (exec dim s ρ1 σ) := by
  by_cases he : ρ1 = ρ2
  · rw [he]
  have hnr := target_notMem_reads hw
  have hreads : ∀ (ρ : Env) (σ : Store R), ∀ u ∈ s.reads, exec dim s ρ σ u = σ u := by
    intro ρ σ u hu
    exact exec_other _ _ _ _ (fun e => hnr (e ▸ hu))
  funext u c
  by_cases hu : u = s.target
  · subst hu
    rcases hs with hs | hs
    · have e1 := (exec_local (dim := dim) s hw ρ1 _ σ c (hreads ρ2 σ)).2 hs
      have e2 := (exec_local (dim := dim) s hw ρ2 _ σ c (hreads ρ1 σ)).2 hs
      linear_combination e1 - e2
    · -- at most one of them changes this component
      have key : ∀ (ρ1 ρ2 : Env), (∀ σ : Store R, exec dim s ρ2 σ s.target c = σ s.target c) →
          exec dim s ρ1 (exec dim s ρ2 σ) s.target c = exec dim s ρ2 (exec dim s ρ1 σ) s.target c := by
        intro ρ1 ρ2 hid
        rw [hid]
        exact (exec_local (dim := dim) s hw ρ1 _ σ c (hreads ρ2 σ)).1 (hid σ)
      by_cases hid : ∀ σ : Store R, exec dim s ρ2 σ s.target c = σ s.target c
      · exact key ρ1 ρ2 hid
      · refine (key ρ2 ρ1 fun τ => ?_).symm
        by_contra hne
        push Not at hid
        obtain ⟨τ', hne'⟩ := hid
        obtain ⟨ρ1', a1, a2⟩ := exec_footprint s ρ1 τ c is above hw hn hi hne
        obtain ⟨ρ2', b1, b2⟩ := exec_footprint s ρ2 τ' c is above hw hn hi hne'
        obtain ⟨i, hiis, hine⟩ := envs_ne h1 h2 he
        apply hine
        rw [← a1 i hiis, ← b1 i hiis]
        exact List.map_inj_left.mp (a2.trans b2.symm) i (hs i hiis)
  · rw [exec_other _ _ _ _ hu, exec_other _ _ _ _ hu, exec_other _ _ _ _ hu, exec_other _ _ _ _ hu]

theorem flatMap_swap {α β γ : Type} (g : α → β → List γ) (m : List β) : ∀ (l : List α),
    (l.flatMap fun a => m.flatMap (g a)).Perm (m.flatMap fun b => l.flatMap fun a => g a b)
  | [] => by simp
  | a :: l => by
    simp only [List.flatMap_cons]
    exact ((flatMap_swap g m l).append_left _).trans (List.flatMap_append_perm m _ _)

theorem envs_perm {dim : Nat → Nat} {is js : List Nat} (h : is.Perm js) :
    ∀ ρ, (envs dim is ρ).Perm (envs dim js ρ) := by
  induction h with
  | nil => intro ρ; exact List.Perm.refl _
  | cons i _ ih => intro ρ; exact List.Perm.flatMap_left _ fun v _ => ih _
  | swap i j l =>
    intro ρ
    by_cases hij : i = j
    · subst hij; exact List.Perm.refl _
    · simp only [envs]
      have : ∀ v w, (ρ.set i v).set j w = (ρ.set j w).set i v := fun v w => Env.set_comm _ _ _ hij
      simp only [this]
      exact flatMap_swap (fun v w => envs dim l ((ρ.set j v).set i w)) _ _
  | trans _ _ ih1 ih2 => intro ρ; exact (ih1 ρ).trans (ih2 ρ)

theorem noShadow_mono : ∀ {s : Stmt R} {above above' : List Nat}, (∀ i ∈ above', i ∈ above) →
    s.noShadow above → s.noShadow above' := by
  intro s
  induction s with
  | assign t is plus e => intro _ _ _ _; trivial
  | loop i s ih =>
    intro a a' h hs
    refine ⟨fun hi => hs.1 (h i hi), ih ?_ hs.2⟩
    intro j hj
    rcases List.mem_cons.mp hj with rfl | hj
    · exact List.mem_cons_self
    · exact List.mem_cons_of_mem _ (h j hj)
  | wher c p ihc ihp => intro a a' h hs; exact ⟨ihc h hs.1, ihp h hs.2⟩

theorem noShadow_loops {s : Stmt R} : ∀ {is above : List Nat}, (loops is s).noShadow above →
    is.Nodup ∧ s.noShadow (is ++ above) := by
  intro is
  induction is with
  | nil => intro above h; exact ⟨List.nodup_nil, h⟩
  | cons i is ih =>
    intro above h
    obtain ⟨h1, h2⟩ := ih h.2
    refine ⟨List.nodup_cons.mpr ⟨?_, h1⟩, noShadow_mono ?_ h2⟩
    · clear ih h2 h1
      -- `i` is above the inner loops
      have : ∀ (is above : List Nat), (loops is s).noShadow above → ∀ j ∈ above, j ∉ is := by
        intro is
        induction is with
        | nil => intro _ _ j _; simp
        | cons k is ih =>
          intro above h j hj
          simp only [List.mem_cons, not_or]
          exact ⟨fun e => h.1 (e ▸ hj), ih _ h.2 j (List.mem_cons_of_mem _ hj)⟩
      exact this is _ h.2 i List.mem_cons_self
    · intro j hj
      simp only [List.cons_append, List.mem_cons, List.mem_append] at hj ⊢
      tauto

/-- Exchanging nested loops whose iterations commute changes nothing. -/
theorem exec_replaced {dim : Nat → Nat} {old new : List Nat} (hp : old.Perm new) {s s' : Stmt R}
    (h : Replaced old new s s') : ∀ (above : List Nat), s.wellFormed → s.noShadow above →
    s.reorderable old → s'.target = s.target ∧ ∀ ρ σ, exec dim s' ρ σ = exec dim s ρ σ := by
  induction h with
  | assign t is plus e => intro _ _ _ _; exact ⟨rfl, fun _ _ => rfl⟩
  | loop i _ ih =>
    intro above hw hn hr
    obtain ⟨h1, h2⟩ := ih _ hw hn.2 hr.2
    refine ⟨h1, fun ρ σ => ?_⟩
    simp only [exec, h2]
  | wher _ _ ihc ihp =>
    intro above hw hn hr
    obtain ⟨c1, c2⟩ := ihc _ hw.1 hn.1 hr.1
    obtain ⟨p1, p2⟩ := ihp _ hw.2.1 hn.2 hr.2
    refine ⟨c1, fun ρ σ => ?_⟩
    simp only [exec, results_target, p1, c2, p2]
  | nest s =>
    intro above hw hn hr
    refine ⟨by rw [target_loops, target_loops], fun ρ σ => ?_⟩
    cases hold : old with
    | nil => subst hold; rw [List.nil_perm.mp hp]
    | cons i is =>
      obtain ⟨_, hns⟩ := noShadow_loops hn
      have hs : s.accumulates = true ∨ ∀ j ∈ old, j ∈ s.targetVars := by
        rw [hold] at hr
        have := hr.1 List.mem_cons_self
        rw [hold]
        have e1 : (List.foldr Stmt.loop s is).accumulates = s.accumulates := accumulates_loops s is
        have e2 : (List.foldr Stmt.loop s is).targetVars = s.targetVars := targetVars_loops s is
        rw [e1, e2] at this
        exact this
      rw [← hold, exec_loops, exec_loops]
      refine ((envs_perm hp ρ).foldl_eq' ?_ σ).symm
      intro ρ1 h1 ρ2 h2 τ
      exact exec_commute ((wellFormed_loops s old).mp hw) hns
        (fun i hi => List.mem_append_left _ hi) hs h2 h1 τ

/-! ### The rewriter -/

theorem replaceLoops_done {pat rep : List Nat} : ∀ (s : Stmt R) (m : Nat), pat.length ≤ m →
    replaceLoops pat rep s (some m) = (some s, some m) := by
  intro s
  induction s with
  | assign t is plus e => intro m _; rfl
  | loop i s ih =>
    intro m hm
    have : pat[m]? = none := List.getElem?_eq_none hm
    simp [replaceLoops, this, ih m hm]
  | wher c p ihc ihp => intro m hm; simp [replaceLoops, ihp m hm, ihc m hm]

theorem replaceLoops_nest {pat rep : List Nat} : ∀ (s : Stmt R) (m : Nat), 0 < m → m ≤ pat.length →
    (m < pat.length → isLoop s = true) → ∀ {s' : Stmt R} {st : Option Nat},
    replaceLoops pat rep s (some m) = (some s', st) →
    s = loops (pat.drop m) s' ∧ st = some pat.length := by
  intro s
  induction s with
  | assign t is plus e =>
    intro m h0 hm hl s' st h
    have hme : m = pat.length := by
      rcases Nat.lt_or_ge m pat.length with h' | h'
      · simpa [isLoop] using hl h'
      · omega
    subst hme
    rw [replaceLoops_done _ _ (Nat.le_refl _)] at h
    simp only [Prod.mk.injEq, Option.some.injEq] at h
    obtain ⟨rfl, rfl⟩ := h
    simp [loops]
  | wher c p _ _ =>
    intro m h0 hm hl s' st h
    have hme : m = pat.length := by
      rcases Nat.lt_or_ge m pat.length with h' | h'
      · simpa [isLoop] using hl h'
      · omega
    subst hme
    rw [replaceLoops_done _ _ (Nat.le_refl _)] at h
    simp only [Prod.mk.injEq, Option.some.injEq] at h
    obtain ⟨rfl, rfl⟩ := h
    simp [loops]
  | loop i s ih =>
    intro m h0 hm hl s' st h
    rcases Nat.lt_or_ge m pat.length with hlt | hge
    · have hx : pat[m]? = some pat[m] := List.getElem?_eq_getElem hlt
      simp only [replaceLoops, hx] at h
      split at h
      · rename_i hi
        split at h
        · simp at h
        · rename_i hnl
          rw [if_neg (by omega)] at h
          obtain ⟨h1, h2⟩ := ih (m + 1) (by omega) (by omega) (fun h' => by simpa [h'] using hnl) h
          refine ⟨?_, h2⟩
          rw [List.drop_eq_getElem_cons hlt, hi]
          show Stmt.loop _ s = Stmt.loop _ _
          rw [h1]; rfl
      · simp [h0] at h
    · have hme : m = pat.length := by omega
      subst hme
      rw [replaceLoops_done _ _ (Nat.le_refl _)] at h
      simp only [Prod.mk.injEq, Option.some.injEq] at h
      obtain ⟨rfl, rfl⟩ := h
      simp [loops]

theorem replaceLoops_replaced {pat rep : List Nat} : ∀ (s : Stmt R) {s' : Stmt R} {st : Option Nat},
    replaceLoops pat rep s (some 0) = (some s', st) → Replaced pat rep s s' ∧ st = some 0 := by
  intro s
  induction s with
  | assign t is plus e =>
    intro s' st h
    simp only [replaceLoops, Prod.mk.injEq, Option.some.injEq] at h
    obtain ⟨rfl, rfl⟩ := h
    exact ⟨.assign .., rfl⟩
  | wher c p ihc ihp =>
    intro s' st h
    simp only [replaceLoops, Prod.mk.injEq, Option.bind_eq_some_iff, Option.map_eq_some_iff] at h
    obtain ⟨⟨c', hc, p', hp, rfl⟩, hst⟩ := h
    obtain ⟨p1, p2⟩ := ihp (Prod.ext hp rfl)
    have p2' : (replaceLoops pat rep p (some 0)).2 = some 0 := p2
    rw [p2'] at hc hst
    obtain ⟨c1, c2⟩ := ihc (Prod.ext hc rfl)
    exact ⟨.wher c1 p1, by rw [← hst]; exact c2⟩
  | loop i s ih =>
    intro s' st h
    have default : ∀ {r : Option (Stmt R) × Option Nat},
        r = ((replaceLoops pat rep s (some 0)).1.map (.loop i), (replaceLoops pat rep s (some 0)).2) →
        r = (some s', st) → Replaced pat rep (.loop i s) s' ∧ st = some 0 := by
      intro r hr h
      rw [hr] at h
      simp only [Prod.mk.injEq, Option.map_eq_some_iff] at h
      obtain ⟨⟨s'', h1, rfl⟩, h2⟩ := h
      obtain ⟨q1, q2⟩ := ih (Prod.ext h1 rfl)
      exact ⟨.loop i q1, by rw [← h2]; exact q2⟩
    cases hx : pat[0]? with
    | none => simp only [replaceLoops, hx] at h; exact default rfl h
    | some x =>
      obtain ⟨hlt, hxe⟩ := List.getElem?_eq_some_iff.mp hx
      simp only [replaceLoops, hx] at h
      split at h
      · rename_i hi
        split at h
        · simp at h
        · rename_i hnl
          simp only [if_true, Prod.mk.injEq, Option.map_eq_some_iff] at h
          obtain ⟨⟨b, h1, rfl⟩, rfl⟩ := h
          obtain ⟨q1, _⟩ := replaceLoops_nest s 1 (by omega) (by omega)
            (fun h' => by simpa [h'] using hnl) (Prod.ext h1 rfl)
          refine ⟨?_, rfl⟩
          have : Stmt.loop i s = loops pat b := by
            have e : pat = pat[0] :: pat.drop 1 := by
              rw [← List.drop_eq_getElem_cons hlt]; simp
            rw [hi, ← hxe]
            conv => rhs; rw [e]
            show _ = Stmt.loop _ (loops (pat.drop 1) b)
            rw [← q1]
          rw [this]
          exact .nest b
      · rw [if_neg (by omega)] at h
        exact default rfl h

theorem forAllReplace_replaced {pat rep : List Nat} {s s' : Stmt R}
    (h : forAllReplace pat rep s = .ok s') : Replaced pat rep s s' := by
  unfold forAllReplace at h
  split at h
  · unfold replaceResult at h
    split at h
    · simp at h
    · rename_i r m hr
      split at h
      · cases r with
        | none => simp at h
        | some s'' =>
          simp only [Outcome.ok.injEq] at h
          subst h
          exact (replaceLoops_replaced s hr).1
      · simp at h
  · simp at h

theorem replaced_shadow {old new : List Nat} (ho : ¬ old.Nodup) {s s' : Stmt R}
    (h : Replaced old new s s') : ∀ (above : List Nat), s.noShadow above → s' = s := by
  induction h with
  | assign t is plus e => intro _ _; rfl
  | loop i _ ih => intro above hn; rw [ih _ hn.2]
  | wher _ _ ihc ihp => intro above hn; rw [ihc _ hn.1, ihp _ hn.2]
  | nest s => intro above hn; exact absurd (noShadow_loops hn).1 ho

theorem replaced_refl {is : List Nat} : ∀ (s : Stmt R), Replaced is is s s
  | .assign _ _ _ _ => .assign ..
  | .loop i s => .loop i (replaced_refl s)
  | .wher c p => .wher (replaced_refl c) (replaced_refl p)

theorem reorder_replaced {pat : List Nat} {s s' : Stmt R} (h : reorder pat s = .ok s')
    (hn : s.noShadow []) : ∃ old, old.Perm pat ∧ Replaced old pat s s' := by
  unfold reorder at h
  split at h
  · split at h
    · simp at h
    · rename_i hm
      simp only [Bool.or_eq_true, decide_eq_true_eq, not_or, ne_eq, not_not] at hm
      have hr := forAllReplace_replaced h
      by_cases hd : (currentOrdering pat s).Nodup
      · refine ⟨_, ?_, hr⟩
        have hsub : currentOrdering pat s ⊆ pat := by
          intro i hi
          simpa using (List.mem_filter.mp hi).2
        exact (List.subperm_of_subset hd hsub).perm_of_length_le (Nat.le_of_eq hm.2.symm)
      · rw [replaced_shadow hd hr [] hn]
        exact ⟨pat, List.Perm.refl _, replaced_refl s⟩
  · simp at h

/-! ### Acceptance -/

theorem loopVars_loops (s : Stmt R) : ∀ (is : List Nat), loopVars (loops is s) = is ++ loopVars s
  | [] => rfl
  | i :: is => by
    show i :: loopVars (loops is s) = _
    rw [loopVars_loops s is]; rfl

theorem matchFails_skip {pat : List Nat} {rest : List Nat} : ∀ (pre : List Nat),
    (∀ i ∈ pre, i ∉ pat) → matchFails pat 0 (pre ++ rest) = matchFails pat 0 rest
  | [], _ => rfl
  | i :: pre, h => by
    have hi : pat.contains i = false := by simpa using h i List.mem_cons_self
    simp only [List.cons_append, matchFails, hi]
    simpa using matchFails_skip pre fun j hj => h j (List.mem_cons_of_mem _ hj)

theorem matchFails_take {pat : List Nat} {rest : List Nat} : ∀ (cur : List Nat) (n : Nat),
    (∀ i ∈ cur, i ∈ pat) → matchFails pat n (cur ++ rest) = matchFails pat (n + cur.length) rest
  | [], _, _ => rfl
  | i :: cur, n, h => by
    have hi : pat.contains i = true := by simpa using h i List.mem_cons_self
    simp only [List.cons_append, matchFails, hi, if_true, List.length_cons]
    rw [matchFails_take cur (n + 1) fun j hj => h j (List.mem_cons_of_mem _ hj)]
    congr 1; omega

theorem matchFails_after {pat : List Nat} : ∀ (rest : List Nat), (∀ i ∈ rest, i ∉ pat) →
    matchFails pat pat.length rest = false
  | [], _ => rfl
  | i :: rest, h => by
    have hi : pat.contains i = false := by simpa using h i List.mem_cons_self
    simp only [matchFails, hi]
    simpa using matchFails_after rest fun j hj => h j (List.mem_cons_of_mem _ hj)

theorem replaceLoops_inside {pat rep : List Nat} (b : Stmt R) : ∀ (k m : Nat), 0 < m →
    m + k = pat.length →
    replaceLoops pat rep (loops (pat.drop m) b) (some m) = (some b, some pat.length) := by
  intro k
  induction k with
  | zero =>
    intro m _ h
    have : m = pat.length := by omega
    subst this
    simp only [List.drop_length]
    exact replaceLoops_done _ _ (Nat.le_refl _)
  | succ k ih =>
    intro m h0 h
    have hlt : m < pat.length := by omega
    rw [List.drop_eq_getElem_cons hlt]
    show replaceLoops pat rep (.loop pat[m] (loops (pat.drop (m + 1)) b)) (some m) = _
    have hx : pat[m]? = some pat[m] := List.getElem?_eq_getElem hlt
    simp only [replaceLoops, hx, if_true]
    rw [if_neg, if_neg (by omega)]
    · exact ih (m + 1) (by omega) (by omega)
    · simp only [Bool.and_eq_true, decide_eq_true_eq, not_and, Bool.not_eq_true]
      intro hlt'
      rw [List.drop_eq_getElem_cons hlt']; rfl

theorem replaceLoops_pre {pat rep : List Nat} {b : Stmt R} (hne : pat ≠ []) : ∀ (pre : List Nat),
    (∀ i ∈ pre, i ∉ pat) →
    replaceLoops pat rep (loops pre (loops pat b)) (some 0) =
      (some (loops pre (loops rep b)), some 0)
  | [], _ => by
    obtain ⟨x, is, rfl⟩ := List.exists_cons_of_ne_nil hne
    show replaceLoops (x :: is) rep (.loop x (loops is b)) (some 0) = _
    have hin := replaceLoops_inside (pat := x :: is) (rep := rep) b is.length 1 (by omega) (by simp; omega)
    simp only [List.drop_succ_cons, List.drop_zero] at hin
    simp only [replaceLoops, List.getElem?_cons_zero, if_true]
    rw [if_neg]
    · simp only [Nat.zero_add, hin]; rfl
    · simp only [Bool.and_eq_true, decide_eq_true_eq, not_and, Bool.not_eq_true]
      intro hlt'
      cases is with
      | nil => simp at hlt'
      | cons y is => rfl
  | i :: pre, h => by
    show replaceLoops pat rep (.loop i (loops pre (loops pat b))) (some 0) = _
    obtain ⟨x, is, rfl⟩ := List.exists_cons_of_ne_nil hne
    have hi : i ≠ x := fun e => h i List.mem_cons_self (e ▸ List.mem_cons_self)
    simp only [replaceLoops, List.getElem?_cons_zero, hi, if_false]
    rw [if_neg (by omega), replaceLoops_pre hne pre fun j hj => h j (List.mem_cons_of_mem _ hj)]
    rfl

theorem reorder_ok {pre cur pat : List Nat} {b : Stmt R}
    (hc : isConcrete [] false (loops pre (loops cur b)) = true) (hp : cur.Perm pat) (hne : pat ≠ [])
    (hpre : ∀ i ∈ pre, i ∉ pat) (hb : ∀ i ∈ loopVars b, i ∉ pat) :
    reorder pat (loops pre (loops cur b)) = .ok (loops pre (loops pat b)) := by
  have hcur : currentOrdering pat (loops pre (loops cur b)) = cur := by
    unfold currentOrdering
    rw [loopVars_loops, loopVars_loops, List.filter_append, List.filter_append]
    rw [List.filter_eq_nil_iff.mpr (by intro i hi; simpa using hpre i hi),
      (List.filter_eq_nil_iff (l := loopVars b)).mpr (by intro i hi; simpa using hb i hi),
      List.filter_eq_self.mpr (by intro i hi; simpa using hp.mem_iff.mp hi)]
    simp
  have hcne : cur ≠ [] := fun e => hne (by subst e; exact (List.nil_perm.mp hp))
  unfold reorder
  rw [if_pos hc, if_neg, hcur]
  · unfold forAllReplace
    rw [if_pos hc, replaceLoops_pre hcne pre fun i hi => fun h => hpre i hi (hp.mem_iff.mp h)]
    have : (cur.head?.any (loopVars (loops pre (loops cur b))).contains) = true := by
      obtain ⟨x, is, rfl⟩ := List.exists_cons_of_ne_nil hcne
      rw [loopVars_loops, loopVars_loops]
      simp
    rw [this]; rfl
  · rw [hcur, loopVars_loops, loopVars_loops, matchFails_skip pre hpre,
      matchFails_take cur 0 fun i hi => hp.mem_iff.mp hi, Nat.zero_add, hp.length_eq,
      matchFails_after _ hb]
    simp

end Verif.Concrete
