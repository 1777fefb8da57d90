import Verif.Query.Loops
import Verif.Query.Spec
import Verif.EndToEnd.Lemmas
/-! The query and the computation, loop by loop. -/
namespace Verif.Query
open Verif.Merge
open Verif.Merge.Expr
open Verif.EndToEnd

variable {V : Type}

/-! ### The expression of the query -/

theorem plain_qEval {sq : Rat → Rat} (hsq : sq 1 = 1) (lit : V → CVal) : ∀ {e : Expr V}, Plain e → qEval sq lit e = some (truth true) := by
  have hdiv : qBin .div (truth true) (truth true) = some (truth true) := by decide +kernel
  intro e
  induction e with
  | acc k => intro _; rfl
  | lit v => intro h; exact h.elim
  | un u a ih =>
    intro h
    cases u with
    | neg => exact h.elim
    | cast => exact h.elim
    | sqrt =>
      simp only [qEval]
      rw [ih h]
      simp only [Option.map_some, qUn, truth, if_true, hsq]
  | bin b l r ihl ihr =>
    intro h
    cases b with
    | sub => exact h.elim
    | add => simp only [qEval, ihl h.1, ihr h.2]; rfl
    | mul => simp only [qEval, ihl h.1, ihr h.2]; rfl
    | div => simp only [qEval, ihl h.1, ihr h.2]; exact hdiv

theorem plain_zeroOut {z : Nat → Bool} : ∀ {e e' : Expr V}, Plain e → e.zeroOut z = some e' → Plain e' := by
  intro e
  induction e with
  | acc k =>
    intro e' _ h
    simp only [zeroOut] at h
    split at h
    · cases h
    · cases h; trivial
  | lit v => intro e' h; exact h.elim
  | un u a ih =>
    intro e' hp h
    cases u with
    | neg => exact hp.elim
    | cast => exact hp.elim
    | sqrt =>
      simp only [zeroOut] at h
      cases ha : a.zeroOut z with
      | none => rw [ha] at h; cases h
      | some a' => rw [ha] at h; cases h; exact (ih hp ha : Plain a')
  | bin b l r ihl ihr =>
    intro e' hp h
    cases b with
    | sub => exact hp.elim
    | add =>
      simp only [zeroOut] at h
      cases hl : l.zeroOut z <;> cases hr : r.zeroOut z <;> rw [hl, hr] at h <;> simp only [Option.some.injEq, reduceCtorEq] at h <;> subst h
      · exact ihr hp.2 hr
      · exact ihl hp.1 hl
      · exact ⟨ihl hp.1 hl, ihr hp.2 hr⟩
    | mul =>
      simp only [zeroOut] at h
      cases hl : l.zeroOut z <;> cases hr : r.zeroOut z <;> rw [hl, hr] at h <;> simp only [Option.some.injEq, reduceCtorEq] at h <;> subst h
      exact ⟨ihl hp.1 hl, ihr hp.2 hr⟩
    | div =>
      simp only [zeroOut] at h
      cases hl : l.zeroOut z <;> cases hr : r.zeroOut z <;> rw [hl, hr] at h <;> simp only [Option.some.injEq, reduceCtorEq] at h <;> subst h
      exact ⟨ihl hp.1 hl, ihr hp.2 hr⟩

/-! ### One loop -/

/-- The coordinates a loop visits. -/
def seen (l : Loop) (pos : Nat → Nat) (e : Expr V) : List Nat :=
  (List.range l.n).filter (fun c => supp (ctxOf l) (present ⟨crdOf l pos e.leaves, l.n⟩ c) e)

def evOf (l : Loop) (pos : Nat → Nat) (e : Expr V) (c : Nat) : Event V := evAt (ctxOf l) e ⟨crdOf l pos e.leaves, l.n⟩ c

theorem mapM_flat {α β γ : Type} (f : α → Option (List γ)) (key : α → β) (g : β → List γ) : ∀ (l : List α),
    (∀ x ∈ l, f x = some (g (key x))) → (l.mapM f).map List.flatten = some ((l.map key).flatMap g) := by
  intro l h
  have : l.mapM f = some (l.map (fun x => g (key x))) := by
    induction l with
    | nil => rfl
    | cons x l ih =>
      rw [List.mapM_cons, h x (by simp), ih (fun y hy => h y (by simp [hy]))]
      rfl
  rw [this, Option.map_some, List.flatMap_def, List.map_map]
  rfl

variable {α : Type} {o : Ops V} {srt : List Point → List Point} {vals : Nat → List V} {l : Loop} {ls : List Loop} {pos : Nat → Nat} {e : Expr V}

/-- A loop without the test. -/
theorem loopG_outer (ho : ZeroLaws o) (hs : SortSpec srt) (hlin : ∀ l' ∈ l :: ls, Consistent (ctxOf l') e) (hin : Inside vals (l :: ls) pos e)
    {rt : Expr V → Bool} {inn : Bool} (hrt : (if inn then rt else fun _ => false) = fun _ => false)
    (below : (Nat → Nat) → Expr V → Option (List (List Nat × α))) (g : Nat → List (List Nat × α))
    (hg : ∀ c ∈ seen l pos e, ∀ e', (evOf l pos e c).stmt = some e' → below (nextPos l pos (evOf l pos e c)) e' = some (g c)) :
    loopG rt srt inn l below pos e = some ((seen l pos e).flatMap (fun c => (g c).map (fun x => (c :: x.1, x.2)))) := by
  obtain ⟨h1, h2, h3, _⟩ := loop_step o ho hs vals l ls pos e hlin hin
  unfold loopG
  rw [if_pos h1]
  simp only
  rw [hrt, runForallG_false, h2]
  simp only
  change Option.map List.flatten (List.mapM _ ((seen l pos e).map (evOf l pos e))) = _
  have hc : ∀ c, (evOf l pos e c).coord = c := fun _ => rfl
  rw [mapM_flat _ Event.coord (fun c => (g c).map (fun x => (c :: x.1, x.2)))]
  · rw [List.map_map]
    have : (Event.coord ∘ evOf l pos e) = id := by funext c; rfl
    rw [this, List.map_id]
  · intro ev hev
    obtain ⟨c, hcm, rfl⟩ := List.mem_map.1 hev
    have hcm' := List.mem_filter.1 hcm
    obtain ⟨e', he', _⟩ := h3 c (List.mem_range.1 hcm'.1) hcm'.2
    have he2 : (evOf l pos e c).stmt = some e' := he'
    rw [he2]
    simp only
    rw [hg c hcm e' he2, hc]
    rfl

/-- A loop with the test, around a statement that does not depend on the position. -/
theorem loopG_inner (ho : ZeroLaws o) (hs : SortSpec srt) (hlin : ∀ l' ∈ l :: ls, Consistent (ctxOf l') e) (hin : Inside vals (l :: ls) pos e)
    {rt : Expr V → Bool} {inn : Bool} (below : (Nat → Nat) → Expr V → Option (List (List Nat × α))) (g : List (List Nat × α))
    (hg : ∀ pos' e' z, e.zeroOut z = some e' → below pos' e' = some g) :
    loopG rt srt inn l below pos e = some ((seen l pos e).flatMap (fun c => g.map (fun x => (c :: x.1, x.2)))) := by
  obtain ⟨h1, h2, h3, _⟩ := loop_step o ho hs vals l ls pos e hlin hin
  obtain ⟨evsG, k1, k2⟩ := runForallG_same (rt := if inn then rt else fun _ => false) (inTree_ctxOf l) hs
    (hlin l List.mem_cons_self).self h2
  unfold loopG
  rw [if_pos h1]
  simp only
  rw [k1]
  simp only
  have hc : ∀ c, (evOf l pos e c).coord = c := fun _ => rfl
  rw [mapM_flat _ Event.coord (fun c => g.map (fun x => (c :: x.1, x.2)))]
  · rw [k2.coords, List.map_map]
    have : (Event.coord ∘ evAt (ctxOf l) e ⟨crdOf l pos e.leaves, l.n⟩) = id := by funext c; rfl
    rw [this, List.map_id]
    rfl
  · intro ev hev
    obtain ⟨z, hz⟩ := k2.stmts ev hev
    have hne : ev.stmt ≠ none := by
      apply k2.defined _ ev hev
      intro x hx
      obtain ⟨c, hcm, rfl⟩ := List.mem_map.1 hx
      have hcm' := List.mem_filter.1 hcm
      obtain ⟨e', he', _⟩ := h3 c (List.mem_range.1 hcm'.1) hcm'.2
      rw [he']; simp
    cases hst : ev.stmt with
    | none => exact absurd hst hne
    | some e' =>
      simp only
      rw [hg _ e' z (by rw [← hz, hst])]
      rfl

/-! ### The loops over the summation variables -/

theorem kernel_eq_nest (o : Ops V) (srt : List Point → List Point) (vals : Nat → List V) : ∀ (ls : List Loop) (pos : Nat → Nat) (e : Expr V),
    kernel o srt vals ls pos e = nest (fun _ => false) srt (evalAt o vals) ls pos e := by
  intro ls
  induction ls with
  | nil => intro pos e; rfl
  | cons l ls ih =>
    intro pos e
    simp only [kernel, nest, loopG, ite_self, runForallG_false]
    split
    · congr 1
      funext x
      congr 2
      funext ev
      cases ev.stmt with
      | none => rfl
      | some e' => simp only [ih]
    · rfl

theorem ite_fun_false {rt : Expr V → Bool} : (if false = true then rt else fun _ => false) = fun _ => false := rfl

/-- The value that replaces every value in the query. -/
def asTrue {β γ : Type} (evs : List (β × γ)) : List (β × CVal) := evs.map (fun x => (x.1, truth true))

theorem inner_spec (ho : ZeroLaws o) (hs : SortSpec srt) {sq : Rat → Rat} (hsq : sq 1 = 1) (lit : V → CVal) (rt : Expr V → Bool) :
    ∀ (ls : List Loop) (pos : Nat → Nat) (e : Expr V), (∀ l ∈ ls, Consistent (ctxOf l) e) → Inside vals ls pos e → Plain e →
    ∃ evs, kernel o srt vals ls pos e = some evs ∧ nest rt srt (fun _ e => qEval sq lit e) ls pos e = some (asTrue evs) := by
  intro ls
  induction ls with
  | nil =>
    intro pos e hlin hin hp
    obtain ⟨size, hwf⟩ := hin
    obtain ⟨h1, _⟩ := kernel_spec o ho hs vals [] pos e size hlin hwf
    refine ⟨_, h1, ?_⟩
    simp only [nest, plain_qEval hsq lit hp, Option.map_some]
    have hlen : kernel o srt vals [] pos e = (evalAt o vals pos e).map (fun v => [([], v)]) := rfl
    rw [hlen] at h1
    cases hv : evalAt o vals pos e with
    | none => rw [hv] at h1; cases h1
    | some v =>
      rw [hv] at h1
      simp only [Option.map_some, Option.some.injEq] at h1
      rw [← h1]; rfl
  | cons l ls ih =>
    intro pos e hlin hin hp
    obtain ⟨_, _, h3, _⟩ := loop_step o ho hs vals l ls pos e hlin hin
    have hex : ∀ c, ∃ g, c ∈ seen l pos e → ∀ e', (evOf l pos e c).stmt = some e' →
        kernel o srt vals ls (nextPos l pos (evOf l pos e c)) e' = some g ∧
        nest rt srt (fun _ e => qEval sq lit e) ls (nextPos l pos (evOf l pos e c)) e' = some (asTrue g) := by
      intro c
      by_cases hc : c ∈ seen l pos e
      · have hc' := List.mem_filter.1 hc
        obtain ⟨e', he', k1, k2, _⟩ := h3 c (List.mem_range.1 hc'.1) hc'.2
        have hpe : Plain e' := plain_zeroOut hp (show e.zeroOut _ = some e' from he')
        obtain ⟨g, g1, g2⟩ := ih _ e' k1 k2 hpe
        refine ⟨g, fun _ e'' he'' => ?_⟩
        have : (evOf l pos e c).stmt = some e' := he'
        rw [this] at he''
        cases he''
        exact ⟨g1, g2⟩
      · exact ⟨[], fun h => absurd h hc⟩
    obtain ⟨g, hg⟩ := Classical.axiomOfChoice hex
    refine ⟨(seen l pos e).flatMap (fun c => (g c).map (fun x => (c :: x.1, x.2))), ?_, ?_⟩
    · rw [kernel_eq_nest]
      show loopG _ _ _ _ _ _ _ = _
      refine loopG_outer ho hs hlin hin (ite_self _) _ g ?_
      intro c hc e' he'
      rw [← kernel_eq_nest]
      exact (hg c hc e' he').1
    · have hmap : asTrue ((seen l pos e).flatMap (fun c => (g c).map (fun x => (c :: x.1, x.2)))) =
          (seen l pos e).flatMap (fun c => (asTrue (g c)).map (fun x => (c :: x.1, x.2))) := by
        unfold asTrue
        rw [List.map_flatMap]
        simp only [List.map_map]
        rfl
      rw [hmap]
      show loopG _ _ _ _ _ _ _ = _
      cases ls with
      | cons l' ls' =>
        exact loopG_outer ho hs hlin hin ite_fun_false _ (fun c => asTrue (g c)) (fun c hc e' he' => (hg c hc e' he').2)
      | nil =>
        have hin' : loopG rt srt true l (nest rt srt (fun _ e => qEval sq lit e) []) pos e = some ((seen l pos e).flatMap
            (fun c => [([], truth true)].map (fun x : List Nat × CVal => (c :: x.1, x.2)))) := by
          refine loopG_inner ho hs hlin hin _ _ ?_
          intro pos' e' z hz
          simp only [nest, plain_qEval hsq lit (plain_zeroOut hp hz), Option.map_some]
        rw [show (List.isEmpty ([] : List Loop)) = true from rfl, hin']
        congr 1
        rw [List.flatMap_def, List.flatMap_def]
        congr 1
        apply List.map_congr_left
        intro c hc
        have hc' := List.mem_filter.1 hc
        obtain ⟨e', he', _⟩ := h3 c (List.mem_range.1 hc'.1) hc'.2
        have := (hg c hc e' he').2
        simp only [nest, plain_qEval hsq lit (plain_zeroOut hp (show e.zeroOut _ = some e' from he')), Option.map_some, Option.some.injEq] at this
        rw [← this]

/-! ### All loops -/

theorem leaf_sum (ho : ZeroLaws o) (hs : SortSpec srt) (hlin : ∀ l ∈ ls, Consistent (ctxOf l) e) (hin : Inside vals ls pos e)
    {evs : List (List Nat × V)} (h : kernel o srt vals ls pos e = some evs) :
    leafOf o ls evs = sumBox o (ls.map Loop.n) (fun x => evalAtPath o vals ls pos e x) := by
  obtain ⟨size, hwf⟩ := hin
  obtain ⟨h1, h2⟩ := kernel_spec o ho hs vals ls pos e size hlin hwf
  rw [h] at h1
  cases h1
  cases ls with
  | nil =>
    show e.eval o _ = o.bin .add o.zero (e.eval o _)
    rw [ho.zero_add]
  | cons l ls =>
    show List.foldl _ _ _ = _
    rw [List.foldl_map]
    unfold sumBox
    exact foldl_filter_zero o ho (fun path => e.eval o (fun k => valueAt o.zero (vals k) (levelsOf (l :: ls) k) path (pos k)))
      _ _ _ h2

theorem visits_spec (ho : ZeroLaws o) (hs : SortSpec srt) {sq : Rat → Rat} (hsq : sq 1 = 1) (lit : V → CVal) (rt : Expr V → Bool)
    (l2 : List Loop) : ∀ (l1 : List Loop) (pos : Nat → Nat) (e : Expr V), (∀ l ∈ l1 ++ l2, Consistent (ctxOf l) e) →
    Inside vals (l1 ++ l2) pos e → Plain e →
    ∃ vs, visits (fun _ => false) srt (kernel o srt vals) l1.length (l1 ++ l2) pos e = some vs ∧
      visits rt srt (nest rt srt (fun _ e => qEval sq lit e)) l1.length (l1 ++ l2) pos e = some (vs.map (fun v => (v.1, asTrue v.2))) ∧
      (vs.map Prod.fst).Nodup ∧
      (∀ v ∈ vs, v.1 ∈ box (l1.map Loop.n) ∧ (l2 = [] → v.2.length = 1) ∧
        leafOf o l2 v.2 = sumBox o (l2.map Loop.n) (fun x => evalAtPath o vals (l1 ++ l2) pos e (v.1 ++ x))) ∧
      ∀ path ∈ box (l1.map Loop.n), path ∉ vs.map Prod.fst → ∀ x, evalAtPath o vals (l1 ++ l2) pos e (path ++ x) = o.zero := by
  intro l1
  induction l1 with
  | nil =>
    intro pos e hlin hin hp
    obtain ⟨evs, h1, h2⟩ := inner_spec ho hs hsq lit rt l2 pos e hlin hin hp
    refine ⟨[([], evs)], ?_, ?_, by simp, ?_, ?_⟩
    · show (kernel o srt vals ([] ++ l2) pos e).map _ = _
      rw [List.nil_append, h1]; rfl
    · show (nest rt srt _ ([] ++ l2) pos e).map _ = _
      rw [List.nil_append, h2]; rfl
    · intro v hv
      rw [List.mem_singleton] at hv
      subst hv
      refine ⟨by simp [box], ?_, ?_⟩
      · intro hl2
        subst hl2
        have hk : kernel o srt vals [] pos e = (evalAt o vals pos e).map (fun v => [([], v)]) := rfl
        rw [hk] at h1
        cases hv : evalAt o vals pos e with
        | none => rw [hv] at h1; cases h1
        | some v =>
          rw [hv] at h1
          simp only [Option.map_some, Option.some.injEq] at h1
          rw [← h1]; rfl
      · exact leaf_sum ho hs hlin hin h1
    · intro path hpath hn
      exfalso
      apply hn
      simpa [box] using hpath
  | cons l l1 ih =>
    intro pos e hlin hin hp
    rw [List.cons_append] at hlin hin ⊢
    obtain ⟨_, _, h3, h4⟩ := loop_step o ho hs vals l (l1 ++ l2) pos e hlin hin
    have hex : ∀ c, ∃ g : List (List Nat × List (List Nat × V)), c ∈ seen l pos e → ∀ e', (evOf l pos e c).stmt = some e' →
        visits (fun _ => false) srt (kernel o srt vals) l1.length (l1 ++ l2) (nextPos l pos (evOf l pos e c)) e' = some g ∧
        visits rt srt (nest rt srt (fun _ e => qEval sq lit e)) l1.length (l1 ++ l2) (nextPos l pos (evOf l pos e c)) e' =
          some (g.map (fun v => (v.1, asTrue v.2))) ∧
        (g.map Prod.fst).Nodup ∧
        (∀ v ∈ g, v.1 ∈ box (l1.map Loop.n) ∧ (l2 = [] → v.2.length = 1) ∧
          leafOf o l2 v.2 = sumBox o (l2.map Loop.n) (fun x => evalAtPath o vals (l :: (l1 ++ l2)) pos e (c :: (v.1 ++ x)))) ∧
        ∀ path ∈ box (l1.map Loop.n), path ∉ g.map Prod.fst → ∀ x, evalAtPath o vals (l :: (l1 ++ l2)) pos e (c :: (path ++ x)) = o.zero := by
      intro c
      by_cases hc : c ∈ seen l pos e
      · have hc' := List.mem_filter.1 hc
        obtain ⟨e', he', k1, k2, k3⟩ := h3 c (List.mem_range.1 hc'.1) hc'.2
        have hpe : Plain e' := plain_zeroOut hp (show e.zeroOut _ = some e' from he')
        obtain ⟨g, g1, g2, g3, g4, g5⟩ := ih _ e' k1 k2 hpe
        refine ⟨g, fun _ e'' he'' => ?_⟩
        have : (evOf l pos e c).stmt = some e' := he'
        rw [this] at he''
        cases he''
        refine ⟨g1, g2, g3, ?_, ?_⟩
        · intro v hv
          obtain ⟨a, b, d⟩ := g4 v hv
          refine ⟨a, b, d.trans ?_⟩
          apply sumBox_congr
          intro x _
          exact k3 _
        · intro path hpath hn x
          rw [← g5 path hpath hn x]
          exact (k3 _).symm
      · exact ⟨[], fun h => absurd h hc⟩
    obtain ⟨g, hg⟩ := Classical.axiomOfChoice hex
    have hst : ∀ c ∈ seen l pos e, ∃ e', (evOf l pos e c).stmt = some e' ∧ e.zeroOut (zAbs (ctxOf l) (present ⟨crdOf l pos e.leaves, l.n⟩ c)) = some e' := by
      intro c hc
      have hc' := List.mem_filter.1 hc
      obtain ⟨e', he', _⟩ := h3 c (List.mem_range.1 hc'.1) hc'.2
      exact ⟨e', he', he'⟩
    have hnd : (seen l pos e).Nodup := List.Pairwise.filter _ List.nodup_range
    refine ⟨(seen l pos e).flatMap (fun c => (g c).map (fun x => (c :: x.1, x.2))), ?_, ?_, ?_, ?_, ?_⟩
    · show loopG _ _ _ _ _ _ _ = _
      refine loopG_outer ho hs hlin hin (ite_self _) _ g ?_
      intro c hc e' he'
      exact (hg c hc e' he').1
    · have hmap : ((seen l pos e).flatMap (fun c => (g c).map (fun x => (c :: x.1, x.2)))).map (fun v => (v.1, asTrue v.2)) =
          (seen l pos e).flatMap (fun c => ((g c).map (fun v => (v.1, asTrue v.2))).map (fun x => (c :: x.1, x.2))) := by
        rw [List.map_flatMap]
        simp only [List.map_map]
        rfl
      rw [hmap]
      show loopG _ _ _ _ _ _ _ = _
      cases hls : l1 ++ l2 with
      | cons l' ls' =>
        rw [← hls]
        have : (l1 ++ l2).isEmpty = false := by rw [hls]; rfl
        rw [this]
        exact loopG_outer ho hs hlin hin ite_fun_false _ (fun c => (g c).map (fun v => (v.1, asTrue v.2)))
          (fun c hc e' he' => (hg c hc e' he').2.1)
      | nil =>
        have h1 : l1 = [] := (List.append_eq_nil_iff.1 hls).1
        have h2 : l2 = [] := (List.append_eq_nil_iff.1 hls).2
        subst h1; subst h2
        have hleaf : ∀ pos' e' z, e.zeroOut z = some e' →
            visits rt srt (nest rt srt (fun _ e => qEval sq lit e)) 0 [] pos' e' = some [([], [([], truth true)])] := by
          intro pos' e' z hz
          simp only [visits, nest, plain_qEval hsq lit (plain_zeroOut hp hz), Option.map_some]
        have hin' : loopG rt srt true l (visits rt srt (nest rt srt (fun _ e => qEval sq lit e)) 0 []) pos e = some ((seen l pos e).flatMap
            (fun c => [(([] : List Nat), [(([] : List Nat), truth true)])].map (fun x => (c :: x.1, x.2)))) :=
          loopG_inner ho hs hlin hin _ _ hleaf
        rw [show (List.isEmpty ([] : List Loop)) = true from rfl]
        refine Eq.trans hin' ?_
        congr 1
        rw [List.flatMap_def, List.flatMap_def]
        congr 1
        apply List.map_congr_left
        intro c hc
        obtain ⟨e', he', hz⟩ := hst c hc
        have := (hg c hc e' he').2.1
        rw [show ([] : List Loop) ++ [] = [] from rfl, show ([] : List Loop).length = 0 from rfl, hleaf _ e' _ hz] at this
        simp only [Option.some.injEq] at this
        rw [← this]
    · rw [List.map_flatMap]
      unfold List.Nodup
      rw [List.pairwise_flatMap]
      constructor
      · intro c hc
        obtain ⟨e', he', _⟩ := hst c hc
        have := (hg c hc e' he').2.2.1
        unfold List.Nodup at this
        rw [List.map_map, List.pairwise_map]
        rw [List.pairwise_map] at this
        refine this.imp ?_
        intro a b hab heq
        exact hab (List.cons.inj heq).2
      · refine hnd.imp ?_
        intro c d hcd a ha b hb heq
        obtain ⟨a', ha', rfl⟩ := List.mem_map.1 ha
        obtain ⟨b', hb', rfl⟩ := List.mem_map.1 hb
        obtain ⟨a'', _, rfl⟩ := List.mem_map.1 ha'
        obtain ⟨b'', _, rfl⟩ := List.mem_map.1 hb'
        exact hcd (List.cons.inj heq).1
    · intro v hv
      obtain ⟨c, hc, hv⟩ := List.mem_flatMap.1 hv
      obtain ⟨w, hw, rfl⟩ := List.mem_map.1 hv
      obtain ⟨e', he', _⟩ := hst c hc
      obtain ⟨a, b, d⟩ := (hg c hc e' he').2.2.2.1 w hw
      refine ⟨?_, b, d⟩
      simp only [List.map_cons, box, List.mem_flatMap, List.mem_map]
      exact ⟨c, (List.mem_filter.1 hc).1, w.1, a, rfl⟩
    · intro path hpath hn x
      simp only [List.map_cons, box, List.mem_flatMap, List.mem_map] at hpath
      obtain ⟨c, hc, p, hp', rfl⟩ := hpath
      by_cases hcs : c ∈ seen l pos e
      · obtain ⟨e', he', _⟩ := hst c hcs
        apply (hg c hcs e' he').2.2.2.2 p hp'
        intro hm
        apply hn
        obtain ⟨w, hw, rfl⟩ := List.mem_map.1 hm
        exact List.mem_map.2 ⟨(c :: w.1, w.2), List.mem_flatMap.2 ⟨c, hcs, List.mem_map.2 ⟨w, hw, rfl⟩⟩, rfl⟩
      · refine h4 c (List.mem_range.1 hc) ?_ _
        cases hsu : supp (ctxOf l) (present ⟨crdOf l pos e.leaves, l.n⟩ c) e with
        | false => rfl
        | true => exact absurd (List.mem_filter.2 ⟨hc, hsu⟩) hcs

end Verif.Query
