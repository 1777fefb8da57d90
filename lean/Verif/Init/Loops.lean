import Mathlib.Data.List.Nodup
import Verif.Init.Mem
/-! The loops of the program, from the kernels of `Verif/Merge`. -/
namespace Verif.Init
open Verif.Merge
open Verif.Merge.Expr
open Verif.EndToEnd (Inside evalAtPath loop_step)

variable {V : Type}

/-! ### The loops below a position -/

theorem mem_mapM {α β : Type} {f : α → Option β} : ∀ {l : List α} {xs : List β}, l.mapM f = some xs → ∀ y ∈ xs,
    ∃ a ∈ l, f a = some y := by
  intro l
  induction l with
  | nil => intro xs h y hy; cases h; cases hy
  | cons a l ih =>
    intro xs h y hy
    rw [List.mapM_cons] at h
    cases hf : f a with
    | none => rw [hf] at h; cases h
    | some b =>
      rw [hf] at h
      cases hl : l.mapM f with
      | none => rw [hl] at h; cases h
      | some bs =>
        rw [hl] at h
        cases h
        rcases List.mem_cons.1 hy with rfl | hy'
        · exact ⟨a, List.mem_cons_self, hf⟩
        · obtain ⟨a', ha', h'⟩ := ih hl y hy'
          exact ⟨a', List.mem_cons_of_mem _ ha', h'⟩

theorem mapM_mem {α β : Type} {f : α → Option β} : ∀ {l : List α} {xs : List β}, l.mapM f = some xs → ∀ a ∈ l,
    ∃ y ∈ xs, f a = some y := by
  intro l
  induction l with
  | nil => intro xs _ a ha; cases ha
  | cons b l ih =>
    intro xs h a ha
    rw [List.mapM_cons] at h
    cases hf : f b with
    | none => rw [hf] at h; cases h
    | some y =>
      rw [hf] at h
      cases hl : l.mapM f with
      | none => rw [hl] at h; cases h
      | some ys =>
        rw [hl] at h
        cases h
        rcases List.mem_cons.1 ha with rfl | ha'
        · exact ⟨y, List.mem_cons_self, hf⟩
        · obtain ⟨y', hy', h'⟩ := ih hl a ha'
          exact ⟨y', List.mem_cons_of_mem _ hy', h'⟩

theorem storesOf_append (a b : List (Act V)) : storesOf (a ++ b) = storesOf a ++ storesOf b := by
  induction a with
  | nil => rfl
  | cons x a ih =>
    cases x with
    | init => exact ih
    | store path v => simp [storesOf, ih]

theorem storesOf_flatten (xs : List (List (Act V))) : storesOf xs.flatten = (xs.map storesOf).flatten := by
  induction xs with
  | nil => rfl
  | cons x xs ih => rw [List.flatten_cons, storesOf_append, ih]; rfl

theorem storesOf_under (c : Nat) (as : List (Act V)) :
    storesOf (as.map (Act.under c)) = (storesOf as).map (fun cv => (c :: cv.1, cv.2)) := by
  induction as with
  | nil => rfl
  | cons x as ih =>
    cases x with
    | init => exact ih
    | store path v => simp [storesOf, Act.under, ih]

/-- The assignments of the loops below are at the coordinates these loops visit. -/
theorem actions_of_positions (o : Ops V) (lit : V) (srt : List Point → List Point) (vals : Nat → List V) (mark : Nat → Bool) (inn : List Loop)
    (g : (Nat → Nat) × Expr V → V) :
    ∀ (vls : List (Nat × Loop)) (pos : Nat → Nat) (e : Expr V) (ps : List (List Nat × (Nat → Nat) × Expr V)),
      positions srt (vls.map Prod.snd) pos e = some ps →
      (∀ x ∈ ps, (kernel o srt vals inn x.2.1 x.2.2).map (leafVal o lit inn) = some (g x.2)) →
      ∃ as, actions o lit srt vals mark inn vls pos e = some as ∧ storesOf as = ps.map (fun x => (x.1, g x.2)) := by
  intro vls
  induction vls with
  | nil =>
    intro pos e ps h hg
    cases h
    have := hg _ List.mem_cons_self
    obtain ⟨evs, h1, h2⟩ := Option.map_eq_some_iff.1 this
    refine ⟨[.store [] (leafVal o lit inn evs)], ?_, ?_⟩
    · simp only [actions]
      rw [show kernel o srt vals inn pos e = some evs from h1]
      rfl
    · rw [h2]; rfl
  | cons x vls ih =>
    obtain ⟨v, l⟩ := x
    intro pos e ps h hg
    simp only [positions, List.map_cons] at h
    simp only [actions]
    split at h
    · rename_i hseg
      rw [if_pos hseg]
      cases hrun : runForall (ctxOf l) srt ⟨crdOf l pos e.leaves, l.n⟩
        (l.n + (e.leaves.map (fun k => (crdOf l pos e.leaves k).length)).sum) e with
      | none => rw [hrun] at h; cases h
      | some evs =>
        rw [hrun] at h
        simp only at h ⊢
        obtain ⟨xs, hxs, rfl⟩ := Option.map_eq_some_iff.1 h
        have hlist : ∀ (L : List (Event V)) (xs : List (List (List Nat × (Nat → Nat) × Expr V))),
            L.mapM (fun (ev : Event V) => match ev.stmt with
              | none => some []
              | some e' => (positions srt (vls.map Prod.snd) (nextPos l pos ev) e').map
                (List.map (fun (x : List Nat × (Nat → Nat) × Expr V) => (ev.coord :: x.1, x.2)))) = some xs →
            (∀ x ∈ xs.flatten, (kernel o srt vals inn x.2.1 x.2.2).map (leafVal o lit inn) = some (g x.2)) →
            ∃ ass, L.mapM (fun (ev : Event V) => match ev.stmt with
              | none => some []
              | some e' => (actions o lit srt vals mark inn vls (nextPos l pos ev) e').map (List.map (Act.under ev.coord))) = some ass ∧
              (ass.map storesOf).flatten = xs.flatten.map (fun x => (x.1, g x.2)) := by
          intro L
          induction L with
          | nil => intro xs h _; cases h; exact ⟨[], rfl, rfl⟩
          | cons ev L ihL =>
            intro xs h hg
            rw [List.mapM_cons] at h
            cases h1 : (match ev.stmt with
              | none => some []
              | some e' => (positions srt (vls.map Prod.snd) (nextPos l pos ev) e').map
                (List.map (fun (x : List Nat × (Nat → Nat) × Expr V) => (ev.coord :: x.1, x.2)))) with
            | none => rw [h1] at h; cases h
            | some y =>
              rw [h1] at h
              cases h2 : L.mapM (fun (ev : Event V) => match ev.stmt with
                | none => some []
                | some e' => (positions srt (vls.map Prod.snd) (nextPos l pos ev) e').map
                  (List.map (fun (x : List Nat × (Nat → Nat) × Expr V) => (ev.coord :: x.1, x.2)))) with
              | none => rw [h2] at h; cases h
              | some ys =>
                rw [h2] at h
                cases h
                obtain ⟨ass, a1, a2⟩ := ihL ys h2 (fun x hx => hg x (by rw [List.flatten_cons]; exact List.mem_append_right _ hx))
                have hy : ∃ as, (match ev.stmt with
                    | none => some []
                    | some e' => (actions o lit srt vals mark inn vls (nextPos l pos ev) e').map (List.map (Act.under ev.coord))) = some as ∧
                    storesOf as = y.map (fun x => (x.1, g x.2)) := by
                  cases hst : ev.stmt with
                  | none => rw [hst] at h1; cases h1; exact ⟨[], rfl, rfl⟩
                  | some e' =>
                    rw [hst] at h1
                    simp only at h1 ⊢
                    obtain ⟨ps', hp', rfl⟩ := Option.map_eq_some_iff.1 h1
                    obtain ⟨as', b1, b2⟩ := ih _ _ ps' hp' (fun x hx => hg (ev.coord :: x.1, x.2)
                      (by rw [List.flatten_cons]; exact List.mem_append_left _ (List.mem_map.2 ⟨x, hx, rfl⟩)))
                    refine ⟨as'.map (Act.under ev.coord), by rw [b1]; rfl, ?_⟩
                    rw [storesOf_under, b2, List.map_map, List.map_map]
                    rfl
                obtain ⟨as, c1, c2⟩ := hy
                refine ⟨as :: ass, ?_, ?_⟩
                · rw [List.mapM_cons, c1, a1]; rfl
                · rw [List.map_cons, List.flatten_cons, c2, a2, List.flatten_cons, List.map_append]
        obtain ⟨ass, a1, a2⟩ := hlist evs xs hxs hg
        refine ⟨_, congrArg (Option.map (fun xs => (if mark v = true then [Act.init] else []) ++ xs.flatten)) a1, ?_⟩
        rw [storesOf_append, storesOf_flatten, a2]
        split <;> rfl
    · cases h

theorem actions_unmarked (o : Ops V) (lit : V) (srt : List Point → List Point) (vals : Nat → List V) (mark : Nat → Bool) (inn : List Loop) :
    ∀ (vls : List (Nat × Loop)) (pos : Nat → Nat) (e : Expr V) (as : List (Act V)), (∀ x ∈ vls, mark x.1 = false) →
      actions o lit srt vals mark inn vls pos e = some as → as = (storesOf as).map toStore := by
  intro vls
  induction vls with
  | nil =>
    intro pos e as _ h
    simp only [actions, Option.map_eq_some_iff] at h
    obtain ⟨v, _, rfl⟩ := h
    rfl
  | cons x vls ih =>
    obtain ⟨v, l⟩ := x
    intro pos e as hm h
    simp only [actions] at h
    rw [hm (v, l) List.mem_cons_self] at h
    split at h
    · split at h
      · cases h
      · rename_i evs _
        simp only [Option.map_eq_some_iff] at h
        obtain ⟨xs, hxs, rfl⟩ := h
        simp only [Bool.false_eq_true, if_false, List.nil_append]
        rw [storesOf_flatten, List.map_flatten, List.map_map]
        congr 1
        refine (List.map_id xs).symm.trans ?_
        apply List.map_congr_left
        intro y hy
        obtain ⟨ev, _, hev⟩ := mem_mapM hxs _ hy
        simp only [Function.comp, id]
        split at hev
        · cases hev; rfl
        · simp only [Option.map_eq_some_iff] at hev
          obtain ⟨as', h1, rfl⟩ := hev
          rw [storesOf_under, List.map_map]
          rw [show (toStore ∘ (fun (cv : List Nat × V) => (ev.coord :: cv.1, cv.2))) = Act.under ev.coord ∘ toStore from by funext z; rfl]
          conv => lhs; rw [ih _ _ _ (fun x hx => hm x (List.mem_cons_of_mem _ hx)) h1]
          rw [List.map_map]
    · cases h

theorem actions_congr (o : Ops V) (lit : V) (srt : List Point → List Point) (vals : Nat → List V) (mark mark' : Nat → Bool) (inn : List Loop) :
    ∀ (vls : List (Nat × Loop)) (pos : Nat → Nat) (e : Expr V), (∀ x ∈ vls, mark x.1 = mark' x.1) →
      actions o lit srt vals mark inn vls pos e = actions o lit srt vals mark' inn vls pos e := by
  intro vls
  induction vls with
  | nil => intro pos e _; rfl
  | cons x vls ih =>
    obtain ⟨v, l⟩ := x
    intro pos e h
    simp only [actions]
    rw [h (v, l) List.mem_cons_self]
    split
    · split
      · rfl
      · congr 2
        funext ev
        cases ev.stmt with
        | none => rfl
        | some e' => simp only; rw [ih _ _ (fun x hx => h x (List.mem_cons_of_mem _ hx))]
    · rfl

theorem actions_marked (o : Ops V) (lit : V) (srt : List Point → List Point) (vals : Nat → List V) (mark : Nat → Bool) (inn : List Loop)
    (v : Nat) (l : Loop) (vls : List (Nat × Loop)) (pos : Nat → Nat) (e : Expr V) (as : List (Act V)) (hv : mark v = true)
    (hm : ∀ x ∈ vls, mark x.1 = false) (h : actions o lit srt vals mark inn ((v, l) :: vls) pos e = some as) :
    as = .init :: (storesOf as).map toStore := by
  have h' : ∃ as', actions o lit srt vals (fun _ => false) inn ((v, l) :: vls) pos e = some as' ∧ as = .init :: as' := by
    simp only [actions] at h ⊢
    rw [hv] at h
    split at h
    · rename_i hs
      rw [if_pos hs]
      split at h
      · cases h
      · rename_i evs hev
        simp only [Option.map_eq_some_iff] at h
        obtain ⟨xs, hxs, rfl⟩ := h
        refine ⟨xs.flatten, ?_, rfl⟩
        simp only [Option.map_eq_some_iff]
        refine ⟨xs, ?_, rfl⟩
        rw [← hxs]
        congr 1
        funext ev
        cases ev.stmt with
        | none => rfl
        | some e' =>
          simp only
          rw [actions_congr o lit srt vals (fun _ => false) mark inn vls _ _ (fun x hx => (hm x hx).symm)]
    · cases h
  obtain ⟨as', h1, rfl⟩ := h'
  have := actions_unmarked o lit srt vals (fun _ => false) inn ((v, l) :: vls) pos e as' (fun _ _ => rfl) h1
  rw [show storesOf (Act.init :: as') = storesOf as' from rfl, ← this]

/-! ### The loops above -/

theorem positions_spec (o : Ops V) (ho : ZeroLaws o) {srt : List Point → List Point} (hs : SortSpec srt) (vals : Nat → List V)
    (lb : List Loop) : ∀ (lu : List Loop) (pos : Nat → Nat) (e : Expr V), (∀ l ∈ lu ++ lb, Consistent (ctxOf l) e) →
      Inside vals (lu ++ lb) pos e →
      ∃ ps, positions srt lu pos e = some ps ∧ (ps.map Prod.fst).Nodup ∧
        (∀ x ∈ ps, x.1 ∈ box (lu.map Loop.n) ∧ (∀ l ∈ lb, Consistent (ctxOf l) x.2.2) ∧ Inside vals lb x.2.1 x.2.2 ∧
          (∀ k ∈ x.2.2.leaves, k ∈ e.leaves) ∧
          ∀ q, evalAtPath o vals lb x.2.1 x.2.2 q = evalAtPath o vals (lu ++ lb) pos e (x.1 ++ q)) ∧
        ∀ path ∈ box (lu.map Loop.n), path ∉ ps.map Prod.fst → ∀ q, evalAtPath o vals (lu ++ lb) pos e (path ++ q) = o.zero := by
  intro lu
  induction lu with
  | nil =>
    intro pos e hc hin
    refine ⟨[([], pos, e)], rfl, by simp, ?_, ?_⟩
    · intro x hx
      rw [List.mem_singleton] at hx
      subst hx
      exact ⟨by simp [box], hc, hin, fun _ h => h, fun _ => rfl⟩
    · intro path hp hn
      simp only [List.map_nil, box, List.mem_singleton] at hp
      subst hp
      exact absurd (by simp) hn
  | cons l lu ih =>
    intro pos e hc hin
    obtain ⟨h1, h2, h3, h4⟩ := loop_step o ho hs vals l (lu ++ lb) pos e hc hin
    let S : Nat → Bool := fun c => supp (ctxOf l) (present ⟨crdOf l pos e.leaves, l.n⟩ c) e
    let E : Nat → Event V := evAt (ctxOf l) e ⟨crdOf l pos e.leaves, l.n⟩
    -- what is below each visited coordinate
    have hex : ∀ c, ∃ b : List (List Nat × (Nat → Nat) × Expr V), c ∈ (List.range l.n).filter S →
        ((match (E c).stmt with
          | none => some []
          | some e' => (positions srt lu (nextPos l pos (E c)) e').map
            (List.map (fun (x : List Nat × (Nat → Nat) × Expr V) => ((E c).coord :: x.1, x.2)))) = some (b.map (fun x => (c :: x.1, x.2))) ∧
        (b.map Prod.fst).Nodup ∧
        (∀ x ∈ b, x.1 ∈ box (lu.map Loop.n) ∧ (∀ l ∈ lb, Consistent (ctxOf l) x.2.2) ∧ Inside vals lb x.2.1 x.2.2 ∧
          (∀ k ∈ x.2.2.leaves, k ∈ e.leaves) ∧
          ∀ q, evalAtPath o vals lb x.2.1 x.2.2 q = evalAtPath o vals (l :: (lu ++ lb)) pos e (c :: (x.1 ++ q))) ∧
        ∀ path ∈ box (lu.map Loop.n), path ∉ b.map Prod.fst → ∀ q, evalAtPath o vals (l :: (lu ++ lb)) pos e (c :: (path ++ q)) = o.zero) := by
      intro c
      by_cases hcm : c ∈ (List.range l.n).filter S
      · rw [List.mem_filter, List.mem_range] at hcm
        obtain ⟨e', he', hc', hin', hev⟩ := h3 c hcm.1 hcm.2
        obtain ⟨ps, hp1, hp2, hp3, hp4⟩ := ih _ e' hc' hin'
        refine ⟨ps, fun _ => ⟨?_, hp2, ?_, ?_⟩⟩
        · show (match (E c).stmt with | none => some [] | some e' => _) = _
          rw [show (E c).stmt = some e' from he']
          simp only
          rw [show positions srt lu (nextPos l pos (E c)) e' = some ps from hp1]
          rfl
        · intro x hx
          obtain ⟨a1, a2, a3, a4, a5⟩ := hp3 x hx
          refine ⟨a1, a2, a3, ?_, ?_⟩
          · intro k hk
            exact (leaves_zeroOut (show e.zeroOut _ = some e' from he') k (a4 k hk)).1
          · intro q
            rw [a5 q, hev]
        · intro path hpa hn q
          rw [← hev]
          exact hp4 path hpa hn q
      · exact ⟨[], fun h => absurd h hcm⟩
    obtain ⟨B, hB⟩ := Classical.axiomOfChoice hex
    refine ⟨((List.range l.n).filter S).flatMap (fun c => (B c).map (fun x => (c :: x.1, x.2))), ?_, ?_, ?_, ?_⟩
    · simp only [positions]
      rw [if_pos h1]
      rw [show runForall (ctxOf l) srt ⟨crdOf l pos e.leaves, l.n⟩
        (l.n + (e.leaves.map (fun k => (crdOf l pos e.leaves k).length)).sum) e = some (((List.range l.n).filter S).map E) from h2]
      simp only
      have hmm : ∀ (L : List Nat) (f : Event V → Option (List (List Nat × (Nat → Nat) × Expr V))) (g : Nat → List (List Nat × (Nat → Nat) × Expr V)),
          (∀ c ∈ L, f (E c) = some (g c)) → (L.map E).mapM f = some (L.map g) := by
        intro L f g
        induction L with
        | nil => intro _; rfl
        | cons a L ih' =>
          intro h
          rw [List.map_cons, List.mapM_cons, h a List.mem_cons_self, ih' (fun c hc => h c (List.mem_cons_of_mem _ hc))]
          rfl
      rw [hmm _ _ (fun c => (B c).map (fun x => (c :: x.1, x.2))) (fun c hc => (hB c hc).1)]
      simp only [Option.map_some]
      rw [List.flatMap_def]
    · rw [List.map_flatMap]
      have hnd : ((List.range l.n).filter S).Nodup := List.nodup_range.filter _
      rw [List.nodup_flatMap]
      constructor
      · intro c hcm
        rw [List.map_map]
        have := (hB c hcm).2.1
        have h' : ((B c).map Prod.fst).map (c :: ·) = (B c).map (Prod.fst ∘ fun x => (c :: x.1, x.2)) := by
          rw [List.map_map]; rfl
        rw [← h']
        exact this.map (fun a b hab => (List.cons.inj hab).2)
      · refine hnd.imp ?_
        intro c c' hcc p hp1 hp2
        simp only [List.map_map] at hp1 hp2
        obtain ⟨x, _, rfl⟩ := List.mem_map.1 hp1
        obtain ⟨y, _, hy⟩ := List.mem_map.1 hp2
        exact hcc (List.cons.inj hy).1.symm
    · intro x hx
      obtain ⟨c, hcm, hx'⟩ := List.mem_flatMap.1 hx
      obtain ⟨y, hy, rfl⟩ := List.mem_map.1 hx'
      obtain ⟨a1, a2, a3, a4, a5⟩ := (hB c hcm).2.2.1 y hy
      refine ⟨?_, a2, a3, a4, fun q => a5 q⟩
      simp only [List.map_cons, box, List.mem_flatMap]
      exact ⟨c, (List.mem_filter.1 hcm).1, List.mem_map.2 ⟨y.1, a1, rfl⟩⟩
    · intro path hpa hn q
      simp only [List.map_cons, box, List.mem_flatMap] at hpa
      obtain ⟨c, hcr, hpa'⟩ := hpa
      obtain ⟨path', hp', rfl⟩ := List.mem_map.1 hpa'
      by_cases hS : S c = true
      · have hcm : c ∈ (List.range l.n).filter S := List.mem_filter.2 ⟨hcr, hS⟩
        apply (hB c hcm).2.2.2 path' hp'
        intro hmem
        apply hn
        obtain ⟨y, hy, rfl⟩ := List.mem_map.1 hmem
        exact List.mem_map.2 ⟨(c :: y.1, y.2), List.mem_flatMap.2 ⟨c, hcm, List.mem_map.2 ⟨y, hy, rfl⟩⟩, rfl⟩
      · exact h4 c (List.mem_range.1 hcr) (by simpa using hS) (path' ++ q)

/-! ### Loops that visit everything -/

theorem supp_full {K : Ctx} {R : Nat → Bool} (hin : InTree K) : ∀ {e : Expr V}, (∀ k ∈ e.leaves, K k ≠ some compressedAttr) →
    supp K R e = true := by
  intro e
  induction e with
  | acc k =>
    intro h
    simp only [supp]
    cases hk : K k with
    | none => rfl
    | some a =>
      have := h k (by simp [Expr.leaves])
      rcases hin k a hk with rfl | rfl
      · rfl
      · exact absurd hk this
  | lit v => intro _; rfl
  | un u a ih => intro h; exact ih h
  | bin b l r ihl ihr =>
    intro h
    have h1 := ihl (fun k hk => h k (List.mem_append_left _ hk))
    have h2 := ihr (fun k hk => h k (List.mem_append_right _ hk))
    cases b <;> simp [supp, h1, h2]

theorem positions_full (o : Ops V) (ho : ZeroLaws o) {srt : List Point → List Point} (hs : SortSpec srt) (vals : Nat → List V)
    (lb : List Loop) : ∀ (lu : List Loop) (pos : Nat → Nat) (e : Expr V), (∀ l ∈ lu ++ lb, Consistent (ctxOf l) e) →
      Inside vals (lu ++ lb) pos e → (∀ l ∈ lu, ∀ k ∈ e.leaves, ctxOf l k ≠ some compressedAttr) →
      ∀ ps, positions srt lu pos e = some ps → ∀ path ∈ box (lu.map Loop.n), path ∈ ps.map Prod.fst := by
  intro lu
  induction lu with
  | nil =>
    intro pos e _ _ _ ps h path hp
    cases h
    simpa [box] using hp
  | cons l lu ih =>
    intro pos e hc hin hf ps h path hp
    obtain ⟨h1, h2, h3, _⟩ := loop_step o ho hs vals l (lu ++ lb) pos e hc hin
    simp only [positions] at h
    rw [if_pos h1] at h
    rw [h2] at h
    simp only at h
    obtain ⟨xs, hxs, rfl⟩ := Option.map_eq_some_iff.1 h
    simp only [List.map_cons, box, List.mem_flatMap] at hp
    obtain ⟨c, hcr, hp'⟩ := hp
    obtain ⟨path', hpa, rfl⟩ := List.mem_map.1 hp'
    have hcn := List.mem_range.1 hcr
    have hsupp : supp (ctxOf l) (present ⟨crdOf l pos e.leaves, l.n⟩ c) e = true := supp_full (inTree_ctxOf l) (hf l List.mem_cons_self)
    have hz : e.zeroOut (zAbs (ctxOf l) (present ⟨crdOf l pos e.leaves, l.n⟩ c)) = some e := by
      apply zeroOut_none
      intro k hk
      unfold zAbs
      have := hf l List.mem_cons_self k hk
      simp [this]
    obtain ⟨e', he', hc', hin', _⟩ := h3 c hcn hsupp
    have hee : e' = e := by
      have : (evAt (ctxOf l) e ⟨crdOf l pos e.leaves, l.n⟩ c).stmt = some e := hz
      rw [this] at he'
      exact (Option.some.inj he').symm
    subst hee
    have hmem : evAt (ctxOf l) e' ⟨crdOf l pos e'.leaves, l.n⟩ c ∈
        ((List.range l.n).filter (fun c => supp (ctxOf l) (present ⟨crdOf l pos e'.leaves, l.n⟩ c) e')).map
          (evAt (ctxOf l) e' ⟨crdOf l pos e'.leaves, l.n⟩) := List.mem_map_of_mem (List.mem_filter.2 ⟨hcr, hsupp⟩)
    obtain ⟨y, hy, hye⟩ := mapM_mem hxs _ hmem
    rw [he'] at hye
    simp only at hye
    obtain ⟨ps', hp1, rfl⟩ := Option.map_eq_some_iff.1 hye
    have := ih _ e' hc' hin' (fun l' hl' => hf l' (List.mem_cons_of_mem _ hl')) ps' hp1 path' hpa
    obtain ⟨z, hz1, rfl⟩ := List.mem_map.1 this
    refine List.mem_map.2 ⟨(c :: z.1, z.2), ?_, rfl⟩
    rw [List.mem_flatten]
    exact ⟨_, hy, List.mem_map.2 ⟨z, hz1, rfl⟩⟩

theorem sparseLoop_sound {srt : List Point → List Point} (hs : SortSpec srt) {l : Loop} {e : Expr V}
    (hc : consistent (ctxOf l) e) (h : sparseLoop srt l e = false) : ∀ k ∈ e.leaves, ctxOf l k ≠ some compressedAttr := by
  intro k hk hK
  have hL := latOK_build (inTree_ctxOf l) hs e hc
  obtain ⟨p, ps, hps, hdom, _⟩ := hL.root
  obtain ⟨q, hq, hkq⟩ := hL.leavesIn k hk (by rw [hK]; simp)
  have hkp : It.lev k ∈ p.all := hdom q hq hkq
  have hfull : (It.lev k).isFull (ctxOf l) = false := by
    simp only [It.isFull, hK]; rfl
  -- the first point stays
  have hhead : ∃ rest, makeLattice (ctxOf l) srt e = p :: rest := by
    unfold makeLattice getLoopLattice
    rw [hps]
    have : removeLackFull (ctxOf l) (p :: ps) = p :: (removeLackFull (ctxOf l) (p :: ps)).tail := by
      unfold removeLackFull
      rw [List.filter_cons, if_pos]
      · rfl
      · rw [List.all_eq_true]
        intro x hx
        simpa [latIters] using (List.mem_filter.1 hx).1
    rw [this]
    exact ⟨_, removeIdentical_cons_nil _ _⟩
  obtain ⟨rest, hr⟩ := hhead
  unfold sparseLoop at h
  simp only [hr, latIters, latLocs, Bool.or_eq_false_iff, List.any_eq_false] at h
  rcases List.mem_append.1 hkp with hi | hi
  · have := h.1 _ hi
    simp [hfull, It.isDim] at this
  · have := h.2 _ hi
    simp [hfull] at this

end Verif.Init
