import Verif.Library.Model
/-! Lemmas for `Verif.Library.Theorems`. -/
namespace Verif.Library

/-! ### Histories -/

theorem added_append (m : Nat) : ∀ h k, added m (h ++ k) = added m h ++ added m k
  | [], _ => rfl
  | .new :: h, k => added_append m h k
  | .add i f :: h, k => by
    show (if i = m then f :: added m (h ++ k) else added m (h ++ k)) = (if i = m then f :: added m h else added m h) ++ _
    rw [added_append m h k]
    split <;> rfl
  | .source .. :: h, k => added_append m h k
  | .compile _ :: h, k => added_append m h k

theorem sources_append (m : Nat) : ∀ h k, sources m (h ++ k) = sources m h ++ sources m k
  | [], _ => rfl
  | .new :: h, k => sources_append m h k
  | .add .. :: h, k => sources_append m h k
  | .source i t :: h, k => by
    show (if i = m then t :: sources m (h ++ k) else sources m (h ++ k)) = (if i = m then t :: sources m h else sources m h) ++ _
    rw [sources_append m h k]
    split <;> rfl
  | .compile _ :: h, k => sources_append m h k

theorem made_append : ∀ h k, made (h ++ k) = made h + made k
  | [], _ => by simp [made]
  | .new :: h, k => by
    show made (h ++ k) + 1 = made h + 1 + made k
    rw [made_append h k]; omega
  | .add .. :: h, k => made_append h k
  | .source .. :: h, k => made_append h k
  | .compile _ :: h, k => made_append h k

theorem run_append (paths : Nat → Nat) : ∀ (p : Proc) (h k : List Op), run paths p (h ++ k) = run paths (run paths p h) k
  | _, [], _ => rfl
  | p, o :: h, k => run_append paths (step paths p o).1 h k

/-! ### The loader -/

/-- What holds between calls. -/
structure Inv (paths : Nat → Nat) (p : Proc) : Prop where
  path : ∀ (i : Nat) (m : Mod), p.mods[i]? = some m → m.path = paths i
  opened : ∀ (i : Nat) (m : Mod) (q : Nat), p.mods[i]? = some m → m.handle = some q → q = m.path ∧ ∃ l, p.loaded q = some (l, 1)
  shut : ∀ (i : Nat) (m : Mod), p.mods[i]? = some m → m.handle = none → p.loaded m.path = none
  only : ∀ x : Nat, p.loaded x ≠ none → ∃ i : Nat, i < p.mods.length ∧ x = paths i

theorem close_loaded {paths : Nat → Nat} {p : Proc} {i : Nat} {m : Mod} (hp : Inv paths p) (h : p.mods[i]? = some m) (x : Nat) :
    close p.loaded m.handle x = if x = m.path then none else p.loaded x := by
  cases hh : m.handle with
  | none =>
    show p.loaded x = _
    split
    · rename_i e; rw [e]; exact hp.shut i m h hh
    · rfl
  | some q =>
    obtain ⟨rfl, l, hl⟩ := hp.opened i m q h hh
    show dlclose p.loaded m.path x = _
    unfold dlclose
    rw [hl]; rfl

/-- What `compile` does. -/
theorem compile_spec {paths : Nat → Nat} {p : Proc} {i : Nat} {m : Mod} (hp : Inv paths p) (h : p.mods[i]? = some m) :
    (once (text m) = false ∧ (compileMod p i m).2 = .failed ∧ (compileMod p i m).1.mods = p.mods.set i (generate m) ∧ ∀ x, (compileMod p i m).1.loaded x = p.loaded x)
    ∨ (once (text m) = true ∧ (compileMod p i m).2 = (if closed (text m) then .done else .failed)
      ∧ (compileMod p i m).1.mods = p.mods.set i { generate m with handle := if closed (text m) then some m.path else none }
      ∧ ∀ x, (compileMod p i m).1.loaded x = if x = m.path then (if closed (text m) then some (text m, 1) else none) else p.loaded x) := by
  unfold compileMod
  cases ho : once (text m) with
  | false => exact .inl ⟨rfl, rfl, rfl, fun _ => rfl⟩
  | true =>
    right
    have hn : close p.loaded m.handle m.path = none := by rw [close_loaded hp h]; simp
    have hx := close_loaded hp h
    by_cases hcl : closed (text m) = true
    · have hd : dlopen (close p.loaded m.handle) m.path (text m) = (put (close p.loaded m.handle) m.path (some (text m, 1)), some m.path) := by
        unfold dlopen; simp only [hn]; rw [if_pos hcl]
      simp only [if_true, hd, if_pos hcl]
      refine ⟨trivial, rfl, trivial, fun x => ?_⟩
      unfold put
      split
      · rfl
      · rename_i e; rw [hx, if_neg e]
    · have hd : dlopen (close p.loaded m.handle) m.path (text m) = (close p.loaded m.handle, none) := by
        unfold dlopen; simp only [hn]; rw [if_neg hcl]
      simp only [if_true, hd, if_neg hcl]
      exact ⟨trivial, rfl, trivial, hx⟩

/-! ### Good states -/

/-- A module after a history. -/
def Local (h : List Op) (i : Nat) (m : Mod) : Prop :=
  m.funcs = added i h ∧ (m.user = true ↔ sources i h ≠ []) ∧ ∃ g, m.source = g ++ (sources i h).flatten ∧ (added i h = [] → g = [])

/-- A process after a history. -/
structure Good (paths : Nat → Nat) (h : List Op) (p : Proc) : Prop where
  len : p.mods.length = made h
  inv : Inv paths p
  fresh : ∀ i : Nat, made h ≤ i → added i h = [] ∧ sources i h = []
  loc : ∀ (i : Nat) (m : Mod), p.mods[i]? = some m → Local h i m

theorem good_start (paths : Nat → Nat) : Good paths [] Proc.start :=
  ⟨rfl, ⟨fun i m h => by simp [Proc.start] at h, fun i m q h => by simp [Proc.start] at h, fun i m h => by simp [Proc.start] at h, fun x h => absurd rfl h⟩,
    fun _ _ => ⟨rfl, rfl⟩, fun i m h => by simp [Proc.start] at h⟩

theorem local_other {h : List Op} {i : Nat} {m : Mod} {o : Op} (hl : Local h i m) (ha : added i [o] = []) (hs : sources i [o] = []) : Local (h ++ [o]) i m := by
  obtain ⟨h1, h2, g, h3, h4⟩ := hl
  refine ⟨?_, ?_, g, ?_, ?_⟩
  · rw [added_append, ha, List.append_nil]; exact h1
  · rw [sources_append, hs, List.append_nil]; exact h2
  · rw [sources_append, hs, List.append_nil]; exact h3
  · rw [added_append, ha, List.append_nil]; exact h4

theorem local_generate {h : List Op} {i : Nat} {m : Mod} (hd : Option Nat) (hl : Local h i m) : Local h i { generate m with handle := hd } := by
  obtain ⟨h1, h2, g, h3, h4⟩ := hl
  unfold generate
  by_cases hu : m.user = true
  · rw [if_pos hu]; exact ⟨h1, h2, g, h3, h4⟩
  · rw [if_neg hu]
    have hs : sources i h = [] := Classical.byContradiction fun hne => hu (h2.mpr hne)
    refine ⟨h1, h2, m.funcs, ?_, fun ha => ?_⟩
    · rw [hs]; simp
    · rw [h1, ha]

theorem set_get {l : List Mod} {i j : Nat} {m x : Mod} (h : (l.set i m)[j]? = some x) : (j = i ∧ x = m) ∨ (j ≠ i ∧ l[j]? = some x) := by
  by_cases e : j = i
  · subst e
    rw [List.getElem?_set_self'] at h
    cases hj : l[j]? with
    | none => rw [hj] at h; cases h
    | some y => rw [hj] at h; left; exact ⟨rfl, (Option.some.inj h).symm⟩
  · rw [List.getElem?_set_ne (fun h' => e h'.symm)] at h
    exact .inr ⟨e, h⟩

theorem inv_same {paths : Nat → Nat} {p p' : Proc} {i : Nat} {m m' : Mod} (hp : Inv paths p) (h : p.mods[i]? = some m) (hm : p'.mods = p.mods.set i m') (hl : ∀ x, p'.loaded x = p.loaded x)
    (h1 : m'.path = m.path) (h2 : m'.handle = m.handle) : Inv paths p' := by
  refine ⟨fun j x hj => ?_, fun j x q hj hq => ?_, fun j x hj hq => ?_, fun x hx => ?_⟩
  · rw [hm] at hj
    rcases set_get hj with ⟨rfl, rfl⟩ | ⟨_, hj⟩
    · rw [h1]; exact hp.path j m h
    · exact hp.path j x hj
  · rw [hm] at hj
    rw [hl]
    rcases set_get hj with ⟨rfl, rfl⟩ | ⟨_, hj⟩
    · rw [h1]; exact hp.opened j m q h (by rw [← h2]; exact hq)
    · exact hp.opened j x q hj hq
  · rw [hm] at hj
    rw [hl]
    rcases set_get hj with ⟨rfl, rfl⟩ | ⟨_, hj⟩
    · rw [h1]; exact hp.shut j m h (by rw [← h2]; exact hq)
    · exact hp.shut j x hj hq
  · rw [hl] at hx
    rw [hm, List.length_set]
    exact hp.only x hx

theorem loc_set {h : List Op} {l : List Mod} {i : Nat} {m' : Mod} {o : Op} (hloc : ∀ j m, l[j]? = some m → Local h j m) (hi : Local (h ++ [o]) i m')
    (ho : ∀ j, j ≠ i → added j [o] = [] ∧ sources j [o] = []) : ∀ j m, (l.set i m')[j]? = some m → Local (h ++ [o]) j m := by
  intro j m hj
  rcases set_get hj with ⟨rfl, rfl⟩ | ⟨hne, hj⟩
  · exact hi
  · exact local_other (hloc j m hj) (ho j hne).1 (ho j hne).2

theorem fresh_step {h : List Op} {o : Op} (hf : ∀ i : Nat, made h ≤ i → added i h = [] ∧ sources i h = []) (hm : Made (made h) [o]) :
    ∀ i : Nat, made (h ++ [o]) ≤ i → added i (h ++ [o]) = [] ∧ sources i (h ++ [o]) = [] := by
  intro i hi
  rw [made_append] at hi
  obtain ⟨h1, h2⟩ := hf i (by omega)
  rw [added_append, sources_append, h1, h2]
  cases o with
  | new => exact ⟨rfl, rfl⟩
  | compile j => exact ⟨rfl, rfl⟩
  | add j f =>
    have : j ≠ i := by have := hm.1; omega
    exact ⟨by simp [added, this], rfl⟩
  | source j t =>
    have : j ≠ i := by have := hm.1; omega
    exact ⟨rfl, by simp [sources, this]⟩

theorem good_step {paths : Nat → Nat} {h : List Op} {p : Proc} {o : Op} (hinj : ∀ i j, paths i = paths j → i = j) (hg : Good paths h p) (hm : Made (made h) [o]) :
    Good paths (h ++ [o]) (step paths p o).1 := by
  cases o with
  | new =>
    have hget : ∀ {i : Nat} {m : Mod}, (p.mods ++ [⟨paths p.mods.length, none, [], [], false⟩])[i]? = some m →
        (p.mods[i]? = some m) ∨ (i = p.mods.length ∧ m = ⟨paths p.mods.length, none, [], [], false⟩) := by
      intro i m hi
      rcases Nat.lt_trichotomy i p.mods.length with hlt | heq | hgt
      · left; rwa [List.getElem?_append_left hlt] at hi
      · right
        subst heq
        rw [List.getElem?_concat_length] at hi
        exact ⟨rfl, (Option.some.inj hi).symm⟩
      · rw [List.getElem?_eq_none (by simp; omega)] at hi; cases hi
    have hfresh : p.loaded (paths p.mods.length) = none := by
      cases hl : p.loaded (paths p.mods.length) with
      | none => rfl
      | some v =>
        obtain ⟨i, hi, e⟩ := hg.inv.only _ (by rw [hl]; simp)
        have := hinj _ _ e
        omega
    have hnothing := hg.fresh p.mods.length (by rw [hg.len]; exact Nat.le_refl _)
    refine ⟨by show (p.mods ++ [_]).length = _; rw [List.length_append, made_append, hg.len]; rfl, ⟨fun i m hi => ?_, fun i m q hi hq => ?_, fun i m hi hq => ?_, fun x hx => ?_⟩, ?_, ?_⟩
    · rcases hget hi with hi | ⟨rfl, rfl⟩
      · exact hg.inv.path i m hi
      · rfl
    · rcases hget hi with hi | ⟨rfl, rfl⟩
      · exact hg.inv.opened i m q hi hq
      · cases hq
    · rcases hget hi with hi | ⟨rfl, rfl⟩
      · exact hg.inv.shut i m hi hq
      · exact hfresh
    · obtain ⟨i, hi, e⟩ := hg.inv.only x hx
      exact ⟨i, by show i < (p.mods ++ [_]).length; rw [List.length_append]; omega, e⟩
    · intro i hi
      rw [made_append] at hi
      have := hg.fresh i (by omega)
      rw [added_append, sources_append, this.1, this.2]; exact ⟨rfl, rfl⟩
    · intro i m hi
      rcases hget hi with hi | ⟨rfl, rfl⟩
      · exact local_other (hg.loc i m hi) rfl rfl
      · refine ⟨?_, ?_, [], ?_, fun _ => rfl⟩
        · rw [added_append, hnothing.1]; rfl
        · rw [sources_append, hnothing.2]; exact ⟨(fun h => nomatch h), fun h => absurd rfl h⟩
        · rw [sources_append, hnothing.2]; rfl
  | add j f =>
    have hj : j < p.mods.length := by rw [hg.len]; exact hm.1
    obtain ⟨m, hmj⟩ : ∃ m, p.mods[j]? = some m := ⟨_, List.getElem?_eq_getElem hj⟩
    have e : (step paths p (.add j f)).1 = setMod p j { m with funcs := m.funcs ++ [f] } := by unfold step; simp only [hmj]
    rw [e]
    refine ⟨by show (p.mods.set _ _).length = _; rw [List.length_set, made_append, hg.len]; rfl, inv_same hg.inv hmj rfl (fun _ => rfl) rfl rfl, fresh_step hg.fresh hm, loc_set hg.loc ?_ ?_⟩
    · obtain ⟨h1, h2, g, h3, h4⟩ := hg.loc j m hmj
      have ha : added j [.add j f] = [f] := by simp [added]
      refine ⟨?_, ?_, g, ?_, ?_⟩
      · rw [added_append, ha]; exact congrArg (· ++ [f]) h1
      · rw [sources_append]; simpa [sources] using h2
      · rw [sources_append]; simpa [sources] using h3
      · rw [added_append, ha]; intro hx; simp at hx
    · intro k hk
      have : j ≠ k := fun h => hk h.symm
      exact ⟨by simp [added, this], rfl⟩
  | source j t =>
    have hj : j < p.mods.length := by rw [hg.len]; exact hm.1
    obtain ⟨m, hmj⟩ : ∃ m, p.mods[j]? = some m := ⟨_, List.getElem?_eq_getElem hj⟩
    have e : (step paths p (.source j t)).1 = setMod p j { m with source := m.source ++ t, user := true } := by unfold step; simp only [hmj]
    rw [e]
    refine ⟨by show (p.mods.set _ _).length = _; rw [List.length_set, made_append, hg.len]; rfl, inv_same hg.inv hmj rfl (fun _ => rfl) rfl rfl, fresh_step hg.fresh hm, loc_set hg.loc ?_ ?_⟩
    · obtain ⟨h1, h2, g, h3, h4⟩ := hg.loc j m hmj
      have ha : sources j [.source j t] = [t] := by simp [sources]
      refine ⟨?_, ?_, g, ?_, ?_⟩
      · rw [added_append]; simpa [added] using h1
      · rw [sources_append, ha]; simp
      · rw [sources_append, ha]
        show m.source ++ t = _
        rw [h3]; simp
      · rw [added_append]; simpa [added] using h4
    · intro k hk
      have : j ≠ k := fun h => hk h.symm
      exact ⟨rfl, by simp [sources, this]⟩
  | compile j =>
    have hj : j < p.mods.length := by rw [hg.len]; exact hm.1
    obtain ⟨m, hmj⟩ : ∃ m, p.mods[j]? = some m := ⟨_, List.getElem?_eq_getElem hj⟩
    have e : (step paths p (.compile j)).1 = (compileMod p j m).1 := by unfold step; simp only [hmj]
    rw [e]
    have gp : (generate m).path = m.path ∧ (generate m).handle = m.handle := by unfold generate; split <;> exact ⟨rfl, rfl⟩
    have hlen : made (h ++ [.compile j]) = made h := by rw [made_append]; rfl
    rcases compile_spec hg.inv hmj with ⟨_, _, h3, h4⟩ | ⟨_, _, h3, h4⟩
    · refine ⟨by rw [h3, List.length_set, hlen, hg.len], inv_same hg.inv hmj h3 h4 gp.1 gp.2, fresh_step hg.fresh hm, ?_⟩
      rw [h3]
      refine loc_set hg.loc ?_ fun _ _ => ⟨rfl, rfl⟩
      have := local_other (o := .compile j) (local_generate (generate m).handle (hg.loc j m hmj)) rfl rfl
      exact this
    · have hpj := hg.inv.path j m hmj
      refine ⟨by rw [h3, List.length_set, hlen, hg.len], ⟨fun i x hi => ?_, fun i x q hi hq => ?_, fun i x hi hq => ?_, fun x hx => ?_⟩, fresh_step hg.fresh hm, ?_⟩
      · rw [h3] at hi
        rcases set_get hi with ⟨rfl, rfl⟩ | ⟨_, hi⟩
        · exact gp.1.trans hpj
        · exact hg.inv.path i x hi
      · rw [h3] at hi
        rcases set_get hi with ⟨rfl, rfl⟩ | ⟨hne, hi⟩
        · replace hq : (if closed (text m) then some m.path else none) = some q := hq
          split at hq
          · rename_i hcl
            have := (Option.some.inj hq).symm
            subst this
            exact ⟨gp.1.symm, text m, by rw [h4, if_pos rfl, if_pos hcl]⟩
          · cases hq
        · obtain ⟨e1, l, e2⟩ := hg.inv.opened i x q hi hq
          refine ⟨e1, l, ?_⟩
          rw [h4, if_neg, e2]
          intro e
          rw [e1, hg.inv.path i x hi, hpj] at e
          exact hne (hinj _ _ e)
      · rw [h3] at hi
        rcases set_get hi with ⟨rfl, rfl⟩ | ⟨hne, hi⟩
        · replace hq : (if closed (text m) then some m.path else none) = none := hq
          show (compileMod p i m).1.loaded (generate m).path = none
          rw [gp.1, h4, if_pos rfl]
          split at hq
          · cases hq
          · rename_i hcl; rw [if_neg hcl]
        · rw [h4, if_neg, hg.inv.shut i x hi hq]
          intro e
          rw [hg.inv.path i x hi, hpj] at e
          exact hne (hinj _ _ e)
      · rw [h3, List.length_set]
        by_cases ex : x = m.path
        · exact ⟨j, hj, ex.trans hpj⟩
        · rw [h4, if_neg ex] at hx
          exact hg.inv.only x hx
      · rw [h3]
        refine loc_set hg.loc ?_ fun _ _ => ⟨rfl, rfl⟩
        exact local_other (o := .compile j) (local_generate _ (hg.loc j m hmj)) rfl rfl

theorem good_run {paths : Nat → Nat} (hinj : ∀ i j, paths i = paths j → i = j) : ∀ {k h : List Op} {p : Proc}, Good paths h p → Made (made h) k → Good paths (h ++ k) (run paths p k)
  | [], h, p, hg, _ => by rw [List.append_nil]; exact hg
  | o :: k, h, p, hg, hm => by
    have h1 : Made (made h) [o] := by
      cases o with
      | new => trivial
      | add j f => exact ⟨hm.1, trivial⟩
      | source j t => exact ⟨hm.1, trivial⟩
      | compile j => exact ⟨hm.1, trivial⟩
    have h2 : Made (made (h ++ [o])) k := by
      rw [made_append]
      cases o with
      | new => exact hm
      | add j f => exact hm.2
      | source j t => exact hm.2
      | compile j => exact hm.2
    have := good_run hinj (good_step hinj hg h1) h2
    rw [List.append_assoc] at this
    exact this

theorem made_split : ∀ {n : Nat} {h k : List Op}, Made n (h ++ k) → Made n h ∧ Made (n + made h) k
  | _, [], _, hm => ⟨trivial, hm⟩
  | n, .new :: h, k, hm => by
    obtain ⟨h1, h2⟩ := made_split (n := n + 1) (h := h) (k := k) hm
    refine ⟨h1, ?_⟩
    show Made (n + (made h + 1)) k
    rw [show n + (made h + 1) = n + 1 + made h by omega]; exact h2
  | _, .add .. :: h, k, hm => let ⟨h1, h2⟩ := made_split (h := h) (k := k) hm.2; ⟨⟨hm.1, h1⟩, h2⟩
  | _, .source .. :: h, k, hm => let ⟨h1, h2⟩ := made_split (h := h) (k := k) hm.2; ⟨⟨hm.1, h1⟩, h2⟩
  | _, .compile _ :: h, k, hm => let ⟨h1, h2⟩ := made_split (h := h) (k := k) hm.2; ⟨⟨hm.1, h1⟩, h2⟩

/-! ### Calls -/

/-- The library of a module. -/
def libOf (p : Proc) (i : Nat) : Option (List Def) :=
  match p.mods[i]? with
  | some m =>
    match m.handle with
    | some q => (p.loaded q).map Prod.fst
    | none => none
  | none => none

/-- A call in a library. -/
def callIn (l : Option (List Def)) (n : Name) : Ran :=
  match l with
  | some l =>
    match find l (shimName n) with
    | some d => exec l d
    | none => .undefined
  | none => .undefined

theorem call_eq (p : Proc) (i : Nat) (n : Name) : call p i n = callIn (libOf p i) n := by
  unfold call libOf
  cases p.mods[i]? with
  | none => rfl
  | some m =>
    obtain ⟨_, hd, _, _, _⟩ := m
    cases hd with
    | none => rfl
    | some q =>
      show (match p.loaded q with | some (l, _) => _ | none => _) = callIn ((p.loaded q).map Prod.fst) n
      cases p.loaded q with
      | none => rfl
      | some v => obtain ⟨l, c⟩ := v; rfl

theorem libOf_set_ne {p p' : Proc} {i j : Nat} {m : Mod} (hne : j ≠ i) (hm : p'.mods = p.mods.set i m) (hl : ∀ x q, p.mods[j]? = some x → x.handle = some q → p'.loaded q = p.loaded q) :
    libOf p' j = libOf p j := by
  unfold libOf
  rw [hm, List.getElem?_set_ne (fun h => hne h.symm)]
  cases hx : p.mods[j]? with
  | none => rfl
  | some x =>
    show (match x.handle with | some q => _ | none => _) = (match x.handle with | some q => _ | none => _)
    cases hq : x.handle with
    | none => rfl
    | some q => exact congrArg (Option.map Prod.fst) (hl x q hx hq)

theorem libOf_set_eq {p p' : Proc} {i : Nat} {m m' : Mod} (h : p.mods[i]? = some m) (hm : p'.mods = p.mods.set i m') (hh : m'.handle = m.handle) (hl : ∀ x, p'.loaded x = p.loaded x) :
    libOf p' i = libOf p i := by
  unfold libOf
  have : i < p.mods.length := by
    rcases Nat.lt_or_ge i p.mods.length with hlt | hge
    · exact hlt
    · rw [List.getElem?_eq_none hge] at h; cases h
  rw [hm, List.getElem?_set_self this, h]
  show (match m'.handle with | some q => _ | none => _) = (match m.handle with | some q => _ | none => _)
  rw [hh]
  cases m.handle with
  | none => rfl
  | some q => exact congrArg (Option.map Prod.fst) (hl q)

/-- Whether an operation compiles a module. -/
def Compiles (i : Nat) (o : Op) : Prop := o = .compile i

theorem lib_step {paths : Nat → Nat} {h : List Op} {p : Proc} {o : Op} {i : Nat} (hinj : ∀ i j, paths i = paths j → i = j) (hg : Good paths h p) (hm : Made (made h) [o])
    (hi : i < made h) (ho : o ≠ .compile i) : libOf (step paths p o).1 i = libOf p i := by
  cases o with
  | new =>
    unfold libOf
    show (match (p.mods ++ [_])[i]? with | some m => _ | none => _) = _
    rw [List.getElem?_append_left (by rw [hg.len]; exact hi)]
    rfl
  | add j f =>
    obtain ⟨m, hmj⟩ : ∃ m, p.mods[j]? = some m := ⟨_, List.getElem?_eq_getElem (by rw [hg.len]; exact hm.1)⟩
    have e : (step paths p (.add j f)).1 = setMod p j { m with funcs := m.funcs ++ [f] } := by unfold step; simp only [hmj]
    rw [e]
    by_cases hij : i = j
    · subst hij; exact libOf_set_eq hmj rfl rfl fun _ => rfl
    · exact libOf_set_ne hij rfl fun _ _ _ _ => rfl
  | source j t =>
    obtain ⟨m, hmj⟩ : ∃ m, p.mods[j]? = some m := ⟨_, List.getElem?_eq_getElem (by rw [hg.len]; exact hm.1)⟩
    have e : (step paths p (.source j t)).1 = setMod p j { m with source := m.source ++ t, user := true } := by unfold step; simp only [hmj]
    rw [e]
    by_cases hij : i = j
    · subst hij; exact libOf_set_eq hmj rfl rfl fun _ => rfl
    · exact libOf_set_ne hij rfl fun _ _ _ _ => rfl
  | compile j =>
    have hij : i ≠ j := fun e => ho (by rw [e])
    obtain ⟨m, hmj⟩ : ∃ m, p.mods[j]? = some m := ⟨_, List.getElem?_eq_getElem (by rw [hg.len]; exact hm.1)⟩
    have e : (step paths p (.compile j)).1 = (compileMod p j m).1 := by unfold step; simp only [hmj]
    rw [e]
    rcases compile_spec hg.inv hmj with ⟨_, _, h3, h4⟩ | ⟨_, _, h3, h4⟩
    · exact libOf_set_ne hij h3 fun _ q _ _ => h4 q
    · refine libOf_set_ne hij h3 fun x q hx hq => ?_
      rw [h4, if_neg]
      intro e
      obtain ⟨e1, _⟩ := hg.inv.opened i x q hx hq
      rw [e1, hg.inv.path i x hx, hg.inv.path j m hmj] at e
      exact hij (hinj _ _ e)

theorem lib_run {paths : Nat → Nat} (hinj : ∀ i j, paths i = paths j → i = j) {i : Nat} : ∀ {k h : List Op} {p : Proc}, Good paths h p → Made (made h) k → i < made h → .compile i ∉ k →
    libOf (run paths p k) i = libOf p i
  | [], _, _, _, _, _, _ => rfl
  | o :: k, h, p, hg, hm, hi, ho => by
    obtain ⟨h1, h2⟩ := made_split (h := [o]) (k := k) hm
    rw [← made_append] at h2
    show libOf (run paths (step paths p o).1 k) i = _
    rw [lib_run hinj (good_step hinj hg h1) h2 (by rw [made_append]; omega) (fun hx => ho (List.mem_cons_of_mem _ hx)), lib_step hinj hg h1 hi (fun e => ho (by rw [e]; exact List.mem_cons_self))]

/-! ### Texts -/

theorem fits_once {ds : List Def} (h : Fits ds) : once ds = true := decide_eq_true h.once

theorem fits_closed {ds : List Def} (h : Fits ds) : closed ds = true := by
  unfold closed
  rw [List.all_eq_true]
  intro d hd
  rw [List.all_eq_true]
  intro n hn
  rw [List.contains_iff_mem]
  exact h.closed d hd n hn

theorem find_once : ∀ {l : List Def} {d : Def}, (l.map Def.name).Nodup → d ∈ l → find l d.name = some d
  | [], _, _, h => nomatch h
  | e :: l, d, hn, hd => by
    unfold find
    rw [List.map_cons, List.nodup_cons] at hn
    rcases List.mem_cons.mp hd with rfl | hd
    · rw [List.find?_cons_of_pos (by simp)]
    · rw [List.find?_cons_of_neg]
      · exact find_once hn.2 hd
      · simp only [beq_iff_eq]
        intro e'
        exact hn.1 (by rw [e']; exact List.mem_map.mpr ⟨d, hd, rfl⟩)

/-- A compile that succeeds. -/
theorem compile_ok {paths : Nat → Nat} {h : List Op} {p : Proc} {i : Nat} {m : Mod} (hg : Good paths h p) (hmi : p.mods[i]? = some m) (hf : Fits (text m)) :
    (step paths p (.compile i)).2 = .done ∧ libOf (step paths p (.compile i)).1 i = some (text m) := by
  have e : step paths p (.compile i) = compileMod p i m := by unfold step; simp only [hmi]
  rw [e]
  have hi : i < p.mods.length := by
    rcases Nat.lt_or_ge i p.mods.length with hlt | hge
    · exact hlt
    · rw [List.getElem?_eq_none hge] at hmi; cases hmi
  rcases compile_spec hg.inv hmi with ⟨h1, _⟩ | ⟨_, h2, h3, h4⟩
  · rw [fits_once hf] at h1; cases h1
  · refine ⟨by rw [h2, if_pos (fits_closed hf)], ?_⟩
    unfold libOf
    rw [h3, List.getElem?_set_self hi, fits_closed hf]
    show ((compileMod p i m).1.loaded m.path).map Prod.fst = _
    rw [h4, if_pos rfl, fits_closed hf]; rfl

/-- A compile of a text that defines a function twice. -/
theorem compile_twice {paths : Nat → Nat} {h : List Op} {p : Proc} {i : Nat} {m : Mod} (hg : Good paths h p) (hmi : p.mods[i]? = some m) (hf : ¬ ((text m).map Def.name).Nodup) :
    (step paths p (.compile i)).2 = .failed ∧ ∀ j, libOf (step paths p (.compile i)).1 j = libOf p j := by
  have e : step paths p (.compile i) = compileMod p i m := by unfold step; simp only [hmi]
  rw [e]
  have gp : (generate m).handle = m.handle := by unfold generate; split <;> rfl
  rcases compile_spec hg.inv hmi with ⟨_, h2, h3, h4⟩ | ⟨h1, _⟩
  · refine ⟨h2, fun j => ?_⟩
    by_cases hj : j = i
    · subst hj; exact libOf_set_eq hmi h3 gp h4
    · exact libOf_set_ne hj h3 fun _ q _ _ => h4 q
  · exact absurd (of_decide_eq_true h1) hf

end Verif.Library
