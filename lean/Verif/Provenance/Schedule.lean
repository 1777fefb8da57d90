import Verif.Provenance.Lemmas
/-! Composition of derivation steps (helper lemmas). -/
namespace Verif.Provenance

/-- Which loops of the nest may run past their extent without harm ("guarded" loops), after a step;
`none` when the step splits or divides an unguarded loop by a factor that does not divide its extent. -/
def stepFlags : Step → List Nat → List Bool → Option (List Bool)
  | .split 0 s, e :: _, f :: fs => if f || e % s == 0 then some (f :: false :: fs) else none
  | .divide 0 d, e :: _, f :: fs => if f || e % d == 0 then some (f :: true :: fs) else none
  | .fuse 0, _ :: _ :: _, f :: _ :: fs => some (f :: fs)
  | .swap 0, _ :: _ :: _, f :: f' :: fs => some (f' :: f :: fs)
  | .split (k+1) s, _ :: es, f :: fs => (stepFlags (.split k s) es fs).map (f :: ·)
  | .divide (k+1) d, _ :: es, f :: fs => (stepFlags (.divide k d) es fs).map (f :: ·)
  | .fuse (k+1), _ :: es, f :: fs => (stepFlags (.fuse k) es fs).map (f :: ·)
  | .swap (k+1), _ :: es, f :: fs => (stepFlags (.swap k) es fs).map (f :: ·)
  | _, _, _ => none

/-- Not a loop exchange. -/
def Step.keepsOrder : Step → Prop
  | .swap _ => False
  | _ => True

theorem step_spec (s : Step) {e e' : List Nat} {f f' : List Bool}
    (h1 : stepExtents s e = some e') (h2 : stepFlags s e f = some f') :
    StepSpec (stepRecover s e) e e' f f' s.keepsOrder := by
  cases s with
  | split k s =>
    induction k generalizing e e' f f' with
    | zero =>
      match e, f, h1, h2 with
      | [], _, h1, _ => simp [stepExtents] at h1
      | _ :: _, [], _, h2 => simp [stepFlags] at h2
      | e :: es, f :: fs, h1, h2 =>
        simp only [stepExtents] at h1
        simp only [stepFlags] at h2
        split at h1
        · cases h1
        · split at h2
          · cases h1; cases h2
            exact split_spec e s es f fs ‹_› ‹_›
          · cases h2
    | succ k ih =>
      match e, f, h1, h2 with
      | [], _, h1, _ => simp [stepExtents] at h1
      | _ :: _, [], _, h2 => simp [stepFlags] at h2
      | e :: es, f :: fs, h1, h2 =>
        simp only [stepExtents, Option.map_eq_some_iff] at h1
        simp only [stepFlags, Option.map_eq_some_iff] at h2
        obtain ⟨es', h3, rfl⟩ := h1
        obtain ⟨fs', h4, rfl⟩ := h2
        exact (ih h3 h4).lift e f (fun x xs => rfl)
  | divide k s =>
    induction k generalizing e e' f f' with
    | zero =>
      match e, f, h1, h2 with
      | [], _, h1, _ => simp [stepExtents] at h1
      | _ :: _, [], _, h2 => simp [stepFlags] at h2
      | e :: es, f :: fs, h1, h2 =>
        simp only [stepExtents] at h1
        simp only [stepFlags] at h2
        split at h1
        · cases h1
        · split at h2
          · cases h1; cases h2
            exact divide_spec e s es f fs ‹_› ‹_›
          · cases h2
    | succ k ih =>
      match e, f, h1, h2 with
      | [], _, h1, _ => simp [stepExtents] at h1
      | _ :: _, [], _, h2 => simp [stepFlags] at h2
      | e :: es, f :: fs, h1, h2 =>
        simp only [stepExtents, Option.map_eq_some_iff] at h1
        simp only [stepFlags, Option.map_eq_some_iff] at h2
        obtain ⟨es', h3, rfl⟩ := h1
        obtain ⟨fs', h4, rfl⟩ := h2
        exact (ih h3 h4).lift e f (fun x xs => rfl)
  | fuse k =>
    induction k generalizing e e' f f' with
    | zero =>
      match e, f, h1, h2 with
      | [], _, h1, _ => simp [stepExtents] at h1
      | [_], _, h1, _ => simp [stepExtents] at h1
      | _ :: _ :: _, [], _, h2 => simp [stepFlags] at h2
      | _ :: _ :: _, [_], _, h2 => simp [stepFlags] at h2
      | e :: e' :: es, f :: f' :: fs, h1, h2 =>
        simp only [stepExtents, Option.some.injEq] at h1
        simp only [stepFlags, Option.some.injEq] at h2
        subst h1 h2
        exact fuse_spec e e' es f f' fs
    | succ k ih =>
      match e, f, h1, h2 with
      | [], _, h1, _ => simp [stepExtents] at h1
      | _ :: _, [], _, h2 => simp [stepFlags] at h2
      | e :: es, f :: fs, h1, h2 =>
        simp only [stepExtents, Option.map_eq_some_iff] at h1
        simp only [stepFlags, Option.map_eq_some_iff] at h2
        obtain ⟨es', h3, rfl⟩ := h1
        obtain ⟨fs', h4, rfl⟩ := h2
        exact (ih h3 h4).lift e f (fun x xs => rfl)
  | swap k =>
    induction k generalizing e e' f f' with
    | zero =>
      match e, f, h1, h2 with
      | [], _, h1, _ => simp [stepExtents] at h1
      | [_], _, h1, _ => simp [stepExtents] at h1
      | _ :: _ :: _, [], _, h2 => simp [stepFlags] at h2
      | _ :: _ :: _, [_], _, h2 => simp [stepFlags] at h2
      | e :: e' :: es, f :: f' :: fs, h1, h2 =>
        simp only [stepExtents, Option.some.injEq] at h1
        simp only [stepFlags, Option.some.injEq] at h2
        subst h1 h2
        exact swap_spec e e' es f f' fs
    | succ k ih =>
      match e, f, h1, h2 with
      | [], _, h1, _ => simp [stepExtents] at h1
      | _ :: _, [], _, h2 => simp [stepFlags] at h2
      | e :: es, f :: fs, h1, h2 =>
        simp only [stepExtents, Option.map_eq_some_iff] at h1
        simp only [stepFlags, Option.map_eq_some_iff] at h2
        obtain ⟨es', h3, rfl⟩ := h1
        obtain ⟨fs', h4, rfl⟩ := h2
        exact (ih h3 h4).lift e f (fun x xs => rfl)

/-- The flags after a whole schedule. -/
def scheduleFlags : List Step → List Nat → List Bool → Option (List Bool)
  | [], _, f => some f
  | s :: ss, e, f =>
    match stepExtents s e, stepFlags s e f with
    | some e', some f' => scheduleFlags ss e' f'
    | _, _ => none

theorem Rec.bind_eq_ok {r : Rec} {g : List Nat → Rec} {u : List Nat} :
    r.bind g = .ok u ↔ ∃ w, r = .ok w ∧ g w = .ok u := by
  cases r <;> simp [Rec.bind]

theorem Rec.bind_eq_ub {r : Rec} {g : List Nat → Rec} :
    r.bind g = .ub ↔ r = .ub ∨ ∃ w, r = .ok w ∧ g w = .ub := by
  cases r <;> simp [Rec.bind]

theorem inBox_zero {x e : List Nat} (h : 0 ∈ e) : inBox x e = false := by
  induction e generalizing x with
  | nil => simp at h
  | cons a e ih =>
    cases x with
    | nil => simp [inBox]
    | cons b x =>
      simp only [List.mem_cons] at h
      rcases h with h | h
      · subst h; simp [inBox]
      · simp [inBox, ih h]

/-- The whole schedule satisfies the same specification as a step. -/
theorem schedule_spec : ∀ (ss : List Step) (e eF : List Nat) (f fF : List Bool),
    f.length = e.length →
    scheduleExtents ss e = some eF → scheduleFlags ss e f = some fF →
    (∀ u, inBox u e = true → ∃ x, inBox x eF = true ∧ scheduleRecover ss e x = .ok u) ∧
    (∀ x u, inBox x eF = true → scheduleRecover ss e x = .ok u → semiBox u e f = true) ∧
    (∀ x y u, inBox x eF = true → inBox y eF = true → inBox u e = true →
      scheduleRecover ss e x = .ok u → scheduleRecover ss e y = .ok u → x = y) ∧
    (0 ∈ e → 0 ∈ eF) ∧
    (∀ x, inBox x eF = true → scheduleRecover ss e x ≠ .ub) ∧
    ((∀ s ∈ ss, s.keepsOrder) → ∀ x y u v, inBox x eF = true → inBox y eF = true →
      scheduleRecover ss e x = .ok u → scheduleRecover ss e y = .ok v → lexLt x y → lexLt u v) := by
  intro ss
  induction ss with
  | nil =>
    intro e eF f fF hl h1 _
    simp only [scheduleExtents, Option.some.injEq] at h1
    subst h1
    simp only [scheduleRecover, Rec.ok.injEq]
    refine ⟨fun u hu => ⟨u, hu, rfl⟩, ?_, ?_, id, by simp, ?_⟩
    · rintro x u hx rfl; exact semiBox_of_inBox hl hx
    · rintro x y u _ _ _ rfl rfl; rfl
    · rintro _ x y u v _ _ rfl rfl h; exact h
  | cons s ss ih =>
    intro e eF f fF hl h1 h2
    simp only [scheduleExtents, Option.bind_eq_some_iff] at h1
    obtain ⟨e', he', h1⟩ := h1
    simp only [scheduleFlags, he'] at h2
    split at h2
    · rename_i e'' f' heq hf'
      cases heq
      have hs := step_spec s he' hf'
      obtain ⟨A, B, C, Z, D, M⟩ := ih e' eF f' fF (hs.len hl) h1 h2
      have hrec : ∀ x u, scheduleRecover (s :: ss) e x = .ok u ↔
          ∃ w, scheduleRecover ss e' x = .ok w ∧ stepRecover s e w = .ok u := by
        intro x u
        simp only [scheduleRecover, he', Rec.bind_eq_ok]
      refine ⟨?_, ?_, ?_, fun hz => Z (hs.zero hz), ?_, ?_⟩
      · intro u hu
        obtain ⟨w, hw, hw'⟩ := hs.surj u hu
        obtain ⟨x, hx, hx'⟩ := A w hw
        exact ⟨x, hx, (hrec x u).2 ⟨w, hx', hw'⟩⟩
      · intro x u hx hu
        obtain ⟨w, hw, hw'⟩ := (hrec x u).1 hu
        exact (hs.box w u (B x w hx hw) hw').1
      · intro x y u hx hy hu h3 h4
        obtain ⟨w, hw, hw'⟩ := (hrec x u).1 h3
        obtain ⟨w2, hw2, hw2'⟩ := (hrec y u).1 h4
        have b1 := (hs.box w u (B x w hx hw) hw').2 hu
        have b2 := (hs.box w2 u (B y w2 hy hw2) hw2').2 hu
        have := hs.inj w w2 u b1 b2 hw' hw2'
        subst this
        exact C x y w hx hy b1 hw hw2
      · intro x hx hub
        simp only [scheduleRecover, he', Rec.bind_eq_ub] at hub
        rcases hub with hub | ⟨w, hw, hub⟩
        · exact D x hx hub
        · by_cases hz : 0 ∈ e
          · rw [inBox_zero (Z (hs.zero hz))] at hx; cases hx
          · exact hs.noub hz w (B x w hx hw) hub
      · intro hm x y u v hx hy hu hv hlt
        obtain ⟨w, hw, hw'⟩ := (hrec x u).1 hu
        obtain ⟨w2, hw2, hw2'⟩ := (hrec y v).1 hv
        exact hs.mono (hm s (by simp)) w w2 u v (B x w hx hw) (B y w2 hy hw2) hw' hw2'
          (M (fun t ht => hm t (by simp [ht])) x y w w2 hx hy hw hw2 hlt)
    · cases h2

theorem mem_nest {e x : List Nat} : x ∈ nest e ↔ inBox x e = true := by
  induction e generalizing x with
  | nil => cases x <;> simp [nest, inBox]
  | cons a e ih =>
    simp only [nest, List.mem_flatMap, List.mem_range, List.mem_map]
    constructor
    · rintro ⟨y, hy, t, ht, rfl⟩
      simp only [inBox, Bool.and_eq_true, decide_eq_true_eq]
      exact ⟨hy, ih.1 ht⟩
    · intro h
      cases x with
      | nil => simp [inBox] at h
      | cons y x =>
        simp only [inBox, Bool.and_eq_true, decide_eq_true_eq] at h
        exact ⟨y, h.1, x, ih.2 h.2, rfl⟩

theorem lexLt_irrefl (x : List Nat) : ¬ lexLt x x := by
  induction x with
  | nil => simp [lexLt]
  | cons a x ih => simp [lexLt, ih]

theorem lexLt_asymm {x y : List Nat} (h : lexLt x y) : ¬ lexLt y x := by
  induction x generalizing y with
  | nil => simp [lexLt] at h
  | cons a x ih =>
    cases y with
    | nil => simp [lexLt] at h
    | cons b y =>
      simp only [lexLt] at h ⊢
      rintro (h' | ⟨rfl, h'⟩)
      · rcases h with h | ⟨rfl, _⟩ <;> omega
      · rcases h with h | ⟨_, h⟩
        · omega
        · exact ih h h'

theorem pairwise_nest (e : List Nat) : (nest e).Pairwise lexLt := by
  induction e with
  | nil => simp [nest]
  | cons a e ih =>
    simp only [nest]
    rw [List.pairwise_flatMap]
    constructor
    · intro x _
      rw [List.pairwise_map]
      exact ih.imp (fun h => Or.inr ⟨rfl, h⟩)
    · apply List.pairwise_lt_range.imp
      intro x y hxy p hp q hq
      simp only [List.mem_map] at hp hq
      obtain ⟨p', _, rfl⟩ := hp
      obtain ⟨q', _, rfl⟩ := hq
      exact Or.inl hxy

theorem nodup_nest (e : List Nat) : (nest e).Nodup := by
  apply (pairwise_nest e).imp
  intro a b h heq
  subst heq
  exact lexLt_irrefl a h

/-- Two lexicographically increasing lists with the same elements are equal. -/
theorem eq_of_pairwise_lexLt {l m : List (List Nat)} (hl : l.Pairwise lexLt) (hm : m.Pairwise lexLt)
    (h : ∀ x, x ∈ l ↔ x ∈ m) : l = m := by
  induction l generalizing m with
  | nil =>
    cases m with
    | nil => rfl
    | cons b m => have := (h b).2 (by simp); simp at this
  | cons a l ih =>
    cases m with
    | nil => have := (h a).1 (by simp); simp at this
    | cons b m =>
      rw [List.pairwise_cons] at hl hm
      have hab : a = b := by
        have h1 := (h a).1 (by simp)
        have h2 := (h b).2 (by simp)
        simp only [List.mem_cons] at h1 h2
        rcases h1 with h1 | h1
        · exact h1
        · rcases h2 with h2 | h2
          · exact h2.symm
          · exact absurd (hl.1 b h2) (lexLt_asymm (hm.1 a h1))
      subst hab
      congr 1
      apply ih hl.2 hm.2
      intro x
      have := h x
      simp only [List.mem_cons] at this
      constructor
      · intro hx
        rcases this.1 (Or.inr hx) with rfl | h'
        · exact absurd (hl.1 x hx) (lexLt_irrefl x)
        · exact h'
      · intro hx
        rcases this.2 (Or.inr hx) with rfl | h'
        · exact absurd (hm.1 x hx) (lexLt_irrefl x)
        · exact h'

end Verif.Provenance
