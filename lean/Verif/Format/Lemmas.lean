import Verif.Format.Spec
/-! Lemmas on comparison and variants of mode formats. -/
namespace Verif.Format
theorem all_zip {α β : Type} (f : α → β → Bool) : ∀ (l : List α) (m : List β), l.length = m.length →
    ((l.zip m).all (fun p => f p.1 p.2) = true ↔
      ∀ (i : Nat) x y, l[i]? = some x → m[i]? = some y → f x y = true)
  | [], [], _ => by simp
  | x :: l, y :: m, h => by
    simp only [List.zip_cons_cons, List.all_cons, Bool.and_eq_true]
    rw [all_zip f l m (by simpa using h)]
    constructor
    · rintro ⟨h1, h2⟩ i u v hu hv
      cases i with
      | zero => simp at hu hv; subst hu; subst hv; exact h1
      | succ i => exact h2 i u v (by simpa using hu) (by simpa using hv)
    · intro h
      exact ⟨h 0 x y rfl rfl, fun i u v hu hv => h (i + 1) u v (by simpa using hu) (by simpa using hv)⟩

theorem eq_iff_same {a b : Impl} : a.eq b = true ↔ SameMode a b := by
  obtain ⟨k, f, o, u, z, p, s⟩ := a
  obtain ⟨k', f', o', u', z', p', s'⟩ := b
  unfold Impl.eq Impl.equals baseEquals SameMode Impl.isBranchless Impl.isCompact
  cases k <;> cases k' <;> simp <;> grind

theorem pack_eq_iff {p q : Pack} (hp : ∀ m ∈ p.modes, m.isSome) (hq : ∀ m ∈ q.modes, m.isSome) :
    p.eq q = true ↔ p.modes.length = q.modes.length ∧
      ∀ (j : Nat) (m n : Impl), p.modes[j]? = some (some m) → q.modes[j]? = some (some n) → SameMode m n := by
  unfold Pack.eq
  rw [Bool.and_eq_true, decide_eq_true_eq]
  refine and_congr_right (fun hl => ?_)
  rw [all_zip modeEq _ _ hl]
  constructor
  · intro h j m n hm hn
    exact eq_iff_same.1 (h j _ _ hm hn)
  · intro h j x y hx hy
    have h1 := hp x (List.mem_of_getElem? hx)
    have h2 := hq y (List.mem_of_getElem? hy)
    obtain ⟨m, rfl⟩ := Option.isSome_iff_exists.1 h1
    obtain ⟨n, rfl⟩ := Option.isSome_iff_exists.1 h2
    exact eq_iff_same.2 (h j m n hx hy)

theorem Made'.isSome {f : Fmt} (h : Made' f) {p : Pack} (hp : p ∈ f.packs) : ∀ m ∈ p.modes, m.isSome := by
  intro m hm
  obtain ⟨i, hi, _⟩ := h.1 p hp m hm
  rw [hi]; rfl

theorem SameMode.refl (m : Impl) : SameMode m m := ⟨rfl, rfl, rfl, rfl, rfl, fun _ => rfl⟩

/-- One property set, by kind. -/
def setProp (m : Impl) (p : Prop') : Impl :=
  match m.kind with
  | .dense => setDense m p
  | .compressed => setCompressed m p
  | .singleton => setSingleton m p

theorem setProp_kind (m : Impl) (p : Prop') : (setProp m p).kind = m.kind := by
  unfold setProp; split <;> rename_i h <;> cases p <;> simp [setDense, setCompressed, setSingleton]

theorem setProp_keep (m : Impl) (p q : Prop') (h : p.flag ≠ q.flag) : (setProp m p).has q = m.has q := by
  obtain ⟨k, f, o, u, z, pd, s⟩ := m
  unfold setProp
  cases k <;> cases p <;> cases q <;> simp_all [setDense, setCompressed, setSingleton, Impl.has, Prop'.flag,
    Impl.isBranchless, Impl.isCompact]

theorem setProp_set (m : Impl) (p : Prop') (h : Configurable m.kind p.flag) : (setProp m p).has p = true := by
  obtain ⟨k, f, o, u, z, pd, s⟩ := m
  unfold setProp
  cases k <;> cases p <;> simp_all [setDense, setCompressed, setSingleton, Impl.has, Prop'.flag, Configurable]

theorem setProp_other (m : Impl) (p q : Prop') (h : ¬ Configurable m.kind q.flag) :
    (setProp m p).has q = m.has q := by
  obtain ⟨k, f, o, u, z, pd, s⟩ := m
  unfold setProp
  cases k <;> cases p <;> cases q <;> simp_all [setDense, setCompressed, setSingleton, Impl.has, Prop'.flag,
    Impl.isBranchless, Impl.isCompact, Configurable]

theorem foldl_setProp (ps : List Prop') : ∀ m : Impl,
    (m.kind = .dense → ps.foldl setDense m = ps.foldl setProp m) ∧
    (m.kind = .compressed → ps.foldl setCompressed m = ps.foldl setProp m) ∧
    (m.kind = .singleton → ps.foldl setSingleton m = ps.foldl setProp m) := by
  induction ps with
  | nil => intro m; simp
  | cons p ps ih =>
    intro m
    refine ⟨fun h => ?_, fun h => ?_, fun h => ?_⟩
    · have e : setProp m p = setDense m p := by unfold setProp; rw [h]
      have hk : (setDense m p).kind = .dense := by rw [← e, setProp_kind, h]
      rw [List.foldl_cons, List.foldl_cons, e, (ih _).1 hk]
    · have e : setProp m p = setCompressed m p := by unfold setProp; rw [h]
      have hk : (setCompressed m p).kind = .compressed := by rw [← e, setProp_kind, h]
      rw [List.foldl_cons, List.foldl_cons, e, (ih _).2.1 hk]
    · have e : setProp m p = setSingleton m p := by unfold setProp; rw [h]
      have hk : (setSingleton m p).kind = .singleton := by rw [← e, setProp_kind, h]
      rw [List.foldl_cons, List.foldl_cons, e, (ih _).2.2 hk]

theorem foldl_kind (ps : List Prop') (m : Impl) : (ps.foldl setProp m).kind = m.kind := by
  induction ps generalizing m with
  | nil => rfl
  | cons p ps ih => rw [List.foldl_cons, ih, setProp_kind]

theorem foldl_other (ps : List Prop') (m : Impl) (q : Prop') (h : ¬ Configurable m.kind q.flag) :
    (ps.foldl setProp m).has q = m.has q := by
  induction ps generalizing m with
  | nil => rfl
  | cons p ps ih => rw [List.foldl_cons, ih _ (by rw [setProp_kind]; exact h), setProp_other _ _ _ h]

theorem snoc_induction {α : Type} {P : List α → Prop} (h0 : P [])
    (h1 : ∀ l a, P l → P (l ++ [a])) (l : List α) : P l := by
  have : ∀ r : List α, P r.reverse := by
    intro r
    induction r with
    | nil => exact h0
    | cons a r ih => rw [List.reverse_cons]; exact h1 _ _ ih
  simpa using this l.reverse

theorem foldl_last {g : Flag} (ps : List Prop') : ∀ (m : Impl), Configurable m.kind g →
      (∀ p, lastAbout g ps = some p → (ps.foldl setProp m).has p = true) ∧
      (lastAbout g ps = none → ∀ q, q.flag = g → (ps.foldl setProp m).has q = m.has q) := by
  induction ps using snoc_induction with
  | h0 => intro m hm; simp [lastAbout]
  | h1 ps p ih =>
    intro m hm
    obtain ⟨h2, h3⟩ := ih m hm
    rw [List.foldl_append]
    simp only [List.foldl_cons, List.foldl_nil]
    refine ⟨?_, ?_⟩
    · intro q hq
      unfold lastAbout at hq
      rw [List.reverse_append] at hq
      simp only [List.reverse_cons, List.reverse_nil, List.nil_append, List.cons_append, List.find?_cons] at hq
      by_cases hp : p.flag = g
      · simp [hp] at hq; subst hq; exact setProp_set _ _ (by rw [foldl_kind, hp]; exact hm)
      · simp [hp] at hq
        have hqf : q.flag = g := by simpa using List.find?_some hq
        rw [setProp_keep _ _ _ (by rw [hqf]; exact hp)]
        apply h2; unfold lastAbout; simpa using hq
    · intro hn q hq
      unfold lastAbout at hn
      rw [List.reverse_append] at hn
      simp only [List.reverse_cons, List.reverse_nil, List.nil_append, List.cons_append, List.find?_cons] at hn
      by_cases hp : p.flag = g
      · simp [hp] at hn
      · simp [hp] at hn
        rw [setProp_keep _ _ _ (by rw [hq]; exact hp)]
        apply h3 _ q hq
        unfold lastAbout; simpa using hn

theorem copy_has {m : Impl} (hm : Made m) (ps : List Prop') (q : Prop') :
    (m.copy ps).kind = m.kind ∧ (m.copy ps).has q = (ps.foldl setProp m).has q := by
  have hk := foldl_kind ps m
  cases hm with
  | dense o u z =>
    unfold Impl.copy
    have e := (foldl_setProp ps (mkDense o u z)).1 rfl
    simp only [mkDense] at e hk ⊢
    rw [e]
    refine ⟨trivial, ?_⟩
    have h1 := foldl_other ps (mkDense o u z) .full (by simp [Configurable, mkDense, Prop'.flag])
    have h2 := foldl_other ps (mkDense o u z) .padded (by simp [Configurable, mkDense, Prop'.flag])
    simp only [mkDense, Impl.has] at h1 h2
    cases q <;> simp_all [Impl.has, Impl.isBranchless, Impl.isCompact]
  | compressed f o u z a =>
    unfold Impl.copy
    have e := (foldl_setProp ps (mkCompressed f o u z a)).2.1 rfl
    simp only [mkCompressed] at e hk ⊢
    rw [e]
    refine ⟨trivial, ?_⟩
    have h2 := foldl_other ps (mkCompressed f o u z a) .padded (by simp [Configurable, mkCompressed, Prop'.flag])
    simp only [mkCompressed, Impl.has] at h2
    cases q <;> simp_all [Impl.has, Impl.isBranchless, Impl.isCompact]
  | singleton f o u z p a =>
    unfold Impl.copy
    have e := (foldl_setProp ps (mkSingleton f o u z p a)).2.2 rfl
    simp only [mkSingleton] at e hk ⊢
    rw [e]
    refine ⟨trivial, ?_⟩
    cases q <;> simp_all [Impl.has, Impl.isBranchless, Impl.isCompact]

end Verif.Format
