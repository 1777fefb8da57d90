import Verif.Assembly.Spec
import Verif.Util
/-! The invariant of assembly and its preservation. -/
namespace Verif.Assembly
open Verif.Merge (Lvl)
open Verif.Pack (Kind)

variable {V : Type}

/-! ### Memory -/

theorem write_some {α : Type} {a : Arr α} {i : Nat} {x : α} (h : i < a.length) :
    write a i x = some (a.set i (some x)) := by unfold write; rw [if_pos h]

theorem realloc_length {α : Type} (a : Arr α) (n : Nat) : (realloc a n).length = n := by
  unfold realloc; simp; omega

theorem realloc_get {α : Type} (a : Arr α) (n i : Nat) (h : i < a.length) (hn : i < n) :
    (realloc a n)[i]? = a[i]? := by
  unfold realloc
  rw [List.getElem?_append_left (by simp; omega), List.getElem?_take, if_pos hn]

theorem dbl_spec {α : Type} (a : Arr α) (k : Nat) (h0 : 0 < a.length) (hk : k ≤ a.length) :
    k < (doubleSizeIfFull a k).length ∧ a.length ≤ (doubleSizeIfFull a k).length ∧
    ∀ i, i < a.length → (doubleSizeIfFull a k)[i]? = a[i]? := by
  unfold doubleSizeIfFull
  split
  · refine ⟨by rw [realloc_length]; omega, by rw [realloc_length]; omega, ?_⟩
    intro i hi
    exact realloc_get a _ i hi (by omega)
  · exact ⟨by omega, Nat.le_refl _, fun i _ => rfl⟩

theorem ald_spec {α : Type} (a : Arr α) (k : Nat) :
    k < (atLeastDoubleSizeIfFull a k).length ∧ a.length ≤ (atLeastDoubleSizeIfFull a k).length ∧
    ∀ i, i < a.length → (atLeastDoubleSizeIfFull a k)[i]? = a[i]? := by
  unfold atLeastDoubleSizeIfFull
  split
  · refine ⟨by rw [realloc_length]; omega, by rw [realloc_length]; omega, ?_⟩
    intro i hi
    exact realloc_get a _ i hi (by omega)
  · exact ⟨by omega, Nat.le_refl _, fun i _ => rfl⟩

theorem fillFrom_spec {α : Type} (x : α) : ∀ (k b : Nat) (a : Arr α), b + k ≤ a.length →
    ∃ a', fillFrom x k b a = some a' ∧ a'.length = a.length ∧
      (∀ i, b ≤ i → i < b + k → a'[i]? = some (some x)) ∧
      ∀ i, (i < b ∨ b + k ≤ i) → a'[i]? = a[i]? := by
  intro k
  induction k with
  | zero => intro b a _; exact ⟨a, rfl, rfl, fun i h1 h2 => by omega, fun i _ => rfl⟩
  | succ k ih =>
    intro b a h
    have hb : b < a.length := by omega
    obtain ⟨a', h1, h2, h3, h4⟩ := ih (b + 1) (a.set b (some x)) (by rw [List.length_set]; omega)
    refine ⟨a', ?_, by rw [h2, List.length_set], ?_, ?_⟩
    · show (write a b x).bind _ = _
      rw [write_some hb]; exact h1
    · intro i hi1 hi2
      rcases Nat.eq_or_lt_of_le hi1 with he | hlt
      · subst he
        rw [h4 b (Or.inl (by omega)), List.getElem?_set_self hb]
      · exact h3 i hlt (by omega)
    · intro i hi
      rw [h4 i (by omega), List.getElem?_set_ne (by omega)]

/-! ### Contents -/

/-- What a position of the result holds after the loops, as a tree with all coordinates of dense levels
and without the empty slices that are not appended. -/
def fillTree (fill : V) : (ls : List (Nat × Kind)) → Tree V ls.length
  | [] => fill
  | (n, .dense) :: ls => (List.range n).map (fun i => (i, fillTree fill ls))
  | (_, .sparse) :: _ => ([] : List _)

/-- Is the subtree of an append level empty. -/
def emptySlice : (ls : List (Nat × Kind)) → Tree V ls.length → Bool
  | (_, .sparse) :: _, t => (entries t).isEmpty
  | (_, .dense) :: _, _ => false
  | [], _ => false

def norm (fill : V) : (ls : List (Nat × Kind)) → Tree V ls.length → Tree V ls.length
  | [], v => v
  | (n, .dense) :: ls, t =>
    (List.range n).map (fun i => (i,
      (match (entries t).lookup i with | some c => norm fill ls c | none => fillTree fill ls)))
  | (_, .sparse) :: ls, t =>
    ((entries t).map (fun e => (e.1, norm fill ls e.2))).filter (fun e => !emptySlice ls e.2)

/-- The subtrees of a node. -/
def kids {d : Nat} (t : Tree V (d + 1)) : List (Tree V d) := (entries t).map Prod.snd

/-- The total number of coordinates below the first `p` positions. -/
def countTo {d : Nat} (cs : List (Tree V (d + 1))) (p : Nat) : Nat := ((cs.take p).flatMap entries).length

/-- The state of the result arrays when the first `P` positions are complete with contents `cs` and the
positions below `E` are initialised. -/
def Rep (fill : V) : Bool → (ls : List (Nat × Kind)) → Nat → Nat → List (Tree V ls.length) → St V → Prop
  | ud, [], P, E, cs, s =>
    s.comps = [] ∧ cs.length = P ∧ E ≤ s.vals.length ∧ P ≤ E ∧ (ud = false → 0 < s.vals.length) ∧
    (∀ (i : Nat) (v : Tree V 0), cs[i]? = some v → s.vals[i]? = some (some (valOf v))) ∧
    (ud = true → ∀ i, P ≤ i → i < E → s.vals[i]? = some (some fill))
  | _, (n, .dense) :: ls, P, E, cs, s =>
    cs.length = P ∧ P ≤ E ∧ (∀ c ∈ cs, (entries c).map Prod.fst = List.range n) ∧
    Rep fill true ls (P * n) (E * n) (cs.flatMap kids) s
  | ud, (_, .sparse) :: ls, P, E, cs, s =>
    ∃ c cs', s.comps = c :: cs' ∧ cs.length = P ∧ P ≤ E ∧ E + 1 ≤ c.pos.length ∧
      c.pos[0]? = some (some 0) ∧
      c.size = (cs.flatMap entries).length ∧ c.size ≤ c.crd.length ∧ 0 < c.crd.length ∧
      (∀ (i : Nat) (e : Nat × Tree V ls.length), (cs.flatMap entries)[i]? = some e → c.crd[i]? = some (some e.1)) ∧
      (ud = false → ∀ p, p < P → c.pos[p + 1]? = some (some (countTo cs (p + 1)))) ∧
      (ud = true → (∀ (p : Nat) (t : Tree V (ls.length + 1)), cs[p]? = some t → c.pos[p + 1]? = some (some (entries t).length)) ∧
        ∀ p, P ≤ p → p < E → c.pos[p + 1]? = some (some 0)) ∧
      Rep fill false ls c.size c.size (cs.flatMap kids) ⟨cs', s.vals⟩

theorem Rep.length {fill : V} {ud : Bool} {ls : List (Nat × Kind)} {P E : Nat} {cs : List (Tree V ls.length)}
    {s : St V} (h : Rep fill ud ls P E cs s) : cs.length = P := by
  cases ls with
  | nil => exact h.2.1
  | cons l ls =>
    obtain ⟨n, k⟩ := l
    cases k with
    | dense => exact h.1
    | sparse => obtain ⟨c, cs', _, h, _⟩ := h; exact h

theorem Rep.le {fill : V} {ud : Bool} {ls : List (Nat × Kind)} {P E : Nat} {cs : List (Tree V ls.length)}
    {s : St V} (h : Rep fill ud ls P E cs s) : P ≤ E := by
  cases ls with
  | nil => exact h.2.2.2.1
  | cons l ls =>
    obtain ⟨n, k⟩ := l
    cases k with
    | dense => exact h.2.1
    | sparse => obtain ⟨c, cs', _, _, h, _⟩ := h; exact h

theorem kids_length {d : Nat} (t : Tree V (d + 1)) : (kids t).length = (entries t).length := by
  unfold kids; rw [List.length_map]

theorem flatMap_kids {d : Nat} (cs : List (Tree V (d + 1))) : cs.flatMap kids = (cs.flatMap entries).map Prod.snd := by
  induction cs with
  | nil => rfl
  | cons c cs ih => rw [List.flatMap_cons, List.flatMap_cons, List.map_append, ih]; rfl

/-! ### Initialisation -/

theorem initLevels_rep (cap : Nat) (hcap : 0 < cap) (fill : V) : ∀ (ls : List (Nat × Kind)) (ud : Bool),
    (∀ k, (ud = false → k = 1) → Rep fill ud ls 0 k [] (initLevels cap fill ud (some k) ls)) ∧
    Rep fill ud ls 0 0 [] (initLevels cap fill ud none ls) := by
  intro ls
  induction ls with
  | nil =>
    intro ud
    refine ⟨?_, ?_⟩
    · intro k hk
      refine ⟨rfl, rfl, ?_, Nat.zero_le _, ?_, ?_, ?_⟩
      · show k ≤ (List.replicate k _).length; simp
      · intro h; show 0 < (List.replicate k _).length; rw [hk h]; simp
      · intro i v h; simp at h
      · intro _ i _ hi
        show (List.replicate k _)[i]? = _
        rw [List.getElem?_replicate, if_pos hi]
    · refine ⟨rfl, rfl, Nat.zero_le _, Nat.zero_le _, ?_, ?_, ?_⟩
      · intro h; show 0 < (List.replicate cap _).length; simpa using hcap
      · intro i v h; simp at h
      · intro _ i _ hi; omega
  | cons l ls ih =>
    obtain ⟨n, kd⟩ := l
    intro ud
    cases kd with
    | dense =>
      refine ⟨?_, ?_⟩
      · intro k hk
        refine ⟨rfl, Nat.zero_le _, by simp, ?_⟩
        have := (ih true).1 (k * n) (by simp)
        rw [Nat.zero_mul]
        exact this
      · refine ⟨rfl, Nat.zero_le _, by simp, ?_⟩
        have := (ih true).2
        rw [Nat.zero_mul]
        exact this
    | sparse =>
      refine ⟨?_, ?_⟩
      · intro k hk
        refine ⟨_, _, rfl, rfl, Nat.zero_le _, by simp, rfl, rfl, Nat.zero_le _, by simpa using hcap, by simp,
          fun _ p hp => by omega, ?_, (ih false).2⟩
        intro hud
        refine ⟨by simp, ?_⟩
        intro p _ hp
        subst hud
        show (some 0 :: List.replicate k _)[p + 1]? = _
        rw [List.getElem?_cons_succ, List.getElem?_replicate, if_pos hp]
        rfl
      · refine ⟨_, _, rfl, rfl, Nat.zero_le _, by simp, rfl, rfl, Nat.zero_le _, by simpa using hcap, by simp,
          fun _ p hp => by omega, ?_, (ih false).2⟩
        intro hud
        exact ⟨by simp, fun p _ hp => by omega⟩

/-- Initialising the next positions. -/
theorem initDown_rep (fill : V) : ∀ (ls : List (Nat × Kind)) (ud : Bool) (b e : Nat) (cs : List (Tree V ls.length))
    (s : St V), Rep fill ud ls b b cs s → b ≤ e → (ud = false → e = b + 1) →
    ∃ s', initDown fill ud ls b e s = some s' ∧ Rep fill ud ls b e cs s' := by
  intro ls
  induction ls with
  | nil =>
    intro ud b e cs s h hbe hud
    obtain ⟨h1, h2, h3, h4, h5, h6, h7⟩ := h
    cases ud with
    | false =>
      obtain ⟨d1, d2, d3⟩ := dbl_spec s.vals b (h5 rfl) h3
      refine ⟨_, rfl, h1, h2, ?_, hbe, ?_, ?_, by simp⟩
      · show e ≤ (doubleSizeIfFull s.vals b).length
        rw [hud rfl]; exact d1
      · intro _; show 0 < (doubleSizeIfFull s.vals b).length; omega
      · intro i v hi
        show (doubleSizeIfFull s.vals b)[i]? = _
        have hlt := (List.getElem?_eq_some_iff.1 hi).1
        rw [d3 i (by omega)]; exact h6 i v hi
    | true =>
      obtain ⟨d1, d2, d3⟩ := ald_spec s.vals e
      obtain ⟨a', f1, f2, f3, f4⟩ := fillFrom_spec fill (e - b) b (atLeastDoubleSizeIfFull s.vals e) (by omega)
      refine ⟨{ s with vals := a' }, ?_, h1, h2, ?_, hbe, by simp, ?_, ?_⟩
      · show (fillFrom fill (e - b) b (atLeastDoubleSizeIfFull s.vals e)).map _ = _
        rw [f1]; rfl
      · show e ≤ a'.length; omega
      · intro i v hi
        show a'[i]? = _
        have hlt := (List.getElem?_eq_some_iff.1 hi).1
        rw [f4 i (by omega), d3 i (by omega)]; exact h6 i v hi
      · intro _ i h1 h2
        exact f3 i h1 (by omega)
  | cons l ls ih =>
    obtain ⟨n, kd⟩ := l
    intro ud b e cs s h hbe hud
    cases kd with
    | dense =>
      obtain ⟨h1, h2, h3, h4⟩ := h
      obtain ⟨s', i1, i2⟩ := ih true (b * n) (e * n) _ s h4 (Nat.mul_le_mul_right _ hbe) (by simp)
      refine ⟨s', ?_, h1, hbe, h3, i2⟩
      cases ud <;> exact i1
    | sparse =>
      obtain ⟨c, cs', hc, h1, h2, h3, h4, h5, h6, h7, h8, h9, h10, h11⟩ := h
      cases ud with
      | false =>
        have he := hud rfl
        obtain ⟨d1, d2, d3⟩ := dbl_spec c.pos e (by omega) (by omega)
        refine ⟨{ s with comps := { c with pos := doubleSizeIfFull c.pos e } :: cs' }, ?_, _, cs', rfl, h1, hbe, ?_, ?_,
          h5, h6, h7, h8, ?_, by simp, h11⟩
        · show (match s.comps with | [] => none | c :: cs => _) = _
          rw [hc]
          rfl
        · show e + 1 ≤ (doubleSizeIfFull c.pos e).length; omega
        · show (doubleSizeIfFull c.pos e)[0]? = _
          rw [d3 0 (by omega)]; exact h4
        · intro _ p hp
          show (doubleSizeIfFull c.pos e)[p + 1]? = _
          rw [d3 (p + 1) (by omega)]; exact h9 rfl p hp
      | true =>
        obtain ⟨d1, d2, d3⟩ := ald_spec c.pos e
        obtain ⟨a', f1, f2, f3, f4⟩ := fillFrom_spec 0 (e - b) (b + 1) (atLeastDoubleSizeIfFull c.pos e) (by omega)
        refine ⟨{ s with comps := { c with pos := a' } :: cs' }, ?_, _, cs', rfl, h1, hbe, ?_, ?_,
          h5, h6, h7, h8, by simp, ?_, h11⟩
        · show (match s.comps with | [] => none | c :: cs => _) = _
          rw [hc]
          show (fillFrom 0 (e - b) (b + 1) (atLeastDoubleSizeIfFull c.pos e)).map _ = _
          rw [f1]; rfl
        · show e + 1 ≤ a'.length; omega
        · show a'[0]? = _
          rw [f4 0 (by omega), d3 0 (by omega)]; exact h4
        · intro _
          refine ⟨?_, ?_⟩
          · intro p t hp
            show a'[p + 1]? = _
            have hlt := (List.getElem?_eq_some_iff.1 hp).1
            rw [f4 (p + 1) (by omega), d3 (p + 1) (by omega)]; exact (h10 rfl).1 p t hp
          · intro p hp1 hp2
            exact f3 (p + 1) (by omega) (by omega)

/-- A position below a dense level that no loop visits. -/
theorem skip_rep (fill : V) : ∀ (ls : List (Nat × Kind)) (P E : Nat) (cs : List (Tree V ls.length)) (s : St V),
    Rep fill true ls P E cs s → P < E → Rep fill true ls (P + 1) E (cs ++ [fillTree fill ls]) s := by
  intro ls
  induction ls with
  | nil =>
    intro P E cs s h hlt
    obtain ⟨h1, h2, h3, h4, h5, h6, h7⟩ := h
    refine ⟨h1, by simp [h2], h3, hlt, h5, ?_, fun hu i hi1 hi2 => h7 hu i (by omega) hi2⟩
    intro i v hi
    rw [List.getElem?_append] at hi
    split at hi
    · exact h6 i v hi
    · rename_i hge
      have hi0 := (List.getElem?_eq_some_iff.1 hi).1
      have : i = P := by
        have : i - cs.length < 1 := hi0
        omega
      subst this
      rw [h2, Nat.sub_self] at hi
      have hv : fill = v := Option.some.inj hi
      rw [← hv]
      exact h7 rfl i (Nat.le_refl _) hlt
  | cons l ls ih =>
    obtain ⟨n, kd⟩ := l
    intro P E cs s h hlt
    cases kd with
    | dense =>
      obtain ⟨h1, h2, h3, h4⟩ := h
      have hsub : ∀ k, k ≤ n → Rep fill true ls (P * n + k) (E * n)
          (cs.flatMap kids ++ List.replicate k (fillTree fill ls)) s := by
        intro k
        induction k with
        | zero => intro _; simpa using h4
        | succ k ihk =>
          intro hk
          have hlt' : P * n + k < E * n := by
            have : (P + 1) * n ≤ E * n := Nat.mul_le_mul_right _ hlt
            rw [Nat.succ_mul] at this; omega
          have := ih _ _ _ _ (ihk (by omega)) hlt'
          rw [List.append_assoc, ← List.replicate_succ'] at this
          exact this
      refine ⟨by simp [h1], hlt, ?_, ?_⟩
      · intro c hc
        rcases List.mem_append.1 hc with hc | hc
        · exact h3 c hc
        · rw [List.mem_singleton.1 hc]
          show ((List.range n).map (fun i => (i, fillTree fill ls))).map Prod.fst = _
          rw [List.map_map]; exact List.map_id' _
      · have := hsub n (Nat.le_refl _)
        rw [Nat.succ_mul]
        rw [List.flatMap_append]
        have hk : [fillTree fill ((n, Kind.dense) :: ls)].flatMap kids = List.replicate n (fillTree fill ls) := by
          rw [List.flatMap_cons, List.flatMap_nil, List.append_nil]
          show ((List.range n).map (fun i => (i, fillTree fill ls))).map Prod.snd = _
          rw [List.map_map]
          show (List.range n).map (fun _ => fillTree fill ls) = _
          rw [List.map_const']
          simp
        rw [hk]
        exact this
    | sparse =>
      obtain ⟨c, cs', hc, h1, h2, h3, h4, h5, h6, h7, h8, h9, h10, h11⟩ := h
      have hf : (cs ++ [fillTree fill ((n, Kind.sparse) :: ls)]).flatMap entries = cs.flatMap entries := by
        rw [List.flatMap_append]; exact List.append_nil _
      have hk : (cs ++ [fillTree fill ((n, Kind.sparse) :: ls)]).flatMap kids = cs.flatMap kids := by
        rw [List.flatMap_append]; exact List.append_nil _
      refine ⟨c, cs', hc, by simp [h1], hlt, h3, h4, ?_, h6, h7, ?_, by simp, ?_, ?_⟩
      · rw [hf]; exact h5
      · rw [hf]; exact h8
      · intro _
        refine ⟨?_, fun p hp1 hp2 => (h10 rfl).2 p (by omega) hp2⟩
        intro p t hp
        rw [List.getElem?_append] at hp
        split at hp
        · exact (h10 rfl).1 p t hp
        · have hi0 := (List.getElem?_eq_some_iff.1 hp).1
          have hpP : p = P := by
            have : p - cs.length < 1 := hi0
            omega
          subst hpP
          rw [h1, Nat.sub_self] at hp
          have ht : fillTree fill ((n, Kind.sparse) :: ls) = t := Option.some.inj hp
          rw [← ht]
          exact (h10 rfl).2 p (Nat.le_refl _) hlt
      · rw [hk]; exact h11

/-- Undo the completion of a position at which nothing was appended. -/
theorem rollback_rep (fill : V) {n : Nat} {ls : List (Nat × Kind)} {P E : Nat}
    {cs : List (Tree V ((n, Kind.sparse) :: ls).length)} {t : Tree V ((n, Kind.sparse) :: ls).length} {s : St V}
    (h : Rep fill false ((n, .sparse) :: ls) (P + 1) E (cs ++ [t]) s) (ht : entries t = []) :
    Rep fill false ((n, .sparse) :: ls) P P cs s := by
  obtain ⟨c, cs', hc, h1, h2, h3, h4, h5, h6, h7, h8, h9, h10, h11⟩ := h
  have hlen : cs.length = P := by simpa using h1
  have hf : (cs ++ [t]).flatMap entries = cs.flatMap entries := by
    rw [List.flatMap_append, List.flatMap_cons, ht]; simp
  have hk : (cs ++ [t]).flatMap kids = cs.flatMap kids := by
    rw [List.flatMap_append, List.flatMap_cons]
    have : kids t = [] := by unfold kids; rw [ht]; rfl
    rw [this]; simp
  refine ⟨c, cs', hc, hlen, Nat.le_refl _, by omega, h4, by rw [hf] at h5; exact h5, h6, h7, by rw [hf] at h8; exact h8, ?_, by simp,
    by rw [hk] at h11; exact h11⟩
  intro _ p hp
  have := h9 rfl p (by omega)
  rw [this]
  congr 2
  unfold countTo
  rw [List.take_append_of_le_length (by omega)]

end Verif.Assembly
