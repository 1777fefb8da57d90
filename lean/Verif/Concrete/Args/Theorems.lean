import Verif.Concrete.Args.Model
import Verif.Concrete.Args.Spec
import Verif.Concrete.Reorder.Theorems
import Verif.Concrete.Precompute.Theorems
/-
Property C59: a kernel is called with the tensors that its parameters stand for.
-/
namespace Verif.Concrete

/-! ### Lemmas -/

section
variable {R : Type}

theorem collect_append (acc l l' : List Nat) : collect acc (l ++ l') = collect (collect acc l) l' := by
  simp [collect, List.foldl_append]

theorem collect_cons (acc : List Nat) (t : Nat) (l : List Nat) :
    collect acc (t :: l) = collect (if acc.contains t then acc else acc ++ [t]) l := rfl

theorem mem_collect {t : Nat} : ∀ (l acc : List Nat), t ∈ collect acc l ↔ t ∈ acc ∨ t ∈ l
  | [], acc => by simp [collect]
  | u :: l, acc => by
    rw [collect_cons, mem_collect l]
    by_cases h : u ∈ acc
    · simp only [List.contains_iff_mem, h, if_true, List.mem_cons]
      constructor
      · rintro (h1 | h1)
        · exact Or.inl h1
        · exact Or.inr (Or.inr h1)
      · rintro (h1 | rfl | h1)
        · exact Or.inl h1
        · exact Or.inl h
        · exact Or.inr h1
    · simp only [List.contains_iff_mem, h, if_false, List.mem_append, List.mem_cons, List.not_mem_nil,
        or_false, or_assoc]

theorem nodup_collect : ∀ (l acc : List Nat), acc.Nodup → (collect acc l).Nodup
  | [], acc, h => h
  | u :: l, acc, h => by
    rw [collect_cons]
    apply nodup_collect l
    split
    · exact h
    · rename_i hu
      have hu : u ∉ acc := by simpa using hu
      refine List.nodup_append.mpr ⟨h, by simp, ?_⟩
      intro a ha b hb
      rw [List.mem_singleton.mp hb]
      exact fun e => hu (e ▸ ha)

theorem collect_old {E : List Nat} : ∀ (l acc : List Nat), (∀ t ∈ l, t ∈ acc) → collect acc l = acc
  | [], _, _ => rfl
  | t :: l, acc, h => by
    rw [collect_cons]
    have : acc.contains t = true := by simpa using h t List.mem_cons_self
    rw [this]
    exact collect_old (E := E) l acc fun u hu => h u (List.mem_cons_of_mem _ hu)

/-- Holes that stand for what is collected already do not matter. -/
theorem collect_holes {E : List Nat} {h : Nat} : ∀ (l acc : List Nat), (∀ t ∈ E, t ∈ acc) →
    collect acc (l.flatMap fun t => if t = h then E else [t]) = collect acc (l.filter (· ≠ h))
  | [], _, _ => rfl
  | t :: l, acc, hE => by
    rw [List.flatMap_cons, collect_append]
    by_cases ht : t = h
    · rw [if_pos ht, collect_old (E := E) E acc hE, collect_holes l acc hE]
      simp [ht]
    · rw [if_neg ht, List.filter_cons_of_pos (by simpa using ht), collect_cons]
      show collect (collect acc [t]) _ = _
      rw [collect_cons]
      refine collect_holes l _ ?_
      intro u hu
      split
      · exact hE u hu
      · exact List.mem_append_left _ (hE u hu)

theorem tensors_fill_eq {h : Nat} {x : Expr R} : ∀ (c : Expr R),
    (c.fill h x).tensors = c.tensors.flatMap fun t => if t = h then x.tensors else [t]
  | .lit _ => rfl
  | .acc t is => by
    simp only [Expr.fill, Expr.tensors, List.flatMap_cons, List.flatMap_nil, List.append_nil]
    split <;> rfl
  | .neg a => tensors_fill_eq a
  | .red _ a => tensors_fill_eq a
  | .add a b => by simp only [Expr.fill, Expr.tensors, tensors_fill_eq a, tensors_fill_eq b, List.flatMap_append]
  | .sub a b => by simp only [Expr.fill, Expr.tensors, tensors_fill_eq a, tensors_fill_eq b, List.flatMap_append]
  | .mul a b => by simp only [Expr.fill, Expr.tensors, tensors_fill_eq a, tensors_fill_eq b, List.flatMap_append]

theorem visited_loops (s : Stmt R) : ∀ L : List Nat, visited (loops L s) = visited s
  | [] => rfl
  | _ :: L => visited_loops s L

theorem assigned_loops (s : Stmt R) : ∀ L : List Nat, assigned (loops L s) = assigned s
  | [] => rfl
  | _ :: L => assigned_loops s L

theorem arguments_loops (s : Stmt R) (L : List Nat) : arguments (loops L s) = arguments s := by
  simp [arguments, temporaries, visited_loops, assigned_loops]

theorem results_loops (s : Stmt R) : ∀ L : List Nat, (loops L s).results = s.results
  | [] => rfl
  | _ :: L => results_loops s L

theorem replaced_visited {old new : List Nat} {s s' : Stmt R} (h : Replaced old new s s') :
    visited s' = visited s ∧ assigned s' = assigned s ∧ s'.results = s.results := by
  induction h with
  | assign t is plus e => exact ⟨rfl, rfl, rfl⟩
  | loop i _ ih => exact ih
  | wher _ _ ih ih' =>
    refine ⟨?_, ?_, ih.2.2⟩
    · simp only [visited, ih.1, ih'.1]
    · simp only [assigned, ih.2.1, ih'.2.1]
  | nest s => exact ⟨by simp [visited_loops], by simp [assigned_loops], by simp [results_loops]⟩

theorem zip_self_lookup {t : Nat} : ∀ {l : List Nat}, t ∈ l → (l.zip l).lookup t = some t
  | [], h => by simp at h
  | u :: l, h => by
    rw [List.zip_cons_cons, List.lookup_cons]
    by_cases e : t = u
    · simp [e]
    · have hf : (t == u) = false := by simpa using e
      rw [hf]
      exact zip_self_lookup ((List.mem_cons.mp h).resolve_left e)

theorem reads_visited : ∀ (s : Stmt R), ∀ t ∈ s.reads, t ∈ visited s
  | .assign _ _ _ _, _, h => h
  | .loop _ s, t, h => reads_visited s t h
  | .wher c p, t, h => by
    simp only [Stmt.reads, List.mem_append, List.mem_filter] at h
    simp only [visited, List.mem_append]
    rcases h with h | h
    · exact Or.inr (reads_visited c t h.1)
    · exact Or.inl (reads_visited p t h)

end

variable {R : Type} [CommRing R]

/-- A kernel that is called with the tensors its parameters stand for computes the statement.
Temporaries must not be read outside of their where statements. -/
theorem call_correct {dim : Nat → Nat} {s : Stmt R} (hw : s.wellFormed)
    (ht : ∀ t ∈ s.reads, t ∉ temporaries s) {args : List Nat} (ha : args = params s) (σ : Store R)
    (ρ : Env) : call dim s (params s) args σ ρ s.target = exec dim s ρ σ s.target := by
  subst ha
  funext c
  have hp : ∀ t ∈ params s, passed (params s) (params s) σ t = σ t := by
    intro t h
    unfold passed
    rw [zip_self_lookup h]
  refine (exec_local s hw ρ _ _ c ?_).1 ?_
  · intro u hu
    refine hp u (List.mem_append_right _ ?_)
    refine (mem_collect _ _).mpr (Or.inr ?_)
    exact List.mem_filter.mpr ⟨reads_visited s u hu, by simpa using ht u hu⟩
  · rw [hp]
    exact List.mem_append_left _ (by simp [results_target])

/-- Every tensor is passed once. -/
theorem arguments_nodup (s : Stmt R) : (arguments s).Nodup := nodup_collect _ _ List.nodup_nil

/-- Reordering keeps the parameters, so that the reordered kernel is called correctly. -/
theorem reorder_params {pat : List Nat} {s s' : Stmt R} (h : reorder pat s = .ok s')
    (hn : s.noShadow []) : params s' = params s := by
  obtain ⟨old, _, hr⟩ := reorder_structure h hn
  obtain ⟨h1, h2, h3⟩ := replaced_visited hr
  simp [params, arguments, temporaries, h1, h2, h3]

example : params matmul = [0, 1, 2] ∧ packed 0 matmul = [0, 1, 2] := by decide

/-- Precomputing keeps the parameters if the expression is the first thing the right-hand side
reads.  Missing: other expressions, for which the order of the parameters is different, see
below. -/
theorem precompute_params_partial {q : Pre R} {L lhs : List Nat} {a h : Nat} {plus : Bool}
    {c : Expr R} (hh : c.tensors.head? = some h) (hwe : q.ws ∉ q.e.tensors) (hwc : q.ws ∉ c.tensors) :
    params (precompute q L a lhs h c) = packed a (loops L (.assign a lhs plus (c.fill h q.e))) := by
  have hv : (precompute q L a lhs h c).results = [a] := by
    simp [precompute, results_loops, Stmt.results]
  unfold params packed
  rw [hv, List.singleton_append]
  congr 1
  unfold precompute
  rw [arguments_loops, arguments_loops]
  unfold arguments temporaries
  simp only [assigned, assigned_loops, visited, visited_loops, List.singleton_append, List.tail_cons,
    Pre.producerRhs, Pre.consumerRhs, tensors_rename, tensors_fill_eq, Expr.tensors]
  obtain ⟨rest, hr⟩ : ∃ rest, c.tensors = h :: rest := by
    cases hc : c.tensors with
    | nil => rw [hc] at hh; simp at hh
    | cons x xs => rw [hc] at hh; simp at hh; exact ⟨xs, by rw [hh]⟩
  have hw : ∀ l : List Nat, q.ws ∉ l →
      (l.flatMap fun t => if t = h then [q.ws] else [t]).filter (fun t => !([q.ws].contains t)) =
        l.filter (· ≠ h) := by
    intro l
    induction l with
    | nil => intro _; rfl
    | cons t l ih =>
      intro hn
      simp only [List.mem_cons, not_or] at hn
      rw [List.flatMap_cons, List.filter_append, ih hn.2]
      by_cases ht : t = h
      · simp [ht]
      · simp [ht, Ne.symm hn.1]
  have hE : q.e.tensors.filter (fun t => !([q.ws].contains t)) = q.e.tensors := by
    apply List.filter_eq_self.mpr
    intro t ht
    have : t ≠ q.ws := fun e => hwe (e ▸ ht)
    simpa using this
  rw [List.filter_append, hw _ hwc, hE, hr]
  have hempty : ∀ l : List Nat, l.filter (fun t => !([] : List Nat).contains t) = l := by
    intro l; simp
  rw [hempty, List.flatMap_cons, if_pos rfl, collect_append, collect_append, collect_holes]
  · simp
  · intro t ht
    exact (mem_collect _ _).mpr (Or.inr ht)

example : params (precompute rowProduct [0, 2, 1] 0 [0, 1] 9 (.acc 9 [])) =
    packed 0 (loops [0, 2, 1] (.assign 0 [0, 1] true rowProduct.e)) :=
  precompute_params_partial rfl (by decide) (by decide)

/-- `A(i) = C(i) - B(i)`, precomputing `B(i)`, with `A, B, C = 0, 1, 2`. -/
def secondPre : Pre Int where
  e := .acc 1 [0]
  is := [0]
  iws := [3]
  ws := 3

/-- The parameters are then `A, B, C`, but the kernel is called with `A, C, B`, and computes
`B(i) - C(i)`. -/
theorem precompute_params_fails :
    let s := precompute secondPre [0] 0 [0] 9 (.sub (.acc 2 [0]) (.acc 9 []))
    let orig : Stmt Int := loops [0] (.assign 0 [0] false (.sub (.acc 2 [0]) (.acc 1 [0])))
    params s = [0, 1, 2] ∧ packed 0 orig = [0, 2, 1] ∧
    ∃ (dim : Nat → Nat) (σ : Store Int) (ρ : Env), (∀ x, σ 0 x = 0) ∧
      exec dim orig ρ σ 0 [0] = 1 ∧ exec dim s ρ σ 0 [0] = 1 ∧
      call dim s (params s) (packed 0 orig) σ ρ 0 [0] = -1 := by
  refine ⟨by decide, by decide, fun _ => 1, fun t _ => if t = 0 then 0 else t, fun _ => 0,
    fun _ => rfl, ?_, ?_, ?_⟩
  · decide +kernel
  · decide +kernel
  · decide +kernel

end Verif.Concrete
