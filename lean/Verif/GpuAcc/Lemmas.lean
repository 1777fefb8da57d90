import Verif.GpuAcc.Conditions
namespace Verif.GpuAcc
variable {V : Type} [AddCommMonoid V]

theorem sumAt_nil (k : Nat) : sumAt k ([] : Log V) = 0 := rfl

theorem sumAt_cons (k : Nat) (x : Nat × V) (l : Log V) : sumAt k (x :: l) = (if x.1 = k then x.2 else 0) + sumAt k l := by
  unfold sumAt
  by_cases h : x.1 = k
  · rw [List.filter_cons_of_pos (by simpa using h), if_pos h]; simp
  · rw [List.filter_cons_of_neg (by simpa using h), if_neg h]; simp

theorem sumAt_append (k : Nat) (l r : Log V) : sumAt k (l ++ r) = sumAt k l + sumAt k r := by
  unfold sumAt
  rw [List.filter_append, List.map_append, List.sum_append]

theorem sumAt_perm (k : Nat) {l r : Log V} (h : l.Perm r) : sumAt k l = sumAt k r := by
  unfold sumAt
  exact ((h.filter _).map _).sum_eq

/-- The sum of `f` over the threads of a list. -/
def over (f : Nat → V) (l : List Nat) : V := (l.map f).sum

theorem over_nil (f : Nat → V) : over f [] = 0 := rfl

theorem over_cons (f : Nat → V) (x : Nat) (l : List Nat) : over f (x :: l) = f x + over f l := by
  unfold over; simp

theorem over_append (f : Nat → V) (l r : List Nat) : over f (l ++ r) = over f l + over f r := by
  unfold over; simp

theorem over_add (f g : Nat → V) (l : List Nat) : over (fun x => f x + g x) l = over f l + over g l := by
  induction l with
  | nil => simp [over_nil]
  | cons x l ih => rw [over_cons, over_cons, over_cons, ih]; exact add_add_add_comm _ _ _ _

theorem over_congr {f g : Nat → V} {l : List Nat} (h : ∀ x ∈ l, f x = g x) : over f l = over g l := by
  unfold over
  rw [List.map_congr_left h]

theorem over_zero (l : List Nat) : over (fun _ => (0 : V)) l = 0 := by
  induction l with
  | nil => rfl
  | cons x l ih => rw [over_cons, ih, zero_add]

theorem zero_over {f : Nat → V} {l : List Nat} (h : ∀ x ∈ l, f x = 0) : 0 = over f l := by
  rw [over_congr h, over_zero]

theorem range_split (d : Nat) : List.range (d + d) = List.range d ++ (List.range d).map (fun l => l + d) := by
  rw [List.range_add]
  congr 1
  exact List.map_congr_left (fun x _ => Nat.add_comm d x)

theorem over_shflAdd (v : Nat → V) (d : Nat) (h : d + d ≤ 32) :
    over (shflAdd v d) (List.range d) = over v (List.range (d + d)) := by
  rw [range_split, over_append]
  have h2 : over v ((List.range d).map (fun l => l + d)) = over (fun l => v (l + d)) (List.range d) := by
    unfold over; rw [List.map_map]; rfl
  rw [h2, ← over_add]
  refine over_congr (fun x hx => ?_)
  have := List.mem_range.1 hx
  unfold shflAdd shflDown
  rw [if_pos (by omega)]

theorem warpSum_eq (v : Nat → V) : warpSum v 0 = over v (List.range 32) := by
  have h1 : warpSum v 0 = over (warpSum v) (List.range 1) := by
    unfold over; simp
  rw [h1]
  unfold warpSum
  rw [over_shflAdd _ 1 (by omega), over_shflAdd _ 2 (by omega), over_shflAdd _ 4 (by omega), over_shflAdd _ 8 (by omega),
    over_shflAdd _ 16 (by omega)]

/-- What a thread at a call wants to add at `k`. -/
def Lane.at (k : Nat) (x : Lane V) : V :=
  match x with
  | .here a v => if a = k then v else 0
  | _ => 0

theorem sumAt_additions (k : Nat) (lane : Nat → Lane V) (l : List Nat) :
    sumAt k (l.filterMap (fun i => (lane i).addition)) = over (fun i => (lane i).at k) l := by
  induction l with
  | nil => rfl
  | cons i l ih =>
    rw [over_cons]
    cases h : lane i with
    | here a v =>
      rw [List.filterMap_cons_some (by rw [h]; rfl), sumAt_cons, ih]
      simp only [Lane.at]
    | gone => rw [List.filterMap_cons_none (by rw [h]; rfl), ih]; simp only [Lane.at]; rw [zero_add]
    | elsewhere => rw [List.filterMap_cons_none (by rw [h]; rfl), ih]; simp only [Lane.at]; rw [zero_add]

theorem atomicAddWarp_sum (u : Nat) (lane : Nat → Lane V) (h : ∀ l, l < 32 → lane l ≠ .elsewhere) :
    ∃ log, atomicAddWarp u lane = some log ∧ ∀ k, sumAt k log = over (fun l => (lane l).at k) (List.range 32) := by
  unfold atomicAddWarp
  rw [if_neg ?_]
  · by_cases ha : (List.range 32).all (fun l => (lane l).agrees (leaderOf u (lane 0))) = true
    · rw [if_pos ha]
      refine ⟨_, rfl, ?_⟩
      intro k
      have hfm : (List.range 32).filterMap (fun l =>
          if l % 32 = 0 then some (leaderOf u (lane l), warpSum (fun l => (lane l).val) l) else none) =
          [(leaderOf u (lane 0), warpSum (fun l => (lane l).val) 0)] := rfl
      rw [hfm, sumAt_cons, sumAt_nil, add_zero, warpSum_eq]
      rw [List.all_eq_true] at ha
      by_cases hk : leaderOf u (lane 0) = k
      · rw [if_pos hk]
        refine over_congr (fun l hl => ?_)
        have := ha l hl
        cases hl' : lane l with
        | here a v =>
          rw [hl'] at this
          have : a = leaderOf u (lane 0) := by simpa [Lane.agrees] using this
          simp only [Lane.val, Lane.at]
          rw [if_pos (by rw [this, hk])]
        | gone => rw [hl'] at this; exact nomatch this
        | elsewhere => rw [hl'] at this; exact nomatch this
      · rw [if_neg hk, ← over_zero (V := V) (List.range 32)]
        refine over_congr (fun l hl => ?_)
        have := ha l hl
        cases hl' : lane l with
        | here a v =>
          rw [hl'] at this
          have : a = leaderOf u (lane 0) := by simpa [Lane.agrees] using this
          simp only [Lane.at]
          rw [if_neg (by rw [this]; exact hk)]
        | gone => rfl
        | elsewhere => rfl
    · rw [if_neg ha]
      exact ⟨_, rfl, fun k => sumAt_additions k lane _⟩
  · rw [List.any_eq_true]
    rintro ⟨l, hl, he⟩
    have := h l (List.mem_range.1 hl)
    cases hl' : lane l with
    | here a v => rw [hl'] at he; exact nomatch he
    | gone => rw [hl'] at he; exact nomatch he
    | elsewhere => exact this hl'

/-! ### programs -/

theorem maxIters_ge (act : Nat → Bool) (n : Nat → Nat) {l : Nat} (hl : l < 32) (ha : act l = true) :
    n l ≤ maxIters act n := by
  unfold maxIters
  have : ∀ (r : List Nat), l ∈ r → n l ≤ r.foldr (fun l m => if act l then max (n l) m else m) 0 := by
    intro r
    induction r with
    | nil => intro h; exact nomatch h
    | cons x r ih =>
      intro h
      rw [List.foldr_cons]
      rcases List.mem_cons.1 h with rfl | h
      · rw [if_pos ha]; omega
      · have := ih h
        by_cases hx : act x = true
        · rw [if_pos hx]; omega
        · rw [if_neg hx]; exact this
  exact this _ (List.mem_range.2 hl)

theorem range_filter_lt {n N : Nat} (h : n ≤ N) : (List.range N).filter (fun k => decide (k < n)) = List.range n := by
  obtain ⟨d, rfl⟩ := Nat.le.dest h
  rw [List.range_add, List.filter_append]
  rw [List.filter_eq_self.2 (by intro a ha; simpa using ha), List.filter_eq_nil_iff.2, List.append_nil]
  intro a ha
  rw [List.mem_map] at ha
  obtain ⟨x, _, rfl⟩ := ha
  simp

theorem iterate_fst (f : Nat → Bool × Log V) (k : Nat) (ks : List Nat) :
    (iterate f (k :: ks)).1 = ((f k).1 || (iterate f ks).1) := by
  rw [iterate]
  cases h : (f k).1 <;> simp [h]

theorem sumAt_iterate (a : Nat) (f : Nat → Bool × Log V) (k : Nat) (ks : List Nat) :
    sumAt a (iterate f (k :: ks)).2 = sumAt a (f k).2 + (if (f k).1 then 0 else sumAt a (iterate f ks).2) := by
  rw [iterate]
  by_cases h : (f k).1 = true
  · rw [if_pos h, if_pos h, add_zero]
  · rw [if_neg h, if_neg h, sumAt_append]

/-- What a warp does with a statement: it succeeds, the threads that return are those that return when
they run alone, and at every address the sum of what is added is that of the threads. -/
def Good (base : Nat) (act ex : Nat → Bool) (t : Nat → Bool × Log V) (r : Option ((Nat → Bool) × Log V)) : Prop :=
  ∃ ex' log, r = some (ex', log) ∧ (∀ l, l < 32 → ex' l = (ex l || (act l && (t (base + l)).1))) ∧
    ∀ a, sumAt a log = over (fun l => if act l then sumAt a (t (base + l)).2 else 0) (List.range 32)

theorem warpLoop_good (base : Nat) (n : Nat → Nat) (act : Nat → Bool) (f : Nat → (Nat → Bool) → Option ((Nat → Bool) × Log V))
    (t : Nat → Nat → Bool × Log V) (ok : (Nat → Bool) → Prop)
    (hf : ∀ k ex, ok ex → Good base (fun l => act l && !ex l && decide (k < n (base + l))) ex (fun i => t i k) (f k ex))
    (hok : ∀ ex ex' : Nat → Bool, ok ex → (∀ l, l < 32 → ex l = true → ex' l = true) → ok ex') :
    ∀ (ks : List Nat) (ex : Nat → Bool), ok ex →
      Good base (fun l => act l && !ex l) ex (fun i => iterate (t i) (ks.filter (fun k => decide (k < n i)))) (warpLoop f ks ex) := by
  intro ks
  induction ks with
  | nil =>
    intro ex _
    refine ⟨ex, [], rfl, ?_, ?_⟩
    · intro l _; simp [iterate]
    · intro a
      rw [sumAt_nil]
      refine zero_over (fun l _ => ?_)
      split <;> rfl
  | cons k ks ih =>
    intro ex hex
    obtain ⟨ex1, l1, e1, e2, e3⟩ := hf k ex hex
    have hex1 : ok ex1 := hok ex ex1 hex (fun l hl h => by rw [e2 l hl, h]; rfl)
    obtain ⟨ex2, l2, g1, g2, g3⟩ := ih ex1 hex1
    refine ⟨ex2, l1 ++ l2, ?_, ?_, ?_⟩
    · unfold warpLoop
      rw [e1]
      simp only
      rw [g1]
      rfl
    · intro l hl
      rw [g2 l hl]
      show (ex1 l || (act l && !ex1 l && (iterate (t (base + l)) (ks.filter (fun k => decide (k < n (base + l))))).1)) =
        (ex l || (act l && !ex l && (iterate (t (base + l)) ((k :: ks).filter (fun k => decide (k < n (base + l))))).1))
      have h2 : ex1 l = (ex l || (act l && !ex l && decide (k < n (base + l)) && (t (base + l) k).1)) := e2 l hl
      by_cases hk : k < n (base + l)
      · rw [List.filter_cons_of_pos (by simpa using hk), iterate_fst, h2]
        generalize (iterate (t (base + l)) (ks.filter (fun k => decide (k < n (base + l))))).1 = x
        generalize (t (base + l) k).1 = y
        simp only [hk, decide_true]
        cases ex l <;> cases act l <;> cases x <;> cases y <;> rfl
      · rw [List.filter_cons_of_neg (by simpa using hk), h2]
        generalize (iterate (t (base + l)) (ks.filter (fun k => decide (k < n (base + l))))).1 = x
        simp only [hk, decide_false]
        cases ex l <;> cases act l <;> cases x <;> rfl
    · intro a
      rw [sumAt_append, e3, g3, ← over_add]
      refine over_congr (fun l hl => ?_)
      have h2 : ex1 l = (ex l || (act l && !ex l && decide (k < n (base + l)) && (t (base + l) k).1)) := e2 l (List.mem_range.1 hl)
      show ((if (act l && !ex l && decide (k < n (base + l))) = true then sumAt a (t (base + l) k).2 else 0) +
        if (act l && !ex1 l) = true then sumAt a (iterate (t (base + l)) (ks.filter (fun k => decide (k < n (base + l))))).2 else 0) =
        if (act l && !ex l) = true then sumAt a (iterate (t (base + l)) ((k :: ks).filter (fun k => decide (k < n (base + l))))).2 else 0
      rw [h2]
      by_cases hk : k < n (base + l)
      · rw [List.filter_cons_of_pos (by simpa using hk), sumAt_iterate]
        generalize (iterate (t (base + l)) (ks.filter (fun k => decide (k < n (base + l))))).2 = x
        generalize (t (base + l) k).1 = y
        simp only [hk, decide_true]
        cases ex l <;> cases act l <;> cases y <;> simp
      · rw [List.filter_cons_of_neg (by simpa using hk)]
        generalize (iterate (t (base + l)) (ks.filter (fun k => decide (k < n (base + l))))).2 = x
        simp only [hk, decide_false]
        cases ex l <;> cases act l <;> simp

/-- A warp does what its threads do. -/
theorem exec_good (u base : Nat) : ∀ (p : Prog V) (d : Nat) (its : List Nat) (act ex : Nat → Bool), Together d p →
    (∀ l, l < 32 → act l = true → ex l = false) →
    (HasWarp d p = true → (∀ l, l < 32 → act l = true ∨ ex l = true) ∨ ∀ l, l < 32 → act l = false) →
    Good base act ex (fun i => runThread i p its) (exec u base p d its act ex)
  | .skip, d, its, act, ex, _, _, _ => by
    refine ⟨ex, [], rfl, fun l _ => by simp [runThread], fun a => ?_⟩
    rw [sumAt_nil]
    refine zero_over (fun l _ => ?_)
    split <;> rfl
  | .exit c, d, its, act, ex, _, _, _ => by
    refine ⟨_, [], rfl, fun l _ => rfl, fun a => ?_⟩
    rw [sumAt_nil]
    refine zero_over (fun l _ => ?_)
    split <;> rfl
  | .add shared addr val, d, its, act, ex, _, hx, hw => by
    rw [exec]
    by_cases hno : (List.range 32).all (fun l => !act l) = true
    · rw [if_pos hno]
      rw [List.all_eq_true] at hno
      refine ⟨ex, [], rfl, fun l _ => by simp [runThread], fun a => ?_⟩
      rw [sumAt_nil]
      refine zero_over (fun l hl => ?_)
      have := hno l hl
      rw [if_neg (by simpa using this)]
    rw [if_neg hno]
    by_cases hu : usesWarp shared d = true
    · rw [if_pos hu]
      have hall : ∀ l, l < 32 → act l = true ∨ ex l = true := by
        rcases hw hu with h | h
        · exact h
        · exact absurd (List.all_eq_true.2 (fun l hl => by simp [h l (List.mem_range.1 hl)])) hno
      obtain ⟨log, e1, e2⟩ := atomicAddWarp_sum u (fun l =>
        if act l then Lane.here (addr (base + l) its) (val (base + l) its) else if ex l then .gone else .elsewhere) (by
        intro l hl
        by_cases ha : act l = true
        · rw [if_pos ha]; exact (fun h => nomatch h)
        · rw [if_neg ha]
          rcases hall l hl with h | h
          · exact absurd h ha
          · rw [if_pos h]; exact (fun h => nomatch h))
      refine ⟨ex, log, by rw [e1]; rfl, fun l _ => by simp [runThread], fun a => ?_⟩
      rw [e2]
      refine over_congr (fun l _ => ?_)
      by_cases ha : act l = true
      · simp only [ha, if_true, Lane.at, runThread, sumAt_cons, sumAt_nil, add_zero]
      · simp only [ha, if_false]
        by_cases he : ex l = true <;> simp [he, Lane.at]
    · rw [if_neg hu]
      refine ⟨ex, _, rfl, fun l _ => by simp [runThread], fun a => ?_⟩
      have : ∀ r : List Nat, sumAt a ((r.filter act).map (fun l => (addr (base + l) its, val (base + l) its))) =
          over (fun l => if act l then sumAt a (runThread (base + l) (.add shared addr val) its).2 else 0) r := by
        intro r
        induction r with
        | nil => rfl
        | cons l r ih =>
          rw [over_cons]
          by_cases ha : act l = true
          · rw [List.filter_cons_of_pos ha, List.map_cons, sumAt_cons, ih, if_pos ha]
            simp only [runThread, sumAt_cons, sumAt_nil, add_zero]
          · rw [List.filter_cons_of_neg ha, ih, if_neg ha, zero_add]
      exact this _
  | .seq p q, d, its, act, ex, ht, hx, hw => by
    obtain ⟨ht1, ht2⟩ := ht
    obtain ⟨ex1, l1, e1, e2, e3⟩ := exec_good u base p d its act ex ht1 hx (fun h => hw (by rw [HasWarp, h]; rfl))
    obtain ⟨ex2, l2, g1, g2, g3⟩ := exec_good u base q d its (fun l => act l && !ex1 l) ex1 ht2
      (by intro l _ h; cases h1 : ex1 l <;> simp [h1] at h ⊢) (by
        intro h
        refine (hw (by rw [HasWarp, h]; simp)).imp (fun hA l hl => ?_) (fun hN l hl => by simp [hN l hl])
        have := hA l hl
        have h2 := e2 l hl
        cases h3 : ex1 l with
        | true => exact Or.inr rfl
        | false =>
          rw [h3] at h2
          rcases this with h4 | h4
          · left; simp [h4]
          · rw [h4] at h2; simp at h2)
    refine ⟨ex2, l1 ++ l2, ?_, ?_, ?_⟩
    · rw [exec, e1]
      simp only
      rw [g1]
      rfl
    · intro l hl
      rw [g2 l hl]
      have h2 : ex1 l = (ex l || (act l && (runThread (base + l) p its).1)) := e2 l hl
      show (ex1 l || (act l && !ex1 l && (runThread (base + l) q its).1)) = (ex l || (act l && (runThread (base + l) (.seq p q) its).1))
      rw [h2, runThread]
      cases h : (runThread (base + l) p its).1
      · rw [if_neg (fun h => nomatch h)]
        generalize (runThread (base + l) q its).1 = x
        cases ex l <;> cases act l <;> cases x <;> rfl
      · rw [if_pos rfl, h]
        generalize (runThread (base + l) q its).1 = x
        cases ex l <;> cases act l <;> cases x <;> rfl
    · intro a
      rw [sumAt_append, e3, g3, ← over_add]
      refine over_congr (fun l hl => ?_)
      have hx' := hx l (List.mem_range.1 hl)
      have h2 : ex1 l = (ex l || (act l && (runThread (base + l) p its).1)) := e2 l (List.mem_range.1 hl)
      show ((if act l = true then sumAt a (runThread (base + l) p its).2 else 0) +
        if (act l && !ex1 l) = true then sumAt a (runThread (base + l) q its).2 else 0) =
        if act l = true then sumAt a (runThread (base + l) (.seq p q) its).2 else 0
      rw [h2]
      cases ha : act l with
      | false => simp
      | true =>
        rw [hx' ha, runThread]
        cases h : (runThread (base + l) p its).1
        · simp [sumAt_append]
        · simp
  | .ite c p, d, its, act, ex, ht, hx, hw => by
    obtain ⟨ht1, ht2⟩ := ht
    obtain ⟨ex1, l1, e1, e2, e3⟩ := exec_good u base p d its (fun l => act l && c (base + l) its) ex ht2
      (by intro l hl h; simp at h; exact hx l hl h.1) (by
        intro hu
        have hc : ∀ s t, c s its = c t its := by
          rcases ht1 with h | h
          · rw [hu] at h; exact nomatch h
          · exact h its
        rcases hw hu with h | h
        · cases hcb : c base its with
          | true => exact Or.inl (fun l hl => by rw [hc (base + l) base, hcb, Bool.and_true]; exact h l hl)
          | false => exact Or.inr (fun l hl => by rw [hc (base + l) base, hcb, Bool.and_false])
        · exact Or.inr (fun l hl => by rw [h l hl, Bool.false_and]))
    refine ⟨ex1, l1, by rw [exec]; exact e1, fun l hl => ?_, fun a => ?_⟩
    · rw [e2 l hl]; simp only [runThread]; cases c (base + l) its <;> simp
    · rw [e3]; refine over_congr (fun l _ => ?_)
      simp only [runThread]; cases c (base + l) its <;> cases act l <;> simp [sumAt_nil]
  | .loop counted n p, d, its, act, ex, ht, hx, hw => by
    obtain ⟨ht1, ht2⟩ := ht
    have hloop := warpLoop_good base (fun i => n i its) act
      (fun k ex => exec u base p (depthIn counted d) (k :: its) (fun l => act l && !ex l && decide (k < n (base + l) its)) ex)
      (fun i k => runThread i p (k :: its))
      (fun ex => HasWarp (depthIn counted d) p = true → (∀ l, l < 32 → act l = true ∨ ex l = true) ∨ ∀ l, l < 32 → act l = false)
      (by
        intro k ex' hok
        refine exec_good u base p (depthIn counted d) (k :: its) _ ex' ht2 ?_ ?_
        · intro l _ h
          cases he : ex' l with
          | false => rfl
          | true => rw [he] at h; simp at h
        · intro hu
          have hn : ∀ s t, n s its = n t its := by
            rcases ht1 with h | h
            · rw [hu] at h; exact nomatch h
            · exact h its
          rcases hok hu with h | h
          · by_cases hk : k < n base its
            · refine Or.inl (fun l hl => ?_)
              rw [hn (base + l) base]
              simp only [hk, decide_true, Bool.and_true]
              cases he : ex' l with
              | true => exact Or.inr rfl
              | false =>
                rcases h l hl with h | h
                · left; rw [h]; rfl
                · rw [he] at h; exact nomatch h
            · refine Or.inr (fun l hl => ?_)
              rw [hn (base + l) base]
              simp only [hk, decide_false, Bool.and_false]
          · exact Or.inr (fun l hl => by rw [h l hl]; rfl))
      (by
        intro ex ex' hok hsub hu
        exact (hok hu).imp (fun h l hl => (h l hl).imp id (hsub l hl)) id)
      (List.range (maxIters act (fun l => n (base + l) its))) ex hw
    obtain ⟨ex1, l1, e1, e2, e3⟩ := hloop
    have hfilt : ∀ l, l < 32 → act l = true → (List.range (maxIters act (fun l => n (base + l) its))).filter
        (fun k => decide (k < n (base + l) its)) = List.range (n (base + l) its) := by
      intro l hl ha
      exact range_filter_lt (maxIters_ge act (fun l => n (base + l) its) hl ha)
    refine ⟨ex1, l1, by rw [exec]; exact e1, fun l hl => ?_, fun a => ?_⟩
    · rw [e2 l hl]
      show (ex l || (act l && !ex l && (iterate (fun k => runThread (base + l) p (k :: its))
          ((List.range (maxIters act (fun l => n (base + l) its))).filter (fun k => decide (k < n (base + l) its)))).1)) =
        (ex l || (act l && (runThread (base + l) (.loop counted n p) its).1))
      cases ha : act l with
      | false => rfl
      | true =>
        rw [hfilt l hl ha, hx l hl ha, runThread]
        rfl
    · rw [e3]
      refine over_congr (fun l hl => ?_)
      have hl := List.mem_range.1 hl
      show (if (act l && !ex l) = true then sumAt a (iterate (fun k => runThread (base + l) p (k :: its))
          ((List.range (maxIters act (fun l => n (base + l) its))).filter (fun k => decide (k < n (base + l) its)))).2 else 0) =
        if act l = true then sumAt a (runThread (base + l) (.loop counted n p) its).2 else 0
      cases ha : act l with
      | false => rfl
      | true =>
        rw [hfilt l hl ha, hx l hl ha, runThread]
        rfl

end Verif.GpuAcc
