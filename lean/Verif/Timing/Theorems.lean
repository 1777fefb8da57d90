import Verif.Timing.Model
/-! C98: times that benchmarks report. -/
namespace Verif.Timing

/-! ### Helper facts -/

theorem insert_perm (x : Int) : ∀ l : List Int, (insert x l).Perm (x :: l)
  | [] => .refl _
  | y :: l => by
    unfold insert
    split
    · exact .refl _
    · exact ((insert_perm x l).cons y).trans (.swap x y l)

theorem sort_perm : ∀ l : List Int, (sort l).Perm l
  | [] => .refl _
  | x :: l => (insert_perm x _).trans ((sort_perm l).cons x)

theorem insert_sorted (x : Int) : ∀ {l : List Int}, l.Pairwise (· ≤ ·) → (insert x l).Pairwise (· ≤ ·)
  | [], _ => by simp [insert]
  | y :: l, h => by
    have hy := List.pairwise_cons.mp h
    unfold insert
    split
    · rename_i hle
      refine List.pairwise_cons.mpr ⟨fun z hz => ?_, h⟩
      rcases List.mem_cons.mp hz with rfl | hz
      · exact hle
      · exact Int.le_trans hle (hy.1 z hz)
    · rename_i hle
      refine List.pairwise_cons.mpr ⟨fun z hz => ?_, insert_sorted x hy.2⟩
      rcases List.mem_cons.mp ((insert_perm x l).mem_iff.mp hz) with rfl | hz
      · omega
      · exact hy.1 z hz

theorem sort_sorted : ∀ l : List Int, (sort l).Pairwise (· ≤ ·)
  | [] => .nil
  | x :: l => insert_sorted x (sort_sorted l)

theorem sorted_unique : ∀ {a b : List Int}, a.Perm b → a.Pairwise (· ≤ ·) → b.Pairwise (· ≤ ·) → a = b
  | [], b, h, _, _ => (List.nil_perm.mp h).symm
  | x :: a, [], h, _, _ => by cases List.perm_nil.mp h
  | x :: a, y :: b, h, ha, hb => by
    have h1 := List.pairwise_cons.mp ha
    have h2 := List.pairwise_cons.mp hb
    have e : x = y := by
      have hx : x ∈ y :: b := h.mem_iff.mp (by simp)
      have hy : y ∈ x :: a := h.mem_iff.mpr (by simp)
      rcases List.mem_cons.mp hx with e | hx
      · exact e
      · rcases List.mem_cons.mp hy with e | hy
        · exact e.symm
        · have := h1.1 y hy
          have := h2.1 x hx
          omega
    subst e
    rw [sorted_unique ((List.perm_cons x).mp h) h1.2 h2.2]

theorem total_perm {a b : List Int} (h : a.Perm b) : total a = total b := by
  induction h with
  | nil => rfl
  | cons x _ ih => show x + total _ = x + total _; rw [ih]
  | swap x y l => show y + (x + total l) = x + (y + total l); omega
  | trans _ _ h1 h2 => rw [h1, h2]

theorem foldl_total : ∀ (l : List Int) (a : Int), l.foldl (· + ·) a = a + total l
  | [], a => by simp [total]
  | x :: l, a => by
    rw [List.foldl_cons, foldl_total l]
    show a + x + total l = a + (x + total l)
    omega

theorem split_middle (s : List Int) (t : Nat) (h : 2 * t ≤ s.length) : s = s.take t ++ middle s t ++ s.drop (s.length - t) := by
  unfold middle
  have h1 : s.take t = (s.take (s.length - t)).take t := by rw [List.take_take, Nat.min_eq_left (by omega)]
  rw [h1, List.take_append_drop, List.take_append_drop]

theorem middle_length (s : List Int) (t : Nat) : (middle s t).length = s.length - 2 * t := by
  unfold middle
  rw [List.length_drop, List.length_take]
  omega

theorem sort_length (l : List Int) : (sort l).length = l.length := (sort_perm l).length_eq

theorem tenth_eq {n t : Nat} (hn : n < 2 ^ 31) (h : Tenth n t) : t = n / 10 := by
  obtain ⟨y, h1, h2, h3, rfl⟩ := h
  have e1 : (2 : Nat) ^ 108 = 324518553658426726783156020576256 := by decide +kernel
  have e2 : (2 : Nat) ^ 53 = 9007199254740992 := by decide +kernel
  have e3 : (2 : Nat) ^ 31 = 2147483648 := by decide +kernel
  rw [e3] at hn
  simp only [e1, e2] at h1 h2 h3 ⊢
  have h4 : n / 10 * 324518553658426726783156020576256 ≤ n * 3602879701896397 * 9007199254740992 := by
    clear h1 h2 h3
    omega
  have := h3 (n / 10) h4
  clear h2 h3 h4
  omega

theorem kept_middle (l : List Int) : Kept l (middle (sort l) (l.length / 10)) := by
  have hs := split_middle (sort l) (l.length / 10) (by rw [sort_length]; omega)
  have hp := sort_sorted l
  rw [hs, List.append_assoc, List.pairwise_append] at hp
  refine ⟨_, _, by rw [← hs]; exact sort_perm l, by rw [List.length_take, sort_length]; omega, by rw [List.length_drop, sort_length]; omega, fun a ha b hb => ?_, fun a ha b hb => ?_⟩
  · exact hp.2.2 a ha b (List.mem_append_left _ hb)
  · exact (List.pairwise_append.mp hp.2.1).2.2 a ha b hb

/-- Sorted pieces. -/
theorem sort_pieces {a b c : List Int} (h1 : ∀ x ∈ a, ∀ y ∈ b, x ≤ y) (h2 : ∀ x ∈ b, ∀ y ∈ c, x ≤ y) (hb : b ≠ []) : sort (a ++ b ++ c) = sort a ++ sort b ++ sort c := by
  obtain ⟨z, hz⟩ := List.exists_mem_of_ne_nil _ hb
  refine sorted_unique ?_ (sort_sorted _) ?_
  · exact (sort_perm _).trans (((sort_perm a).symm.append (sort_perm b).symm).append (sort_perm c).symm)
  · rw [List.pairwise_append, List.pairwise_append]
    refine ⟨⟨sort_sorted a, sort_sorted b, fun x hx y hy => h1 x ((sort_perm a).mem_iff.mp hx) y ((sort_perm b).mem_iff.mp hy)⟩, sort_sorted c, fun x hx y hy => ?_⟩
    have hy' := (sort_perm c).mem_iff.mp hy
    rcases List.mem_append.mp hx with hx | hx
    · exact Int.le_trans (h1 x ((sort_perm a).mem_iff.mp hx) z hz) (h2 z hz y hy')
    · exact h2 x ((sort_perm b).mem_iff.mp hx) y hy'

theorem sort_congr {a b : List Int} (h : a.Perm b) : sort a = sort b :=
  sorted_unique ((sort_perm a).trans (h.trans (sort_perm b).symm)) (sort_sorted a) (sort_sorted b)

/-- What is kept is determined, up to its order. -/
theorem kept_unique {l k : List Int} (h : Kept l k) (hk : k ≠ []) : k.Perm (middle (sort l) (l.length / 10)) := by
  obtain ⟨low, high, hp, h1, h2, h3, h4⟩ := h
  have e : sort l = sort low ++ sort k ++ sort high := by rw [← sort_congr hp, sort_pieces h3 h4 hk]
  have hl : l.length = low.length + k.length + high.length := by rw [← hp.length_eq, List.length_append, List.length_append]
  have e2 : middle (sort l) (l.length / 10) = sort k := by
    unfold middle
    rw [e]
    have : (sort low ++ sort k ++ sort high).length - l.length / 10 = (sort low ++ sort k).length := by
      simp only [List.length_append, sort_length]; omega
    rw [this, List.take_left, ← h1, ← sort_length low, List.drop_left]
  rw [e2]; exact (sort_perm k).symm

/-- The median of the first elements. -/
theorem median_first {s : List Int} (hs : s.Pairwise (· ≤ ·)) {size : Nat} (h0 : 0 < size) (hle : size ≤ s.length) : ∃ m, median2 s size = some m ∧ TwiceMedian (s.take size) m := by
  have hss : SortedOf (s.take size) (s.take size) := ⟨.refl _, hs.sublist (List.take_sublist _ _)⟩
  have hlen : (s.take size).length = size := by rw [List.length_take]; omega
  unfold median2
  by_cases hodd : size % 2 = 1
  · have hlt : size / 2 < s.length := by omega
    rw [if_pos hodd, List.getElem?_eq_getElem hlt]
    refine ⟨_, rfl, s.take size, hss, .inl ⟨(s.take size).take (size / 2), s[size / 2], (s.take size).drop (size / 2 + 1), ?_, ?_, rfl⟩⟩
    · have hlt' : size / 2 < (s.take size).length := by omega
      have := List.take_append_drop (size / 2) (s.take size)
      rw [List.drop_eq_getElem_cons hlt', List.getElem_take] at this
      exact this.symm
    · rw [List.length_take, List.length_drop, hlen]; omega
  · have hlt : size / 2 < s.length := by omega
    have hlt1 : size / 2 - 1 < s.length := by omega
    rw [if_neg hodd, if_neg (by omega), List.getElem?_eq_getElem hlt, List.getElem?_eq_getElem hlt1]
    refine ⟨_, rfl, s.take size, hss, .inr ⟨(s.take size).take (size / 2 - 1), s[size / 2 - 1], s[size / 2], (s.take size).drop (size / 2 + 1), ?_, ?_, rfl⟩⟩
    · have hlt' : size / 2 < (s.take size).length := by omega
      have hlt1' : size / 2 - 1 < (s.take size).length := by omega
      have e := List.take_append_drop (size / 2 - 1) (s.take size)
      have e1 : (s.take size).drop (size / 2 - 1) = s[size / 2 - 1] :: s[size / 2] :: (s.take size).drop (size / 2 + 1) := by
        have e3 := List.drop_eq_getElem_cons hlt'
        have e2 := List.drop_eq_getElem_cons hlt1'
        rw [show size / 2 - 1 + 1 = size / 2 by omega, e3, List.getElem_take, List.getElem_take] at e2
        exact e2
      rw [e1] at e
      exact e.symm
    · rw [List.length_take, List.length_drop, hlen]; omega

theorem median_unique {l : List Int} {m m' : Int} (h : TwiceMedian l m) (h' : TwiceMedian l m') : m = m' := by
  obtain ⟨s, ⟨hp, ho⟩, h⟩ := h
  obtain ⟨s', ⟨hp', ho'⟩, h'⟩ := h'
  have e := sorted_unique (hp.trans hp'.symm) ho ho'
  subst e
  rcases h with ⟨a, x, b, e, hl, rfl⟩ | ⟨a, x, y, b, e, hl, rfl⟩ <;> rcases h' with ⟨a', x', b', e', hl', rfl⟩ | ⟨a', x', y', b', e', hl', rfl⟩
  · rw [e] at e'
    have hlen := congrArg List.length e'
    simp only [List.length_append, List.length_cons] at hlen
    have := (List.append_inj e' (by omega)).2
    rw [(List.cons.inj this).1]
  · have h1 := congrArg List.length e; have h2 := congrArg List.length e'
    simp only [List.length_append, List.length_cons] at h1 h2
    omega
  · have h1 := congrArg List.length e; have h2 := congrArg List.length e'
    simp only [List.length_append, List.length_cons] at h1 h2
    omega
  · rw [e] at e'
    have hlen := congrArg List.length e'
    simp only [List.length_append, List.length_cons] at hlen
    have := (List.append_inj e' (by omega)).2
    obtain ⟨h1, h2⟩ := List.cons.inj this
    rw [h1, (List.cons.inj h2).1]

theorem median2_some {s : List Int} (hs : s.Pairwise (· ≤ ·)) {t : Nat} (h0 : 2 * t < s.length) : ∃ m, median2 s (s.length - 2 * t) = some m ∧ TwiceMedian (s.take (s.length - 2 * t)) m :=
  median_first hs (by omega) (by omega)

theorem result_of {t : Nat} {l : List Int} {m : Int} (h : median2 (sort l) (l.length - 2 * t) = some m) : getResult t l =
    some ⟨l.length - 2 * t, (middle (sort l) t).foldl (· + ·) 0, squares (l.length - 2 * t) ((middle (sort l) t).foldl (· + ·) 0) (middle (sort l) t), m⟩ := by
  show (median2 (sort l) (l.length - 2 * t)).map _ = _
  rw [h]; rfl

theorem squares_eq (n : Nat) (t : Int) : ∀ l : List Int, squares n t l = total (l.map fun x => (n * x - t) * (n * x - t))
  | [] => rfl
  | x :: l => by
    show _ + squares n t l = _ + total (l.map _)
    rw [squares_eq n t l]

/-! ### Properties -/

/-- A tenth of the measurements, at most 2^31, is removed at either end, however the product is rounded. -/
theorem tenth_removed (n t : Nat) (hn : n < 2 ^ 31) (h : Tenth n t) : t = n / 10 := tenth_eq hn h

/-- The mean and the standard deviation that are reported are those of the measurements without the fastest and the slowest tenth. -/
theorem mean_of_kept (l : List Int) (h : l ≠ []) : ∃ r, getResult (l.length / 10) l = some r ∧ ∀ k, Kept l k → r.size = k.length ∧ r.sum = total k ∧ r.squares = deviation k := by
  have h0 : 0 < l.length := List.length_pos_iff.mpr h
  obtain ⟨m, hm, _⟩ := median2_some (sort_sorted l) (t := l.length / 10) (by rw [sort_length]; omega)
  rw [sort_length] at hm
  refine ⟨_, result_of hm, fun k hk => ?_⟩
  have hlen : k.length = l.length - 2 * (l.length / 10) := by
    obtain ⟨low, high, hp, h1, h2, _⟩ := hk
    have := hp.length_eq
    rw [List.length_append, List.length_append] at this
    omega
  have hu := kept_unique hk (fun e => by rw [e, List.length_nil] at hlen; omega)
  have hsum : (middle (sort l) (l.length / 10)).foldl (· + ·) 0 = total k := by
    rw [foldl_total, Int.zero_add]
    exact (total_perm hu).symm
  refine ⟨hlen.symm, hsum, ?_⟩
  show squares (l.length - 2 * (l.length / 10)) ((middle (sort l) (l.length / 10)).foldl (· + ·) 0) (middle (sort l) (l.length / 10)) = deviation k
  rw [hsum, ← hlen, squares_eq]
  exact (total_perm (hu.map _)).symm

/-- Results do not depend on the order of the measurements. -/
theorem order_irrelevant (l l' : List Int) (h : l.Perm l') (t : Nat) : getResult t l = getResult t l' := by
  unfold getResult
  rw [sort_congr h, h.length_eq]

/-- Of fewer than ten measurements the median is reported. -/
theorem median_partial (l : List Int) (h : l ≠ []) (hn : l.length < 10) : ∃ r, getResult (l.length / 10) l = some r ∧ TwiceMedian l r.median2 := by
  have h0 : 0 < l.length := List.length_pos_iff.mpr h
  obtain ⟨m, hm, s, ⟨hp, ho⟩, hmed⟩ := median2_some (sort_sorted l) (t := l.length / 10) (by rw [sort_length]; omega)
  rw [sort_length] at hm hp
  refine ⟨_, result_of hm, s, ⟨?_, ho⟩, hmed⟩
  have e : l.length - 2 * (l.length / 10) = (sort l).length := by rw [sort_length]; omega
  rw [e, List.take_length] at hp
  exact hp.trans (sort_perm l)

/-- Of ten and more, what is reported is the median of the fastest ones: without the slowest fifth, not without both tenths. -/
theorem median_of_fastest_fails (l fast slow : List Int) (hl : 10 ≤ l.length) (hp : (fast ++ slow).Perm l) (hs : slow.length = 2 * (l.length / 10)) (hle : ∀ a ∈ fast, ∀ b ∈ slow, a ≤ b) :
    ∃ r, getResult (l.length / 10) l = some r ∧ TwiceMedian fast r.median2 := by
  have hlen : l.length = fast.length + slow.length := by rw [← hp.length_eq, List.length_append]
  obtain ⟨m, hm, s, ⟨hp', ho⟩, hmed⟩ := median2_some (sort_sorted l) (t := l.length / 10) (by rw [sort_length]; omega)
  rw [sort_length] at hm hp'
  refine ⟨_, result_of hm, s, ⟨?_, ho⟩, hmed⟩
  have hf : fast ≠ [] := fun e => by rw [e, List.length_nil] at hlen; omega
  have e : sort l = sort fast ++ sort slow := by
    have := sort_pieces (a := []) (b := fast) (c := slow) (fun _ h => nomatch h) hle hf
    rw [← sort_congr hp]
    exact this
  rw [e, show l.length - 2 * (l.length / 10) = (sort fast).length by rw [sort_length]; omega, List.take_left] at hp'
  exact hp'.trans (sort_perm fast)

/-- So the median that is reported can differ from that of the kept measurements, and from that of all. -/
theorem median_fails : ∃ r, getResult 1 [1, 2, 3, 4, 5, 6, 7, 8, 9, 10] = some r ∧ r.median2 = 9
    ∧ TwiceMedian [2, 3, 4, 5, 6, 7, 8, 9] 11 ∧ TwiceMedian [1, 2, 3, 4, 5, 6, 7, 8, 9, 10] 11 :=
  ⟨⟨8, 44, 2688, 9⟩, by decide +kernel, rfl,
    ⟨_, ⟨.refl _, by decide +kernel⟩, .inr ⟨[2, 3, 4], 5, 6, [7, 8, 9], rfl, rfl, rfl⟩⟩,
    ⟨_, ⟨.refl _, by decide +kernel⟩, .inr ⟨[1, 2, 3, 4], 5, 6, [7, 8, 9, 10], rfl, rfl, rfl⟩⟩⟩

/-- Without measurements (`-time=0`, or a negative number) the median is read outside of the vector. -/
theorem no_measurements_fails : getResult 0 [] = none := by decide +kernel

theorem measure_rest (c e : Int) : ∀ n, measure c e false n = List.replicate n e
  | 0 => rfl
  | n + 1 => by show e :: measure c e false n = _; rw [measure_rest c e n]; rfl

theorem total_replicate (e : Int) : ∀ n : Nat, total (List.replicate n e) = n * e
  | 0 => by simp [total]
  | n + 1 => by
    show e + total (List.replicate n e) = _
    rw [total_replicate e n, Int.natCast_add, Int.add_mul]
    simp; omega

/-- A repeated benchmark measures the kernel once and calls that do nothing otherwise: from ten repetitions on, the one measurement of the kernel is
removed, and the mean and the median are those of empty calls. -/
theorem repeat_measures_nothing_fails (c e : Int) (hce : e ≤ c) (n : Nat) (hn : 10 ≤ n) :
    ∃ r, getResult (n / 10) (measure c e true n) = some r ∧ r.sum = r.size * e ∧ r.median2 = 2 * e := by
  obtain ⟨n, rfl⟩ : ∃ m, n = m + 1 := ⟨n - 1, by omega⟩
  have hm : measure c e true (n + 1) = c :: List.replicate n e := by
    show c :: measure c e false n = _
    rw [measure_rest]
  have hlen : (measure c e true (n + 1)).length = n + 1 := by rw [hm]; simp
  have hne : measure c e true (n + 1) ≠ [] := by rw [hm]; exact fun h => nomatch h
  obtain ⟨r, hr, hk⟩ := mean_of_kept _ hne
  rw [hlen] at hr
  have e1 : n = (n + 1) / 10 + ((n + 1) - 2 * ((n + 1) / 10)) + ((n + 1) / 10 - 1) := by omega
  have hperm : ∀ a b, n = a + b → (List.replicate a e ++ (List.replicate b e ++ [c])).Perm (measure c e true (n + 1)) := by
    intro a b h
    rw [hm, ← List.append_assoc, List.replicate_append_replicate, ← h]
    exact List.perm_append_comm
  obtain ⟨h1, h2, _⟩ := hk (List.replicate ((n + 1) - 2 * ((n + 1) / 10)) e) ⟨List.replicate ((n + 1) / 10) e, List.replicate ((n + 1) / 10 - 1) e ++ [c], by
      rw [List.replicate_append_replicate]
      exact hperm _ _ e1, by rw [hlen, List.length_replicate], by rw [hlen, List.length_append, List.length_replicate]; simp; omega,
      fun a ha b hb => by rw [List.eq_of_mem_replicate ha, List.eq_of_mem_replicate hb]; exact Int.le_refl _, fun a ha b hb => by
      rw [List.eq_of_mem_replicate ha]
      rcases List.mem_append.mp hb with hb | hb
      · rw [List.eq_of_mem_replicate hb]; exact Int.le_refl _
      · rw [List.mem_singleton.mp hb]; exact hce⟩
  refine ⟨r, hr, by rw [h2, total_replicate, h1, List.length_replicate], ?_⟩
  obtain ⟨r', hr', hmed⟩ := median_of_fastest_fails (measure c e true (n + 1)) (List.replicate ((n + 1) - 2 * ((n + 1) / 10)) e) (List.replicate (2 * ((n + 1) / 10) - 1) e ++ [c])
    (by omega) (hperm _ _ (by omega)) (by rw [hlen, List.length_append, List.length_replicate]; simp; omega) (fun a ha b hb => by
      rw [List.eq_of_mem_replicate ha]
      rcases List.mem_append.mp hb with hb | hb
      · rw [List.eq_of_mem_replicate hb]; exact Int.le_refl _
      · rw [List.mem_singleton.mp hb]; exact hce)
  rw [hlen, hr] at hr'
  cases hr'
  obtain ⟨s, ⟨hp, _⟩, h⟩ := hmed
  have hs : ∀ x ∈ s, x = e := fun x hx => List.eq_of_mem_replicate (hp.mem_iff.mp hx)
  rcases h with ⟨a, x, b, rfl, _, h⟩ | ⟨a, x, y, b, rfl, _, h⟩
  · rw [h, hs x (by simp)]
  · rw [h, hs x (by simp), hs y (by simp)]; omega

/-! ### Witnesses -/

example : Kept [5, 1, 4, 9, 2, 8, 3, 7, 6, 10] [5, 4, 9, 2, 8, 3, 7, 6] :=
  ⟨[1], [10], by decide +kernel, rfl, rfl, by decide +kernel, by decide +kernel⟩
example : ∃ r, getResult 0 [3, 1, 2] = some r ∧ r.median2 = 4 ∧ TwiceMedian [3, 1, 2] 4 := by
  obtain ⟨r, h1, h2⟩ := median_partial [3, 1, 2] (by simp) (by decide)
  have : r = ⟨3, 6, 18, 4⟩ := Option.some.inj (h1.symm.trans (by decide +kernel))
  exact ⟨r, h1, by rw [this], by rw [this] at h2; exact h2⟩
example : Tenth 30 3 := ⟨30 * 3602879701896397 * 2 ^ 53, by decide +kernel, by decide +kernel, fun _ h => h, by decide +kernel⟩
example : getResult 1 (measure 1000 1 true 10) = some ⟨8, 8, 0, 2⟩ := by decide +kernel

end Verif.Timing
