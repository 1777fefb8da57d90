import Verif.FileIO.Lemmas
import Verif.Util
/-!
# C36 TNS files round-trip, C37 Matrix Market files round-trip, C38 dense Matrix Market decoding is a bijection,
# C53 Harwell-Boeing index blocks round-trip
-/
namespace Verif.FileIO
variable {V : Type}

/-! ### C36 -/

/-- Writing a tensor in `.tns` format and reading it back gives the same components in the same order, and dimensions
that are just large enough for them, provided that there is a component and the values are printed exactly.
Missing: tensors without components (`tns_empty_fails`), the dimensions (`tns_dimensions_fails`). -/
theorem tns_round_trip_partial (N : Num V) (order : Nat) (comps : List (List Nat × V)) (hne : comps ≠ [])
    (h : ∀ c ∈ comps, c.1.length = order ∧ Exact N c.2) :
    readTNS N (writeTNS N comps) = some ((List.range order).map (fun i => (extent comps i : Int)), toInt comps) := by
  have hl := lines_flatMap (compLine N) comps (fun c hc => compLine_newline (h c hc).2) []
  rw [List.append_nil, lines_nil, List.append_nil] at hl
  cases comps with
  | nil => exact absurd rfl hne
  | cons c cs =>
    obtain ⟨h1, h2⟩ := h c (by simp)
    have hf := compLine_fields h2
    unfold readTNS writeTNS
    rw [hl, List.map_cons]
    simp only
    cases hw : fields (· == ' ') (compLine N c) with
    | nil => rw [hw] at hf; simp at hf
    | cons w ws =>
      rw [hw] at hf
      have hws : ws.length = order := by simp at hf; omega
      have := tnsLines_spec (c :: cs) h (List.replicate order 0) (by simp)
      simp only [List.map_replicate, Int.natCast_zero, List.map_cons] at this
      simp only [hws]
      rw [this]
      refine congrArg some (Prod.ext ?_ rfl)
      apply List.map_congr_left
      intro i hi
      have hi : i < order := List.mem_range.mp hi
      unfold extent
      congr 1
      have : (List.replicate order 0).getD i 0 = 0 := by simp [List.getD, hi]
      rw [this]

/-- Natural numbers printed in full. -/
def natNum : Num Nat := ⟨dec, decVal⟩

theorem natNum_exact (n : Nat) : Exact natNum n := ⟨(dec_word n).1, (dec_word n).2.1, decVal_dec n⟩

/-- A matrix with three components. -/
example : readTNS natNum (writeTNS natNum [([0, 11], 7), ([4, 2], 30), ([4, 3], 1)]) =
    some ([5, 12], [([0, 11], 7), ([4, 2], 30), ([4, 3], 1)]) :=
  tns_round_trip_partial natNum 2 _ (by simp) (fun c hc => ⟨by simp at hc; rcases hc with rfl | rfl | rfl <;> rfl, natNum_exact _⟩)

/-- The dimensions are not in the file: a 3x3 matrix with one component comes back as a 1x2 matrix. -/
theorem tns_dimensions_fails : readTNS natNum (writeTNS natNum [([0, 1], 5)]) = some ([1, 2], [([0, 1], 5)]) := by decide +kernel

/-- A tensor without components comes back as the default tensor, whatever its order. -/
theorem tns_empty_fails : readTNS natNum (writeTNS natNum []) = some ([], []) := by decide +kernel

/-- A file that starts with an empty line asks for a vector with `SIZE_MAX` elements. -/
theorem tns_blank_line_fails : readTNS natNum "\n1 1 5\n".toList = none := by decide +kernel

/-! ### C37 -/

/-- What reading adds for a component of a symmetric file. -/
def mirror (symm : Bool) (c : List Int × V) : List (List Int × V) :=
  if symm = true ∧ c.1.head? ≠ c.1.getLast? then [c, (c.1.reverse, c.2)] else [c]

theorem read_sparse (N : Num V) (sym : List Char) (hs : sym = "general".toList ∨ sym = "symmetric".toList) (dims : List Nat) (hd : ∀ d ∈ dims, 0 < d)
    (comps : List (List Nat × V)) (hne : comps ≠ []) (h : ∀ c ∈ comps, c.1.length = dims.length ∧ Exact N c.2)
    (h2 : sym = "symmetric".toList → dims.length = 2) :
    readMTX N (mtxText N sym dims comps) =
      some (dims.map (fun (d : Nat) => (d : Int)), (toInt comps).flatMap (mirror (decide (sym = "symmetric".toList)))) := by
  obtain ⟨hn, hk⟩ := header_spec (order := dims.length) (fmt := "coordinate".toList) (.inl rfl) hs
  have hc := lines_flatMap (compLine N) comps (fun c hc => compLine_newline (h c hc).2) []
  rw [List.append_nil, lines_nil, List.append_nil] at hc
  have hdl : '\n' ∉ joinDims dims ++ ' ' :: dec comps.length := by
    simp only [List.mem_append, List.mem_cons, not_or]
    exact ⟨joinDims_newline dims, by decide, (dec_word _).2.2.2⟩
  have hlines : lines (mtxText N sym dims comps) =
      header dims.length "coordinate".toList sym :: ['%'] :: (joinDims dims ++ ' ' :: dec comps.length) :: comps.map (compLine N) := by
    have e : mtxText N sym dims comps = header dims.length "coordinate".toList sym ++ '\n' :: (['%'] ++ '\n' ::
        ((joinDims dims ++ ' ' :: dec comps.length) ++ '\n' :: comps.flatMap fun c => compLine N c ++ ['\n'])) := by simp [mtxText]
    rw [e, lines_line _ _ hn, lines_line _ _ (by decide), lines_line _ _ hdl, hc]
  obtain ⟨d0, ws, hf⟩ := fields_dims dims (dec comps.length) (fun _ => ⟨_, rfl⟩)
  have hskip := skip_spec hf (comps.map (compLine N))
  have hlen : 0 < comps.length := List.length_pos_iff.mpr hne
  have hdims : readDims ((joinDims dims ++ ' ' :: dec comps.length).length + 1) (joinDims dims ++ ' ' :: dec comps.length) =
      (dims ++ [comps.length]).map (fun (n : Nat) => (n : Int)) := by
    rw [← readDims_space]
    have e : ' ' :: (joinDims dims ++ ' ' :: dec comps.length) =
        (if dims = [] then [' '] else []) ++ ((dims ++ [comps.length]).flatMap fun n => ' ' :: dec n) ++ (if false then [' '] else []) := by
      have := joinDims_eq dims
      rw [← List.cons_append, this]
      by_cases hdd : dims = []
      · simp [hdd]
      · simp [hdd]
    rw [e]
    refine readDims_spec _ (fun c hc => ?_) (fun n hn => ?_) _ ?_ false
    · split at hc
      · simp at hc; subst hc; decide
      · simp at hc
    · rcases List.mem_append.mp hn with hn | hn
      · exact hd n hn
      · simp at hn; omega
    · have h1 : ∀ ds : List Nat, 2 * ds.length ≤ (joinDims ds).length + 1 := by
        intro ds
        induction ds with
        | nil => simp
        | cons d ds ih =>
          have hpos : 0 < (dec d).length := List.length_pos_iff.mpr (dec_word d).1
          cases ds with
          | nil => simp [joinDims]; omega
          | cons d' ds => simp [joinDims] at ih ⊢; omega
      have := h1 dims
      simp
      omega
  have hlast : ((dims ++ [comps.length]).map (fun (n : Nat) => (n : Int))).getLast? = some (comps.length : Int) := by simp
  have hdrop : ((dims ++ [comps.length]).map (fun (n : Nat) => (n : Int))).dropLast = dims.map (fun (n : Nat) => (n : Int)) := by simp
  unfold readMTX
  rw [hlines]
  simp only [hk, decide_true]
  unfold readSparse
  simp only [List.headD_cons, List.tail_cons, hskip, hdims, hlast, hdrop, List.length_map]
  have hsym : ¬ ((decide (sym = "symmetric".toList)) = true ∧ dims.length ≠ 2) := by
    rintro ⟨h1, h3⟩
    exact h3 (h2 (of_decide_eq_true h1))
  rw [if_neg hsym]
  have hcoords : ((comps.map (compLine N)).flatMap fun l => (strtols dims.length l).1) = comps.flatMap fun c => c.1.map (fun (k : Nat) => (k : Int) + 1) := by
    rw [List.flatMap_map]
    have : ∀ xs : List (List Nat × V), (∀ c ∈ xs, c.1.length = dims.length ∧ Exact N c.2) →
        (xs.flatMap fun c => (strtols dims.length (compLine N c)).1) = xs.flatMap fun c => c.1.map (fun (k : Nat) => (k : Int) + 1) := by
      intro xs
      induction xs with
      | nil => intro _; rfl
      | cons x xs ih =>
        intro hx
        obtain ⟨hx1, hx2⟩ := hx x (by simp)
        have := (read_compLine hx2).1
        rw [hx1] at this
        rw [List.flatMap_cons, List.flatMap_cons, this, ih fun c hc => hx c (by simp [hc])]
    exact this comps h
  have hvals : ((comps.map (compLine N)).map fun l => strtod N (strtols dims.length l).2) = comps.map (·.2) := by
    rw [List.map_map]
    apply List.map_congr_left
    intro c hc
    obtain ⟨hx1, hx2⟩ := h c hc
    have := (read_compLine hx2).2
    rw [hx1] at this
    exact this
  rw [hcoords, hvals, Int.toNat_natCast]
  have hins : ∀ i ∈ List.range comps.length, insertSparse dims.length (decide (sym = "symmetric".toList)) (comps.flatMap fun c => c.1.map (fun (k : Nat) => (k : Int) + 1)) (comps.map (·.2)) i =
      some (((toInt comps)[i]?.map (mirror (decide (sym = "symmetric".toList)))).getD []) := by
    intro i hi
    have hi : i < comps.length := List.mem_range.mp hi
    obtain ⟨hb1, hb2⟩ := flatMap_block (f := fun c : List Nat × V => c.1.map (fun (k : Nat) => (k : Int) + 1)) (k := dims.length) comps
      (fun c hc => by simp [(h c hc).1]) i hi
    have hti : (toInt comps)[i]? = some (comps[i].1.map (fun (k : Nat) => (k : Int)), comps[i].2) := by
      unfold toInt; simp [hi]
    have hv : (comps.map (·.2))[i]? = some comps[i].2 := by simp [hi]
    have hco : (comps[i].1.map (fun (k : Nat) => (k : Int) + 1)).map (· - 1) = comps[i].1.map (fun (k : Nat) => (k : Int)) := by
      rw [List.map_map]
      apply List.map_congr_left
      intro k _
      simp
    unfold insertSparse
    rw [if_neg (by omega), hv, hb1, hti]
    simp only [hco, Option.map_some, Option.getD_some, mirror]
    split <;> rfl
  rw [mapM_some _ hins]
  simp only [Option.map_some]
  refine congrArg some (Prod.ext rfl ?_)
  simp only
  have hr : ∀ xs : List (List Int × V), (List.range xs.length).map (fun i => (xs[i]?.map (mirror (decide (sym = "symmetric".toList)))).getD []) =
      xs.map (mirror (decide (sym = "symmetric".toList))) := by
    intro xs
    apply List.ext_getElem?
    intro i
    by_cases hi : i < xs.length
    · simp [hi]
    · simp [hi]
  have hlen' : comps.length = (toInt comps).length := by simp [toInt]
  rw [hlen', hr, List.flatMap_def]

/-- Writing a sparse tensor in coordinate format and reading it back gives the same dimensions and the same components
in the same order, provided that there is a component, the dimensions are positive and the values are printed exactly.
Missing: tensors without components, see `mtx_empty_fails`. -/
theorem mtx_round_trip_partial (N : Num V) (dims : List Nat) (hd : ∀ d ∈ dims, 0 < d) (comps : List (List Nat × V)) (hne : comps ≠ [])
    (h : ∀ c ∈ comps, c.1.length = dims.length ∧ Exact N c.2) :
    readMTX N (writeSparse N dims comps) = some (dims.map (fun (d : Nat) => (d : Int)), toInt comps) := by
  have := read_sparse N "general".toList (.inl rfl) dims hd comps hne h (fun e => absurd e (by decide))
  have hm : ∀ xs : List (List Int × V), xs.flatMap (mirror (decide ("general".toList = "symmetric".toList))) = xs := by
    intro xs
    have hdec : decide ("general".toList = "symmetric".toList) = false := by decide +kernel
    rw [hdec]
    induction xs with
    | nil => rfl
    | cons x xs ih => rw [List.flatMap_cons, ih]; simp [mirror]
  rw [hm] at this
  exact this

/-- Reading a symmetric matrix: at every coordinate off the diagonal the result has the values that the file lists
there and at the mirrored coordinate, and on the diagonal those that the file lists there. -/
theorem mtx_symmetric (N : Num V) (n m : Nat) (hn : 0 < n) (hm : 0 < m) (comps : List (List Nat × V)) (hne : comps ≠ [])
    (h : ∀ c ∈ comps, c.1.length = 2 ∧ Exact N c.2) :
    ∃ cs, readMTX N (mtxText N "symmetric".toList [n, m] comps) = some ([(n : Int), (m : Int)], cs) ∧
      ∀ i j : Int, (valuesAt cs [i, j]).Perm (valuesAt (toInt comps) [i, j] ++ if i = j then [] else valuesAt (toInt comps) [j, i]) := by
  have := read_sparse N "symmetric".toList (.inr rfl) [n, m] (by simp; exact ⟨hn, hm⟩) comps hne (by simpa using h) (fun _ => rfl)
  have hdec : decide ("symmetric".toList = "symmetric".toList) = true := by decide +kernel
  rw [hdec] at this
  refine ⟨_, this, ?_⟩
  intro i j
  have hlen : ∀ c ∈ toInt comps, c.1.length = 2 := by
    intro c hc
    obtain ⟨c', hc', rfl⟩ := List.mem_map.mp hc
    simpa using (h c' hc').1
  revert hlen
  generalize toInt comps = xs
  intro hlen
  have happ : ∀ (a b : List (List Int × V)) (c : List Int), valuesAt (a ++ b) c = valuesAt a c ++ valuesAt b c := by
    intro a b c; simp [valuesAt]
  have hcons : ∀ (x : List Int × V) (b : List (List Int × V)) (c : List Int), valuesAt (x :: b) c = (if x.1 = c then [x.2] else []) ++ valuesAt b c := by
    intro x b c
    unfold valuesAt
    by_cases hx : x.1 = c
    · simp [hx]
    · simp [hx]
  induction xs with
  | nil => simp [valuesAt]
  | cons x xs ih =>
    have ih := ih fun c hc => hlen c (by simp [hc])
    obtain ⟨c, v⟩ := x
    have hl2 : c.length = 2 := hlen (c, v) (by simp)
    obtain ⟨a, b, rfl⟩ : ∃ a b, c = [a, b] := by
      match c, hl2 with
      | [a, b], _ => exact ⟨a, b, rfl⟩
    rw [List.flatMap_cons, happ, hcons, hcons]
    have hmir : valuesAt (mirror true ([a, b], v)) [i, j] =
        (if [a, b] = [i, j] then [v] else []) ++ (if i = j then [] else if [a, b] = [j, i] then [v] else []) := by
      unfold mirror
      by_cases hab : a = b
      · subst hab
        have : ¬ (true = true ∧ ([a, a] : List Int).head? ≠ ([a, a] : List Int).getLast?) := by simp
        rw [if_neg this, hcons]
        have e0 : valuesAt ([] : List (List Int × V)) [i, j] = [] := rfl
        rw [e0]
        by_cases hij : i = j
        · simp [hij]
        · have : ¬ ([a, a] : List Int) = [i, j] := by
            intro e; injection e with e1 e2; injection e2 with e2; omega
          have h2 : ¬ ([a, a] : List Int) = [j, i] := by
            intro e; injection e with e1 e2; injection e2 with e2; omega
          simp only [if_neg this, if_neg h2, if_neg hij, List.append_nil]
      · have : (true = true ∧ ([a, b] : List Int).head? ≠ ([a, b] : List Int).getLast?) := by simpa using hab
        rw [if_pos this, hcons, hcons]
        have e0 : valuesAt ([] : List (List Int × V)) [i, j] = [] := rfl
        rw [e0, List.append_nil]
        congr 1
        show (if [b, a] = [i, j] then [v] else []) = _
        by_cases hij : i = j
        · subst hij
          have : ¬ ([b, a] : List Int) = [i, i] := by
            intro e; injection e with e1 e2; injection e2 with e2; omega
          simp only [if_neg this, if_true]
        · by_cases hba : [b, a] = [i, j]
          · injection hba with e1 e2; injection e2 with e2
            subst e1; subst e2
            simp [hij]
          · have : ¬ ([a, b] : List Int) = [j, i] := by
              intro e; injection e with e1 e2; injection e2 with e2
              exact hba (by rw [e1, e2])
            simp only [if_neg this, if_neg hij, if_neg hba]
    rw [hmir]
    by_cases hij : i = j
    · simp only [if_pos hij, List.append_nil] at ih ⊢
      exact ih.append_left _
    · simp only [if_neg hij] at ih ⊢
      refine (ih.append_left _).trans ?_
      generalize (if [a, b] = [i, j] then [v] else []) = p
      generalize (if [a, b] = [j, i] then [v] else []) = q
      generalize valuesAt xs [i, j] = r
      generalize valuesAt xs [j, i] = s
      rw [List.append_assoc, List.append_assoc]
      refine List.Perm.append_left p ?_
      rw [← List.append_assoc, ← List.append_assoc]
      exact List.Perm.append_right s List.perm_append_comm

/-- A tensor of order three. -/
example : readMTX natNum (writeSparse natNum [3, 4, 5] [([0, 3, 1], 7), ([2, 0, 4], 30)]) = some ([3, 4, 5], [([0, 3, 1], 7), ([2, 0, 4], 30)]) :=
  mtx_round_trip_partial natNum _ (by simp) _ (by simp) (fun c hc => ⟨by simp at hc; rcases hc with rfl | rfl <;> rfl, natNum_exact _⟩)

/-- A symmetric matrix with one component off the diagonal. -/
example : readMTX natNum (mtxText natNum "symmetric".toList [3, 3] [([1, 0], 7), ([2, 2], 30)]) = some ([3, 3], [([1, 0], 7), ([0, 1], 7), ([2, 2], 30)]) := by
  decide +kernel

/-- A matrix without components: the header `3 4 0` is read as a vector of dimension 3 with 4 components, which are
then read behind the end of an empty array. -/
theorem mtx_empty_fails : readMTX natNum (writeSparse natNum [3, 4] []) = none := by decide +kernel

/-! ### C38 -/

/-- The coordinate that receives value number `n` is inside the dimensions and has column-major rank `n`. -/
theorem dense_coord_rank : ∀ (dims : List Nat), dims ≠ [] → ∀ n, n < volume dims → InRange dims (denseCoord dims n) ∧ colRank dims (denseCoord dims n) = n
  | [], h, _, _ => absurd rfl h
  | [d], _, n, h => by
    simp only [volume, Nat.mul_one] at h
    exact ⟨⟨h, trivial⟩, by simp [denseCoord, colRank]⟩
  | d :: d' :: ds, _, n, h => by
    have hd : 0 < d := by
      rcases Nat.eq_zero_or_pos d with rfl | hd
      · simp [volume] at h
      · exact hd
    have hq : n / d < volume (d' :: ds) := Nat.div_lt_of_lt_mul h
    obtain ⟨h1, h2⟩ := dense_coord_rank (d' :: ds) (by simp) (n / d) hq
    refine ⟨⟨Nat.mod_lt n hd, h1⟩, ?_⟩
    show n % d + d * colRank (d' :: ds) (denseCoord (d' :: ds) (n / d)) = n
    rw [h2]
    exact Nat.mod_add_div n d

/-- Every coordinate inside the dimensions receives a value: the one whose number is its column-major rank. -/
theorem dense_coord_onto : ∀ (dims : List Nat), dims ≠ [] → ∀ c, InRange dims c → colRank dims c < volume dims ∧ denseCoord dims (colRank dims c) = c
  | [], h, _, _ => absurd rfl h
  | [d], _, [], h => h.elim
  | [d], _, [c], h => by
    have h : c < d := h.1
    simp [volume, colRank, denseCoord, h]
  | [d], _, c :: c' :: cs, h => h.2.elim
  | d :: d' :: ds, _, [], h => h.elim
  | d :: d' :: ds, _, c :: cs, h => by
    obtain ⟨hc, hcs⟩ := h
    obtain ⟨h1, h2⟩ := dense_coord_onto (d' :: ds) (by simp) cs hcs
    have hpos : 0 < d := by omega
    constructor
    · show c + d * colRank (d' :: ds) cs < d * volume (d' :: ds)
      calc c + d * colRank (d' :: ds) cs < d + d * colRank (d' :: ds) cs := by omega
        _ = d * (colRank (d' :: ds) cs + 1) := by rw [Nat.mul_add]; omega
        _ ≤ d * volume (d' :: ds) := Nat.mul_le_mul_left d h1
    · show (c + d * colRank (d' :: ds) cs) % d :: denseCoord (d' :: ds) ((c + d * colRank (d' :: ds) cs) / d) = c :: cs
      rw [Nat.add_mul_mod_self_left, Nat.mod_eq_of_lt hc, Nat.add_mul_div_left _ _ hpos, Nat.div_eq_of_lt hc, Nat.zero_add, h2]

theorem volume_foldl : ∀ (dims : List Nat) (a : Nat), dims.foldl (· * ·) a = a * volume dims
  | [], a => by simp [volume]
  | d :: ds, a => by rw [List.foldl_cons, volume_foldl ds, volume, Nat.mul_assoc]

theorem read_dense (N : Num V) (dims : List Nat) (hne : dims ≠ []) (hd : ∀ d ∈ dims, 0 < d) (vals : List V) (hl : vals.length = volume dims)
    (h : ∀ v ∈ vals, Exact N v) :
    readMTX N (writeDense N dims vals) =
      some (dims.map Int.ofNat, (List.range (volume dims)).flatMap fun n => (vals[n]?.map fun v => ((denseCoord dims n).map Int.ofNat, v)).toList) := by
  obtain ⟨hn, hk⟩ := header_spec (order := dims.length) (fmt := "array".toList) (sym := "general".toList) (.inr rfl) (.inl rfl)
  have hc := lines_flatMap (N.print ·) vals (fun v hv hm => by have := (h v hv).2.1 _ hm; revert this; decide) []
  rw [List.append_nil, lines_nil, List.append_nil] at hc
  have hdl : '\n' ∉ joinDims dims ++ [' '] := by
    simp only [List.mem_append, List.mem_cons, not_or]
    exact ⟨joinDims_newline dims, by decide, by simp⟩
  have hlines : lines (writeDense N dims vals) =
      header dims.length "array".toList "general".toList :: ['%'] :: (joinDims dims ++ [' ']) :: vals.map (N.print ·) := by
    have e : writeDense N dims vals = header dims.length "array".toList "general".toList ++ '\n' :: (['%'] ++ '\n' ::
        ((joinDims dims ++ [' ']) ++ '\n' :: vals.flatMap fun v => N.print v ++ ['\n'])) := by simp [writeDense]
    rw [e, lines_line _ _ hn, lines_line _ _ (by decide), lines_line _ _ hdl, hc]
  obtain ⟨d0, ws, hf⟩ := fields_dims dims [] (fun e => absurd e hne)
  have hskip := skip_spec hf (vals.map (N.print ·))
  have hdims : readDims ((joinDims dims ++ [' ']).length + 1) (joinDims dims ++ [' ']) = dims.map (fun (n : Nat) => (n : Int)) := by
    rw [← readDims_space]
    have e : ' ' :: (joinDims dims ++ [' ']) = [] ++ (dims.flatMap fun n => ' ' :: dec n) ++ (if true then [' '] else []) := by
      have := joinDims_eq dims
      rw [← List.cons_append, this]
      simp [hne]
    rw [e]
    refine readDims_spec _ (by simp) hd _ ?_ true
    have h1 : ∀ ds : List Nat, 2 * ds.length ≤ (joinDims ds).length + 1 := by
      intro ds
      induction ds with
      | nil => simp
      | cons d ds ih =>
        have hpos : 0 < (dec d).length := List.length_pos_iff.mpr (dec_word d).1
        cases ds with
        | nil => simp [joinDims]; omega
        | cons d' ds => simp [joinDims] at ih ⊢; omega
    have := h1 dims
    simp
    omega
  have hnat : (dims.map (fun (n : Nat) => (n : Int))).map Int.toNat = dims := by
    rw [List.map_map]
    exact (List.map_congr_left fun n _ => by simp).trans (List.map_id _)
  have hvals : (vals.map (N.print ·)).map (strtod N) = vals := by
    rw [List.map_map]
    refine (List.map_congr_left fun v hv => ?_).trans (List.map_id _)
    exact strtod_exact (sp := []) (h v hv) (by simp)
  unfold readMTX
  rw [hlines]
  have hdec1 : decide ("array".toList = "coordinate".toList) = false := by decide +kernel
  have hdec2 : decide ("general".toList = "symmetric".toList) = false := by decide +kernel
  rw [hdec1, hdec2] at hk
  simp only [hk]
  unfold readDense
  simp only [List.headD_cons, List.tail_cons, hskip, hdims, hnat, hvals, Bool.false_eq_true, false_and, if_false]
  have hvol : dims.foldl (· * ·) 1 = volume dims := by rw [volume_foldl]; simp
  rw [hvol]
  have hins : ∀ n ∈ List.range (volume dims), insertDense dims false vals n = some ((vals[n]?.map fun v => (denseCoord dims n, v)).toList) := by
    intro n hn
    have hn : n < vals.length := by rw [hl]; exact List.mem_range.mp hn
    unfold insertDense
    simp [hn]
  rw [mapM_some _ hins]
  simp only [Option.map_some, Option.some.injEq, Prod.mk.injEq, true_and]
  rw [← List.flatMap_def, List.map_flatMap]
  apply flatMap_congr'
  intro n _
  cases vals[n]? <;> rfl

/-- Reading an array-format file: every coordinate inside the dimensions receives exactly one value, the one whose
number in the file is the column-major rank of the coordinate; and no other coordinate receives one. -/
theorem dense_read (N : Num V) (dims : List Nat) (hne : dims ≠ []) (hd : ∀ d ∈ dims, 0 < d) (vals : List V) (hl : vals.length = volume dims)
    (h : ∀ v ∈ vals, Exact N v) :
    ∃ cs : List (List Nat × V), readMTX N (writeDense N dims vals) = some (dims.map Int.ofNat, cs.map fun c => (c.1.map Int.ofNat, c.2)) ∧
      (∀ c ∈ cs, InRange dims c.1) ∧
      ∀ c, InRange dims c → ∃ (hr : colRank dims c < vals.length), cs.filter (fun x => x.1 = c) = [(c, vals[colRank dims c])] := by
  refine ⟨(List.range (volume dims)).flatMap fun n => (vals[n]?.map fun v => (denseCoord dims n, v)).toList, ?_, ?_, ?_⟩
  · rw [read_dense N dims hne hd vals hl h]
    refine congrArg some (Prod.ext rfl ?_)
    simp only
    rw [List.map_flatMap]
    apply flatMap_congr'
    intro n _
    cases vals[n]? <;> rfl
  · intro c hc
    obtain ⟨n, hn, hc⟩ := List.mem_flatMap.mp hc
    have hn' : n < vals.length := by rw [hl]; exact List.mem_range.mp hn
    simp [hn'] at hc
    subst hc
    exact (dense_coord_rank dims hne n (List.mem_range.mp hn)).1
  · intro c hc
    obtain ⟨hr, he⟩ := dense_coord_onto dims hne c hc
    refine ⟨by omega, ?_⟩
    have hlt : colRank dims c < vals.length := by omega
    have hfil : ∀ m : Nat, m ≤ volume dims → ((List.range m).flatMap fun n => (vals[n]?.map fun v => (denseCoord dims n, v)).toList).filter (fun x => x.1 = c) =
        if colRank dims c < m then [(c, vals[colRank dims c])] else [] := by
      intro m
      induction m with
      | zero => intro _; simp
      | succ m ih =>
        intro hm
        have hmv : m < vals.length := by omega
        rw [List.range_succ, List.flatMap_append, List.filter_append, ih (by omega)]
        simp only [List.flatMap_cons, List.flatMap_nil, List.append_nil]
        have : (vals[m]?.map fun v => (denseCoord dims m, v)).toList = [(denseCoord dims m, vals[m])] := by simp [hmv]
        rw [this]
        by_cases hmc : m = colRank dims c
        · subst hmc
          simp [he]
        · have hne' : denseCoord dims m ≠ c := by
            intro e
            have := (dense_coord_rank dims hne m (by omega)).2
            rw [e] at this
            exact hmc this.symm
          have hf : List.filter (fun x : List Nat × V => decide (x.1 = c)) [(denseCoord dims m, vals[m])] = [] := by simp [hne']
          rw [hf, List.append_nil]
          by_cases hlt : colRank dims c < m
          · rw [if_pos hlt, if_pos (by omega)]
          · rw [if_neg hlt, if_neg (by omega)]
    rw [hfil (volume dims) (Nat.le_refl _), if_pos hr]

/-- A vector that is written in array format is read back. -/
theorem dense_vector_round_trip (N : Num V) (d : Nat) (hd : 0 < d) (vals : List V) (hl : vals.length = d) (h : ∀ v ∈ vals, Exact N v) :
    readMTX N (writeDense N [d] vals) = some ([(d : Int)], (List.range d).flatMap fun (i : Nat) => (vals[i]?.map fun v => ([Int.ofNat i], v)).toList) := by
  have := read_dense N [d] (by simp) (by simpa using hd) vals (by simpa [volume] using hl) h
  simpa [volume, denseCoord] using this

/-- A 2x3 matrix. -/
example : InRange [2, 3] [1, 2] ∧ colRank [2, 3] [1, 2] = 5 ∧ denseCoord [2, 3] 5 = [1, 2] := by
  refine ⟨by simp [InRange], by decide, by decide⟩

/-- A dense matrix is written in the order of iteration, row by row, and read column by column: the component 2 of the
matrix `[1 2 3; 4 5 6]` at row 0 and column 1 comes back at row 1 and column 0. -/
theorem dense_round_trip_fails :
    rowRank [2, 3] [0, 1] = 1 ∧
    readMTX natNum (writeDense natNum [2, 3] [1, 2, 3, 4, 5, 6]) =
      some ([2, 3], [([0, 0], 1), ([1, 0], 2), ([0, 1], 3), ([1, 1], 4), ([0, 2], 5), ([1, 2], 6)]) := by
  decide +kernel

/-- A symmetric array file holds the columns of the lower triangle; the values after it are read behind the end of an
array. -/
theorem dense_symmetric_fails :
    readMTX natNum "%%MatrixMarket matrix array real symmetric\n2 2\n1\n2\n3\n".toList = none := by decide +kernel

/-- If the whole matrix is listed, every value off the diagonal is inserted twice. -/
theorem dense_symmetric_twice_fails :
    readMTX natNum "%%MatrixMarket matrix array real symmetric\n2 2\n1\n2\n2\n3\n".toList =
      some ([2, 2], [([0, 0], 1), ([1, 0], 2), ([0, 1], 2), ([0, 1], 2), ([1, 0], 2), ([1, 1], 3)]) := by decide +kernel

/-! ### C53 -/

theorem rb_lines (per : Nat) (hper : 0 < per) : ∀ (es : List (List Char)), (∀ e ∈ es, e ≠ [] ∧ ∀ c ∈ e, isSpace c = false) →
    ∀ (pend : List (List Char)), (∀ e ∈ pend, e ≠ [] ∧ ∀ c ∈ e, isSpace c = false) → ∀ (i : Nat), 0 < i → pend.length = (i - 1) % per → ∀ (rest : List Char),
    ∃ L, linesAux (pend.flatMap fun w => w ++ [' ']) (rbWrite per i es ++ rest) = L ++ lines rest ∧
      L.flatMap (fields isSpace) = pend ++ es ∧ L.length = rbLines (pend.length + es.length) per := by
  have hnl : ∀ e : List Char, (∀ c ∈ e, isSpace c = false) → '\n' ∉ e := fun e he hm => by
    have := he _ hm; revert this; decide
  intro es
  induction es with
  | nil =>
    intro _ pend hp i hi hlen rest
    have hlt : pend.length < per := by rw [hlen]; exact Nat.mod_lt _ hper
    by_cases h0 : (i - 1) % per = 0
    · have hp0 : pend = [] := by
        rw [h0] at hlen; exact List.eq_nil_of_length_eq_zero hlen
      subst hp0
      refine ⟨[], ?_, rfl, by simp [rbLines]⟩
      simp [rbWrite, h0, lines]
    · refine ⟨[pend.flatMap fun w => w ++ [' ']], ?_, ?_, ?_⟩
      · have : rbWrite per i [] ++ rest = [] ++ '\n' :: rest := by simp [rbWrite, h0]
        rw [this, linesAux_line [] _ rest (by simp)]
        simp
      · have := fields_words (sep := isSpace) (by decide) pend hp []
        simpa [fields_nil] using this
      · have : pend.length ≠ 0 := by omega
        simp [rbLines, Nat.div_eq_of_lt hlt, Nat.mod_eq_of_lt hlt, this]
  | cons e es ih =>
    intro he pend hp i hi hlen rest
    obtain ⟨he1, he2⟩ := he e (by simp)
    have hlt : pend.length < per := by rw [hlen]; exact Nat.mod_lt _ hper
    have hadv : linesAux (pend.flatMap fun w => w ++ [' ']) (e ++ ' ' :: (rbWrite per (i + 1) es ++ rest)) =
        linesAux ((pend ++ [e]).flatMap fun w => w ++ [' ']) (rbWrite per (i + 1) es ++ rest) := by
      have hstep : ∀ (w cur s : List Char), '\n' ∉ w → linesAux cur (w ++ s) = linesAux (cur ++ w) s := by
        intro w
        induction w with
        | nil => intro cur s _; simp
        | cons c cs ihw =>
          intro cur s hm
          simp only [List.mem_cons, not_or] at hm
          have hc : c ≠ '\n' := fun e => hm.1 e.symm
          have : linesAux cur (c :: (cs ++ s)) = linesAux (cur ++ [c]) (cs ++ s) := by
            conv => lhs; unfold linesAux
            split
            · rename_i e; cases e
            · rename_i e; injection e with e; exact absurd e hc
            · rename_i e; injection e with e1 e2; subst e1; subst e2; rfl
          rw [List.cons_append, this, ihw _ _ hm.2]
          simp
      have h2 := hstep (e ++ [' ']) (pend.flatMap fun w => w ++ [' ']) (rbWrite per (i + 1) es ++ rest) (by
        simp only [List.mem_append, not_or]; exact ⟨hnl e he2, by decide⟩)
      simpa using h2
    by_cases h0 : i % per = 0
    · obtain ⟨L, h1, h2, h3⟩ := ih (fun x hx => he x (by simp [hx])) [] (by simp) (i + 1) (by omega) (by simp [h0]) rest
      refine ⟨(pend ++ [e]).flatMap (fun w => w ++ [' ']) :: L, ?_, ?_, ?_⟩
      · have e1 : rbWrite per i (e :: es) ++ rest = (e ++ [' ']) ++ '\n' :: (rbWrite per (i + 1) es ++ rest) := by simp [rbWrite, h0]
        rw [e1, linesAux_line _ _ _ (by simp only [List.mem_append, not_or]; exact ⟨hnl e he2, by decide⟩)]
        have : lines (rbWrite per (i + 1) es ++ rest) = L ++ lines rest := h1
        rw [this]
        simp
      · rw [List.flatMap_cons, h2]
        have := fields_words (sep := isSpace) (by decide) (pend ++ [e]) (by
          intro x hx
          rcases List.mem_append.mp hx with hx | hx
          · exact hp x hx
          · simp at hx; subst hx; exact ⟨he1, he2⟩) []
        rw [List.append_nil] at this
        rw [this]
        simp [fields_nil]
      · have hpl : pend.length + 1 = per := by
          obtain ⟨k, hk⟩ : ∃ k, i = per * k := ⟨i / per, by have := Nat.div_add_mod i per; omega⟩
          have hk0 : 0 < k := by
            rcases Nat.eq_zero_or_pos k with rfl | h
            · simp at hk; omega
            · exact h
          obtain ⟨k', rfl⟩ : ∃ k', k = k' + 1 := ⟨k - 1, by omega⟩
          have : i - 1 = (per - 1) + per * k' := by rw [hk, Nat.mul_add]; omega
          rw [hlen, this, Nat.add_mul_mod_self_left, Nat.mod_eq_of_lt (by omega)]
          omega
        have hsum : pend.length + (e :: es).length = es.length + per := by simp; omega
        rw [List.length_cons, h3, hsum]
        simp only [rbLines, List.length_nil, Nat.zero_add, Nat.add_mod_right, Nat.add_div_right _ hper]
        omega
    · have hmod : i % per = (i - 1) % per + 1 := by
        have h1 : i = (i - 1) + 1 := by omega
        have h2 := Nat.add_mod (i - 1) 1 per
        rw [← h1] at h2
        have h3 : (i - 1) % per < per := Nat.mod_lt _ hper
        by_cases hp1 : per = 1
        · rw [hp1, Nat.mod_one] at h0; exact absurd rfl h0
        · have : 1 % per = 1 := Nat.mod_eq_of_lt (by omega)
          rw [this] at h2
          by_cases h4 : (i - 1) % per + 1 < per
          · rw [Nat.mod_eq_of_lt h4] at h2; exact h2
          · have h5 : (i - 1) % per + 1 = per := by omega
            rw [h5, Nat.mod_self] at h2
            exact absurd h2 h0
      obtain ⟨L, h1, h2, h3⟩ := ih (fun x hx => he x (by simp [hx])) (pend ++ [e]) (by
          intro x hx
          rcases List.mem_append.mp hx with hx | hx
          · exact hp x hx
          · simp at hx; subst hx; exact ⟨he1, he2⟩) (i + 1) (by omega) (by simp; omega) rest
      refine ⟨L, ?_, ?_, ?_⟩
      · have e1 : rbWrite per i (e :: es) ++ rest = e ++ ' ' :: (rbWrite per (i + 1) es ++ rest) := by simp [rbWrite, h0]
        rw [e1, hadv]; exact h1
      · rw [h2]; simp
      · rw [h3]; congr 1; simp; omega

/-- Entries written in lines of `per` and read back with the number of lines in the header: the same entries, and the
lines after them. -/
theorem rb_block (per : Nat) (hper : 0 < per) (es : List (List Char)) (h : ∀ e ∈ es, e ≠ [] ∧ ∀ c ∈ e, isSpace c = false) (rest : List Char) :
    rbRead (rbLines es.length per) (lines (rbWrite per 1 es ++ rest)) = (es, lines rest) := by
  obtain ⟨L, h1, h2, h3⟩ := rb_lines per hper es h [] (by simp) 1 (by omega) (by simp) rest
  have h1 : lines (rbWrite per 1 es ++ rest) = L ++ lines rest := h1
  simp only [List.length_nil, Nat.zero_add] at h3
  unfold rbRead
  rw [h1, ← h3]
  simp [h2]

theorem stoi_dec (n : Nat) : stoi (dec n) = n := by
  have := strtol_dec (sp := []) (by simp) n (rest := []) (by simp)
  rw [List.nil_append, List.append_nil] at this
  unfold stoi; rw [this]

theorem index_words (xs : List Nat) : ∀ e ∈ xs.map (fun i => dec (i + 1)), e ≠ [] ∧ ∀ c ∈ e, isSpace c = false := by
  intro e he
  obtain ⟨i, _, rfl⟩ := List.mem_map.mp he
  exact ⟨(dec_word _).1, (dec_word _).2.1⟩

theorem stoi_indices (xs : List Nat) : (xs.map (fun i => dec (i + 1))).map (fun w => stoi w - 1) = xs.map (fun (i : Nat) => (i : Int)) := by
  rw [List.map_map]
  apply List.map_congr_left
  intro i _
  simp only [Function.comp, stoi_dec]
  omega

/-- A CSC matrix written as a Harwell-Boeing file and read back: the same dimensions, index arrays and values, for
every number of columns and components. -/
theorem rb_round_trip (N : Num V) (isWhole : V → Bool) (key : List Char) (hkey : '\n' ∉ key) (nrow ncol : Nat) (colptr rowind : List Nat) (vals : List V)
    (hc : colptr.length = ncol + 1) (hr : rowind.length = vals.length)
    (hv : ∀ v ∈ vals, (rbValue N isWhole v ≠ [] ∧ ∀ c ∈ rbValue N isWhole v, isSpace c = false) ∧ N.read (rbValue N isWhole v) = v) :
    readRB N (writeRB N isWhole key nrow ncol colptr rowind vals) =
      some ((nrow : Int), (ncol : Int), colptr.map (fun (i : Nat) => (i : Int)), rowind.map (fun (i : Nat) => (i : Int)), vals) := by
  have hsp : isSpace ' ' = true := by decide
  have hln : ∀ ns : List (List Char), (∀ w ∈ ns, '\n' ∉ w) → '\n' ∉ ns.flatMap fun w => w ++ [' '] := by
    intro ns hns hm
    obtain ⟨w, hw, hm⟩ := List.mem_flatMap.mp hm
    rcases List.mem_append.mp hm with hm | hm
    · exact hns w hw hm
    · simp at hm
  have hdw : ∀ n, '\n' ∉ dec n := fun n => (dec_word n).2.2.2
  let P := rbLines colptr.length 16
  let I := rbLines rowind.length 16
  let W := rbLines vals.length 10
  let l2 := ([dec (P + I + W), dec P, dec I, dec W].flatMap fun w => w ++ [' ']) ++ dec 0
  let l3 := (["RUA".toList, dec nrow, dec ncol, dec vals.length].flatMap fun w => w ++ [' ']) ++ dec 0
  let body := rbWrite 16 1 (colptr.map fun i => dec (i + 1)) ++ (rbWrite 16 1 (rowind.map fun i => dec (i + 1)) ++ rbWrite 10 1 (vals.map (rbValue N isWhole)))
  have htext : writeRB N isWhole key nrow ncol colptr rowind vals =
      ("CSC Matrix written by taco ".toList ++ key) ++ '\n' :: (l2 ++ '\n' :: (l3 ++ '\n' :: ("(16I5) (16I5) (10F7.1) ".toList ++ '\n' :: body))) := by
    have hgen : ∀ (s1 k a b c d z r e f g s2 body : List Char), (s1 ++ k ++ '\n' :: (a ++ ' ' :: (b ++ ' ' :: (c ++ ' ' :: (d ++ ' ' :: (z ++ '\n' ::
        (r ++ ' ' :: (e ++ ' ' :: (f ++ ' ' :: (g ++ ' ' :: (z ++ '\n' :: (s2 ++ '\n' :: body)))))))))))) =
        (s1 ++ k) ++ '\n' :: ((([a, b, c, d].flatMap fun w => w ++ [' ']) ++ z) ++ '\n' :: ((([r, e, f, g].flatMap fun w => w ++ [' ']) ++ z) ++ '\n' ::
          (s2 ++ '\n' :: body))) := by
      intros; simp
    exact hgen _ _ _ _ _ _ _ _ _ _ _ _ _
  have hl1 : '\n' ∉ "CSC Matrix written by taco ".toList ++ key := by
    simp only [List.mem_append, not_or]; exact ⟨by decide, hkey⟩
  have hl2 : '\n' ∉ l2 := by
    simp only [l2, List.mem_append, not_or]
    refine ⟨hln _ ?_, hdw 0⟩
    intro w hw
    simp only [List.mem_cons, List.not_mem_nil, or_false] at hw
    rcases hw with rfl | rfl | rfl | rfl <;> exact hdw _
  have hl3 : '\n' ∉ l3 := by
    simp only [l3, List.mem_append, not_or]
    refine ⟨hln _ ?_, hdw 0⟩
    intro w hw
    simp only [List.mem_cons, List.not_mem_nil, or_false] at hw
    rcases hw with rfl | rfl | rfl | rfl
    · decide
    all_goals exact hdw _
  have hlines : lines (writeRB N isWhole key nrow ncol colptr rowind vals) =
      ("CSC Matrix written by taco ".toList ++ key) :: l2 :: l3 :: "(16I5) (16I5) (10F7.1) ".toList :: lines body := by
    rw [htext, lines_line _ _ hl1, lines_line _ _ hl2, lines_line _ _ hl3, lines_line _ _ (by decide)]
  have hw : ∀ n, dec n ≠ [] ∧ ∀ c ∈ dec n, isSpace c = false := fun n => ⟨(dec_word n).1, (dec_word n).2.1⟩
  have hf2 : fields isSpace l2 = [dec (P + I + W), dec P, dec I, dec W, dec 0] := by
    simp only [l2]
    rw [fields_words hsp, fields_last (hw 0).2 (hw 0).1]
    · rfl
    · intro w hw'
      simp only [List.mem_cons, List.not_mem_nil, or_false] at hw'
      rcases hw' with rfl | rfl | rfl | rfl <;> exact hw _
  have hf3 : fields isSpace l3 = ["RUA".toList, dec nrow, dec ncol, dec vals.length, dec 0] := by
    simp only [l3]
    rw [fields_words hsp, fields_last (hw 0).2 (hw 0).1]
    · rfl
    · intro w hw'
      simp only [List.mem_cons, List.not_mem_nil, or_false] at hw'
      rcases hw' with rfl | rfl | rfl | rfl
      · decide
      all_goals exact hw _
  have b1 := rb_block 16 (by decide) (colptr.map fun i => dec (i + 1)) (index_words colptr) (rbWrite 16 1 (rowind.map fun i => dec (i + 1)) ++ rbWrite 10 1 (vals.map (rbValue N isWhole)))
  have b2 := rb_block 16 (by decide) (rowind.map fun i => dec (i + 1)) (index_words rowind) (rbWrite 10 1 (vals.map (rbValue N isWhole)))
  have b3 := rb_block 10 (by decide) (vals.map (rbValue N isWhole)) (by
    intro e he
    obtain ⟨v, hv', rfl⟩ := List.mem_map.mp he
    exact (hv v hv').1) []
  rw [List.append_nil] at b3
  rw [List.length_map] at b1 b2 b3
  have hvals : (vals.map (rbValue N isWhole)).map N.read = vals := by
    rw [List.map_map]
    exact (List.map_congr_left fun v hv' => (hv v hv').2).trans (List.map_id _)
  unfold readRB
  rw [hlines]
  simp only [hf2, hf3, ne_eq, not_true, if_false, stoi_dec, Int.toNat_natCast]
  rw [if_neg (by decide)]
  have e1 : rbRead P (lines body) = _ := b1
  rw [e1]
  simp only
  rw [b2]
  simp only
  rw [b3]
  simp only [fill, List.length_map, hc, hr, Nat.le_refl, if_true, Option.bind_some, Option.map_some, stoi_indices, hvals]

theorem natNum_rb (v : Nat) : (rbValue natNum (fun _ => false) v ≠ [] ∧ ∀ c ∈ rbValue natNum (fun _ => false) v, isSpace c = false) ∧
    natNum.read (rbValue natNum (fun _ => false) v) = v := by
  have : rbValue natNum (fun _ => false) v = natNum.print v := by simp [rbValue]
  rw [this]
  exact ⟨⟨(natNum_exact v).1, (natNum_exact v).2.1⟩, (natNum_exact v).2.2⟩

/-- A matrix with 20 columns and 17 components, so that the index arrays need two lines, one of them incomplete. -/
example := rb_round_trip natNum (fun _ => false) "A".toList (by decide) 3 20 (List.range 21) (List.replicate 17 2) (List.replicate 17 5)
  (by simp) (by simp) (fun v _ => natNum_rb v)

end Verif.FileIO
