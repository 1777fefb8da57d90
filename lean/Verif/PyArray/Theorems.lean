import Verif.PyArray.Lemmas

/-!
# C90: conversions between NumPy, SciPy and tensors keep values
-/

namespace Verif.PyArray

variable {V : Type}

/-! ### NumPy arrays -/

/-- **`from_array` keeps every element**, for arrays with any strides, transposed or reversed views included, whatever
the flag says that decides between column-major and row-major storage. -/
theorem from_array_keeps [Inhabited V] (fcontiguous : Bool) (a : NdArray V) (c : List Nat) (v : V) (hc : InBox a.shape c)
    (hv : a.at c = some v) : (fromArray fcontiguous a).at c = some v := by
  unfold fromArray
  split
  · show (fValues a)[position 0 (pick a.shape (List.range a.shape.length).reverse)
      (pick c (List.range a.shape.length).reverse)]? = some v
    rw [pick_reverse, ← hc.1, pick_reverse]
    unfold fValues
    rw [List.getElem?_map, walk_position (inBox_reverse hc), Option.map_some, List.reverse_reverse, hv]
    rfl
  · show (cValues a)[position 0 (pick a.shape (List.range a.shape.length)) (pick c (List.range a.shape.length))]? = some v
    rw [pick_range, ← hc.1, pick_range]
    unfold cValues
    rw [List.getElem?_map, walk_position hc, Option.map_some, hv]
    rfl

/-- Every second column of a 2×4 array, upside down. -/
def viewed : NdArray Nat := ⟨[2, 2], [10, 11, 12, 13, 20, 21, 22, 23], 4, [-4, 2]⟩

example : viewed.at [0, 1] = some 22 ∧ viewed.at [1, 0] = some 10 ∧ (fromArray true viewed).at [0, 1] = some 22 ∧
    (fromArray true viewed).values = [20, 10, 22, 12] ∧ (fromArray false viewed).values = [20, 22, 10, 12] := by decide

/-- **The exported buffer of a row-major tensor shows its components**: `np.array(t, copy=False)[c] = t[c]`.
Missing: other mode orderings (`export_fails`, `export_cyclic_fails`, `export_symmetric_partial`). -/
theorem export_partial (t : Dense V) (ht : t.ordering = List.range t.dims.length) (c : List Nat) (hc : InBox t.dims c) :
    t.exported.at c = t.at c := by
  unfold NdArray.at Dense.at Dense.exported
  simp only
  rw [ht, pick_range, ← hc.1, pick_range]
  have hl : pick (rowMajor t.dims) (List.range c.length) = rowMajor t.dims := by
    rw [hc.1, ← length_rowMajor, pick_range]
  rw [hl, offset_rowMajor hc.1, if_neg (by omega)]
  congr 1
  omega

example : (⟨[2, 3], [0, 1], [1, 2, 3, 4, 5, 6]⟩ : Dense Nat).exported.at [1, 2] = some 6 := by decide

/-- **`to_array` gives the components** of a tensor in any mode ordering. -/
theorem to_array_keeps [Inhabited V] (t : Dense V) (c : List Nat) (v : V) (hc : InBox t.dims c) (hv : t.at c = some v) :
    t.toArray.at c = some v := by
  have hd : t.toDense.at c = some v := by
    show ((walk t.dims).map fun c => (t.at c).getD default)[position 0 (pick t.dims (List.range t.dims.length))
      (pick c (List.range t.dims.length))]? = some v
    rw [pick_range, ← hc.1, pick_range, List.getElem?_map, walk_position hc, Option.map_some, hv]
    rfl
  rw [← hd]
  exact export_partial t.toDense rfl c hc

/-- **From NumPy and back.** -/
theorem round_trip [Inhabited V] (fcontiguous : Bool) (a : NdArray V) (c : List Nat) (v : V) (hc : InBox a.shape c)
    (hv : a.at c = some v) : (fromArray fcontiguous a).toArray.at c = some v := by
  refine to_array_keeps _ c v ?_ (from_array_keeps fcontiguous a c v hc hv)
  cases fcontiguous <;> exact hc

example : (fromArray true viewed).toArray.at [1, 1] = some 12 := by decide

theorem perm_sum {l l' : List Nat} (h : l.Perm l') : l.sum = l'.sum := by
  induction h with
  | nil => rfl
  | cons _ _ ih => simp [ih]
  | swap x y l => simp only [List.sum_cons]; omega
  | trans _ _ h1 h2 => exact h1.trans h2

/-- The buffer is also right if the ordering is its own inverse and does not change the sizes: column-major square
matrices. -/
theorem export_symmetric_partial (t : Dense V) (ho : IsOrdering t.ordering t.dims.length)
    (hi : pick t.ordering t.ordering = List.range t.dims.length) (hs : pick t.dims t.ordering = t.dims)
    (c : List Nat) (hc : InBox t.dims c) : t.exported.at c = t.at c := by
  unfold NdArray.at Dense.at Dense.exported
  simp only
  have hlen : t.ordering.length = t.dims.length := by
    have := ho.length_eq
    rwa [List.length_range] at this
  have hpc : (pick c t.ordering).length = t.dims.length := by
    unfold pick
    rw [List.length_map, hlen]
  have hpr : (pick (rowMajor t.dims) t.ordering).length = t.dims.length := by
    unfold pick
    rw [List.length_map, hlen]
  have hoff : offset c ((pick (rowMajor t.dims) t.ordering).map fun s : Nat => (s : Int)) =
      (position 0 (pick t.dims t.ordering) (pick c t.ordering) : Nat) := by
    rw [hs, ← offset_rowMajor hpc, offset_sum _ _ (by rw [hc.1, hpr]), offset_sum _ _ (by rw [hpc, length_rowMajor]), hc.1,
      hpc]
    congr 1
    have h1 : ((List.range t.dims.length).map fun k =>
        c[k]?.getD 0 * (pick (rowMajor t.dims) t.ordering)[k]?.getD 0).sum =
        (t.ordering.map fun k => c[k]?.getD 0 * (pick (rowMajor t.dims) t.ordering)[k]?.getD 0).sum :=
      perm_sum (ho.symm.map _)
    rw [h1]
    congr 1
    refine List.ext_getElem? fun l => ?_
    rw [List.getElem?_map, List.getElem?_map]
    by_cases hl : l < t.dims.length
    · have hol : t.ordering[l]? = some (t.ordering[l]'(by omega)) := List.getElem?_eq_getElem _
      rw [List.getElem?_range hl, hol, Option.map_some, Option.map_some, pick_get c t.ordering hol]
      have hlt : t.ordering[l]'(by omega) < t.dims.length := by
        have := ho.mem_iff.1 (List.getElem_mem (l := t.ordering) (by omega : l < t.ordering.length))
        exact List.mem_range.1 this
      have hoo : t.ordering[t.ordering[l]'(by omega)]? = some l := by
        have h2 : (pick t.ordering t.ordering)[l]?.getD 0 = t.ordering[t.ordering[l]'(by omega)]?.getD 0 :=
          pick_get _ _ hol
        rw [hi, List.getElem?_range hl] at h2
        have h3 : t.ordering[t.ordering[l]'(by omega)]? = some (t.ordering[t.ordering[l]'(by omega)]'(by omega)) :=
          List.getElem?_eq_getElem _
        rw [h3] at h2
        rw [h3]
        exact congrArg some h2.symm
      rw [pick_get (rowMajor t.dims) t.ordering hoo]
    · rw [List.getElem?_eq_none (l := t.ordering) (by omega),
        List.getElem?_eq_none (l := List.range _) (by rw [List.length_range]; omega)]
      rfl
  rw [hoff, if_neg (by omega)]
  congr 1
  omega

/-- A column-major 2×2 matrix. -/
example : IsOrdering [1, 0] 2 ∧ pick [1, 0] [1, 0] = List.range 2 ∧ pick [2, 2] [1, 0] = [2, 2] ∧
    (⟨[2, 2], [1, 0], [1, 2, 3, 4]⟩ : Dense Nat).exported.at [0, 1] = some 3 :=
  ⟨List.Perm.swap 0 1 [], rfl, rfl, by decide⟩

/-- **The buffer of a column-major 2×3 matrix is wrong**: the strides are those of a column of three.  One element is
another component, one is behind the memory of the tensor. -/
theorem export_fails (values : List V) (hl : values.length = 6) :
    let t : Dense V := ⟨[2, 3], [1, 0], values⟩
    (∀ c, InBox [2, 3] c → (t.at c).isSome) ∧ t.exported.at [0, 1] = t.at [1, 1] ∧ t.exported.at [1, 2] = none := by
  intro t
  refine ⟨?_, rfl, ?_⟩
  · intro c hc
    unfold Dense.at
    rw [Option.isSome_iff_exists]
    refine (fun h => ⟨_, List.getElem?_eq_getElem h⟩ : _ < values.length → _) ?_
    obtain ⟨x, y, rfl⟩ : ∃ x y, c = [x, y] := by
      match c, hc.1 with
      | [x, y], _ => exact ⟨x, y, rfl⟩
    have hx : x < 2 := hc.2 0 x 2 rfl rfl
    have hy : y < 3 := hc.2 1 y 3 rfl rfl
    show (0 * 3 + y) * 2 + x < values.length
    omega
  · show values[7]? = none
    exact List.getElem?_eq_none (by omega)

/-- **So is the buffer of a 2×2×2 tensor stored in a cyclic ordering.** -/
theorem export_cyclic_fails (values : List V) :
    let t : Dense V := ⟨[2, 2, 2], [1, 2, 0], values⟩
    t.exported.at [1, 0, 0] = t.at [0, 0, 1] := rfl

/-! ### Access by index -/

/-- **Indices that are not negative are accepted exactly if they are inside of the dimensions.** -/
theorem index_accepts (zero : V) (dims : List Nat) (stored : List (List Nat × V)) (c : List Nat) (hd : dims ≠ []) :
    getItem zero dims stored (c.map fun x : Nat => (x : Int)) ≠ .raised ↔ InBox dims c := by
  have key : checkBounds dims (c.map fun x : Nat => (x : Int)) = true ↔ InBox dims c := by
    have hall : ∀ {dims c : List Nat}, dims.length = c.length →
        (((dims.zip (c.map fun x : Nat => (x : Int))).all fun p => decide (p.2 < p.1)) = true ↔ InBox dims c) := by
      intro dims
      induction dims with
      | nil =>
        intro c h
        have : c = [] := List.eq_nil_of_length_eq_zero h.symm
        subst this
        exact ⟨fun _ => ⟨rfl, fun _ _ _ h => nomatch h⟩, fun _ => rfl⟩
      | cons n dims ih =>
        intro c h
        cases c with
        | nil => exact nomatch h
        | cons x c =>
          rw [inBox_cons, ← ih (Nat.succ.inj h), List.map_cons, List.zip_cons_cons, List.all_cons, Bool.and_eq_true,
            decide_eq_true_iff]
          exact and_congr Int.ofNat_lt Iff.rfl
    unfold checkBounds
    have he : dims.isEmpty = false := by
      cases dims with
      | nil => exact absurd rfl hd
      | cons => rfl
    rw [he, Bool.false_and, if_neg (fun h => nomatch h), List.length_map]
    split
    · rename_i hne
      exact ⟨(fun h => nomatch h), fun (h : InBox dims c) => absurd h.1.symm hne⟩
    · rename_i heq
      exact hall (Classical.byContradiction fun h => heq h)
  unfold getItem
  rw [← key]
  split
  · rename_i h
    exact ⟨fun _ => h, fun _ h => nomatch h⟩
  · rename_i h
    exact ⟨fun h' => absurd rfl h', fun h' => absurd h' h⟩

/-- **They give the component**, or zero where nothing is stored.  Missing: negative indices
(`negative_index_fails`). -/
theorem index_partial (zero : V) (dims : List Nat) (stored : List (List Nat × V)) (c : List Nat) (hd : dims ≠ [])
    (hc : InBox dims c) (hn : (stored.map (·.1)).Nodup) :
    (∀ v, (c, v) ∈ stored → getItem zero dims stored (c.map fun x : Nat => (x : Int)) = .value v) ∧
    ((∀ v, (c, v) ∉ stored) → getItem zero dims stored (c.map fun x : Nat => (x : Int)) = .value zero) := by
  have hg : getItem zero dims stored (c.map fun x : Nat => (x : Int)) =
      .value (lookup zero stored (c.map fun x : Nat => (x : Int))) := by
    have h := (index_accepts zero dims stored c hd).2 hc
    unfold getItem at h ⊢
    have he : dims.isEmpty = false := by
      cases dims with
      | nil => exact absurd rfl hd
      | cons => rfl
    split at h
    · rename_i hb
      rw [if_pos hb, he]
      rfl
    · exact absurd rfl h
  have hinj : ∀ {d : List Nat}, (d.map fun x : Nat => (x : Int)) = (c.map fun x : Nat => (x : Int)) → d = c := fun h =>
    List.map_inj_right (fun _ _ h => Int.ofNat.inj h) |>.1 h
  rw [hg]
  refine ⟨fun v hv => congrArg Outcome.value ?_, fun hv => congrArg Outcome.value ?_⟩
  · unfold lookup
    cases hf : stored.find? fun e => (e.1.map fun x : Nat => (x : Int)) == (c.map fun x : Nat => (x : Int)) with
    | none =>
      have := List.find?_eq_none.1 hf (c, v) hv
      exact absurd (beq_self_eq_true _) this
    | some e =>
      have h1 := List.mem_of_find?_eq_some hf
      have h2 : e.1 = c := by
        have h3 := List.find?_some hf
        exact hinj (eq_of_beq h3)
      have : ∀ {l : List (List Nat × V)}, (l.map (·.1)).Nodup → e ∈ l → (c, v) ∈ l → e.2 = v := by
        intro l
        induction l with
        | nil => intro _ h; exact nomatch h
        | cons x l ih =>
          intro hn he hcv
          rw [List.map_cons, List.nodup_cons] at hn
          rcases List.mem_cons.1 he with he | he <;> rcases List.mem_cons.1 hcv with hcv | hcv
          · rw [he, ← hcv]
          · exact absurd (List.mem_map.2 ⟨_, hcv, by rw [← he, h2]⟩) hn.1
          · exact absurd (List.mem_map.2 ⟨_, he, by rw [← hcv, h2]⟩) hn.1
          · exact ih hn.2 he hcv
      exact this hn h1 hv
  · unfold lookup
    cases hf : stored.find? fun e => (e.1.map fun x : Nat => (x : Int)) == (c.map fun x : Nat => (x : Int)) with
    | none => rfl
    | some e =>
      have h1 := List.mem_of_find?_eq_some hf
      have h2 : e.1 = c := by
        have h3 := List.find?_some hf
        exact hinj (eq_of_beq h3)
      rw [← h2] at hv
      exact absurd h1 (hv e.2)

example : getItem 0 [2, 3] [([0, 1], 7), ([1, 2], 9)] [1, 2] = .value 9 ∧
    getItem 0 [2, 3] [([0, 1], 7), ([1, 2], 9)] [1, 1] = .value 0 ∧
    getItem 0 [2, 3] [([0, 1], 7), ([1, 2], 9)] [2, 0] = (.raised : Outcome Nat) := by decide

/-- **A negative index is accepted and reads zero**, whatever is stored; NumPy counts it from the end. -/
theorem negative_index_fails (zero : V) (n : Nat) (stored : List (List Nat × V)) (i : Int) (h : i < 0) :
    getItem zero [n] stored [i] = .value zero := by
  have hb : checkBounds [n] [i] = true := by
    unfold checkBounds
    rw [if_neg (by simp), if_neg (by simp)]
    show (decide (i < (n : Int)) && true) = true
    rw [Bool.and_true, decide_eq_true_iff]
    omega
  unfold getItem
  rw [if_pos hb]
  show Outcome.value (lookup zero stored [i]) = _
  unfold lookup
  have : (stored.find? fun e => (e.1.map fun x : Nat => (x : Int)) == [i]) = none := by
    refine List.find?_eq_none.2 fun e _ he => ?_
    have he : (e.1.map fun x : Nat => (x : Int)) = [i] := eq_of_beq he
    cases hx : e.1 with
    | nil =>
      rw [hx] at he
      exact nomatch he
    | cons x l =>
      rw [hx] at he
      have : (x : Int) = i := (List.cons.inj he).1
      omega
  rw [this]

/-! ### Insertion -/

/-- A tensor made from an array reads as the array. -/
theorem array_read (zero : V) (add : V → V → V) (s : List Nat → V) (c : List Nat) :
    (ofArray zero s).read zero add c = s c := rfl

/-- **Inserting into a tensor made from an array deletes the array's values**: `insert` is documented to increment
one component, but the tensor counts as never packed. -/
theorem insert_array_fails (zero : V) (add : V → V → V) (s : List Nat → V) (c c' : List Nat) (v : V) (h : c' ≠ c) :
    ((ofArray zero s).insert c v).read zero add c' = zero ∧ ((ofArray zero s).insert c v).read zero add c = add zero v := by
  refine ⟨?_, ?_⟩
  · show (if c' = c then add zero v else zero) = zero
    rw [if_neg h]
  · show (if c = c then add zero v else zero) = add zero v
    rw [if_pos rfl]

/-- **Insertions into a tensor that was packed before add to its components**, in any number.  Missing: tensors made
from arrays (`insert_array_fails`). -/
theorem insert_partial (zero : V) (add : V → V → V) (t : Tensor V) (h1 : t.neverPacked = false)
    (c : List Nat) (v : V) (c' : List Nat) (hp : t.buffer = [] ∨ t.needsPack = true) :
    (t.insert c v).read zero add c' = if c' = c then add (t.read zero add c') v else t.read zero add c' := by
  have hl : (t.insert c v).read zero add c' = addAll add (if t.neverPacked then fun _ => zero else t.stored) (t.buffer ++ [(c, v)]) c' :=
    rfl
  have hr : t.read zero add c' = addAll add t.stored t.buffer c' := by
    unfold Tensor.read Tensor.pack
    split
    · rw [h1]
      rfl
    · rename_i hn
      rcases hp with hp | hp
      · rw [hp]
        rfl
      · exact absurd hp hn
  rw [hl, h1, addAll_append, hr]
  rfl

example : (((Tensor.new 0).pack 0 (· + ·) |>.insert [1] 5).insert [1] 2).read 0 (· + ·) [1] = (7 : Nat) := by decide

/-- **A scalar, read twice without a change in between, has two values**: the numbers inserted are added for the
first read, and the last one alone is computed for the second one. -/
theorem scalar_insert_fails (zero : V) (add : V → V → V) (a b : V) :
    let t := ((Scalar.new zero).insert a).insert b
    (t.sync zero add).stored = add (add zero a) b ∧ ((t.sync zero add).sync zero add).stored = b := ⟨rfl, rfl⟩

example : (let t := ((Scalar.new 0).insert 5).insert 3
    ((t.sync 0 (· + ·)).stored, ((t.sync 0 (· + ·)).sync 0 (· + ·)).stored)) = ((8 : Nat), 3) := by decide

/-! ### Lifetimes -/

/-- **A copy stays what it was**, whatever the program does with its arrays afterwards. -/
theorem copy_kept (contiguous : Bool) (b next : Nat) (h : Heap V) (ops : List (ArrayOp V)) (vs : List V)
    (hb : h b = some vs) (hn : ∀ o ∈ ops, o.block ≠ next) :
    runOps (fromArrayMemory true contiguous b next h).1 ops (fromArrayMemory true contiguous b next h).2.block = some vs := by
  show runOps (fun k => if k = next then h b else h k) ops next = some vs
  rw [runOps_other ops _ hn]
  show (if next = next then h b else h next) = some vs
  rw [if_pos rfl]
  exact hb

/-- **Without a copy, the tensor follows the array** as long as the array exists.  Missing: arrays that are not
contiguous (`view_fails`) and arrays that are dropped (`dropped_fails`). -/
theorem follow_partial (b next : Nat) (h : Heap V) (ops : List (ArrayOp V)) (hb : (h b).isSome)
    (hd : ∀ o ∈ ops, ∀ d, o = .drop d → d ≠ b) :
    let r := fromArrayMemory false true b next h
    (runOps r.1 ops r.2.block).isSome ∧ runOps r.1 ops r.2.block = runOps h ops b := by
  intro r
  refine ⟨?_, rfl⟩
  show (runOps h ops b).isSome = true
  induction ops generalizing h with
  | nil => exact hb
  | cons o ops ih =>
    show (runOps (runOp h o) ops b).isSome = true
    refine ih _ ?_ fun o ho => hd o (List.mem_cons_of_mem _ ho)
    cases o with
    | write d vs =>
      show (if b = d then (h d).map fun _ => vs else h b).isSome = true
      split
      · rename_i hbd
        rw [← hbd, Option.isSome_map]
        exact hb
      · exact hb
    | drop d =>
      have := hd _ List.mem_cons_self d rfl
      show (if b = d then none else h b).isSome = true
      rw [if_neg fun h => this h.symm]
      exact hb

example : runOps (fromArrayMemory false true 3 9 fun k => if k = 3 then some [1, 2] else none).1 [.write 3 [4, 5], .drop 1] 3 =
    some [4, 5] := by decide

/-- **`from_array(view, copy=False)` of a view that is not contiguous reads freed memory**, although such views are
documented to be copied: the values are in a temporary array. -/
theorem view_fails (b next : Nat) (h : Heap V) (ops : List (ArrayOp V)) (hn : ∀ o ∈ ops, o.block ≠ next) :
    runOps (fromArrayMemory false false b next h).1 ops (fromArrayMemory false false b next h).2.block = none := by
  show runOps (fun k => if k = next then none else h k) ops next = none
  rw [runOps_other ops _ hn]
  exact if_pos rfl

/-- **`r = t + f(a)` with a new array as operand reads freed memory** when `r` is first read: the array is dropped
when the statement ends, and the tensor does not keep it. -/
theorem dropped_fails (b next : Nat) (h : Heap V) (later : List (ArrayOp V)) (hn : ∀ o ∈ later, o.block ≠ b) :
    elementwise true b next h (.drop b :: later) = none := by
  show runOps (runOp h (.drop b)) later b = none
  rw [runOps_other later _ hn]
  exact if_pos rfl

/-! ### SciPy matrices -/

theorem foldl_one {zero : V} {add : V → V → V} (hz : ∀ v, add zero v = v) {l : List (Nat × V)} {j : Nat} :
    (l.map (·.1)).Nodup →
    (l.filter fun e => e.1 == j).foldl (fun s e => add s e.2) zero =
      match l.find? fun e => e.1 == j with
      | some e => e.2
      | none => zero := by
  induction l with
  | nil => intro _; rfl
  | cons x l ih =>
    intro hn
    rw [List.map_cons, List.nodup_cons] at hn
    by_cases hx : x.1 = j
    · have hf : (l.filter fun e => e.1 == j) = [] := by
        refine List.filter_eq_nil_iff.2 fun e he hej => hn.1 ?_
        have hej : e.1 = j := eq_of_beq hej
        exact List.mem_map.2 ⟨e, he, by rw [hej, hx]⟩
      rw [List.filter_cons_of_pos (by simpa using hx), hf, List.find?_cons_of_pos (by simpa using hx)]
      exact hz x.2
    · rw [List.filter_cons_of_neg (by simpa using hx), List.find?_cons_of_neg (by simpa using hx)]
      exact ih hn.2

theorem find_rows {n : Nat} (rows : Nat → List (Nat × V)) {i j : Nat} (hi : i < n) :
    ((List.range n).flatMap fun i => (rows i).map fun e => ([i, e.1], e.2)).find?
      (fun e => (e.1.map fun x : Nat => (x : Int)) == [(i : Int), (j : Int)]) =
    ((rows i).find? fun e => e.1 == j).map fun e => ([i, e.1], e.2) := by
  induction n with
  | zero => exact nomatch hi
  | succ n ih =>
    have hrow : ∀ (k : Nat) (l : List (Nat × V)), (l.map fun e => ([k, e.1], e.2)).find?
        (fun e => (e.1.map fun x : Nat => (x : Int)) == [(i : Int), (j : Int)]) =
        if k = i then (l.find? fun e => e.1 == j).map fun e => ([k, e.1], e.2) else none := by
      intro k l
      induction l with
      | nil =>
        split <;> rfl
      | cons e l ihl =>
        by_cases hk : k = i
        · subst hk
          rw [if_pos rfl] at ihl ⊢
          by_cases he : e.1 = j
          · rw [List.map_cons, List.find?_cons_of_pos (by simp [he]), List.find?_cons_of_pos (by simp [he])]
            rfl
          · rw [List.map_cons, List.find?_cons_of_neg (by simp; omega), List.find?_cons_of_neg (by simpa using he)]
            exact ihl
        · rw [if_neg hk] at ihl ⊢
          rw [List.map_cons, List.find?_cons_of_neg (by simp; omega)]
          exact ihl
    rw [List.range_succ, List.flatMap_append, List.find?_append]
    by_cases hin : i < n
    · rw [ih hin]
      cases hf : (rows i).find? fun e => e.1 == j with
      | some e => rfl
      | none =>
        show (none : Option _).or _ = none
        rw [Option.none_or, List.flatMap_cons, List.flatMap_nil, List.append_nil, hrow, if_neg (by omega)]
    · have : i = n := by omega
      subst this
      have hnone : ((List.range i).flatMap fun i => (rows i).map fun e => ([i, e.1], e.2)).find?
          (fun e => (e.1.map fun x : Nat => (x : Int)) == [(i : Int), (j : Int)]) = none := by
        refine List.find?_eq_none.2 fun e he hb => ?_
        obtain ⟨k, hk, he⟩ := List.mem_flatMap.1 he
        obtain ⟨x, _, rfl⟩ := List.mem_map.1 he
        have hb : [(k : Int), (x.1 : Int)] = [(i : Int), (j : Int)] := eq_of_beq hb
        have := (List.cons.inj hb).1
        have := List.mem_range.1 hk
        omega
      rw [hnone, Option.none_or, List.flatMap_cons, List.flatMap_nil, List.append_nil, hrow, if_pos rfl]

/-- **`from_sp_csr` keeps the values** of a SciPy matrix without repeated entries.  Missing: repeated entries
(`duplicates_fails`). -/
theorem from_csr_partial (zero : V) (add : V → V → V) (hz : ∀ v, add zero v = v) (n : Nat) (m : SpMatrix V) (i j : Nat)
    (hi : i < n) (hn : ((m.row i).map (·.1)).Nodup) :
    lookup zero (fromCsr n m) [(i : Int), (j : Int)] = m.value zero add i j := by
  unfold SpMatrix.value
  rw [foldl_one hz hn]
  unfold lookup fromCsr
  rw [find_rows (fun i => m.row i) hi]
  cases (m.row i).find? fun e => e.1 == j <;> rfl

example : (⟨[0, 1, 3], [2, 0, 1], [5, 6, 7]⟩ : SpMatrix Nat).value 0 (· + ·) 1 1 = 7 ∧
    (((⟨[0, 1, 3], [2, 0, 1], [5, 6, 7]⟩ : SpMatrix Nat).row 1).map (·.1)).Nodup ∧
    lookup 0 (fromCsr 2 (⟨[0, 1, 3], [2, 0, 1], [5, 6, 7]⟩ : SpMatrix Nat)) [1, 1] = 7 := by decide

/-- **Entries that SciPy adds are not added**: the arrays are sorted but repeated entries stay, and reading gives the
first one. -/
theorem duplicates_fails : let m : SpMatrix Nat := ⟨[0, 2], [1, 1], [5, 6]⟩
    m.value 0 (· + ·) 0 1 = 11 ∧ lookup 0 (fromCsr 1 m) [0, 1] = 5 := by decide

end Verif.PyArray
