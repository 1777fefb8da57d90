import Verif.Typed.Lemmas
/-! Property C78. -/
namespace Verif.Typed
open Verif.Types

/-! ### Arithmetic -/

theorem assign_exact (k : Kind) (hn : Narrow k) (r : Int) (hr : Fits k r) : assign k r = .val r := by
  have h := fits_holds k hn r hr
  have hi := fits_integral k r hr
  have hp : holds (promoted k) r := by
    cases k <;> simp [Fits, intType, Narrow] at hr hn <;>
      simp [holds, promoted, isInt, fieldBytes] <;> omega
  have hq : integral (promoted k) = true := by cases k <;> first | rfl | simp [Fits, intType] at hr
  rw [assign, if_neg (fun hc => hc.2 hp), conv_of_holds _ hq _ hp, conv_of_holds _ hi _ h]

theorem assign_unsigned (k : Kind) (hn : Narrow k) (hu : isUInt k = true) (r : Int)
    (hr : fieldBytes k < 4 → holds .int32 r) : assign k r = .val (r % 2 ^ (8 * fieldBytes k)) := by
  cases k <;> simp [isUInt, Narrow] at hu hn <;> simp [fieldBytes] at hr ⊢ <;>
    simp [assign, promoted, fieldBytes, hr, isInt, conv] <;> simp [holds, isInt, fieldBytes] at hr <;> omega

/-- C78 (sums and products). A sum or product that is a number of the type is computed exactly, for all types of at
most 64 bits, also when the other operand is an `int`. -/
theorem sums_and_products_partial (k : Kind) (hn : Narrow k) (x y : Int) (hx : Fits k x) (hy : Fits k y) :
    (Fits k (x + y) → add k x y = .val (x + y)) ∧ (Fits k (x * y) → mul k x y = .val (x * y)) := by
  refine ⟨fun h => assign_exact k hn _ h, fun h => ?_⟩
  rw [mul]
  by_cases hk : k = .bool
  · subst hk
    rcases hx.2 with rfl | rfl <;> rcases hy.2 with rfl | rfl <;> rfl
  · rw [if_neg hk]; exact assign_exact k hn _ h

theorem conv_congr (k : Kind) (hu : isUInt k = true) (x : Int) : conv k x = x % 2 ^ (8 * fieldBytes k) := by
  cases k <;> simp [isUInt] at hu <;> rfl

theorem conv_int (k : Kind) (hb : k ≠ .bool) (hi : integral k = true) (hw : ¬ (isUInt k = true ∧ 4 ≤ fieldBytes k)) (n : Int)
    (hn : Fits .int32 n) : conv (promoted k) n = n := by
  simp [Fits, intType] at hn
  cases k <;> simp [integral, isInt, isUInt, fieldBytes] at hi hb hw <;>
    simp [promoted, fieldBytes, conv, isInt] <;> omega

/-- C78 (sums and products with an `int`). -/
theorem int_operand_partial (k : Kind) (hn : Narrow k) (hb : k ≠ .bool) (x n : Int) (hx : Fits k x)
    (hi : Fits .int32 n) :
    (Fits k (x + n) → addInt k x n = .val (x + n)) ∧ (Fits k (x * n) → mulInt k x n = .val (x * n)) := by
  have hint := fits_integral k x hx
  by_cases hw : isUInt k = true ∧ 4 ≤ fieldBytes k
  · have hp : promoted k = k := by rw [promoted, if_neg (by rintro (h | h); exact hb h; omega)]
    have hmod : ∀ r, Fits k r → r % 2 ^ (8 * fieldBytes k) = r := by
      intro r hr
      rw [← conv_congr k hw.1]
      exact conv_of_holds k hint r (fits_holds k hn r hr)
    constructor
    · intro h
      rw [addInt, if_neg hb, hp, assign_unsigned k hn hw.1 _ (by omega), conv_congr k hw.1, Int.add_emod_emod, hmod _ h]
    · intro h
      rw [mulInt, if_neg hb, hp, assign_unsigned k hn hw.1 _ (by omega), conv_congr k hw.1, Int.mul_emod, Int.emod_emod,
        ← Int.mul_emod, hmod _ h]
  · have hc := conv_int k hb hint hw n hi
    constructor
    · intro h
      rw [addInt, if_neg hb, hc]; exact assign_exact k hn _ h
    · intro h
      rw [mulInt, if_neg hb, hc]; exact assign_exact k hn _ h

/-- C78 (differences). A difference that is a number of the type is computed exactly if the type is unsigned, or if
the second operand is not the smallest number of the type. -/
theorem differences_partial (k : Kind) (hn : Narrow k) (hb : k ≠ .bool) (x y : Int) (hx : Fits k x)
    (hs : isInt k = true → Fits k (-y)) (hr : Fits k (x - y)) : sub k x y = .val (x - y) := by
  have hint := fits_integral k x hx
  rw [sub]
  by_cases hu : isUInt k = true
  · rw [if_pos hu]; exact assign_exact k hn _ hr
  · have hi : isInt k = true := by
      cases k <;> simp [integral, isInt, isUInt] at hint hu hb ⊢
    rw [if_neg hu, negate, if_pos hi, assign_exact k hn _ (hs hi)]
    show add k (-y) x = _
    rw [add, show -y + x = x - y by omega]
    exact assign_exact k hn _ hr

example : sub .int8 (-100) 28 = .val (-128) := by decide

/-- C78 (differences). Without the condition it is false: the difference is computed by negating the second operand,
which overflows: `-1 - INT_MIN` is `INT_MAX`. -/
theorem difference_fails : ∃ x y, Fits .int32 x ∧ Fits .int32 y ∧ Fits .int32 (x - y) ∧ sub .int32 x y = .ub := by
  refine ⟨-1, -2147483648, ?_, ?_, ?_, by decide⟩ <;> simp [Fits, intType]

/-- C78 (differences). Booleans and numbers of unsigned types cannot be negated. -/
theorem negation_fails : negate .uint32 1 = .err ∧ sub .bool 1 1 = .err := by decide

/-- C78 (unsigned numbers). Sums, differences and products of unsigned numbers are computed modulo `2 ^ bits`, except
for products of 16-bit numbers. -/
theorem unsigned_wraps_partial (k : Kind) (b : Nat) (hk : intType k = some (b, false)) (hn : Narrow k) (x y : Int)
    (hx : Fits k x) (hy : Fits k y) :
    add k x y = .val ((x + y) % 2 ^ b) ∧ sub k x y = .val ((x - y) % 2 ^ b) ∧
      (b ≠ 16 → mul k x y = .val ((x * y) % 2 ^ b)) := by
  have hu : isUInt k = true := by cases k <;> simp [intType] at hk <;> rfl
  have hb : 8 * fieldBytes k = b := by
    cases k <;> simp [intType, Narrow] at hk hn <;> simp [fieldBytes] <;> omega
  have hne : k ≠ .bool := by rintro rfl; simp [intType] at hk
  have small : fieldBytes k < 4 → 0 ≤ x ∧ x < 65536 ∧ 0 ≤ y ∧ y < 65536 := by
    intro hf
    cases k <;> simp [intType, fieldBytes] at hk hf <;> simp [Fits, intType] at hx hy <;> omega
  refine ⟨?_, ?_, ?_⟩
  · rw [add, assign_unsigned k hn hu, hb]
    intro hf; have := small hf; simp [holds, isInt, fieldBytes]; omega
  · rw [sub, if_pos hu, assign_unsigned k hn hu, hb]
    intro hf; have := small hf; simp [holds, isInt, fieldBytes]; omega
  · intro h16
    rw [mul, if_neg hne, assign_unsigned k hn hu, hb]
    intro hf
    have h8 : 0 ≤ x ∧ x ≤ 255 ∧ 0 ≤ y ∧ y ≤ 255 := by
      cases k <;> simp [intType, fieldBytes] at hk hf <;> simp [Fits, intType] at hx hy <;> omega
    have h1 : 0 ≤ x * y := Int.mul_nonneg h8.1 h8.2.2.1
    have h2 : x * y ≤ 255 * 255 := Int.mul_le_mul h8.2.1 h8.2.2.2 h8.2.2.1 (by omega)
    simp [holds, isInt, fieldBytes]; omega

example : mul .uint8 200 200 = .val 64 := by decide

/-- C78 (unsigned numbers). Products of 16-bit numbers are computed as `int`, which may overflow. -/
theorem product_fails : Fits .uint16 65535 ∧ mul .uint16 65535 65535 = .ub := by
  refine ⟨by simp [Fits, intType], by decide⟩

/-- C78. The 128-bit types are stored in 64 bits. -/
theorem wide_fails : ∃ x y, Fits .uint128 x ∧ Fits .uint128 y ∧ Fits .uint128 (x + y) ∧ add .uint128 x y = .val 0 ∧
    x + y ≠ 0 := by
  refine ⟨2 ^ 63, 2 ^ 63, ?_, ?_, ?_, by decide, by decide⟩ <;> simp [Fits, intType]

/-- C78 (constants). A number made from an `int` is a number of its type; it is the `int` if that is a number of the
type, and congruent to it for integer types. -/
theorem constants_partial (k : Kind) (hn : Narrow k) (hi : integral k = true) (n : Int) :
    ∃ r, setInt k n = .val r ∧ Fits k r ∧ (Fits k n → r = n) ∧ (k = .bool → (r = 0 ↔ n = 0)) ∧
      ∀ b s, intType k = some (b, s) → r % 2 ^ b = n % 2 ^ b := by
  refine ⟨conv k n, by rw [setInt, if_pos hi], holds_fits k hi _ (holds_conv k hi n),
    fun h => conv_of_holds k hi n (fits_holds k hn n h), ?_, ?_⟩
  · rintro rfl
    simp only [conv, if_pos rfl]
    by_cases h : n = 0 <;> simp [h]
  · intro b s hb
    cases k <;> simp [intType, integral, isInt, isUInt, Narrow] at hb hi hn <;> obtain ⟨rfl, rfl⟩ := hb <;>
      simp [conv, isInt, fieldBytes] <;> omega

example : setInt .uint8 300 = .val 44 := by decide

/-- C78 (use as an index). -/
theorem as_index_partial (k : Kind) (hn : Narrow k) (x : Int) (hx : Fits k x) (h0 : 0 ≤ x) : asIndex k x = x := by
  rw [asIndex]
  cases k <;> simp [Fits, intType, Narrow] at hx hn <;> omega

theorem as_index_fails : ∃ x, Fits .int32 x ∧ asIndex .int32 x ≠ x :=
  ⟨-1, by simp [Fits, intType], by decide⟩

/-- C78 (increments). Both increments add one. -/
theorem increments_partial (k : Kind) (hn : Narrow k) (hb : k ≠ .bool) (x : Int) (hx : Fits k x)
    (h1 : Fits k (x + 1)) : ∃ a b, preInc k x = .val (a, x + 1) ∧ postInc k x = .val (b, x + 1) := by
  have h := (int_operand_partial k hn hb x 1 hx (by simp [Fits, intType])).1 h1
  exact ⟨x, x + 1, by rw [preInc, h]; rfl, by rw [postInc, h]; rfl⟩

/-- C78 (increments). `++x` gives the number before and `x++` the number after it was incremented. -/
theorem increments_fails (k : Kind) (hn : Narrow k) (hb : k ≠ .bool) (x : Int) (hx : Fits k x)
    (h1 : Fits k (x + 1)) : preInc k x = .val (x, x + 1) ∧ postInc k x = .val (x + 1, x + 1) := by
  have h := (int_operand_partial k hn hb x 1 hx (by simp [Fits, intType])).1 h1
  exact ⟨by rw [preInc, h]; rfl, by rw [postInc, h]; rfl⟩

/-! ### Comparisons -/

/-- C78 (comparisons). Numbers of one integer type are compared as numbers. -/
theorem comparisons_partial (x y : Int) :
    (gtVal x y = true ↔ x > y) ∧ (eqVal x y = true ↔ x = y) ∧ (ge (gtVal x y) (eqVal x y) = true ↔ x ≥ y) ∧
    (lt (gtVal x y) (eqVal x y) = true ↔ x < y) ∧ (le (gtVal x y) = true ↔ x ≤ y) ∧
    (ne (eqVal x y) = true ↔ x ≠ y) := by
  simp [gtVal, eqVal, ge, lt, le, ne]; omega

/-- C78 (comparisons). Comparison with an `int` is right for signed numbers, and for unsigned numbers that are
`int`s. -/
theorem int_comparisons_partial (k : Kind) (x n : Int) (hu : isUInt k = true → Fits .int32 x) :
    (gtInt k x n = true ↔ x > n) ∧ (eqInt k x n = true ↔ x = n) ∧ (ge (gtInt k x n) (eqInt k x n) = true ↔ x ≥ n) ∧
    (lt (gtInt k x n) (eqInt k x n) = true ↔ x < n) ∧ (le (gtInt k x n) = true ↔ x ≤ n) ∧
    (ne (eqInt k x n) = true ↔ x ≠ n) := by
  have h1 : gtInt k x n = decide (x > n) := by
    rw [gtInt]
    by_cases h : isUInt k = true
    · rw [if_pos h, conv_of_holds .int32 rfl x (fits_holds .int32 (by simp [Narrow]) x (hu h))]
    · rw [if_neg h]
  have h2 : eqInt k x n = decide (x = n) := by
    rw [eqInt]
    by_cases h : isUInt k = true
    · rw [if_pos h, conv_of_holds .int32 rfl x (fits_holds .int32 (by simp [Narrow]) x (hu h))]
    · rw [if_neg h]
  rw [h1, h2]
  simp [ge, lt, le, ne]; omega

/-- C78 (comparisons). Large unsigned numbers are below every positive `int`, and may be equal to a small one. -/
theorem int_comparisons_fails :
    Fits .uint32 3000000000 ∧ gtInt .uint32 3000000000 5 = false ∧
      Fits .uint64 4294967301 ∧ eqInt .uint64 4294967301 5 = true := by
  refine ⟨by simp [Fits, intType], by decide, by simp [Fits, intType], by decide⟩

/-- C78 (comparisons). Two floating-point numbers of which neither is greater and that are not equal (one is not a
number) are said to be less than each other. -/
theorem nan_fails (gt gt' eq : Bool) (h : gt = false) (h' : gt' = false) (he : eq = false) :
    lt gt eq = true ∧ lt gt' eq = true ∧ le gt = true := by subst h h' he; decide

/-! ### Vectors -/

/-- The calls that an operation stands for. -/
def pushAll (v : Vec) (k : Kind) : List (List Byte) → Out Vec
  | [] => .val v
  | x :: xs => (push v k x).bind fun v' => pushAll v' k xs

def call (v : Vec) (k : Kind) : Op → Out Vec
  | .push x => push v k x
  | .append ys => (pushAll (empty k) k ys).bind fun w => pushVector v w
  | .set i x => set v i k x
  | .resize n => .val (resize v n)
  | .clear => .val (clear v)

def calls (v : Vec) (k : Kind) : List Op → Out Vec
  | [] => .val v
  | o :: os => (call v k o).bind fun v' => calls v' k os

theorem pushAll_canon {v : Vec} {k : Kind} (hk : k ≠ .undefined) (ys : List (List Byte)) :
    ∀ {v : Vec} {xs : List (List Byte)}, Canon v k xs → (∀ y ∈ ys, y.length = fieldBytes k) →
      ∃ v', pushAll v k ys = .val v' ∧ Canon v' k (xs ++ ys) := by
  induction ys with
  | nil => intro v xs h _; exact ⟨v, rfl, by simpa using h⟩
  | cons y ys ih =>
    intro v xs h hy
    obtain ⟨v1, h1, h2⟩ := h.push hk y (hy y (by simp))
    obtain ⟨v2, h3, h4⟩ := ih h2 (fun z hz => hy z (by simp [hz]))
    refine ⟨v2, ?_, by simpa using h4⟩
    rw [pushAll, h1]; exact h3

theorem call_canon {v : Vec} {k : Kind} {xs : List (List Byte)} (hk : k ≠ .undefined) (h : Canon v k xs) (o : Op)
    (ho : o.Valid (fieldBytes k) xs) : ∃ v', call v k o = .val v' ∧ Canon v' k (o.apply (fieldBytes k) xs) := by
  cases o with
  | push x => exact h.push hk x ho
  | append ys =>
    obtain ⟨w, h1, h2⟩ := pushAll_canon (v := empty k) hk ys (canon_empty k) ho
    obtain ⟨v', h3, h4⟩ := h.pushVector (ys := ys) (by simpa using h2) hk
    refine ⟨v', ?_, h4⟩
    rw [call, h1]; exact h3
  | set i x =>
    obtain ⟨v', h1, h2, _⟩ := h.set i ho.1 x ho.2
    exact ⟨v', h1, h2⟩
  | resize n => exact ⟨_, rfl, h.resize n⟩
  | clear => exact ⟨_, rfl, h.clear⟩

theorem calls_canon {k : Kind} (hk : k ≠ .undefined) (os : List Op) :
    ∀ {v : Vec} {xs : List (List Byte)}, Canon v k xs → Valid (fieldBytes k) xs os →
      ∃ v', calls v k os = .val v' ∧ Canon v' k (applyAll (fieldBytes k) xs os) := by
  induction os with
  | nil => intro v xs h _; exact ⟨v, rfl, h⟩
  | cons o os ih =>
    intro v xs h ho
    obtain ⟨v1, h1, h2⟩ := call_canon hk h o ho.1
    obtain ⟨v2, h3, h4⟩ := ih h2 ho.2
    exact ⟨v2, by rw [calls, h1]; exact h3, h4⟩

/-- The vector `v` of type `k` was made by calls after which a user expects the numbers `xs` in it. -/
def Made (k : Kind) (v : Vec) (xs : List (List Byte)) : Prop :=
  ∃ os, Valid (fieldBytes k) [] os ∧ calls (empty k) k os = .val v ∧ applyAll (fieldBytes k) [] os = xs

theorem Made.canon {k : Kind} (hk : k ≠ .undefined) {v : Vec} {xs : List (List Byte)} (h : Made k v xs) :
    Canon v k xs := by
  obtain ⟨os, h1, h2, h3⟩ := h
  obtain ⟨v', h4, h5⟩ := calls_canon hk os (canon_empty k) h1
  rw [h4] at h2
  cases h2
  rw [← h3]; exact h5

/-- The unions by which numbers of the type are read: as components, or as indices. -/
def ReadBy (k : Kind) (union : Nat) : Prop := union = componentUnion ∨ (indexKind k = true ∧ union = indexUnion)

theorem ReadBy.le {k : Kind} {union : Nat} (h : ReadBy k union) : fieldBytes k ≤ union := by
  rcases h with rfl | ⟨h, rfl⟩
  · cases k <;> decide
  · cases k <;> simp [indexKind] at h <;> decide

/-- C78 (vectors). After any sequence of calls that push numbers, append vectors, set elements, resize and clear, a
vector has the expected size, each element reads as the number expected there, whatever lies behind the vector in
memory, and iterators visit the elements in order. -/
theorem vectors (k : Kind) (hk : k ≠ .undefined) (os : List Op) (hv : Valid (fieldBytes k) [] os) :
    ∃ v, calls (empty k) k os = .val v ∧ v.kind = k ∧
      size v = .val (applyAll (fieldBytes k) [] os).length ∧
      ∀ union, ReadBy k union → ∀ behind,
        (∀ (i : Nat) (x : List Byte), (applyAll (fieldBytes k) [] os)[i]? = some x → get v behind union i = x) ∧
        walk v behind union ((applyAll (fieldBytes k) [] os).length + 1) 0 = applyAll (fieldBytes k) [] os := by
  obtain ⟨v, h1, h2⟩ := calls_canon hk os (canon_empty k) hv
  refine ⟨v, h1, h2.kind, h2.size hk, fun union hu behind => ⟨fun i x hx => h2.get behind union hu.le i x hx, ?_⟩⟩
  have := walk_spec h2 hk behind union hu.le ((applyAll (fieldBytes k) [] os).length + 1) 0 (by omega) (by omega)
  simpa using this

example : Valid (fieldBytes .uint16) [] [.push [1, 2], .append [[3, 0], [4, 0]], .set 1 [9, 9], .resize 4] := by
  refine ⟨rfl, ⟨?_, ⟨⟨by decide, rfl⟩, ⟨trivial, trivial⟩⟩⟩⟩
  intro y hy
  simp at hy
  rcases hy with rfl | rfl <;> rfl

/-- C78 (vectors). The bytes of an integer stand for it. -/
theorem stored_integers (k : Kind) (hn : Narrow k) (x : Int) (hx : Fits k x) :
    (encode k x).length = fieldBytes k ∧ decode k (encode k x) = x :=
  ⟨encode_length k x, decode_encode k (fits_integral k x hx) x (fits_holds k hn x hx)⟩

/-- C78 (vectors). Two vectors are equal exactly if they have the same type and hold the same numbers. -/
theorem vector_equality (k l : Kind) (hk : k ≠ .undefined) (hl : l ≠ .undefined) (v w : Vec)
    (xs ys : List (List Byte)) (hv : Made k v xs) (hw : Made l w ys) :
    ∃ b, eqVec v w = .val b ∧ (b = true ↔ k = l ∧ xs = ys) := by
  have cv := hv.canon hk
  have cw := hw.canon hl
  rw [eqVec, cv.size hk, cw.size hl]
  show ∃ b, (if xs.length ≠ ys.length then Out.val false else _) = Out.val b ∧ _
  by_cases hlen : xs.length = ys.length
  · rw [if_neg (by simpa using hlen)]
    by_cases hkl : k = l
    · rw [if_neg (by rw [cv.kind, cw.kind]; simpa using hkl)]
      refine ⟨_, rfl, ?_⟩
      subst hkl
      rw [cv.kind, List.take_of_length_le (by rw [cv.length]; exact Nat.le_refl _),
        List.take_of_length_le (by rw [cw.length, hlen]; exact Nat.le_refl _), cv.bytes, cw.bytes, beq_iff_eq]
      constructor
      · intro h; exact ⟨rfl, flat_inj _ _ _ _ cv.len cw.len hlen h⟩
      · rintro ⟨_, rfl⟩; rfl
    · rw [if_pos (by rw [cv.kind, cw.kind]; exact hkl)]
      exact ⟨false, rfl, by simp [hkl]⟩
  · rw [if_pos hlen]
    refine ⟨false, rfl, ?_⟩
    constructor
    · intro h; cases h
    · rintro ⟨_, rfl⟩; exact absurd rfl hlen

/-- C78 (vectors). Vectors of integers are compared in the order of the dictionary. -/
theorem vector_order (k : Kind) (hi : integral k = true) (union : Nat) (hu : ReadBy k union) (behind : List Byte)
    (v w : Vec) (xs ys : List (List Byte)) (hv : Made k v xs) (hw : Made k w ys) :
    ∃ b, less (gtRep k) (eqRep k) union behind v w = .val b ∧
      (b = true ↔ Before (xs.map (decode k)) (ys.map (decode k))) := by
  have hk : k ≠ .undefined := by rintro rfl; exact absurd hi (by decide)
  have cv := hv.canon hk
  have cw := hw.canon hk
  rw [less, cv.size hk, cw.size hk]
  refine ⟨(lessLoop (gtRep k) (eqRep k) (get v behind union) (get w behind union)
      (min xs.length ys.length) 0).getD (decide (xs.length < ys.length)), ?_, ?_⟩
  · show (if v.kind ≠ w.kind then _ else _) = _
    rw [if_neg (by rw [cv.kind, cw.kind]; simp)]
  · exact lessLoop_spec k xs ys _ _ 0 _
      (fun j a ha => by rw [Nat.zero_add]; exact cv.get behind union hu.le j a ha)
      (fun j a ha => by rw [Nat.zero_add]; exact cw.get behind union hu.le j a ha) rfl

/-- C78 (vectors). This order is a strict total order (as needed by `std::set`). -/
theorem vector_order_total (k : Kind) (hi : integral k = true) (hb : k ≠ .bool) (union : Nat) (hu : ReadBy k union)
    (behind : List Byte) (u v w : Vec) (xs ys zs : List (List Byte)) (h1 : Made k u xs) (h2 : Made k v ys)
    (h3 : Made k w zs) :
    less (gtRep k) (eqRep k) union behind u u = .val false ∧
    (less (gtRep k) (eqRep k) union behind u v = .val true → less (gtRep k) (eqRep k) union behind v w = .val true →
      less (gtRep k) (eqRep k) union behind u w = .val true) ∧
    (less (gtRep k) (eqRep k) union behind u v = .val true ∨ eqVec u v = .val true ∨
      less (gtRep k) (eqRep k) union behind v u = .val true) := by
  have hk : k ≠ .undefined := by rintro rfl; exact absurd hi (by decide)
  have key : ∀ (a b : Vec) (as bs : List (List Byte)), Made k a as → Made k b bs →
      (less (gtRep k) (eqRep k) union behind a b = .val true ↔ Before (as.map (decode k)) (bs.map (decode k))) := by
    intro a b as bs ha hb
    obtain ⟨r, hr, hr'⟩ := vector_order k hi union hu behind a b as bs ha hb
    rw [hr, ← hr']
    constructor
    · intro h; cases h; rfl
    · rintro rfl; rfl
  refine ⟨?_, ?_, ?_⟩
  · obtain ⟨r, hr, hr'⟩ := vector_order k hi union hu behind u u xs xs h1 h1
    cases r with
    | false => exact hr
    | true => exact absurd (hr'.1 rfl) (Before.irrefl _)
  · rw [key _ _ _ _ h1 h2, key _ _ _ _ h2 h3, key _ _ _ _ h1 h3]
    exact Before.trans
  · rw [key _ _ _ _ h1 h2, key _ _ _ _ h2 h1]
    rcases Before.total (xs.map (decode k)) (ys.map (decode k)) with h | h | h
    · exact Or.inl h
    · refine Or.inr (Or.inl ?_)
      obtain ⟨r, hr, hr'⟩ := vector_equality k k hk hk u v xs ys h1 h2
      rw [hr, hr'.2 ⟨rfl, ?_⟩]
      have hx := (h1.canon hk).len
      have hy := (h2.canon hk).len
      exact List.map_inj_right' hx hy h
    · exact Or.inr (Or.inr h)
where
  List.map_inj_right' {xs ys : List (List Byte)} (hx : ∀ x ∈ xs, x.length = fieldBytes k)
      (hy : ∀ y ∈ ys, y.length = fieldBytes k) (h : xs.map (decode k) = ys.map (decode k)) : xs = ys := by
    induction xs generalizing ys with
    | nil => cases ys with
      | nil => rfl
      | cons y ys => simp at h
    | cons x xs ih =>
      cases ys with
      | nil => simp at h
      | cons y ys =>
        rw [List.map_cons, List.map_cons] at h
        injection h with h1 h2
        rw [decode_inj k hi x y ⟨hx x (by simp), fun h => absurd h hb⟩ ⟨hy y (by simp), fun h => absurd h hb⟩ h1,
          ih (fun z hz => hx z (by simp [hz])) (fun z hz => hy z (by simp [hz])) h2]

/-- C78 (vectors). Vectors of floating-point numbers are not ordered: if two numbers are incomparable, each of the
vectors that hold one of them is less than the other. -/
theorem nan_order_fails (gt eq : List Byte → List Byte → Bool) (a b : List Byte) (v w : Vec)
    (hv : Made .float64 v [a]) (hw : Made .float64 w [b])
    (h : gt a b = false ∧ gt b a = false ∧ eq a b = false ∧ eq b a = false) (behind : List Byte) :
    less gt eq componentUnion behind v w = .val true ∧ less gt eq componentUnion behind w v = .val true := by
  have cv := hv.canon (by decide)
  have cw := hw.canon (by decide)
  have g1 : get v behind componentUnion 0 = a := cv.get behind componentUnion (by decide) 0 a rfl
  have g2 : get w behind componentUnion 0 = b := cw.get behind componentUnion (by decide) 0 b rfl
  obtain ⟨h1, h2, h3, h4⟩ := h
  constructor
  · rw [less, cv.size (by decide), cw.size (by decide)]
    show (if v.kind ≠ w.kind then _ else _) = _
    rw [if_neg (by rw [cv.kind, cw.kind]; simp)]
    simp [lessLoop, g1, g2, h1, h3, lt, ge]
  · rw [less, cv.size (by decide), cw.size (by decide)]
    show (if w.kind ≠ v.kind then _ else _) = _
    rw [if_neg (by rw [cv.kind, cw.kind]; simp)]
    simp [lessLoop, g1, g2, h2, h4, lt, ge]

/-- C78 (memory). Reading an element stays inside the vector if the elements from it on have at least as many bytes
as the union. -/
theorem reads_inside_partial (k : Kind) (hk : k ≠ .undefined) (v : Vec) (xs : List (List Byte)) (hv : Made k v xs)
    (union i : Nat) (h : union ≤ (xs.length - i) * numBytes k) : ∀ o ∈ touched v union i, o < v.bytes.length := by
  have cv := hv.canon hk
  intro o ho
  rw [touched, List.mem_map] at ho
  obtain ⟨d, hd, rfl⟩ := ho
  rw [List.mem_range] at hd
  rw [cv.length, cv.kind]
  rw [Nat.sub_mul] at h
  omega

/-- C78 (memory). Reading the last element of any vector whose type is smaller than the union reads behind the
vector. -/
theorem reads_inside_fails (k : Kind) (hk : k ≠ .undefined) (union : Nat) (hu : numBytes k < union) (v : Vec)
    (xs : List (List Byte)) (hv : Made k v xs) (hne : xs ≠ []) :
    ∃ o ∈ touched v union (xs.length - 1), v.bytes.length ≤ o := by
  have cv := hv.canon hk
  have hpos : 0 < xs.length := List.length_pos_iff.2 hne
  refine ⟨(xs.length - 1) * numBytes v.kind + numBytes k, ?_, ?_⟩
  · exact List.mem_map.2 ⟨numBytes k, List.mem_range.2 hu, rfl⟩
  · rw [cv.length, cv.kind, ← Nat.succ_mul, Nat.succ_eq_add_one, Nat.sub_add_cancel hpos]
    exact Nat.le_refl _

example : numBytes .float64 < componentUnion ∧ numBytes .int32 < indexUnion := by decide

/-- C78 (vectors). Pushing an integer constant that is an `int` and a number of the type. -/
theorem push_constant_partial (enc : Kind → Int → Nat → List Byte) (k : Kind) (hn : Narrow k) (n : Int)
    (hf : Fits k n) (h32 : Fits .int32 n) (v : Vec) (xs : List (List Byte)) (hv : Made k v xs) :
    ∃ v', pushConst enc v (.int n) = .val v' ∧ size v' = .val (xs.length + 1) ∧
      ∀ union, ReadBy k union → ∀ behind, decode k (get v' behind union xs.length) = n ∧
        ∀ (i : Nat) (x : List Byte), xs[i]? = some x → get v' behind union i = x := by
  have hi := fits_integral k n hf
  have hk : k ≠ .undefined := by rintro rfl; exact absurd hi (by decide)
  have cv := hv.canon hk
  obtain ⟨v', h1, h2⟩ := cv.setLast (encode k n) (encode_length k n)
  have h3 : conv .int32 n = n := conv_of_holds .int32 rfl n (fits_holds .int32 (by simp [Narrow]) n h32)
  have h4 : conv k n = n := conv_of_holds k hi n (fits_holds k hn n hf)
  refine ⟨v', ?_, ?_, ?_⟩
  · rw [pushConst, cv.size hk]
    show ((repInt enc v.kind (conv .int32 n)).bind fun rep => set (resize v (xs.length + 1)) xs.length v.kind rep) = _
    rw [h3, cv.kind, repInt, if_pos hi, h4]
    exact h1
  · rw [h2.size hk]; simp
  · intro union hu behind
    refine ⟨?_, fun i x hx => h2.get behind union hu.le i x ?_⟩
    · rw [h2.get behind union hu.le xs.length (encode k n) (by simp)]
      exact (stored_integers k hn n hf).2
    · rw [List.getElem?_append_left (List.getElem?_eq_some_iff.1 hx).1]; exact hx

/-- C78 (vectors). A constant with a fraction that is pushed to a vector of floating-point numbers loses its
fraction: 2.5 is stored as 2. -/
theorem push_fraction_fails (enc : Kind → Int → Nat → List Byte) (hl : (enc .float64 2 0).length = 8)
    (hne : enc .float64 2 0 ≠ enc .float64 5 1) :
    ∃ v, pushConst enc (empty .float64) (.dyadic 5 1) = .val v ∧ get v [] componentUnion 0 = enc .float64 2 0 ∧
      get v [] componentUnion 0 ≠ enc .float64 5 1 := by
  obtain ⟨v', h1, h2⟩ := (canon_empty .float64).setLast (enc .float64 2 0) hl
  have hg : get v' [] componentUnion 0 = enc .float64 2 0 := h2.get [] componentUnion (by decide) 0 _ rfl
  refine ⟨v', ?_, hg, by rw [hg]; exact hne⟩
  rw [pushConst, (canon_empty .float64).size (by decide)]
  exact h1

/-- C78 (vectors). A large integer constant is pushed as another number, although the type holds it. -/
theorem push_large_fails (enc : Kind → Int → Nat → List Byte) :
    Fits .int64 3000000000 ∧ ∃ v, pushConst enc (empty .int64) (.int 3000000000) = .val v ∧
      decode .int64 (get v [] componentUnion 0) = -1294967296 := by
  refine ⟨by simp [Fits, intType], ?_⟩
  obtain ⟨v', h1, h2⟩ := (canon_empty .int64).setLast (encode .int64 (-1294967296)) (encode_length _ _)
  refine ⟨v', ?_, ?_⟩
  · have h3 : (Const.int 3000000000).toInt = .val (-1294967296) := by decide
    have h4 : repInt enc (empty .int64).kind (-1294967296) = .val (encode .int64 (-1294967296)) := by
      rw [repInt, if_pos (by decide), show conv (empty .int64).kind (-1294967296) = -1294967296 by decide]
      rfl
    rw [pushConst, (canon_empty .int64).size (by decide), h3]
    simp only [Out.bind]
    rw [h4]
    exact h1
  · rw [h2.get [] componentUnion (by decide) 0 _ rfl]; decide

/-- C78 (vectors). Pushing an element of the vector itself, while memory is left. -/
theorem push_own_partial (k : Kind) (hk : k ≠ .undefined) (v : Vec) (xs : List (List Byte)) (hv : Made k v xs)
    (i : Nat) (x : List Byte) (hx : xs[i]? = some x) (hc : (xs.length + 1) * numBytes k ≤ v.cap) :
    ∃ v', pushSelf v i = .val v' ∧ size v' = .val (xs.length + 1) ∧
      ∀ union, ReadBy k union → ∀ behind, get v' behind union xs.length = x ∧
        ∀ (j : Nat) (y : List Byte), xs[j]? = some y → get v' behind union j = y := by
  have cv := hv.canon hk
  have hlen : x.length = fieldBytes k := cv.len x (List.mem_of_getElem? hx)
  obtain ⟨v', h1, h2⟩ := cv.setLast x hlen
  have hlt := (List.getElem?_eq_some_iff.1 hx).1
  have hg : get (resize v (xs.length + 1)) [] (fieldBytes v.kind) i = x :=
    (cv.grow 1).get [] _ (by rw [cv.kind]; exact Nat.le_refl _) i x (by
      rw [List.getElem?_append_left hlt]; exact hx)
  refine ⟨v', ?_, ?_, ?_⟩
  · rw [pushSelf, cv.size hk]
    show (if v.cap < (xs.length + 1) * numBytes v.kind then _ else _) = _
    rw [if_neg (by rw [cv.kind]; omega), hg, cv.kind]
    exact h1
  · rw [h2.size hk]; simp
  · intro union hu behind
    refine ⟨h2.get behind union hu.le xs.length x (by simp), fun j y hy => h2.get behind union hu.le j y ?_⟩
    rw [List.getElem?_append_left (List.getElem?_eq_some_iff.1 hy).1]; exact hy

example : ∃ v, Made .int32 v [[1, 0, 0, 0]] ∧ (1 + 1) * numBytes .int32 ≤ v.cap := by
  refine ⟨⟨.int32, [1, 0, 0, 0], 8⟩, ⟨[.resize 2, .clear, .push [1, 0, 0, 0]], ?_, by decide, by decide⟩, by decide⟩
  exact ⟨trivial, trivial, rfl, trivial⟩

/-- C78 (vectors). When the memory must grow, the pushed reference points into memory that was freed. -/
theorem push_own_fails : ∃ v x, Made .int32 v [x] ∧ pushSelf v 0 = .ub := by
  refine ⟨⟨.int32, [1, 0, 0, 0], 4⟩, [1, 0, 0, 0], ⟨[.push [1, 0, 0, 0]], ⟨rfl, trivial⟩, by decide, by decide⟩, by decide⟩

/-- C78 (vectors). The size of a vector that was made without a type is a division by zero. -/
theorem undefined_size_fails : size (empty .undefined) = .ub := by decide

end Verif.Typed
