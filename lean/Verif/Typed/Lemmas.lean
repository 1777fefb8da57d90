import Verif.Typed.Model
import Verif.Typed.Spec
/-! Lemmas for C78. -/
namespace Verif.Typed
open Verif.Types

/-! ### Types -/

theorem field_le (k : Kind) : fieldBytes k ≤ numBytes k := by cases k <;> decide

theorem numBytes_pos (k : Kind) (h : k ≠ .undefined) : 0 < numBytes k := by
  cases k <;> first | decide | exact absurd rfl h

/-! ### Bytes -/

theorem encodeNat_length (w n : Nat) : (encodeNat w n).length = w := by
  induction w generalizing n with
  | zero => rfl
  | succ w ih => simp [encodeNat, ih]

theorem decode_encodeNat (w n : Nat) : decodeNat (encodeNat w n) = n % 256 ^ w := by
  induction w generalizing n with
  | zero => simp [encodeNat, decodeNat, Nat.mod_one]
  | succ w ih =>
    rw [encodeNat, decodeNat, ih]
    show n % 256 + 256 * (n / 256 % 256 ^ w) = _
    rw [Nat.pow_succ, Nat.mul_comm (256 ^ w) 256, Nat.mod_mul]

theorem encodeNat_decode (bs : List Byte) : encodeNat bs.length (decodeNat bs) = bs := by
  induction bs with
  | nil => rfl
  | cons b bs ih =>
    rw [List.length_cons, encodeNat, decodeNat]
    have h1 : (b.val + 256 * decodeNat bs) / 256 = decodeNat bs := by omega
    rw [h1, ih]
    congr 1
    apply Fin.ext
    show (b.val + 256 * decodeNat bs) % 256 = b.val
    omega

theorem decodeNat_lt (bs : List Byte) : decodeNat bs < 256 ^ bs.length := by
  induction bs with
  | nil => simp [decodeNat]
  | cons b bs ih =>
    rw [decodeNat, List.length_cons, Nat.pow_succ]
    have := b.isLt
    omega

theorem pow_256 (w : Nat) : (256 : Nat) ^ w = 2 ^ (8 * w) := by
  rw [Nat.pow_mul]

theorem encode_length (k : Kind) (x : Int) : (encode k x).length = fieldBytes k := encodeNat_length _ _

/-! ### Integers -/

theorem holds_conv (k : Kind) (hi : integral k = true) (x : Int) : holds k (conv k x) := by
  cases k <;> simp [integral, isInt, isUInt] at hi <;>
    simp [holds, conv, isInt, fieldBytes] <;> omega

theorem conv_of_holds (k : Kind) (hi : integral k = true) (x : Int) (h : holds k x) : conv k x = x := by
  cases k <;> simp [integral, isInt, isUInt] at hi <;>
    simp [holds, conv, isInt, fieldBytes] at h ⊢ <;> omega

theorem fits_holds (k : Kind) (hn : Narrow k) (x : Int) (h : Fits k x) : holds k x := by
  cases k <;> simp [Fits, intType, Narrow] at h hn <;>
    simp [holds, isInt, fieldBytes] <;> omega

theorem holds_fits (k : Kind) (hi : integral k = true) (x : Int) (h : holds k x) : Fits k x := by
  cases k <;> simp [integral, isInt, isUInt] at hi <;>
    simp [holds, isInt, fieldBytes] at h <;> simp [Fits, intType] <;> omega

theorem fits_integral (k : Kind) (x : Int) (h : Fits k x) : integral k = true := by
  cases k <;> simp [Fits, intType] at h <;> rfl

theorem decode_encode (k : Kind) (hi : integral k = true) (x : Int) (h : holds k x) :
    decode k (encode k x) = x := by
  rw [decode, encode, decode_encodeNat, pow_256]
  cases k <;> simp [integral, isInt, isUInt] at hi <;>
    simp [holds, conv, isInt, fieldBytes] at h ⊢ <;> omega

/-- Bytes of a number: for a boolean only zero and one. -/
def Proper (k : Kind) (bs : List Byte) : Prop := bs.length = fieldBytes k ∧ (k = .bool → bs = [0] ∨ bs = [1])

theorem decode_inj (k : Kind) (hi : integral k = true) (a b : List Byte) (ha : Proper k a) (hb : Proper k b)
    (h : decode k a = decode k b) : a = b := by
  by_cases hk : k = .bool
  · subst hk
    rcases ha.2 rfl with rfl | rfl <;> rcases hb.2 rfl with rfl | rfl <;>
      first | rfl | exact absurd h (by decide)
  · have la := decodeNat_lt a
    have lb := decodeNat_lt b
    have hn : decodeNat a = decodeNat b := by
      rw [ha.1, pow_256] at la
      rw [hb.1, pow_256] at lb
      unfold decode at h
      generalize decodeNat a = m at *
      generalize decodeNat b = n at *
      cases k <;> simp [integral, isInt, isUInt] at hi hk <;>
        simp [conv, isInt, fieldBytes] at h la lb <;> omega
    rw [← encodeNat_decode a, ← encodeNat_decode b, hn, ha.1, hb.1]

/-! ### Layout of vectors -/

/-- A number with the bytes that are never written. -/
def pad (W : Nat) (x : List Byte) : List Byte := x ++ List.replicate (W - x.length) 0

theorem pad_length (W : Nat) (x : List Byte) (h : x.length ≤ W) : (pad W x).length = W := by
  simp [pad]; omega

def flat (W : Nat) (xs : List (List Byte)) : List Byte := xs.flatMap (pad W)

theorem flat_cons (W : Nat) (x : List Byte) (xs : List (List Byte)) : flat W (x :: xs) = pad W x ++ flat W xs := by
  simp [flat]

theorem flat_append (W : Nat) (xs ys : List (List Byte)) : flat W (xs ++ ys) = flat W xs ++ flat W ys := by
  simp [flat]

theorem flat_length (W : Nat) (xs : List (List Byte)) (h : ∀ x ∈ xs, x.length ≤ W) :
    (flat W xs).length = xs.length * W := by
  induction xs with
  | nil => simp [flat]
  | cons x xs ih =>
    rw [flat_cons, List.length_append, pad_length W x (h x (by simp)), ih (fun y hy => h y (by simp [hy])),
      List.length_cons, Nat.succ_mul, Nat.add_comm]

theorem flat_drop (W : Nat) (xs : List (List Byte)) (h : ∀ x ∈ xs, x.length ≤ W) (i : Nat) :
    (flat W xs).drop (i * W) = flat W (xs.drop i) := by
  induction xs generalizing i with
  | nil => simp [flat]
  | cons x xs ih =>
    cases i with
    | zero => simp
    | succ i =>
      have hl := pad_length W x (h x (by simp))
      rw [flat_cons, List.drop_succ_cons, ← ih (fun y hy => h y (by simp [hy])) i, List.drop_append, hl,
        List.drop_eq_nil_of_le (by rw [hl, Nat.succ_mul]; omega), List.nil_append]
      congr 1
      rw [Nat.succ_mul]; omega

theorem flat_take (W : Nat) (xs : List (List Byte)) (h : ∀ x ∈ xs, x.length ≤ W) (i : Nat) :
    (flat W xs).take (i * W) = flat W (xs.take i) := by
  induction xs generalizing i with
  | nil => simp [flat]
  | cons x xs ih =>
    cases i with
    | zero => simp [flat]
    | succ i =>
      have hl := pad_length W x (h x (by simp))
      rw [flat_cons, List.take_succ_cons, flat_cons, ← ih (fun y hy => h y (by simp [hy])) i, List.take_append, hl,
        List.take_of_length_le (by rw [hl, Nat.succ_mul]; omega)]
      congr 2
      rw [Nat.succ_mul]; omega

theorem flat_get (W F union : Nat) (xs : List (List Byte)) (behind : List Byte)
    (h : ∀ x ∈ xs, x.length = F) (hF : F ≤ W) (hu : F ≤ union) (i : Nat) (x : List Byte) (hx : xs[i]? = some x) :
    (((flat W xs ++ behind).drop (i * W)).take union).take F = x := by
  have hle : ∀ x ∈ xs, x.length ≤ W := fun x hx => by rw [h x hx]; exact hF
  have hi : i < xs.length := by
    have := List.getElem?_eq_some_iff.1 hx; exact this.1
  rw [List.drop_append, flat_drop W xs hle i, List.take_take, Nat.min_eq_left hu]
  have hd : xs.drop i = x :: xs.drop (i + 1) := by
    rw [List.drop_eq_getElem_cons hi]
    congr 1
    exact (List.getElem?_eq_some_iff.1 hx).2
  have hxl : x.length = F := h x (List.mem_of_getElem? hx)
  rw [hd, flat_cons, pad]
  simp only [List.append_assoc]
  rw [List.take_append_of_le_length (by omega), ← hxl, List.take_length]

theorem flat_store (W F : Nat) (xs : List (List Byte)) (h : ∀ x ∈ xs, x.length = F) (hF : F ≤ W) (i : Nat)
    (hi : i < xs.length) (x : List Byte) (hx : x.length = F) :
    store (flat W xs) (i * W) x = flat W (xs.set i x) := by
  have hle : ∀ x ∈ xs, x.length ≤ W := fun x hx => by rw [h x hx]; exact hF
  have hd : xs.drop i = xs[i] :: xs.drop (i + 1) := List.drop_eq_getElem_cons hi
  have hy : (xs[i]).length = F := h _ (List.getElem_mem hi)
  rw [store, flat_take W xs hle, ← List.drop_drop, flat_drop W xs hle, hd, flat_cons, pad]
  rw [List.append_assoc xs[i], List.drop_append_of_le_length (by omega), hx, ← hy, List.drop_length,
    List.nil_append]
  rw [List.set_eq_take_append_cons_drop, if_pos hi, flat_append, flat_cons, pad, hx, hy]
  simp

theorem flat_zeros (W F n : Nat) (hF : F ≤ W) : flat W (List.replicate n (zero F)) = List.replicate (n * W) 0 := by
  induction n with
  | zero => simp [flat]
  | succ n ih =>
    rw [List.replicate_succ, flat_cons, ih, pad, zero, List.length_replicate, List.replicate_append_replicate,
      List.replicate_append_replicate, Nat.succ_mul]
    congr 1; omega

theorem flat_inj (W F : Nat) (xs ys : List (List Byte)) (hx : ∀ x ∈ xs, x.length = F) (hy : ∀ y ∈ ys, y.length = F)
    (hl : xs.length = ys.length) (h : flat W xs = flat W ys) : xs = ys := by
  induction xs generalizing ys with
  | nil => exact (List.length_eq_zero_iff.1 hl.symm).symm
  | cons x xs ih =>
    cases ys with
    | nil => simp at hl
    | cons y ys =>
      rw [flat_cons, flat_cons, pad, pad, hx x (by simp), hy y (by simp), List.append_assoc, List.append_assoc] at h
      have h1 := List.append_inj h (by rw [hx x (by simp), hy y (by simp)])
      have h2 := List.append_inj h1.2 rfl
      rw [h1.1, ih ys (fun z hz => hx z (by simp [hz])) (fun z hz => hy z (by simp [hz])) (by simpa using hl) h2.2]

/-- The vector holds these numbers. -/
structure Canon (v : Vec) (k : Kind) (xs : List (List Byte)) : Prop where
  kind : v.kind = k
  bytes : v.bytes = flat (numBytes k) xs
  len : ∀ x ∈ xs, x.length = fieldBytes k

theorem Canon.le {v : Vec} {k : Kind} {xs : List (List Byte)} (h : Canon v k xs) :
    ∀ x ∈ xs, x.length ≤ numBytes k := fun x hx => by rw [h.len x hx]; exact field_le k

theorem Canon.length {v : Vec} {k : Kind} {xs : List (List Byte)} (h : Canon v k xs) :
    v.bytes.length = xs.length * numBytes k := by rw [h.bytes, flat_length _ _ h.le]

theorem Canon.size {v : Vec} {k : Kind} {xs : List (List Byte)} (h : Canon v k xs) (hk : k ≠ .undefined) :
    size v = .val xs.length := by
  have hp := numBytes_pos k hk
  rw [Typed.size, h.kind, if_neg (by omega), h.length, Nat.mul_div_cancel _ hp]

theorem Canon.get {v : Vec} {k : Kind} {xs : List (List Byte)} (h : Canon v k xs) (behind : List Byte) (union : Nat)
    (hu : fieldBytes k ≤ union) (i : Nat) (x : List Byte) (hx : xs[i]? = some x) : get v behind union i = x := by
  rw [Typed.get, getUnion, load, h.kind, h.bytes]
  exact flat_get _ _ _ _ _ h.len (field_le k) hu i x hx

theorem canon_empty (k : Kind) : Canon (empty k) k [] := ⟨rfl, rfl, fun _ h => nomatch h⟩

theorem Canon.clear {v : Vec} {k : Kind} {xs : List (List Byte)} (h : Canon v k xs) : Canon (clear v) k [] :=
  ⟨h.kind, rfl, fun _ h => nomatch h⟩

theorem Canon.set {v : Vec} {k : Kind} {xs : List (List Byte)} (h : Canon v k xs) (i : Nat) (hi : i < xs.length)
    (x : List Byte) (hx : x.length = fieldBytes k) :
    ∃ v', set v i k x = .val v' ∧ Canon v' k (xs.set i x) ∧ v'.cap = v.cap := by
  refine ⟨{ v with bytes := store v.bytes (i * numBytes v.kind) x }, ?_, ⟨h.kind, ?_, ?_⟩, rfl⟩
  · rw [Typed.set, if_neg (by rw [h.kind]; simp), if_pos]
    rw [h.length, h.kind]
    exact Nat.mul_le_mul_right _ hi
  · show store v.bytes (i * numBytes v.kind) x = _
    rw [h.kind, h.bytes]
    exact flat_store _ _ _ h.len (field_le k) i hi x hx
  · intro y hy
    rcases List.mem_or_eq_of_mem_set hy with hy | hy
    · exact h.len y hy
    · rw [hy, hx]

theorem Canon.resize {v : Vec} {k : Kind} {xs : List (List Byte)} (h : Canon v k xs) (n : Nat) :
    Canon (resize v n) k (xs.take n ++ List.replicate (n - xs.length) (zero (fieldBytes k))) := by
  refine ⟨h.kind, ?_, ?_⟩
  · show v.bytes.take (n * numBytes v.kind) ++ List.replicate (n * numBytes v.kind - v.bytes.length) 0 = _
    rw [flat_append, flat_zeros _ _ _ (field_le k), h.length, h.kind, ← flat_take _ _ h.le, h.bytes, Nat.sub_mul]
  · intro y hy
    rcases List.mem_append.1 hy with hy | hy
    · exact h.len y (List.mem_of_mem_take hy)
    · rw [(List.mem_replicate.1 hy).2]; simp [zero]

theorem grown (xs : List (List Byte)) (F m : Nat) :
    xs.take (xs.length + m) ++ List.replicate (xs.length + m - xs.length) (zero F) =
      xs ++ List.replicate m (zero F) := by
  rw [List.take_of_length_le (by omega), Nat.add_sub_cancel_left]

theorem Canon.grow {v : Vec} {k : Kind} {xs : List (List Byte)} (h : Canon v k xs) (m : Nat) :
    Canon (Typed.resize v (xs.length + m)) k (xs ++ List.replicate m (zero (fieldBytes k))) := by
  rw [← grown]; exact h.resize _

theorem set_last (xs : List (List Byte)) (z x : List Byte) : (xs ++ [z]).set xs.length x = xs ++ [x] := by
  rw [List.set_append]; simp

theorem Canon.setLast {v : Vec} {k : Kind} {xs : List (List Byte)} (h : Canon v k xs) (x : List Byte)
    (hx : x.length = fieldBytes k) :
    ∃ v', Typed.set (Typed.resize v (xs.length + 1)) xs.length k x = .val v' ∧ Canon v' k (xs ++ [x]) := by
  obtain ⟨v', h1, h2, _⟩ := (h.grow 1).set xs.length (by simp) x hx
  refine ⟨v', h1, ?_⟩
  rw [show List.replicate 1 (zero (fieldBytes k)) = [zero (fieldBytes k)] from rfl, set_last] at h2
  exact h2

theorem Canon.push {v : Vec} {k : Kind} {xs : List (List Byte)} (h : Canon v k xs) (hk : k ≠ .undefined)
    (x : List Byte) (hx : x.length = fieldBytes k) :
    ∃ v', push v k x = .val v' ∧ Canon v' k (xs ++ [x]) := by
  obtain ⟨v', h1, h2⟩ := h.setLast x hx
  refine ⟨v', ?_, h2⟩
  rw [Typed.push, if_neg (by rw [h.kind]; simp), h.size hk]
  exact h1

theorem Canon.pushVector {v w : Vec} {k : Kind} {xs ys : List (List Byte)} (h : Canon v k xs) (hw : Canon w k ys)
    (hk : k ≠ .undefined) : ∃ v', pushVector v w = .val v' ∧ Canon v' k (xs ++ ys) := by
  have hg := h.grow ys.length
  refine ⟨{ Typed.resize v (xs.length + ys.length) with
    bytes := store (Typed.resize v (xs.length + ys.length)).bytes (xs.length * numBytes v.kind)
      (w.bytes.take (numBytes v.kind * ys.length)) }, ?_, ⟨h.kind, ?_, ?_⟩⟩
  · rw [Typed.pushVector, if_neg (by rw [h.kind, hw.kind]; simp), h.size hk, hw.size hk]
    rfl
  · show store _ _ _ = _
    have hwb : w.bytes.take (numBytes v.kind * ys.length) = flat (numBytes k) ys := by
      rw [h.kind, List.take_of_length_le (by rw [hw.length, Nat.mul_comm]; exact Nat.le_refl _), hw.bytes]
    rw [hwb, hg.bytes, h.kind, store, flat_append, flat_append, List.take_append_of_le_length
      (by rw [flat_length _ _ h.le]; exact Nat.le_refl _), List.take_of_length_le
      (by rw [flat_length _ _ h.le]; exact Nat.le_refl _)]
    rw [List.drop_eq_nil_of_le, List.append_nil]
    rw [List.length_append, flat_length _ _ h.le, flat_length _ _ hw.le, flat_zeros _ _ _ (field_le k),
      List.length_replicate]
    exact Nat.le_refl _
  · intro y hy
    rcases List.mem_append.1 hy with hy | hy
    · exact h.len y hy
    · exact hw.len y hy

/-! ### Comparison of vectors -/

theorem lessLoop_spec (k : Kind) (xs ys : List (List Byte)) (x y : Nat → List Byte) (i : Nat) (tail : Bool)
    (hx : ∀ (j : Nat) (a : List Byte), xs[j]? = some a → x (i + j) = a)
    (hy : ∀ (j : Nat) (a : List Byte), ys[j]? = some a → y (i + j) = a)
    (ht : tail = decide (xs.length < ys.length)) :
    (lessLoop (gtRep k) (eqRep k) x y (min xs.length ys.length) i).getD tail = true ↔
      Before (xs.map (decode k)) (ys.map (decode k)) := by
  induction xs generalizing ys i with
  | nil =>
    cases ys with
    | nil => simp [lessLoop, Before, ht]
    | cons b ys => simp [lessLoop, Before, ht]
  | cons a xs ih =>
    cases ys with
    | nil => simp [lessLoop, Before, ht]
    | cons b ys =>
      have hxa : x i = a := hx 0 a rfl
      have hyb : y i = b := hy 0 b rfl
      have hm : min (a :: xs).length (b :: ys).length = min xs.length ys.length + 1 := by
        simp only [List.length_cons]; omega
      rw [hm, lessLoop, hxa, hyb, List.map_cons, List.map_cons, Before]
      have ih' := ih ys (i + 1)
        (fun j c hc => by rw [Nat.add_assoc, Nat.add_comm 1 j]; exact hx (j + 1) c hc)
        (fun j c hc => by rw [Nat.add_assoc, Nat.add_comm 1 j]; exact hy (j + 1) c hc)
        (by rw [ht]; simp)
      by_cases h1 : decode k a < decode k b
      · rw [if_pos (by simp [lt, ge, gtRep, eqRep, gtVal, eqVal]; omega)]
        simp [h1]
      · by_cases h2 : decode k a = decode k b
        · rw [if_neg (by simp [lt, ge, gtRep, eqRep, gtVal, eqVal]; omega),
            if_neg (by simp [gtRep, gtVal]; omega), ih']
          simp [h2]
        · rw [if_neg (by simp [lt, ge, gtRep, eqRep, gtVal, eqVal]; omega),
            if_pos (by simp [gtRep, gtVal]; omega)]
          simp [h1, h2]

theorem Before.irrefl (a : List Int) : ¬ Before a a := by
  induction a with
  | nil => simp [Before]
  | cons x xs ih => simp [Before, ih]

theorem Before.trans {a b c : List Int} (h1 : Before a b) (h2 : Before b c) : Before a c := by
  induction a generalizing b c with
  | nil => cases b <;> cases c <;> simp_all [Before]
  | cons x xs ih =>
    cases b with
    | nil => simp [Before] at h1
    | cons y ys =>
      cases c with
      | nil => simp [Before] at h2
      | cons z zs =>
        rw [Before] at h1 h2 ⊢
        rcases h1 with h1 | ⟨h1, h1'⟩ <;> rcases h2 with h2 | ⟨h2, h2'⟩
        · left; omega
        · left; omega
        · left; omega
        · right; exact ⟨by omega, ih h1' h2'⟩

theorem Before.total (a b : List Int) : Before a b ∨ a = b ∨ Before b a := by
  induction a generalizing b with
  | nil => cases b <;> simp [Before]
  | cons x xs ih =>
    cases b with
    | nil => simp [Before]
    | cons y ys =>
      rw [Before, Before]
      rcases ih ys with h | h | h
      · by_cases hxy : x = y
        · exact Or.inl (Or.inr ⟨hxy, h⟩)
        · rcases Int.lt_or_gt_of_ne hxy with h | h
          · exact Or.inl (Or.inl h)
          · exact Or.inr (Or.inr (Or.inl h))
      · by_cases hxy : x = y
        · exact Or.inr (Or.inl (by rw [hxy, h]))
        · rcases Int.lt_or_gt_of_ne hxy with h | h
          · exact Or.inl (Or.inl h)
          · exact Or.inr (Or.inr (Or.inl h))
      · by_cases hxy : x = y
        · exact Or.inr (Or.inr (Or.inr ⟨hxy.symm, h⟩))
        · rcases Int.lt_or_gt_of_ne hxy with h | h
          · exact Or.inl (Or.inl h)
          · exact Or.inr (Or.inr (Or.inl h))

/-! ### Iteration -/

theorem walk_spec {v : Vec} {k : Kind} {xs : List (List Byte)} (h : Canon v k xs) (hk : k ≠ .undefined)
    (behind : List Byte) (union : Nat) (hu : fieldBytes k ≤ union) (fuel i : Nat) (hi : i ≤ xs.length)
    (hf : xs.length - i < fuel) : walk v behind union fuel (i * numBytes k) = xs.drop i := by
  have hp := numBytes_pos k hk
  induction fuel generalizing i with
  | zero => omega
  | succ fuel ih =>
    rw [walk, h.length, h.kind, Nat.mul_div_cancel _ hp]
    by_cases he : i = xs.length
    · rw [if_pos (by rw [he]), he, List.drop_length]
    · have hlt : i < xs.length := by omega
      rw [if_neg (fun hc => he (Nat.eq_of_mul_eq_mul_right hp hc))]
      have hg := h.get behind union hu i xs[i] (List.getElem?_eq_getElem hlt)
      rw [Typed.get, getUnion, h.kind] at hg
      rw [hg, List.drop_eq_getElem_cons hlt, Nat.one_mul, ← Nat.succ_mul, ih (i + 1) hlt (by omega)]

end Verif.Typed
