/-! Decimal notation of natural numbers, as `std::ostream << n` prints it and `strtol` / `stoi` reads it. -/
namespace Verif

/-- The decimal digit characters. -/
def digitChar (d : Nat) : Char := Char.ofNat (48 + d)

def isDigit (c : Char) : Bool := 48 ≤ c.toNat && c.toNat ≤ 57

/-- Decimal digits of `n`, most significant first. -/
def dec (n : Nat) : List Char :=
  if n < 10 then [digitChar n] else dec (n / 10) ++ [digitChar (n % 10)]
termination_by n
decreasing_by omega

/-- Value of a digit string. -/
def decVal (cs : List Char) : Nat := cs.foldl (fun acc c => acc * 10 + (c.toNat - 48)) 0

theorem digitChar_toNat {d : Nat} (h : d < 10) : (digitChar d).toNat = 48 + d := by
  have : ∀ d : Fin 10, (digitChar d.val).toNat = 48 + d.val := by decide
  exact this ⟨d, h⟩

theorem isDigit_digitChar {d : Nat} (h : d < 10) : isDigit (digitChar d) = true := by
  unfold isDigit
  rw [digitChar_toNat h]
  simp; omega

theorem dec_digits : ∀ n, ∀ c ∈ dec n, isDigit c = true := by
  intro n
  induction n using Nat.strongRecOn with
  | ind n ih =>
    intro c hc
    rw [dec] at hc
    split at hc
    · rename_i h
      rw [List.mem_singleton] at hc
      rw [hc]; exact isDigit_digitChar h
    · rename_i h
      rw [List.mem_append, List.mem_singleton] at hc
      rcases hc with hc | hc
      · exact ih (n / 10) (by omega) c hc
      · rw [hc]; exact isDigit_digitChar (by omega)

theorem dec_ne_nil (n : Nat) : dec n ≠ [] := by
  rw [dec]; split <;> simp

theorem decVal_dec : ∀ n, decVal (dec n) = n := by
  intro n
  induction n using Nat.strongRecOn with
  | ind n ih =>
    rw [dec]
    split
    · rename_i h
      show 0 * 10 + ((digitChar n).toNat - 48) = n
      rw [digitChar_toNat h]; omega
    · rename_i h
      unfold decVal
      rw [List.foldl_append]
      have := ih (n / 10) (by omega)
      unfold decVal at this
      rw [this]
      show n / 10 * 10 + ((digitChar (n % 10)).toNat - 48) = n
      rw [digitChar_toNat (by omega)]; omega

theorem dec_injective {m n : Nat} (h : dec m = dec n) : m = n := by
  rw [← decVal_dec m, h, decVal_dec]

end Verif
