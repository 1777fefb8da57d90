/-! Statistics of measurements, as their definitions say. Times are integers (of any unit). -/
namespace Verif.Timing

/-- A list in ascending order with the elements of another one. -/
def SortedOf (l s : List Int) : Prop := s.Perm l ∧ s.Pairwise (· ≤ ·)

/-- `kept` is what remains of measurements when a tenth of them, rounded down, is removed at either end: the fastest and the slowest. -/
def Kept (l kept : List Int) : Prop := ∃ low high, (low ++ kept ++ high).Perm l ∧ low.length = l.length / 10 ∧ high.length = l.length / 10
  ∧ (∀ a ∈ low, ∀ b ∈ kept, a ≤ b) ∧ (∀ a ∈ kept, ∀ b ∈ high, a ≤ b)

/-- `m` is twice the median: an element in the middle, or the sum of both elements in the middle. -/
def TwiceMedian (l : List Int) (m : Int) : Prop := ∃ s, SortedOf l s ∧
  ((∃ a x b, s = a ++ x :: b ∧ a.length = b.length ∧ m = 2 * x) ∨ (∃ a x y b, s = a ++ x :: y :: b ∧ a.length = b.length ∧ m = x + y))

/-- The sum of measurements. -/
def total : List Int → Int
  | [] => 0
  | x :: l => x + total l

/-- The squares of the differences from the mean, added; times the square of the number of measurements. The variance is this divided by the cube of
the number. -/
def deviation (l : List Int) : Int := total (l.map fun x => (l.length * x - total l) * (l.length * x - total l))

/-- The number `t` is computed by `(int)(n * 0.1)`: the double nearest to 0.1 is 3602879701896397 / 2^55; the product, in units of 2^-108, is any number whose
relative error is at most 2^-53 and that is not below an integer that the product is not below (rounding does not cross integers). -/
def Tenth (n t : Nat) : Prop := ∃ y : Nat, y * 2 ^ 53 ≤ n * 3602879701896397 * 2 ^ 53 * (2 ^ 53 + 1) ∧ n * 3602879701896397 * 2 ^ 53 * (2 ^ 53 - 1) ≤ y * 2 ^ 53
  ∧ (∀ k : Nat, k * 2 ^ 108 ≤ n * 3602879701896397 * 2 ^ 53 → k * 2 ^ 108 ≤ y) ∧ t = y / 2 ^ 108

end Verif.Timing
