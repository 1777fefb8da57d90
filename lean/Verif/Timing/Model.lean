import Verif.Timing.Spec
/-! Timers and benchmarks: include/taco/util/timers.h 35-80 and 152-163, tools/taco.cpp 40-48 and 1202-1210. Arithmetic of doubles is exact here; times are
integers of any unit. -/
namespace Verif.Timing

/-- `std::sort` of `times`, timers.h 58. -/
def insert (x : Int) : List Int → List Int
  | [] => [x]
  | y :: l => if x ≤ y then x :: y :: l else y :: insert x l
def sort : List Int → List Int
  | [] => []
  | x :: l => insert x (sort l)

/-- `TimeResults`, timers.h 17-21, without divisions: the mean is `sum / size`, the standard deviation the root of `squares / size^3`, the median half of
`median2`. -/
structure Results where
  size : Nat
  sum : Int
  squares : Int
  median2 : Int
  deriving DecidableEq

/-- The iterators `times.begin() + truncate` to `times.end() - truncate`, timers.h 61. -/
def middle (s : List Int) (t : Nat) : List Int := (s.take (s.length - t)).drop t

/-- The sum of the squares of the differences from the mean, timers.h 67-71, times `size^2`. -/
def squares (size : Nat) (sum : Int) : List Int → Int
  | [] => 0
  | x :: l => (size * x - sum) * (size * x - sum) + squares size sum l

/-- The median, timers.h 73-75; `none` is reading outside of the vector. -/
def median2 (s : List Int) (size : Nat) : Option Int :=
  if size % 2 = 1 then s[size / 2]?.map (2 * ·)
  else if size = 0 then none
  else
    match s[size / 2 - 1]?, s[size / 2]? with
    | some x, some y => some (x + y)
    | _, _ => none

/-- `getResult`, timers.h 52-77, where `t` is `truncate`. -/
def getResult (t : Nat) (times : List Int) : Option Results :=
  let s := sort times
  let size := times.length - 2 * t
  let sum := (middle s t).foldl (· + ·) 0
  (median2 s size).map fun m => ⟨size, sum, squares size sum (middle s t), m⟩

/-- `TensorBase::compute`, tensor.cpp 828-850: nothing is done if the values are there; `c` is the time of the kernel, `e` that of an empty call. -/
def compute (c e : Int) (needsCompute : Bool) : Bool × Int := if needsCompute then (false, c) else (false, e)

/-- `TACO_TIME_REPEAT`, timers.h 152-163, of `tensor.compute()`, taco.cpp 1205-1210: the measurements. -/
def measure (c e : Int) : Bool → Nat → List Int
  | _, 0 => []
  | b, n + 1 => (compute c e b).2 :: measure c e (compute c e b).1 n

end Verif.Timing
