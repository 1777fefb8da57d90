import Verif.PyHash.Spec
/-! C101: hashes of formats in the Python bindings, over the model of formats in `Verif.Format`. `none` is an execution
that C++ leaves undefined. `size_t` has 64 bits. -/
namespace Verif.PyHash
open Verif.Format

/-- `orInBit`, pyFormat.cpp 8-10, under a condition. -/
def orIn (h : UInt64) (k : UInt64) (b : Bool) : UInt64 := if b then h ||| ((1 : UInt64) <<< k) else h

/-- The bits of `hashModeFormat`, pyFormat.cpp 14-25; the properties of a mode format and its abilities to iterate by
position, by value, to locate, insert and append. Bit 10 is `defined`. -/
def bits (m : Impl) : UInt64 :=
  let has := fun i => m.capabilities.getD i false
  orIn (orIn (orIn (orIn (orIn (orIn (orIn (orIn (orIn (orIn (orIn 0 0 m.isFull) 1 m.isOrdered) 2 m.isUnique)
    3 m.isBranchless) 4 m.isCompact) 5 (has 1)) 6 (has 0)) 7 (has 2)) 8 (has 3)) 9 (has 4)) 10 true

/-- `hashModeFormat`, pyFormat.cpp 13-29; `str` is `std::hash<std::string>`. Undefined mode formats are dereferenced. -/
def hashMode (str : String → UInt64) : Option Impl → Option UInt64
  | none => none
  | some m => some (bits m + str m.kind.name)

/-- The loop of `hashModeFormatPack`, pyFormat.cpp 35-37, from index `i`. -/
def packSum (str : String → UInt64) (i : Nat) : List (Option Impl) → Option UInt64
  | [] => some 0
  | m :: ms =>
    match hashMode str m, packSum str (i + 1) ms with
    | some h, some s => some (UInt64.ofNat (i + 1) * h + s)
    | _, _ => none

/-- `hashModeFormatPack`, pyFormat.cpp 31-40. -/
def hashPack (str : String → UInt64) (p : Pack) : Option UInt64 :=
  (packSum str 0 p.modes).map (· + 7 * UInt64.ofNat p.modes.length)

/-- The body of the loop of `hashFormat`, pyFormat.cpp 49. -/
def addPack (o : Int) : Option UInt64 → Option UInt64 → Option UInt64
  | some h, some s => some (h * UInt64.ofInt (o + 1) + s)
  | _, _ => none

/-- The loop of `hashFormat`, pyFormat.cpp 48-50: over the modes, but indexing the packs. Reading behind the packs and
adding one to the largest `int` are undefined. -/
def formatSum (str : String → UInt64) (packs : List Pack) (i : Nat) : List Int → Option UInt64
  | [] => some 0
  | o :: os =>
    match packs[i]? with
    | none => none
    | some p =>
      if o < 2147483647 then
        addPack o (hashPack str p) (formatSum str packs (i + 1) os)
      else none

/-- `hashFormat`, pyFormat.cpp 42-53, `__hash__` of formats (263-265). -/
def hashFormat (str : String → UInt64) (f : Fmt) : Option UInt64 :=
  (formatSum str f.packs 0 f.ordering).map (· + 11 * UInt64.ofNat f.ordering.length)

/-- An entry of a dictionary of Python: the hash is kept beside key and value. -/
structure Entry (α : Type) where
  hash : UInt64
  key : Fmt
  value : α

/-- Python's `d[k] = v`: the entry whose hash is the same and whose key equals `k` (pyFormat.cpp 255-257, `__eq__`) gets
the value, otherwise there is a new entry. -/
def store {α : Type} (h : UInt64) (k : Fmt) (v : α) : List (Entry α) → List (Entry α)
  | [] => [⟨h, k, v⟩]
  | e :: es => if e.hash = h ∧ e.key.eq k = true then { e with value := v } :: es else e :: store h k v es

/-- Python's `d.get(k)`. -/
def fetch {α : Type} (h : UInt64) (k : Fmt) : List (Entry α) → Option α
  | [] => none
  | e :: es => if e.hash = h ∧ e.key.eq k = true then some e.value else fetch h k es

/-- A history of assignments; `none` if a hash is undefined. -/
def build {α : Type} (str : String → UInt64) (d : List (Entry α)) : History α → Option (List (Entry α))
  | [] => some d
  | (k, v) :: rest =>
    match hashFormat str k with
    | none => none
    | some h => build str (store h k v d) rest

end Verif.PyHash
