/-!
Mode formats, formats, their constructors, property variants and comparison (`src/format.cpp`,
`include/taco/format.h`, `src/lower/mode_format_impl.cpp` and the three mode formats of the library,
`src/lower/mode_format_{dense,compressed,singleton}.cpp`).

`Option` is a mode format that may be undefined where it models `ModeFormat`, and a failed assertion
or undefined behaviour (`none`) where it is the result of a function.  User-defined mode formats are
not modelled.
-/
namespace Verif.Format

/-- The dynamic type of a `ModeFormatImpl`. -/
inductive Kind | dense | compressed | singleton
  deriving DecidableEq, Repr

/-- `ModeFormat::Property`, format.h 105-109. -/
inductive Prop' | full | notFull | ordered | notOrdered | unique | notUnique | branchless | notBranchless
  | compact | notCompact | zeroless | notZeroless | padded | notPadded
  deriving DecidableEq, Repr

/-- The configurable part of a `ModeFormatImpl`, mode_format_impl.h 225-262: the flags that differ
between objects of one kind. `allocSize` is a member of compressed and singleton formats. -/
structure Impl where
  kind : Kind
  isFull : Bool
  isOrdered : Bool
  isUnique : Bool
  isZeroless : Bool
  isPadded : Bool
  allocSize : Int
  deriving DecidableEq, Repr

/-- `DEFAULT_ALLOC_SIZE`, mode_format_impl.h 267. -/
def defaultAlloc : Int := 1048576

/-- `DenseModeFormat::DenseModeFormat`, mode_format_dense.cpp 8-16: always full and padded. Dense
formats have no `allocSize`; it is zero here. -/
def mkDense (isOrdered isUnique isZeroless : Bool) : Impl :=
  ⟨.dense, true, isOrdered, isUnique, isZeroless, true, 0⟩

/-- `CompressedModeFormat::CompressedModeFormat`, mode_format_compressed.cpp 16-23: never padded. -/
def mkCompressed (isFull isOrdered isUnique isZeroless : Bool) (allocSize : Int) : Impl :=
  ⟨.compressed, isFull, isOrdered, isUnique, isZeroless, false, allocSize⟩

/-- `SingletonModeFormat::SingletonModeFormat`, mode_format_singleton.cpp 16-23. -/
def mkSingleton (isFull isOrdered isUnique isZeroless isPadded : Bool) (allocSize : Int) : Impl :=
  ⟨.singleton, isFull, isOrdered, isUnique, isZeroless, isPadded, allocSize⟩

/-- What the three constructors can make. -/
inductive Made : Impl → Prop
  | dense (o u z) : Made (mkDense o u z)
  | compressed (f o u z a) : Made (mkCompressed f o u z a)
  | singleton (f o u z p a) : Made (mkSingleton f o u z p a)

/-- `isBranchless`, set by the constructors (mode_format_dense.cpp 14, mode_format_compressed.cpp 19,
mode_format_singleton.cpp 19). -/
def Impl.isBranchless (m : Impl) : Bool :=
  match m.kind with | .singleton => true | _ => false

/-- `isCompact`, true in all three constructors. -/
def Impl.isCompact (_ : Impl) : Bool := true

/-- The capabilities, set by the constructors: coordinate value iteration, position iteration, locate,
insert, append, `hasSeqInsertEdge`, `hasInsertCoord`, `isYieldPosPure`. -/
def Impl.capabilities (m : Impl) : List Bool :=
  match m.kind with
  | .dense => [false, false, true, true, false, false, false, true]
  | .compressed => [false, true, false, false, true, true, true, false]
  | .singleton => [false, true, false, false, true, false, true, true]

/-- `ModeFormat::getName`, format.cpp 152-154. -/
def Kind.name : Kind → String
  | .dense => "dense"
  | .compressed => "compressed"
  | .singleton => "singleton"

/-- One iteration of the `switch` in `DenseModeFormat::copy`, mode_format_dense.cpp 24-45. -/
def setDense (m : Impl) : Prop' → Impl
  | .ordered => { m with isOrdered := true }
  | .notOrdered => { m with isOrdered := false }
  | .unique => { m with isUnique := true }
  | .notUnique => { m with isUnique := false }
  | .zeroless => { m with isZeroless := true }
  | .notZeroless => { m with isZeroless := false }
  | _ => m

/-- The same in `CompressedModeFormat::copy`, mode_format_compressed.cpp 32-60. -/
def setCompressed (m : Impl) : Prop' → Impl
  | .full => { m with isFull := true }
  | .notFull => { m with isFull := false }
  | .ordered => { m with isOrdered := true }
  | .notOrdered => { m with isOrdered := false }
  | .unique => { m with isUnique := true }
  | .notUnique => { m with isUnique := false }
  | .zeroless => { m with isZeroless := true }
  | .notZeroless => { m with isZeroless := false }
  | _ => m

/-- The same in `SingletonModeFormat::copy`, mode_format_singleton.cpp 32-66. -/
def setSingleton (m : Impl) : Prop' → Impl
  | .full => { m with isFull := true }
  | .notFull => { m with isFull := false }
  | .ordered => { m with isOrdered := true }
  | .notOrdered => { m with isOrdered := false }
  | .unique => { m with isUnique := true }
  | .notUnique => { m with isUnique := false }
  | .zeroless => { m with isZeroless := true }
  | .notZeroless => { m with isZeroless := false }
  | .padded => { m with isPadded := true }
  | .notPadded => { m with isPadded := false }
  | _ => m

/-- `ModeFormatImpl::copy`: the properties in order, then a new object by the constructor, whose
`allocSize` is the default (mode_format_dense.cpp 46-48, mode_format_compressed.cpp 61-65,
mode_format_singleton.cpp 67-70). -/
def Impl.copy (m : Impl) (ps : List Prop') : Impl :=
  match m.kind with
  | .dense => let r := ps.foldl setDense m; mkDense r.isOrdered r.isUnique r.isZeroless
  | .compressed =>
    let r := ps.foldl setCompressed m; mkCompressed r.isFull r.isOrdered r.isUnique r.isZeroless defaultAlloc
  | .singleton =>
    let r := ps.foldl setSingleton m
    mkSingleton r.isFull r.isOrdered r.isUnique r.isZeroless r.isPadded defaultAlloc

/-- `ModeFormat::operator()`, format.cpp 143-150. -/
def variant (m : Option Impl) (ps : List Prop') : Option Impl := m.map (Impl.copy · ps)

/-- One iteration of `ModeFormat::hasProperties`, format.cpp 156-233: properties without a case
(none in the enumeration but `BRANCHLESS`, ... all have one) are tested against the flag. -/
def Impl.has (m : Impl) : Prop' → Bool
  | .full => m.isFull
  | .ordered => m.isOrdered
  | .unique => m.isUnique
  | .branchless => m.isBranchless
  | .compact => m.isCompact
  | .zeroless => m.isZeroless
  | .padded => m.isPadded
  | .notFull => !m.isFull
  | .notOrdered => !m.isOrdered
  | .notUnique => !m.isUnique
  | .notBranchless => !m.isBranchless
  | .notCompact => !m.isCompact
  | .notZeroless => !m.isZeroless
  | .notPadded => !m.isPadded

/-- `ModeFormat::hasProperties`, format.cpp 156-233; an undefined mode format fails the assertion in
the accessors when there is a property to test. -/
def hasProperties (m : Option Impl) (ps : List Prop') : Option Bool :=
  match m, ps with
  | _, [] => some true
  | none, _ => none
  | some m, ps => some (ps.all m.has)

/-- `ModeFormatImpl::equals`, mode_format_impl.cpp 296-303. -/
def baseEquals (a b : Impl) : Bool :=
  a.isFull == b.isFull && a.isOrdered == b.isOrdered && a.isUnique == b.isUnique &&
  a.isBranchless == b.isBranchless && a.isCompact == b.isCompact && a.isZeroless == b.isZeroless

/-- The virtual `equals`: mode_format_compressed.cpp 318-321, mode_format_singleton.cpp 179-182; dense
formats do not override it. -/
def Impl.equals (a b : Impl) : Bool :=
  match a.kind with
  | .dense => baseEquals a b
  | _ => baseEquals a b && b.allocSize == a.allocSize

/-- `operator==(ModeFormatImpl, ModeFormatImpl)`, mode_format_impl.cpp 305-307. -/
def Impl.eq (a b : Impl) : Bool := decide (a.kind = b.kind) && a.equals b

/-- `operator==(ModeFormat, ModeFormat)`, format.cpp 318-320. -/
def modeEq : Option Impl → Option Impl → Bool
  | some a, some b => a.eq b
  | _, _ => false

/-- A `ModeFormatPack`, format.h 171-184; its constructors assert that the mode formats are defined
(format.cpp 333-351). -/
structure Pack where
  modes : List (Option Impl)
  deriving DecidableEq

def mkPack (ms : List (Option Impl)) : Option Pack :=
  if ms.all Option.isSome then some ⟨ms⟩ else none

/-- `operator==(ModeFormatPack, ModeFormatPack)`, format.cpp 357-370. -/
def Pack.eq (a b : Pack) : Bool :=
  decide (a.modes.length = b.modes.length) && (a.modes.zip b.modes).all (fun p => modeEq p.1 p.2)

/-- A `Format`, format.h 71-75. Data types are numbers. -/
structure Fmt where
  packs : List Pack
  ordering : List Int
  levelTypes : List (List Nat)
  deriving DecidableEq

/-- `Format::getModeFormats`, format.cpp 59-67. -/
def Fmt.modes (f : Fmt) : List (Option Impl) := f.packs.flatMap Pack.modes

/-- `Format::getOrder`, format.cpp 55-57. The assertion that the order is at most `INT_MAX` is left
out. -/
def Fmt.order (f : Fmt) : Nat := f.modes.length

/-- `Format::Format(modeFormatPacks)`, format.cpp 27-45: modes are stored in order. -/
def mkFmt (packs : List Pack) : Fmt :=
  ⟨packs, (List.range (packs.flatMap Pack.modes).length).map (fun (i : Nat) => (i : Int)), []⟩

/-- `Format::Format(modeFormatPacks, modeOrdering)`, format.cpp 47-53: only the number of modes is
checked. -/
def mkFmtOrdered (packs : List Pack) (ordering : List Int) : Option Fmt :=
  if (packs.flatMap Pack.modes).length = ordering.length then some ⟨packs, ordering, []⟩ else none

/-- `Format::setLevelArrayTypes`, format.cpp 98-100. -/
def Fmt.setTypes (f : Fmt) (ts : List (List Nat)) : Fmt := { f with levelTypes := ts }

/-- `operator==(Format, Format)`, format.cpp 103-125. -/
def Fmt.eq (a b : Fmt) : Bool :=
  decide (a.packs.length = b.packs.length) && decide (a.ordering.length = b.ordering.length) &&
  (a.ordering.zip b.ordering).all (fun p => p.1 == p.2) &&
  (a.packs.zip b.packs).all (fun p => p.1.eq p.2)

/-- The number that stands for `Int32` in level types. -/
def int32 : Nat := 3

/-- `Format::getCoordinateTypePos`, format.cpp 81-86; an access outside a vector is `none`. -/
def Fmt.posType (f : Fmt) (level : Nat) : Option Nat :=
  match f.levelTypes[level]? with
  | none => some int32
  | some ts => ts[0]?

/-- `Format::getCoordinateTypeIdx`, format.cpp 88-96. -/
def Fmt.idxType (f : Fmt) (level : Nat) : Option Nat :=
  match f.levelTypes[level]? with
  | none => some int32
  | some ts =>
    match f.modes[level]? with
    | some (some m) => if m.kind.name = Kind.dense.name then ts[0]? else ts[1]?
    | some none => ts[1]?
    | none => none

/-- `initFormat`, tensor.cpp 87-110: level types are filled in when there are fewer than modes. -/
def initFormat (f : Fmt) : Fmt :=
  if f.levelTypes.length < f.order then
    f.setTypes (f.modes.map (fun m => match m with
      | some m => if m.kind = .dense then [int32] else [int32, int32]
      | none => []))
  else f

/-- The predefined mode formats, format.cpp 378-396. -/
def Dense : Option Impl := some (mkDense true true false)
def Compressed : Option Impl := some (mkCompressed false true true false defaultAlloc)
def Singleton : Option Impl := some (mkSingleton false true true false false defaultAlloc)

/-- `CSR` and `CSC`, format.cpp 398-399. -/
def CSR : Fmt := ⟨[⟨[Dense]⟩, ⟨[Compressed]⟩], [0, 1], []⟩
def CSC : Fmt := ⟨[⟨[Dense]⟩, ⟨[Compressed]⟩], [1, 0], []⟩

/-- `COO`, format.cpp 403-427; `none` is a failed assertion. The empty list is the default ordering. -/
def COO (order : Nat) (isUnique isOrdered : Bool) (ordering : List Int) : Option Fmt :=
  if order = 0 then none
  else if ¬ (ordering = [] ∨ ordering.length = order) then none
  else
    let o := if isOrdered then Prop'.ordered else Prop'.notOrdered
    let first := variant Compressed [o, if order = 1 && isUnique then .unique else .notUnique]
    let rest :=
      if order > 1 then
        List.replicate (order - 2) (variant Singleton [o, .notUnique]) ++
          [variant Singleton [o, if isUnique then .unique else .notUnique]]
      else []
    let packs := (first :: rest).map (fun m => (⟨[m]⟩ : Pack))
    if ordering = [] then some (mkFmt packs) else mkFmtOrdered packs ordering

/-- `isDense`, format.cpp 429-436. -/
def isDense (f : Fmt) : Bool := f.modes.all (fun m => modeEq m Dense)

/-- Does the assembly of a singleton level clear the coordinates it allocates? `getInitCoords`,
mode_format_singleton.cpp 139-143. -/
def Impl.clearsCoords (m : Impl) : Bool :=
  match m.kind with | .singleton => m.isPadded | _ => false

end Verif.Format
