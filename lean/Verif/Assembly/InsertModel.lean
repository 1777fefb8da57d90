import Verif.Assembly.Model
/-!
Two-phase (ungrouped insert) assembly of a compressed level below dense levels: `lowerAssemble`
(src/lower/lowerer_impl_imperative.cpp 2617-2775), `lowerAssignment` 497-524, with the level functions of
src/lower/mode_format_compressed.cpp: `getSeqInitEdges` 217-222, `getSeqInsertEdge` 224-232,
`getInitCoords` 234-239, `getYieldPos` 245-253, `getInsertCoord` 255-261, `getFinalizeYieldPos` 263-271.

Simplifications
* The result has dense levels `dims` above one compressed level: `SetAssembleStrategy`
  (src/index_notation/transformations.cpp 1139-1180) admits one level with edges, no level with coordinates
  above it, and only branchless levels below. Branchless (singleton) levels below are left out; they store
  one more coordinate at the same position.
* The kernel of the computation is the list of components it stores, in the order it stores them. The kernel
  of the query visits the same components (transformations.cpp 1182-1420 rewrites the same statement); the
  kernel of the query itself is the subject of `Verif/Query`.
* Memory as in `Verif/Assembly/Model.lean`: `none` is a write outside an array or a read of an unwritten slot.
-/
namespace Verif.Assembly

variable {V : Type}

/-- A computed component: coordinates of the dense levels, coordinate of the compressed level, value. -/
structure Cell (V : Type) where
  coords : List Nat
  crd : Nat
  val : V

/-- A computed component: position of its parent, coordinate and value. -/
structure Comp (V : Type) where
  parent : Nat
  crd : Nat
  val : V

/-- Dense `locate` along the levels, src/lower/mode_format_dense.cpp 50-55. -/
def locate : List Nat → Nat → List Nat → Nat
  | d :: ds, p, i :: is => locate ds (p * d + i) is
  | _, p, _ => p

/-- The result of the attribute query for position `p` (mode_format_compressed.cpp 68-79 and
transformations.cpp 1322-1338): every component sets the flag of its coordinate, then the flags are
counted over the whole dimension `m`. -/
def nnzQuery (m : Nat) (comps : List (Comp V)) (p : Nat) : Nat :=
  ((List.range m).filter (fun i => comps.any fun c => c.parent == p && c.crd == i)).length

/-- `getSeqInsertEdge`: `pos[p+1] = pos[p] + nnz[p]`. -/
def insertEdge (nnz : Nat → Nat) (pos : Arr Nat) (p : Nat) : Option (Arr Nat) :=
  (read pos p).bind fun a => write pos (p + 1) (a + nnz p)

/-- The loops over the dense levels around `getSeqInsertEdge`, lowerer 2699-2717. -/
def insertEdges (nnz : Nat → Nat) : List Nat → Nat → Arr Nat → Option (Arr Nat)
  | [], p, pos => insertEdge nnz pos p
  | d :: ds, p, pos => (List.range d).foldlM (fun pos i => insertEdges nnz ds (p * d + i) pos) pos

/-- `getAssembledSize` of the dense levels: the product of the dimensions. -/
def sizeOf : List Nat → Nat → Nat
  | [], s => s
  | d :: ds, s => sizeOf ds (s * d)

/-- The arrays during insertion. -/
structure InsSt (V : Type) where
  pos : Arr Nat
  crd : Arr Nat
  vals : Arr V

/-- `getYieldPos`, `getInsertCoord` and the store of the value, lowerer 505-524. -/
def insertComp (s : InsSt V) (c : Comp V) : Option (InsSt V) :=
  (read s.pos c.parent).bind fun q =>
    (write s.pos c.parent (q + 1)).bind fun pos =>
      (write s.crd q c.crd).bind fun crd => (write s.vals q c.val).map fun vals => ⟨pos, crd, vals⟩

/-- The loop of `getFinalizeYieldPos`: `pos[n-p] = pos[n-p-1]` for the last `k` values of `p`. -/
def shiftPos (n : Nat) : Nat → Arr Nat → Option (Arr Nat)
  | 0, pos => some pos
  | k + 1, pos => (read pos k).bind fun a => (write pos (k + 1) a).bind (shiftPos n k)

/-- `getFinalizeYieldPos`. -/
def finalizeYieldPos (n : Nat) (pos : Arr Nat) : Option (Arr Nat) :=
  (shiftPos n n pos).bind fun pos => write pos 0 0

/-- The code after the query, for query results `nnz` and components that arrive in the given order. -/
def insertRunWith (dims : List Nat) (nnz : Nat → Nat) (cells : List (Cell V)) : Option (InsSt V) :=
  let n := sizeOf dims 1
  let comps := cells.map fun c => Comp.mk (locate dims 0 c.coords) c.crd c.val
  (write (List.replicate (n + 1) none) 0 0).bind fun pos0 =>
    (insertEdges nnz dims 0 pos0).bind fun pos =>
      (read pos n).bind fun size =>
        (comps.foldlM insertComp ⟨pos, List.replicate size none, List.replicate size none⟩).bind fun s =>
          (finalizeYieldPos n s.pos).map fun pos => { s with pos := pos }

/-- A whole kernel for components that arrive in the given order. -/
def insertRun (dims : List Nat) (m : Nat) (cells : List (Cell V)) : Option (InsSt V) :=
  insertRunWith dims (nnzQuery m (cells.map fun c => Comp.mk (locate dims 0 c.coords) c.crd c.val)) cells

/-- The finished arrays, all of whose slots must have been written. -/
def insertOutput (s : InsSt V) : Option (List Nat × List Nat × List V) :=
  (s.pos.mapM id).bind fun pos => (s.crd.mapM id).bind fun crd => (s.vals.mapM id).map fun vals => (pos, crd, vals)

end Verif.Assembly
