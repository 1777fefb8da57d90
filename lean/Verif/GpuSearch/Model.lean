import Verif.Fused.Model
/-!
Loops over fused positions on a GPU: how a thread finds the rows its first position belongs to.

* `taco_binarySearchBeforeBlock(Launch)` and `taco_binarySearchIndirectBeforeBlock(Launch)`,
  src/codegen/codegen_cuda.cpp 110-141, run on the device before the kernel and write, for every block
  and one more, where the rows of the block start;
* the branch of `searchForFusedPositionStart` for GPU blocks,
  src/lower/lowerer_impl_imperative.cpp 1032-1129 and 1167-1184: a thread searches between the starts of
  its block and of the next one.

The search itself is the text of the C backend (codegen_cuda.cpp 89-109, `Verif.Search.binarySearchBefore`).
The loop of a thread is that of `Verif.Fused`.

Simplifications: one tensor whose levels are fused in storage order, as in `Verif.Fused`; the number of
positions of a block (`values_per_block`, 1034-1060) is a given number and block `b` starts at `b` times
it; managed memory and the CUDA runtime are not modelled.
-/
namespace Verif.GpuSearch
open Verif.Merge (Lvl)
open Verif.Pack (getSize forAll)
open Verif.Search (binarySearchBefore chk)
open Verif.Fused
open Verif.Provenance (posGuardSkips)

/-- `num_search_blocks = (num_blocks + 1 + block_size - 1) / block_size`, codegen_cuda.cpp 122 and 138.
`none`: division by zero or overflow. -/
def searchBlocks (nb bs : Nat) : Option Nat :=
  if bs = 0 then none
  else match chk (nb + 1 + bs) with
    | none => none
    | some _ => some ((nb + 1 + bs - 1) / bs)

/-- The threads of a launch `<<<k, bs>>>`: block and thread numbers. -/
def grid (k bs : Nat) : List (Nat × Nat) := (List.range k).flatMap (fun b => (List.range bs).map (fun t => (b, t)))

/-- One thread of the search kernels, codegen_cuda.cpp 110-119 and 126-135: `target` is
`idx * values_per_block` or `targets[idx]`. `none`: overflow or an access out of bounds. -/
def threadStep (a : List Int) (hi : Nat) (target : Nat → Option Nat) (nb bs : Nat) (th : Nat × Nat) (res : List Nat) :
    Option (List Nat) :=
  match chk (th.1 * bs + th.2) with
  | none => none
  | some idx =>
    if nb + 1 ≤ idx then some res
    else match target idx with
      | none => none
      | some t =>
        match binarySearchBefore a 0 hi t with
        | none => none
        | some r => if idx < res.length then some (res.set idx r) else none

/-- The threads of a launch in the order in which they run. -/
def runThreads (a : List Int) (hi : Nat) (target : Nat → Option Nat) (nb bs : Nat) :
    List (Nat × Nat) → List Nat → Option (List Nat)
  | [], res => some res
  | th :: ths, res =>
    match threadStep a hi target nb bs th res with
    | none => none
    | some res' => runThreads a hi target nb bs ths res'

/-- `idx * values_per_block`, codegen_cuda.cpp 118. -/
def direct (vpb : Nat) (idx : Nat) : Option Nat := chk (idx * vpb)

/-- `targets[idx]`, codegen_cuda.cpp 134. -/
def indirect (targets : List Nat) (idx : Nat) : Option Nat := targets[idx]?

/-- The searches before the kernel, lowerer_impl_imperative.cpp 1062-1121: one for every level above the
last one, from the inside out. Every launch gets fresh memory for `num_blocks + 1` results (1066-1067),
whose contents `junk` and whose order of threads `order` are given. -/
def blockStarts : List Link → List Nat → (Nat → Option Nat) → Nat → Nat → List (List (Nat × Nat)) → List (List Nat) →
    Option (List (List Nat))
  | [], _, _, _, _, _, _ => some []
  | l :: ls, n :: ns, target, nb, bs, o :: os, j :: js =>
    match runThreads (l.pos.map Int.ofNat) n target nb bs o j with
    | none => none
    | some res => (blockStarts ls ns (indirect res) nb bs os js).map (res :: ·)
  | _, _, _, _, _, _, _ => none

/-- What a thread of block `b` does first, lowerer_impl_imperative.cpp 1122-1128 and 1167-1184: it
searches every level between the starts of block `b` and of the next one. -/
def threadStart : List Link → List (List Nat) → Nat → Nat → Option St
  | [], _, _, _ => some []
  | _ :: _, [], _, _ => none
  | l :: ls, s :: ss, b, t =>
    match s[b]?, s[b + 1]? with
    | some lo, some hi =>
      match binarySearchBefore (l.pos.map Int.ofNat) lo hi t with
      | none => none
      | some p =>
        match coordAt l p, threadStart ls ss b p with
        | some c, some st => some ((p, c) :: st)
        | _, _ => none
    | _, _ => none

/-- A thread of block `b` that goes through the positions `[start, start + len)`: it searches, then it
loops with the guard of `lowerForall`, 664-679. -/
def threadLoop (lv : List Lvl) (starts : List (List Nat)) (b start len : Nat) : Option (List (List Nat × Nat)) :=
  match chain lv, getSize lv with
  | some (ch, crd), some n =>
    match threadStart ch starts b start with
    | none => none
    | some st => loop ch crd ((List.range' start len).filter (fun k => !posGuardSkips (0, n) k)) st
  | _, _ => none

/-- The whole kernel: the searches, then `nb` blocks of `tpb` threads, of `len` positions each. The
events of the threads in the order of their numbers; `orders` and `junk` as in `blockStarts`. -/
def kernel (lv : List Lvl) (nb tpb len : Nat) (orders : List (List (Nat × Nat))) (junk : List (List Nat)) :
    Option (List (List Nat × Nat)) :=
  match chain lv, parentSizes lv with
  | some (ch, _), some ns =>
    match blockStarts ch ns (direct (tpb * len)) nb tpb orders junk with
    | none => none
    | some starts =>
      forAll (fun c => threadLoop lv starts (c / tpb) (c * len) len) (List.range (nb * tpb))
  | _, _ => none

end Verif.GpuSearch
