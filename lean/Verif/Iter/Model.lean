/-!
The tensor iterator (`TensorBase::const_iterator`, include/taco/tensor.h 170-343) and the resumable
`iterate` kernel that fills its buffer (`CodeGen::printContextDeclAndInit`, `printYield`,
`printCoroutineFinish`, src/codegen/codegen.cpp 156-193, 592-656).

Simplifications
* The components the loops of the kernel produce are a list; saving and restoring the local variables
  of the loops (codegen.cpp 173-177, 642-646) is keeping the number of components produced so far.
* A buffer is a list of at most `cap` slots; slots that were never written do not exist, and reading
  one is `none` (the code reads uninitialised memory of an allocated array in that case).
* `printCoroutineFinish` writes its first `return` to the output stream before the text of the `if`
  around it (codegen.cpp 597-600 use `stream` where the other lines use `ret`), so the emitted code
  returns the number of buffered components unconditionally.
-/
namespace Verif.Iter

variable {α : Type}

/-- The context block of the kernel: components produced so far and the label to resume at
(`0`: after the yield, `1`: the final label). -/
structure Ctx where
  next : Nat
  label : Nat

/-- What a call to the kernel leaves: the returned count, the buffer and the context pointer. -/
structure CallResult (α : Type) where
  size : Nat
  buf : List α
  ctx : Option Ctx

/-- Write slot `i` of the buffer. -/
def writeSlot (buf : List α) (i : Nat) (x : α) : List α :=
  if i < buf.length then buf.set i x else buf ++ [x]

/-- The loops of the kernel from component `k` on, with `printYield` (codegen.cpp 613-656) in the body
and `printCoroutineFinish` (592-611) after them. `n` is the counter `bufsize`. -/
def produce (cap : Nat) : List α → Nat → Nat → List α → CallResult α
  | [], k, n, buf => ⟨n, buf, some ⟨k, 1⟩⟩
  | x :: xs, k, n, buf =>
    if n + 1 = cap then ⟨n + 1, writeSlot buf n x, some ⟨k + 1, 0⟩⟩
    else produce cap xs (k + 1) (n + 1) (writeSlot buf n x)

/-- A call of the kernel: start or resume (codegen.cpp 171-189). -/
def call (cap : Nat) (comps : List α) (ctx : Option Ctx) (buf : List α) : CallResult α :=
  match ctx with
  | none => produce cap comps 0 0 buf
  | some c => if c.label = 0 then produce cap (comps.drop c.next) c.next 0 buf else ⟨0, buf, none⟩

/-- The part of an iterator that its copies share: the context and the buffers (`ctx`, tensor.h 339). -/
structure Shared (α : Type) where
  buf : List α
  ctx : Option Ctx

/-- The part of an iterator that is copied: tensor.h 334-341. `slot` is the buffer index that
`curVal.first.coordinates` points to. -/
structure Iter where
  size : Nat
  pos : Nat
  slot : Nat
  chunks : Int

/-- The iterator before the first `++`, tensor.h 289-299. -/
def initIter : Iter := ⟨0, 0, 0, -1⟩
def initShared : Shared α := ⟨[], none⟩

/-- `operator++`, tensor.h 224-240. -/
def incr (cap : Nat) (comps : List α) (s : Shared α) (it : Iter) : Shared α × Iter :=
  if it.pos + 1 ≥ it.size then
    let r := call cap comps s.ctx s.buf
    (⟨r.buf, r.ctx⟩, ⟨r.size, 0, 0, it.chunks + 1⟩)
  else (s, ⟨it.size, it.pos + 1, it.slot + 1, it.chunks⟩)

/-- `begin()`: the constructor increments once, tensor.h 300-306. -/
def begin (cap : Nat) (comps : List α) : Shared α × Iter := incr cap comps initShared initIter

/-- Does the iterator compare equal to `end()` (tensor.h 256-262; the end iterator has size 0). -/
def atEnd (it : Iter) : Bool := it.size == 0

/-- `operator*`: the component in the slot the iterator points to. -/
def deref (s : Shared α) (it : Iter) : Option α := s.buf[it.slot]?

/-- `valsIterated`, tensor.h 314-316. -/
def valsIterated (cap : Nat) (it : Iter) : Int := it.chunks * cap + it.pos

/-- `for (auto& c : tensor)`: at most `fuel` iterations; `none` when the fuel runs out or a slot that
was never written is read. -/
def collect (cap : Nat) (comps : List α) : Nat → Shared α × Iter → Option (List α)
  | 0, (_, it) => if atEnd it then some [] else none
  | fuel + 1, (s, it) =>
    if atEnd it then some []
    else
      match deref s it, collect cap comps fuel (incr cap comps s it) with
      | some x, some xs => some (x :: xs)
      | _, _ => none

/-- `*it++` (tensor.h 242-246): the copy taken before the increment, dereferenced after it. The value
of a component is copied with the iterator (`curVal.second`) while its coordinates are read through a
pointer into the shared buffer, so this is what the coordinates of `*it++` are. -/
def postIncrDeref (cap : Nat) (comps : List α) (s : Shared α) (it : Iter) : Option α :=
  deref (incr cap comps s it).1 it

end Verif.Iter
