/-
Model of the heap's byte accounting: `allocate`, `tryAllocate`, `free`,
`remaining` and `limitExceeded` of /repo/src/heap/heap.cpp.

Simplifications: `DebugAllocation` is false (heap.cpp 45), so the guard words are
not modelled.  The lock taken by `ACQUIRE(c->lock)` makes each function one step.
The operating system's allocator is an arbitrary answer to each request: an
address that is not handed out at the moment, or nothing.
-/
namespace Avian.Account

/-- Outcome of a heap call: a result, or the process is aborted by `expect`
(/repo/src/avian/util/abort.h 36-41). -/
inductive Res (α : Type) where
  | ok (a : α)
  | abort
deriving DecidableEq, Repr

/-- `Context::count`, `Context::limit` (`unsigned`, heap.cpp 775-776) and, as ghost
data, the blocks handed out and not yet freed: address and size. -/
structure Ctx where
  count : BitVec 32
  limit : BitVec 32
  blocks : List (Nat × Nat)
deriving DecidableEq, Repr

/-- A fresh heap (heap.cpp 698-703). -/
def init (limit : BitVec 32) : Ctx := { count := 0, limit := limit, blocks := [] }

/-- `allocate(Context*, size_t, bool)` (heap.cpp 1866-1890).  `size` is a `size_t`;
`size + c->count` is computed in 64 bits; `c->count += size` is stored in 32 bits.
`os` is the answer of `system->tryAllocate`. -/
def allocate (c : Ctx) (size : BitVec 64) (limit : Bool) (os : Option Nat) : Ctx × Option Nat :=
  if !limit || decide (size + c.count.setWidth 64 < c.limit.setWidth 64) then
    match os with
    | some p =>
      ({ c with
          count := (c.count.setWidth 64 + size).setWidth 32
          blocks := (p, size.toNat) :: c.blocks }, some p)
    | none => (c, none)
  else (c, none)

/-- `tryAllocate` (heap.cpp 1892-1895). -/
def tryAllocate (c : Ctx) (size : BitVec 64) (os : Option Nat) : Ctx × Option Nat :=
  allocate c size true os

/-- `allocate(Context*, size_t)` (heap.cpp 1897-1903): aborts when nothing is handed out. -/
def allocateHard (c : Ctx) (size : BitVec 64) (os : Option Nat) : Res (Ctx × Nat) :=
  match allocate c size false os with
  | (c, some p) => .ok (c, p)
  | (_, none) => .abort

/-- `free` (heap.cpp 1905-1926): aborts when the recorded count is below the size. -/
def free (c : Ctx) (p : Nat) (size : BitVec 64) : Res Ctx :=
  if size ≤ c.count.setWidth 64 then
    .ok { c with
            count := (c.count.setWidth 64 - size).setWidth 32
            blocks := c.blocks.erase (p, size.toNat) }
  else .abort

/-- `MyHeap::remaining` (heap.cpp 1951-1954). -/
def remaining (c : Ctx) : BitVec 32 := c.limit - c.count

/-- `limitExceeded` (heap.cpp 1760-1779).  `pending` is an `int`; `gen2Remaining` is
the number of unused words of the old generation (heap.cpp 468-471); everything is
converted to `unsigned`. -/
def limitExceeded (c : Ctx) (pending : BitVec 32) (gen2Remaining : BitVec 32) : Bool :=
  decide (c.limit < c.count + pending - gen2Remaining * 8#32)

/-- One request to the heap together with the operating system's answer. -/
inductive Req where
  | try_ (size : BitVec 64) (os : Option Nat)
  | hard (size : BitVec 64) (os : Option Nat)
  | free (p : Nat) (size : BitVec 64)
deriving DecidableEq, Repr

/-- Performing a request. -/
def step (c : Ctx) : Req → Res Ctx
  | .try_ n os => .ok (tryAllocate c n os).1
  | .hard n os =>
    match allocateHard c n os with
    | .ok r => .ok r.1
    | .abort => .abort
  | .free p n => free c p n

/-- Performing a list of requests. -/
def run (c : Ctx) : List Req → Res Ctx
  | [] => .ok c
  | r :: rs =>
    match step c r with
    | .ok c => run c rs
    | .abort => .abort

end Avian.Account
