import Verif.Util.Math

/-
Model of src/util/fixed-allocator.cpp (the allocator of executable code memory).
Addresses are offsets from `memory.begin()`; `none` is `abort`.  `size_t` values are natural
numbers below 2^64; `vm::pad` takes and returns `unsigned`, so its argument is truncated to
32 bits (src/avian/common.h:291-294).
-/
namespace Avian.FixedAlloc

/-- include/avian/util/fixed-allocator.h: the members `memory.count` and `offset`. -/
structure State where
  count : Nat
  offset : Nat
  deriving DecidableEq

/-- src/util/fixed-allocator.cpp:18-21: constructor. -/
def State.new (count : Nat) : State := { count := count, offset := 0 }

/-- src/avian/common.h:291-294 `pad(unsigned n, unsigned alignment)` applied to a `size_t`:
`(n + (alignment - 1)) & ~(alignment - 1)` in 32-bit arithmetic. -/
def pad32 (n : Nat) (alignment : BitVec 32) : Nat :=
  (Math.pad (BitVec.ofNat 32 n) alignment).toNat

/-- src/util/fixed-allocator.cpp:28-36 `allocate(size, padAlignment)`; `none` is the failed
`expect`, i.e. abort. -/
def State.allocateAligned (s : State) (size : Nat) (alignment : BitVec 32) :
    Option (Nat × State) :=
  let padded := pad32 size alignment
  if s.offset + padded < s.count then some (s.offset, { s with offset := s.offset + padded })
  else none

/-- src/util/fixed-allocator.cpp:38-41 `allocate(size)`; BytesPerWord is 8. -/
def State.allocate (s : State) (size : Nat) : Option (Nat × State) :=
  s.allocateAligned size 8#32

/-- src/util/fixed-allocator.cpp:23-26 `tryAllocate`. -/
def State.tryAllocate (s : State) (size : Nat) : Option (Nat × State) := s.allocate size

/-- src/util/fixed-allocator.cpp:43-51 `free`; `p` is an offset so `p >= begin` holds;
`none` is abort. -/
def State.free (s : State) (p size : Nat) : Option State :=
  if p + size = s.offset then some { s with offset := s.offset - size } else none

/-- A client request: allocate, or free the most recent live block with the size it was
requested with. -/
inductive Req where
  | alloc (size : Nat)
  | freeLast

/-- Client driver keeping the list of live blocks (address, requested size), newest first.
`none` = the process aborted (or the client had nothing to free). -/
def step : State × List (Nat × Nat) → Req → Option (State × List (Nat × Nat))
  | (s, live), .alloc size => do
    let (p, s) ← s.allocate size
    return (s, (p, size) :: live)
  | (s, (p, size) :: live), .freeLast => do
    let s ← s.free p size
    return (s, live)
  | (_, []), .freeLast => none

def run (st : State × List (Nat × Nat)) : List Req → Option (State × List (Nat × Nat))
  | [] => some st
  | r :: rs => do
    let st ← step st r
    run st rs

end Avian.FixedAlloc
