/-
Model of the class file reader include/avian/util/stream.h.
The image is a byte list, `position_` and `size` are 32-bit unsigned, the client's
`handleError` is a counter.  Reading memory outside the image is undefined behaviour,
modelled as `none`.
-/
namespace Avian.Stream

/-- include/avian/util/stream.h:102-106, 108-125: the image and the two `unsigned` fields. -/
structure Stream where
  data : List (BitVec 8)
  size : BitVec 32
  position : BitVec 32
  /-- number of calls of `client->handleError()` (stream.h:43, 54) -/
  errors : Nat

/-- include/avian/util/stream.h:25-28, 110-113: constructor. -/
def Stream.new (data : List (BitVec 8)) : Stream :=
  { data := data, size := BitVec.ofNat 32 data.length, position := 0#32, errors := 0 }

/-- include/avian/util/stream.h:35-38 `setPosition`. -/
def Stream.setPosition (s : Stream) (p : BitVec 32) : Stream := { s with position := p }

/-- include/avian/util/stream.h:40-47 `skip` (unsigned subtraction wraps). -/
def Stream.skip (s : Stream) (n : BitVec 32) : Stream :=
  if n > s.size - s.position then { s with errors := s.errors + 1 }
  else { s with position := s.position + n }

/-- include/avian/util/stream.h:116-119 `copy`: `memcpy` from the image; `none` when it would
read outside of it. -/
def Stream.copy (s : Stream) (offset n : Nat) : Option (List (BitVec 8)) :=
  if offset + n ≤ s.data.length then some ((s.data.drop offset).take n) else none

/-- include/avian/util/stream.h:49-59 `read`. -/
def Stream.read (s : Stream) (n : BitVec 32) : Option (List (BitVec 8) × Stream) :=
  if n > s.size - s.position then
    some (List.replicate n.toNat 0#8, { s with errors := s.errors + 1 })
  else do
    let bytes ← s.copy s.position.toNat n.toNat
    return (bytes, { s with position := s.position + n })

/-- include/avian/util/stream.h:61-66 `read1`. -/
def Stream.read1 (s : Stream) : Option (BitVec 8 × Stream) := do
  let (bytes, s) ← s.read 1#32
  match bytes with
  | [v] => return (v, s)
  | _ => none

/-- include/avian/util/stream.h:68-73 `read2`. -/
def Stream.read2 (s : Stream) : Option (BitVec 16 × Stream) := do
  let (a, s) ← s.read1
  let (b, s) ← s.read1
  return ((a.setWidth 16 <<< (8 : Nat)) ||| b.setWidth 16, s)

/-- include/avian/util/stream.h:75-80 `read4`. -/
def Stream.read4 (s : Stream) : Option (BitVec 32 × Stream) := do
  let (a, s) ← s.read2
  let (b, s) ← s.read2
  return ((a.setWidth 32 <<< (16 : Nat)) ||| b.setWidth 32, s)

/-- include/avian/util/stream.h:82-87 `read8`. -/
def Stream.read8 (s : Stream) : Option (BitVec 64 × Stream) := do
  let (a, s) ← s.read4
  let (b, s) ← s.read4
  return ((a.setWidth 64 <<< (32 : Nat)) ||| b.setWidth 64, s)

/-- A request to the reader. -/
inductive Req where
  | skip (n : BitVec 32)
  | read (n : BitVec 32)
  | read1 | read2 | read4 | read8

/-- A reply: the bytes or the integer delivered (as a natural number). -/
inductive Reply where
  | none
  | bytes (l : List (BitVec 8))
  | value (n : Nat)
  deriving DecidableEq

/-- One request (dispatch over stream.h:40-87). -/
def Stream.step (s : Stream) : Req → Option (Reply × Stream)
  | .skip n => some (.none, s.skip n)
  | .read n => (s.read n).map fun (b, s) => (.bytes b, s)
  | .read1 => s.read1.map fun (v, s) => (.value v.toNat, s)
  | .read2 => s.read2.map fun (v, s) => (.value v.toNat, s)
  | .read4 => s.read4.map fun (v, s) => (.value v.toNat, s)
  | .read8 => s.read8.map fun (v, s) => (.value v.toNat, s)

/-- A sequence of requests. -/
def Stream.run (s : Stream) : List Req → Option (List Reply × Stream)
  | [] => some ([], s)
  | r :: rs => do
    let (reply, s) ← s.step r
    let (replies, s) ← s.run rs
    return (reply :: replies, s)

end Avian.Stream
