/-
Model of the packed bit map helpers in src/avian/common.h (instantiated at
`T = uintptr_t`, 64 bits) and of the index computations and iterator of
`Segment::Map` in src/heap/heap.cpp.

A map is the memory behind the pointer: a function from word number to word.
-/
namespace Avian.Bits

/-- Memory behind a `uintptr_t*` map. -/
abbrev Map := Nat → BitVec 64

/-- src/avian/common.h:325-334 `wordOf<uintptr_t>`. -/
def wordOf (i : Nat) : Nat := i / 64

/-- src/avian/common.h:336-345 `bitOf<uintptr_t>`. -/
def bitOf (i : Nat) : Nat := i % 64

/-- src/avian/common.h:347-356 `indexOf<uintptr_t>`. -/
def indexOf (word bit : Nat) : Nat := word * 64 + bit

/-- A store of one word (the effect of `map[k] = v`). -/
def store (m : Map) (k : Nat) (v : BitVec 64) : Map := fun j => if j = k then v else m j

/-- src/avian/common.h:358-362 `markBit`. -/
def markBit (m : Map) (i : Nat) : Map :=
  store m (wordOf i) (m (wordOf i) ||| (1#64 <<< bitOf i))

/-- src/avian/common.h:364-368 `clearBit`. -/
def clearBit (m : Map) (i : Nat) : Map :=
  store m (wordOf i) (m (wordOf i) &&& ~~~(1#64 <<< bitOf i))

/-- src/avian/common.h:370-375 `getBit` (the word is truncated to `unsigned`). -/
def getBit (m : Map) (i : Nat) : BitVec 32 :=
  ((m (wordOf i) &&& (1#64 <<< bitOf i)) >>> bitOf i).setWidth 32

/-- src/avian/common.h:381-387 `clearBits`: the loop from `i` for `n` more bits. -/
def clearBitsLoop (m : Map) (i : Nat) : Nat → Map
  | 0 => m
  | n + 1 => clearBitsLoop (clearBit m i) (i + 1) n

/-- src/avian/common.h:381-387 `clearBits`. -/
def clearBits (m : Map) (bitsPerRecord index : Nat) : Map := clearBitsLoop m index bitsPerRecord

/-- src/avian/common.h:389-399 `setBits`: the loop counts `i` down from
`index + n - 1` to `index`, consuming the low bit of `v` each time. -/
def setBitsLoop (m : Map) (index : Nat) : Nat → BitVec 32 → Map
  | 0, _ => m
  | n + 1, v =>
    let m' := if v &&& 1#32 ≠ 0#32 then markBit m (index + n) else clearBit m (index + n)
    setBitsLoop m' index n (v >>> (1 : Nat))

/-- src/avian/common.h:389-399 `setBits`. -/
def setBits (m : Map) (bitsPerRecord index : Nat) (v : BitVec 32) : Map :=
  setBitsLoop m index bitsPerRecord v

/-- src/avian/common.h:401-410 `getBits`: the loop from `i` for `n` more bits. -/
def getBitsLoop (m : Map) : Nat → Nat → BitVec 32 → BitVec 32
  | _, 0, v => v
  | i, n + 1, v => getBitsLoop m (i + 1) n ((v <<< (1 : Nat)) ||| getBit m i)

/-- src/avian/common.h:401-410 `getBits`. -/
def getBits (m : Map) (bitsPerRecord index : Nat) : BitVec 32 := getBitsLoop m index bitsPerRecord 0#32

/-! ### `Segment::Map` (src/heap/heap.cpp) -/

/-- The data and geometry of one level of a segment map
(src/heap/heap.cpp:168-188; the child level is modelled separately where used). -/
structure SegMap where
  data : Map
  bitsPerRecord : Nat
  scale : Nat

/-- src/heap/heap.cpp:275-278 `Map::indexOf(unsigned)`. -/
def SegMap.indexOf (m : SegMap) (segmentIndex : Nat) : Nat :=
  (segmentIndex / m.scale) * m.bitsPerRecord

/-- src/heap/heap.cpp:323-331 `setOnly`. -/
def SegMap.setOnly (m : SegMap) (segmentIndex : Nat) (v : BitVec 32) : SegMap :=
  { m with data := setBits m.data m.bitsPerRecord (m.indexOf segmentIndex) v }

/-- src/heap/heap.cpp:301-309 `clearOnly`. -/
def SegMap.clearOnly (m : SegMap) (segmentIndex : Nat) : SegMap :=
  { m with data := clearBits m.data m.bitsPerRecord (m.indexOf segmentIndex) }

/-- src/heap/heap.cpp:363-366 `get`. -/
def SegMap.get (m : SegMap) (segmentIndex : Nat) : BitVec 32 :=
  getBits m.data m.bitsPerRecord (m.indexOf segmentIndex)

/-- src/heap/heap.cpp:106-126 state of `Map::Iterator`. -/
structure Iter where
  index : Nat
  limit : Nat
  deriving Repr, DecidableEq

/-- src/heap/heap.cpp:112-126 the constructor; `position` is `segment->position()`. -/
def SegMap.iterInit (m : SegMap) (position start stop : Nat) : Iter :=
  let stop := if stop > position then position else stop
  let limit := m.indexOf stop
  { index := m.indexOf start,
    limit := if (stop - start) % m.scale ≠ 0 then limit + 1 else limit }

/-- src/heap/heap.cpp:139-149 the inner loop over the bits of word `w`. -/
def scanBits (w : BitVec 64) (word wordLimit bitLimit bit : Nat) : Option Nat :=
  if bit < 64 ∧ (word < wordLimit ∨ bit < bitLimit) then
    if w &&& (1#64 <<< bit) ≠ 0#64 then some bit
    else scanBits w word wordLimit bitLimit (bit + 1)
  else none
termination_by 64 - bit

/-- src/heap/heap.cpp:135-152 the outer loop over words. -/
def scanWords (data : Map) (wordLimit bitLimit word bit : Nat) : Option Nat :=
  if word ≤ wordLimit ∧ (word < wordLimit ∨ bit < bitLimit) then
    match scanBits (data word) word wordLimit bitLimit bit with
    | some b => some (Bits.indexOf word b)
    | none => scanWords data wordLimit bitLimit (word + 1) 0
  else none
termination_by wordLimit + 1 - word

/-- src/heap/heap.cpp:128-157 `Iterator::hasMore`. -/
def hasMore (m : SegMap) (it : Iter) : Bool × Iter :=
  match scanWords m.data (wordOf it.limit) (bitOf it.limit) (wordOf it.index) (bitOf it.index) with
  | some i => (true, { it with index := i })
  | none => (false, { it with index := it.limit })

/-- src/heap/heap.cpp:159-165 `Iterator::next` (after a successful `hasMore`). -/
def next (m : SegMap) (it : Iter) : Nat × Iter :=
  (it.index * m.scale, { it with index := it.index + 1 })

/-- The `while (it.hasMore()) visit(it.next())` loop used throughout heap.cpp
(for example src/heap/heap.cpp:1683-1716), with fuel. -/
def drain (m : SegMap) : Nat → Iter → List Nat
  | 0, _ => []
  | fuel + 1, it =>
    match hasMore m it with
    | (false, _) => []
    | (true, it') => (next m it').1 :: drain m fuel (next m it').2

end Avian.Bits
