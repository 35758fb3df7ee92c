import Verif.Util.Stream

/-
Model of the VM's string encodings: src/machine.cpp 741-845 (`readByte`, `parseUtf8NonAscii`,
`parseUtf8`), 4469-4579 (`stringUTFLength`, `stringChars`, `stringUTFChars`), 5801-5884
(`parseUtf8` on C strings and byte arrays), src/avian/machine.h 2183-2245 (string hash and
equality) and include/avian/util/hash.h.

Indices are natural numbers: all lengths are assumed below `2^32 - 3`, so `si += 2` does not wrap.
The destination arrays are filled from index 0 upwards, so a destination is the list of the
elements written so far; writing element `vi` of an array with `cap` elements is an explicit
check (Slice::operator[] aborts, include/avian/util/slice.h:37-41).
-/
namespace Avian.Utf8
open Avian.Stream (Stream Stream.read1)

/-- How a run of C++ code ends: a value, a failed `assertT` (only in builds without `NDEBUG`,
include/avian/util/abort.h:46-54), or an invalid memory access / endless loop. -/
inductive Res (α : Type) where
  | ok (a : α)
  | assertFail
  | ub

/-- Sequencing. -/
def Res.bind {α β : Type} : Res α → (α → Res β) → Res β
  | .ok a, f => f a
  | .assertFail, _ => .assertFail
  | .ub, _ => .ub

/-- `assertT(t, v)`; `debug` says whether assertions are compiled in. -/
def assertT (debug v : Bool) : Res Unit := if debug && !v then .assertFail else .ok ()

/-- `s.read1()` with the memory error made explicit. -/
def read1 (s : Stream) : Res (BitVec 8 × Stream) :=
  match s.read1 with
  | none => .ub
  | some r => .ok r

/-- machine.cpp:741-750 `readByte`; `none` is `NoByte`.  Returns the byte and the stream; the caller
replaces its `value` by `NoByte` afterwards (the pending byte is used at most once). -/
def readByte (s : Stream) (value : Option (BitVec 8)) : Res (BitVec 8 × Stream) :=
  match value with
  | none => read1 s
  | some r => .ok (r, s)

/-- `array->body()[vi] = x` for an array of `cap` elements of which `vi` were written. -/
def store {α : Type} (cap : Nat) (out : List α) (x : α) : Res (List α) :=
  if out.length < cap then .ok (out ++ [x]) else .ub

/-- machine.cpp:779-780, 32-bit arithmetic stored to a `uint16_t`. -/
def three (a b c : BitVec 8) : BitVec 16 :=
  (((a.setWidth 32 &&& 0xf#32) <<< (12 : Nat)) ||| ((b.setWidth 32 &&& 0x3f#32) <<< (6 : Nat))
    ||| (c.setWidth 32 &&& 0x3f#32)).setWidth 16

/-- machine.cpp:787-791. -/
def two (a b : BitVec 8) : BitVec 16 :=
  if a = 0xC0#8 ∧ b = 0x80#8 then 0#16
  else (((a.setWidth 32 &&& 0x1f#32) <<< (6 : Nat)) ||| (b.setWidth 32 &&& 0x3f#32)).setWidth 16

/-- machine.cpp:770-796: the loop of `parseUtf8NonAscii`.  The fuel bounds the iterations
(exhaustion is `ub`). -/
def nonAsciiLoop (debug : Bool) (length : Nat) : Nat → Stream → Option (BitVec 8) →
    Option (BitVec 8) → Nat → List (BitVec 16) → Res (List (BitVec 16) × Stream)
  | 0, _, _, _, _, _ => .ub
  | fuel + 1, s, byteA, byteB, si, out =>
    if si < length then
      (readByte s byteA).bind fun (a, s) =>
      if a &&& 0x80#8 ≠ 0#8 then
        if a &&& 0x20#8 ≠ 0#8 then
          (assertT debug (si + 2 < length)).bind fun _ =>
          (readByte s byteB).bind fun (b, s) =>
          (read1 s).bind fun (c, s) =>
          (store (length + 1) out (three a b c)).bind fun out =>
          nonAsciiLoop debug length fuel s none none (si + 2 + 1) out
        else
          (assertT debug (si + 1 < length)).bind fun _ =>
          (readByte s byteB).bind fun (b, s) =>
          (store (length + 1) out (two a b)).bind fun out =>
          nonAsciiLoop debug length fuel s none none (si + 1 + 1) out
      else
        (store (length + 1) out (a.setWidth 16)).bind fun out =>
        nonAsciiLoop debug length fuel s none byteB (si + 1) out
    else .ok (out, s)

/-- The object made by the parser: a byte array or a char array; the terminating zero is left
out, so the array has one more element than the list (machine.cpp:798-804, 836-842: the
reallocation makes the array exactly one longer than the characters). -/
inductive Parsed where
  | bytes (l : List (BitVec 8))
  | chars (l : List (BitVec 16))
  deriving DecidableEq

/-- machine.cpp:752-807 `parseUtf8NonAscii`: the bytes so far are widened (766-768; `body` of a byte
array is `int8_t`, so the value is sign extended), then the loop runs. -/
def parseUtf8NonAscii (debug : Bool) (s : Stream) (bytesSoFar : List (BitVec 8)) (length : Nat)
    (sourceIndex : Nat) (byteA byteB : Option (BitVec 8)) : Res (Parsed × Stream) :=
  if bytesSoFar.length ≤ length + 1 then
    (nonAsciiLoop debug length (length + 1) s byteA byteB sourceIndex
      (bytesSoFar.map (·.signExtend 16))).bind fun (out, s) => .ok (.chars out, s)
  else .ub

/-- machine.cpp:813-834: the loop of `parseUtf8`. -/
def asciiLoop (debug : Bool) (length : Nat) : Nat → Stream → Nat → List (BitVec 8) →
    Res (Parsed × Stream)
  | 0, _, _, _ => .ub
  | fuel + 1, s, si, out =>
    if si < length then
      (read1 s).bind fun (a, s) =>
      if a &&& 0x80#8 ≠ 0#8 then
        if a &&& 0x20#8 ≠ 0#8 then
          parseUtf8NonAscii debug s out length si (some a) none
        else
          (read1 s).bind fun (b, s) =>
          if a = 0xC0#8 ∧ b = 0x80#8 then
            (assertT debug (si + 1 < length)).bind fun _ =>
            (store (length + 1) out 0#8).bind fun out =>
            asciiLoop debug length fuel s (si + 1 + 1) out
          else parseUtf8NonAscii debug s out length si (some a) (some b)
      else
        (store (length + 1) out a).bind fun out =>
        asciiLoop debug length fuel s (si + 1) out
    else .ok (.bytes out, s)

/-- machine.cpp:809-845 `parseUtf8` on a stream. -/
def parseUtf8 (debug : Bool) (s : Stream) (length : Nat) : Res (Parsed × Stream) :=
  asciiLoop debug length (length + 1) s 0 []

/-- machine.cpp:5801-5822 `parseUtf8(Thread*, const char*, unsigned)`. -/
def parseBytes (debug : Bool) (data : List (BitVec 8)) : Res Parsed :=
  (parseUtf8 debug (Stream.new data) data.length).bind fun r => .ok r.1

/-- machine.cpp:5824-5884 `parseUtf8(Thread*, GcByteArray*)`; `data` is the array without its
terminating zero.  Pure ASCII arrays are returned as they are. -/
def parseArray (debug : Bool) (data : List (BitVec 8)) : Res Parsed :=
  if data.any (fun b => b &&& 0x80#8 ≠ 0#8) then parseBytes debug data
  else .ok (.bytes data)

/-- The characters of a string object: `stringChars` to `uint16_t` (machine.cpp:4520-4541) and
`stringCharAt` (machine.h:2220-2227).  Bytes are `int8_t` and are sign extended. -/
def units : Parsed → List (BitVec 16)
  | .bytes l => l.map (·.signExtend 16)
  | .chars l => l

/-- machine.cpp:4562-4576: the bytes written for one unit. -/
def encodeUnit (c : BitVec 16) : List (BitVec 8) :=
  if c = 0#16 then [0#8]
  else if c < 0x80#16 then [c.setWidth 8]
  else if c < 0x800#16 then
    [(0xc0#32 ||| (c.setWidth 32 >>> (6 : Nat))).setWidth 8,
     (0x80#32 ||| (c.setWidth 32 &&& 0x3f#32)).setWidth 8]
  else
    [(0xe0#32 ||| ((c.setWidth 32 >>> (12 : Nat)) &&& 0x0f#32)).setWidth 8,
     (0x80#32 ||| ((c.setWidth 32 >>> (6 : Nat)) &&& 0x3f#32)).setWidth 8,
     (0x80#32 ||| (c.setWidth 32 &&& 0x3f#32)).setWidth 8]

/-- machine.cpp:4543-4579 `stringUTFChars` (without the final zero). -/
def stringUTFChars : Parsed → List (BitVec 8)
  | .bytes l => l
  | .chars l => l.flatMap encodeUnit

/-- machine.cpp:4482-4492: the bytes counted for one unit. -/
def unitLength (c : BitVec 16) : Nat :=
  if c = 0#16 then 1 else if c < 0x80#16 then 1 else if c < 0x800#16 then 2 else 3

/-- machine.cpp:4481-4492: the counting loop. -/
def unitsLength : List (BitVec 16) → Nat
  | [] => 0
  | c :: cs => unitLength c + unitsLength cs

/-- machine.cpp:4469-4497 `stringUTFLength` for a range of the string given as a list. -/
def stringUTFLength : Parsed → Nat
  | .bytes l => l.length
  | .chars l => unitsLength l

/-- include/avian/util/hash.h:29-37 `hash(Slice<const uint8_t>)` (40-44: also for `int8_t`). -/
def hash8 (h : BitVec 32) : List (BitVec 8) → BitVec 32
  | [] => h
  | b :: rest => hash8 (h * 31#32 + b.setWidth 32) rest

/-- include/avian/util/hash.h:46-54 `hash(Slice<const uint16_t>)`. -/
def hash16 (h : BitVec 32) : List (BitVec 16) → BitVec 32
  | [] => h
  | b :: rest => hash16 (h * 31#32 + b.setWidth 32) rest

/-- include/avian/util/hash.h:19-26 `hash(const char*)`: `char` is signed. -/
def hashC (h : BitVec 32) : List (BitVec 8) → BitVec 32
  | [] => h
  | b :: rest => hashC (h * 31#32 + b.signExtend 32) rest

/-- machine.h:2205-2218 `stringHash` of a string whose cached hash is `cached`; returns the new
cached value, which is also the result. -/
def stringHash (cached : BitVec 32) (s : Parsed) : BitVec 32 :=
  match s with
  | .bytes l => if cached = 0#32 ∧ l ≠ [] then hash8 0#32 l else cached
  | .chars l => if cached = 0#32 ∧ l ≠ [] then hash16 0#32 l else cached

/-- machine.h:2236-2240: the comparison loop. -/
def unitsEqual : List (BitVec 16) → List (BitVec 16) → Bool
  | a :: as, b :: bs => if a ≠ b then false else unitsEqual as bs
  | _, _ => true

/-- machine.h:2229-2245 `stringEqual` (identity is a shortcut with the same answer). -/
def stringEqual (a b : Parsed) : Bool :=
  if (units a).length = (units b).length then unitsEqual (units a) (units b) else false

end Avian.Utf8
