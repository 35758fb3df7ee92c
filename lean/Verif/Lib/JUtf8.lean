import Verif.Lib.Outcome

/-
Conversion of strings to and from bytes in the class library (classpath/avian/Utf8.java).

A byte is a number below 256 (its unsigned value) and a `char` a number below 65536.
-/
namespace Avian.JUtf8

/-- Utf8.java:16-23 `test`: is there a byte with the upper bit set? -/
def test (b : List Nat) : Bool := b.any fun x => (x &&& 0x80) != 0

/-- Utf8.java:29-41: the bytes of one character; `ByteArrayOutputStream.write` (48) keeps the low
eight bits. -/
def encodeChar (c : Nat) : List Nat :=
  if c = 0 then [0, 0]
  else if c < 0x80 then [c % 256]
  else if c < 0x800 then [(0xC0 ||| (c >>> 6)) % 256, (0x80 ||| (c &&& 0x3F)) % 256]
  else [(0xE0 ||| ((c >>> 12) &&& 0x0F)) % 256, (0x80 ||| ((c >>> 6) &&& 0x3F)) % 256,
    (0x80 ||| (c &&& 0x3F)) % 256]

/-- Utf8.java:25-44 `encode`. -/
def encode (s16 : List Nat) : List Nat := s16.flatMap encodeChar

/-- Iso88591.java:17-24 `encode`. -/
def encodeLatin1 (s16 : List Nat) : List Nat := s16.map (· % 256)

/-- Outcomes of `decode` other than an array. -/
inductive Bad where
  /-- `return null` -/
  | null
  /-- a store outside of the array -/
  | outside
  deriving DecidableEq

/-- The array `buf`: `byte[]` or `char[]`. -/
structure Buf where
  wide : Bool
  data : List Nat
  deriving DecidableEq

/-- Utf8.java:99-102 `cram`. -/
def cram (b : Buf) (j v : Nat) : Except Bad Buf :=
  if j < b.data.length then .ok { b with data := b.data.set j (if b.wide then v % 65536 else v % 256) }
  else .error .outside

/-- Utf8.java:104-109 `widen`. -/
def widen (b : Buf) (length capacity : Nat) : Except Bad Buf :=
  if length ≤ capacity ∧ length ≤ b.data.length then
    .ok ⟨true, b.data.take length ++ List.replicate (capacity - length) 0⟩
  else .error .outside

/-- Utf8.java:61-64, 71-74: `buf` becomes a `char[]` the first time. -/
def widenOnce (b : Buf) (j capacity : Nat) : Except Bad Buf :=
  if b.wide then .ok b else widen b j capacity

/-- Utf8.java:111-117 `trim`. -/
def trim (b : Buf) (j : Nat) : Buf :=
  if b.wide then { b with data := b.data.take j } else b

/-- Utf8.java:50-83: the loop, on the bytes that are left; `length` is the number of bytes in all. -/
def decodeLoop (length : Nat) : List Nat → Buf → Nat → Except Bad Buf
  | [], b, j => .ok (trim b j)
  | x :: rest, b, j =>
    if x &&& 0x80 = 0 then
      if x = 0 then
        match rest with
        | [] => .error .null
        | _ :: rest => (cram b j x).bind fun b => decodeLoop length rest b (j + 1)
      else (cram b j x).bind fun b => decodeLoop length rest b (j + 1)
    else if x &&& 0xE0 = 0xC0 then
      match rest with
      | [] => .error .null
      | y :: rest =>
        (widenOnce b j (length - 1)).bind fun b =>
        (cram b j (((x &&& 0x1F) <<< 6) ||| (y &&& 0x3F))).bind fun b => decodeLoop length rest b (j + 1)
    else if x &&& 0xF0 = 0xE0 then
      match rest with
      | y :: z :: rest =>
        (widenOnce b j (length - 2)).bind fun b =>
        (cram b j (((x &&& 0xF) <<< 12) ||| ((y &&& 0x3F) <<< 6) ||| (z &&& 0x3F))).bind fun b =>
          decodeLoop length rest b (j + 1)
      | _ => .error .null
    else decodeLoop length rest b j

/-- Utf8.java:46-86 `decode`, on the bytes from `offset` to `offset + length`. -/
def decode (s8 : List Nat) : Except Bad Buf :=
  decodeLoop s8.length s8 ⟨false, List.replicate s8.length 0⟩ 0

end Avian.JUtf8
