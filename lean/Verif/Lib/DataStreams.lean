import Verif.Lib.OutStreams
import Verif.Lib.InStreams
import Verif.Lib.JUtf8

/-
Data streams: classpath/java/io/DataOutputStream.java and DataInputStream.java.

A data output stream makes calls of the stream it writes to; they are given in order.  A data input stream reads from a
buffered input stream.
-/
namespace Avian.DataStreams

open ArrayList (Exn)
open OutStreams (Byte)
open InStreams (Buf)

/-- A call of the stream behind: `write(int)` or `write(byte[])`. -/
inductive Out where
  | byte (c : BitVec 32)
  | array (b : List Byte)
  deriving DecidableEq

/-- The argument of `write((byte) x)` as an int, for an int. -/
def castByte (x : BitVec 32) : BitVec 32 := (x.setWidth 8).signExtend 32

/-- DataOutputStream.java:44-46 `writeByte`. -/
def writeByte (b : BitVec 32) : List Out := [.byte b]

/-- DataOutputStream.java:40-42 `writeBoolean`. -/
def writeBoolean (b : Bool) : List Out := writeByte (if b then 1 else 0)

/-- DataOutputStream.java:48-51 `writeShort`. -/
def writeShort (s : BitVec 32) : List Out := [.byte (castByte (s.sshiftRight 8)), .byte (castByte s)]

/-- DataOutputStream.java:53-58 `writeInt`. -/
def writeInt (i : BitVec 32) : List Out :=
  [.byte (castByte (i.sshiftRight 24)), .byte (castByte (i.sshiftRight 16)), .byte (castByte (i.sshiftRight 8)), .byte (castByte i)]

/-- The argument of `write((byte) x)` as an int, for a long. -/
def castLong (x : BitVec 64) : BitVec 32 := (x.setWidth 8).signExtend 32

/-- DataOutputStream.java:68-77 `writeLong`. -/
def writeLong (l : BitVec 64) : List Out :=
  [.byte (castLong (l.sshiftRight 56)), .byte (castLong (l.sshiftRight 48)), .byte (castLong (l.sshiftRight 40)),
   .byte (castLong (l.sshiftRight 32)), .byte (castLong (l.sshiftRight 24)), .byte (castLong (l.sshiftRight 16)),
   .byte (castLong (l.sshiftRight 8)), .byte (castLong l)]

/-- DataOutputStream.java:79-82 `writeChar`. -/
def writeChar (ch : BitVec 32) : List Out := [.byte (castByte (ch.sshiftRight 8)), .byte (castByte ch)]

/-- DataOutputStream.java:84-88 `writeChars`. -/
def writeChars (s : List Nat) : List Out := s.flatMap fun ch => writeChar (BitVec.ofNat 32 ch &&& 0xFFFF#32)

/-- DataOutputStream.java:94-98 `writeUTF`: `getBytes("UTF-8")` is `Utf8.encode` (C58). -/
def writeUTF (s : List Nat) : List Out :=
  let bytes := (JUtf8.encode s).map (BitVec.ofNat 8)
  writeShort (((BitVec.ofNat 32 bytes.length).setWidth 16).signExtend 32) ++ [.array bytes]

/-- DataOutputStream.java:60-62 `writeFloat`, for a float with the bits `f`. -/
def writeFloat (f : BitVec 32) : List Out := writeInt f

/-- DataOutputStream.java:64-66 `writeDouble`, for a double with the bits `d`. -/
def writeDouble (d : BitVec 64) : List Out := writeLong d

/-- How a call of a data input stream can fail. -/
inductive Err where
  /-- EOFException -/
  | eof
  /-- an exception of the stream behind -/
  | behind (e : Exn)
  /-- what is not UTF-8 -/
  | text (e : JUtf8.Bad)
  deriving DecidableEq

/-- DataInputStream.java:51-57 `read0`; the stream behind gives `b & 0xFF` (BufferedInputStream.java:42). -/
def read0 (s : Buf Byte) : Except Err (BitVec 32 × Buf Byte) :=
  match InStreams.read s with
  | .error e => .error (.behind e)
  | .ok (none, _) => .error .eof
  | .ok (some b, s) => .ok (b.signExtend 32 &&& 0xFF#32, s)

/-- DataInputStream.java:59-61 `readBoolean`. -/
def readBoolean (s : Buf Byte) : Except Err (Bool × Buf Byte) := (read0 s).bind fun r => .ok (r.1 != 0, r.2)

/-- DataInputStream.java:63-65 `readByte`. -/
def readByte (s : Buf Byte) : Except Err (BitVec 8 × Buf Byte) := (read0 s).bind fun r => .ok (r.1.setWidth 8, r.2)

/-- DataInputStream.java:67-69 `readShort`. -/
def readShort (s : Buf Byte) : Except Err (BitVec 16 × Buf Byte) :=
  (read0 s).bind fun a => (read0 a.2).bind fun b => .ok (((a.1 <<< 8) ||| b.1).setWidth 16, b.2)

/-- DataInputStream.java:71-73 `readInt`. -/
def readInt (s : Buf Byte) : Except Err (BitVec 32 × Buf Byte) :=
  (read0 s).bind fun a => (read0 a.2).bind fun b => (read0 b.2).bind fun c => (read0 c.2).bind fun d =>
  .ok ((a.1 <<< 24) ||| (b.1 <<< 16) ||| (c.1 <<< 8) ||| d.1, d.2)

/-- DataInputStream.java:83-85 `readLong`. -/
def readLong (s : Buf Byte) : Except Err (BitVec 64 × Buf Byte) :=
  (readInt s).bind fun a => (readInt a.2).bind fun b =>
  .ok (((a.1.signExtend 64 &&& 0xFFFFFFFF#64) <<< 32) ||| (b.1.signExtend 64 &&& 0xFFFFFFFF#64), b.2)

/-- DataInputStream.java:87-89 `readChar`. -/
def readChar (s : Buf Byte) : Except Err (BitVec 16 × Buf Byte) := readShort s

/-- DataInputStream.java:91-93 `readUnsignedByte`. -/
def readUnsignedByte (s : Buf Byte) : Except Err (BitVec 32 × Buf Byte) :=
  (readByte s).bind fun r => .ok (r.1.signExtend 32 &&& 0xFF#32, r.2)

/-- DataInputStream.java:95-97 `readUnsignedShort`. -/
def readUnsignedShort (s : Buf Byte) : Except Err (BitVec 32 × Buf Byte) :=
  (readShort s).bind fun r => .ok (r.1.signExtend 32 &&& 0xFFFF#32, r.2)

/-- DataInputStream.java:37-44: the loop of `readFully`; `n` bounds the number of rounds. -/
def fullyLoop : Nat → Buf Byte → List Byte → Int → Int → Except Err (List Byte × Buf Byte)
  | 0, s, b, _, _ => .ok (b, s)
  | n + 1, s, b, offset, length =>
    if length > 0 then
      match InStreams.readArray s b offset length with
      | .error e => .error (.behind e)
      | .ok (count, b, s) => if count < 0 then .error .eof else fullyLoop n s b (offset + count) (length - count)
    else .ok (b, s)

/-- DataInputStream.java:36-45 `readFully`. -/
def readFully (s : Buf Byte) (b : List Byte) (offset length : Int) : Except Err (List Byte × Buf Byte) :=
  fullyLoop (length.toNat + 1) s b offset length

/-- DataInputStream.java:99-104 `readUTF`: the chars of the string. -/
def readUTF (s : Buf Byte) : Except Err (List Nat × Buf Byte) :=
  (readUnsignedShort s).bind fun r =>
  (readFully r.2 (List.replicate r.1.toNat 0) 0 r.1.toNat).bind fun q =>
  match JUtf8.decode (q.1.map BitVec.toNat) with
  | .ok t => .ok (t.data, q.2)
  | .error e => .error (.text e)

/-- DataInputStream.java:115-121: the loop of `readLine`; `n` bounds the number of rounds. -/
def lineLoop : Nat → Buf Byte → List Nat → Nat → Except Err (List Nat × Buf Byte)
  | 0, s, builder, _ => .ok (builder, s)
  | n + 1, s, builder, c =>
    match InStreams.read s with
    | .error e => .error (.behind e)
    | .ok (none, s) => .ok (builder ++ [c], s)
    | .ok (some d, s) => if d.toNat = 10 then .ok (builder ++ [c], s) else lineLoop n s (builder ++ [c]) d.toNat

/-- DataInputStream.java:107-122 `readLine`; `n` bounds the number of rounds. -/
def readLine (n : Nat) (s : Buf Byte) : Except Err (Option (List Nat) × Buf Byte) :=
  match InStreams.read s with
  | .error e => .error (.behind e)
  | .ok (none, s) => .ok (none, s)
  | .ok (some c, s) =>
    if c.toNat = 10 then .ok (some [], s) else (lineLoop n s [] c.toNat).bind fun r => .ok (some r.1, r.2)

/-- DataInputStream.java:125-130: the loop of `skipBytes`, with `n - count` bytes to skip. -/
def skipLoop : Nat → Buf Byte → Nat → Except Err (Nat × Buf Byte)
  | 0, s, count => .ok (count, s)
  | m + 1, s, count =>
    match InStreams.read s with
    | .error e => .error (.behind e)
    | .ok (none, s) => .ok (count, s)
    | .ok (some _, s) => skipLoop m s (count + 1)

/-- DataInputStream.java:124-131 `skipBytes`. -/
def skipBytes (s : Buf Byte) (n : Int) : Except Err (Int × Buf Byte) :=
  if n ≤ 0 then .ok (n, s) else (skipLoop n.toNat s 0).bind fun r => .ok (r.1, r.2)

/-- The bits of the floating point number nearest to `n`, with `p` bits of fraction and the given bias of the exponent: the
    conversion of integers to `float` (p = 23, bias 127) and `double` (p = 52, bias 1023), without the sign. -/
def natToFloat (p bias n : Nat) : Nat :=
  if n = 0 then 0
  else
    let e := n.log2
    if e ≤ p then (e + bias) * 2 ^ p + (n * 2 ^ (p - e) - 2 ^ p)
    else
      let q := n / 2 ^ (e - p)
      let r := n % 2 ^ (e - p)
      let half := 2 ^ (e - p - 1)
      let q := if r > half ∨ (r = half ∧ q % 2 = 1) then q + 1 else q
      (e + bias) * 2 ^ p + (q - 2 ^ p)

/-- The bits of `(float) i`. -/
def intToFloat (i : BitVec 32) : BitVec 32 :=
  if i.toInt < 0 then BitVec.ofNat 32 (2 ^ 31 + natToFloat 23 127 i.toInt.natAbs) else BitVec.ofNat 32 (natToFloat 23 127 i.toNat)

/-- The bits of `(double) l`. -/
def longToDouble (l : BitVec 64) : BitVec 64 :=
  if l.toInt < 0 then BitVec.ofNat 64 (2 ^ 63 + natToFloat 52 1023 l.toInt.natAbs) else BitVec.ofNat 64 (natToFloat 52 1023 l.toNat)

/-- DataInputStream.java:75-77 `readFloat`: the bits of its result.  `Float.floatToIntBits(readInt())` converts the int to a
    float and gives the bits of that as an int, which is converted to a float again. -/
def readFloat (s : Buf Byte) : Except Err (BitVec 32 × Buf Byte) :=
  (readInt s).bind fun r => .ok (intToFloat (intToFloat r.1), r.2)

/-- DataInputStream.java:79-81 `readDouble`, likewise. -/
def readDouble (s : Buf Byte) : Except Err (BitVec 64 × Buf Byte) :=
  (readLong s).bind fun r => .ok (longToDouble (longToDouble r.1), r.2)

end Avian.DataStreams
