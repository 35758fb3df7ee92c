import Verif.Lib.Outcome

/-
Byte buffers (classpath/java/nio/Buffer.java, ByteBuffer.java, ArrayByteBuffer.java, DirectByteBuffer.java, FixedArrayByteBuffer.java).

The bytes behind a buffer are a list: those of the array of an `ArrayByteBuffer`, or those of the memory reserved for a direct buffer
(FixedArrayByteBuffer.java:28-32).  Addresses of a direct buffer count from the begin of this memory.  Floating point values are their bits.
What was written before an exception is thrown is not modelled.
-/
namespace Avian.ByteBuf

abbrev Byte := BitVec 8

inductive Exn where
  | readOnly
  | index
  | overflow
  | underflow
  | arrayIndex
  /-- No exception: `Unsafe` accesses memory outside of what was reserved, or copies between overlapping places with `memcpy`. -/
  | undef
  deriving DecidableEq

/-- Arithmetic of `int`. -/
def wrap (i : Int) : Int := (i + 2147483648) % 4294967296 - 2147483648

/-- Buffer.java:14-17, ArrayByteBuffer.java:14-15, DirectByteBuffer.java:19: the fields of a buffer. -/
structure Buf where
  direct : Bool
  off : Int
  cap : Int
  lim : Int
  pos : Int
  ro : Bool
  deriving DecidableEq

/-- ByteBuffer.java:22-24 and ArrayByteBuffer.java:17-25: what `allocate` gives. -/
def allocate (capacity : Nat) : List Byte × Buf := (List.replicate capacity 0, ⟨false, 0, capacity, capacity, 0, false⟩)

/-- ByteBuffer.java:26-28, FixedArrayByteBuffer.java:28-32, DirectByteBuffer.java:21-28: what `allocateDirect` gives. -/
def allocateDirect (capacity : Nat) : List Byte × Buf := (List.replicate capacity 0, ⟨true, 0, capacity, capacity, 0, false⟩)

/-- ByteBuffer.java:34-36 `wrap`. -/
def wrapArray (offset length : Int) : Buf := ⟨false, offset, length, length, 0, false⟩

/-- Buffer.java:23-25 `remaining`. -/
def Buf.remaining (b : Buf) : Int := wrap (b.lim - b.pos)

/-- Buffer.java:49-53 `clear`. -/
def Buf.clear (b : Buf) : Buf := { b with pos := 0, lim := b.cap }

/-- Buffer.java:55-59 `flip`. -/
def Buf.flip (b : Buf) : Buf := { b with lim := b.pos, pos := 0 }

/-- Buffer.java:61-64 `rewind`. -/
def Buf.rewind (b : Buf) : Buf := { b with pos := 0 }

/-- ArrayByteBuffer.java:42-45, DirectByteBuffer.java:37-39, FixedArrayByteBuffer.java:44-47 `slice`. -/
def Buf.slice (b : Buf) : Buf :=
  ⟨b.direct, if b.direct then b.off + b.pos else wrap (b.off + b.pos), b.remaining, b.remaining, 0, true⟩

/-- ArrayByteBuffer.java:93-99, DirectByteBuffer.java:98-104 `duplicate`. -/
def Buf.duplicate (b : Buf) : Buf := ⟨b.direct, b.off, b.cap, b.lim, b.pos, b.ro⟩

/-- ArrayByteBuffer.java:27-32, DirectByteBuffer.java:30-35 `asReadOnlyBuffer`. -/
def Buf.asReadOnly (b : Buf) : Buf := ⟨b.direct, b.off, b.cap, b.lim, b.pos, true⟩

/-- ByteBuffer.java:309-319 `checkPut`. -/
def checkPut (b : Buf) (position amount : Int) (absolute : Bool) : Except Exn Unit :=
  if b.ro then .error .readOnly
  else if position < 0 ∨ wrap (position + amount) > b.lim then .error (if absolute then .index else .overflow)
  else .ok ()

/-- ByteBuffer.java:321-327 `checkGet`. -/
def checkGet (b : Buf) (position amount : Int) (absolute : Bool) : Except Exn Unit :=
  if amount > wrap (b.lim - position) then .error (if absolute then .index else .underflow) else .ok ()

/-- ArrayByteBuffer.java:52, 82 and DirectByteBuffer.java:42, 95: the place of a byte; the address of a direct buffer is a `long`. -/
def place (b : Buf) (p : Int) : Int := if b.direct then b.off + p else wrap (b.off + p)

/-- ArrayByteBuffer.java:51-53, DirectByteBuffer.java:41-43 `doPut`. -/
def store (mem : List Byte) (b : Buf) (p : Int) (v : Byte) : Except Exn (List Byte) :=
  if 0 ≤ place b p ∧ place b p < mem.length then .ok (mem.set (place b p).toNat v)
  else .error (if b.direct then .undef else .arrayIndex)

/-- ArrayByteBuffer.java:81-83, DirectByteBuffer.java:94-96 `doGet`. -/
def load (mem : List Byte) (b : Buf) (p : Int) : Except Exn Byte :=
  if 0 ≤ place b p ∧ place b p < mem.length then .ok (mem.getD (place b p).toNat 0)
  else .error (if b.direct then .undef else .arrayIndex)

/-- ByteBuffer.java:127-148: bytes at one position after the other. -/
def storeAll (mem : List Byte) (b : Buf) (p : Int) : List Byte → Except Exn (List Byte)
  | [] => .ok mem
  | x :: xs => (store mem b p x).bind fun mem => storeAll mem b (wrap (p + 1)) xs

/-- ByteBuffer.java:254-275: the bytes at one position after the other. -/
def loadAll (mem : List Byte) (b : Buf) (p : Int) : Nat → Except Exn (List Byte)
  | 0 => .ok []
  | n + 1 => (load mem b p).bind fun x => (loadAll mem b (wrap (p + 1)) n).map (x :: ·)

inductive Kind where
  | byte
  | short
  | int
  | long
  deriving DecidableEq

/-- The amounts given to `checkPut` and `checkGet` (ByteBuffer.java:111, 159, 167, 175, 215, 237, 243, 249). -/
def Kind.size' : Kind → Nat
  | .byte => 1
  | .short => 2
  | .int => 4
  | .long => 8

inductive Val where
  | byte (v : BitVec 8)
  | short (v : BitVec 16)
  | int (v : BitVec 32)
  | long (v : BitVec 64)
  deriving DecidableEq

def Val.kind : Val → Kind
  | .byte _ => .byte
  | .short _ => .short
  | .int _ => .int
  | .long _ => .long

/-- ByteBuffer.java:128-135: `(byte) ((val >> s) & 0xff)`. -/
def byteOf {w : Nat} (v : BitVec w) (s : Nat) : Byte := ((v.sshiftRight s) &&& BitVec.ofNat w 255).setWidth 8

/-- ByteBuffer.java:112, 127-148: the bytes written for a value. -/
def Val.bytes : Val → List Byte
  | .byte v => [v]
  | .short v => [byteOf v 8, byteOf v 0]
  | .int v => [byteOf v 24, byteOf v 16, byteOf v 8, byteOf v 0]
  | .long v => [byteOf v 56, byteOf v 48, byteOf v 40, byteOf v 32, byteOf v 24, byteOf v 16, byteOf v 8, byteOf v 0]

/-- `(doGet(position) & 0xFF) << s`. -/
def part (w : Nat) (x : Byte) (s : Nat) : BitVec w := x.setWidth w <<< s

/-- ByteBuffer.java:254-275 and 216: the value of the bytes read. -/
def Kind.value : Kind → List Byte → Val
  | .byte, [a] => .byte a
  | .short, [a, b] => .short (part 16 a 8 ||| part 16 b 0)
  | .int, [a, b, c, d] => .int (part 32 a 24 ||| part 32 b 16 ||| part 32 c 8 ||| part 32 d 0)
  | .long, [a, b, c, d, e, f, g, h] =>
    .long (part 64 a 56 ||| part 64 b 48 ||| part 64 c 40 ||| part 64 d 32 ||| part 64 e 24 ||| part 64 f 16 ||| part 64 g 8 ||| part 64 h 0)
  | _, _ => .byte 0

/-- ByteBuffer.java:116-121, 182-212: `put`, `putShort`, `putInt`, `putLong` at the position. -/
def put (mem : List Byte) (b : Buf) (v : Val) : Except Exn (List Byte × Buf) :=
  (checkPut b b.pos v.kind.size' false).bind fun _ =>
    (storeAll mem b b.pos v.bytes).map fun mem => (mem, { b with pos := wrap (b.pos + v.kind.size') })

/-- ByteBuffer.java:110-114, 150-180: the same at a given position. -/
def putAt (mem : List Byte) (b : Buf) (p : Int) (v : Val) : Except Exn (List Byte) :=
  (checkPut b p v.kind.size' true).bind fun _ => storeAll mem b p v.bytes

/-- ByteBuffer.java:214-217, 277-307: `get`, `getShort`, `getInt`, `getLong` at the position. -/
def get (mem : List Byte) (b : Buf) (k : Kind) : Except Exn (Val × Buf) :=
  (checkGet b b.pos k.size' false).bind fun _ =>
    (loadAll mem b b.pos k.size').map fun l => (k.value l, { b with pos := wrap (b.pos + k.size') })

/-- ByteBuffer.java:219-222, 228-252: the same at a given position. -/
def getAt (mem : List Byte) (b : Buf) (p : Int) (k : Kind) : Except Exn Val :=
  (checkGet b p k.size' true).bind fun _ => (loadAll mem b p k.size').map k.value

/-- `n` bytes of `src` from `s` on, written over those of `dst` from `d` on. -/
def splice (src : List Byte) (s : Nat) (dst : List Byte) (d n : Nat) : List Byte := dst.take d ++ (src.drop s).take n ++ dst.drop (d + n)

/-- `System.arraycopy` for arrays of bytes (classpath-common.h:68-120), by what it does (C68). -/
def arraycopy (src : List Byte) (s : Int) (dst : List Byte) (d n : Int) : Except Exn (List Byte) :=
  if n > 0 then
    if 0 ≤ s ∧ s + n ≤ src.length ∧ 0 ≤ d ∧ d + n ≤ dst.length then .ok (splice src s.toNat dst d.toNat n.toNat) else .error .index
  else if n < 0 then .error .index
  else .ok dst

/-- builtin.cpp:779-803 `copyMemory`: `memcpy`, between different places (`same = false`) or within one.  A negative count is a huge one. -/
def copyMemory (src : List Byte) (s : Int) (dst : List Byte) (d n : Int) (same : Bool) : Except Exn (List Byte) :=
  if n = 0 then .ok dst
  else if 0 < n ∧ 0 ≤ s ∧ s + n ≤ src.length ∧ 0 ≤ d ∧ d + n ≤ dst.length ∧ (same = true → s + n ≤ d ∨ d + n ≤ s) then
    .ok (splice src s.toNat dst d.toNat n.toNat)
  else .error .undef

/-- ArrayByteBuffer.java:63-70, DirectByteBuffer.java:64-77 `put(byte[], int, int)`; the array is not that of the buffer. -/
def putArray (mem : List Byte) (b : Buf) (src : List Byte) (offset length : Int) : Except Exn (List Byte × Buf) :=
  if b.direct then
    if offset < 0 ∨ wrap (offset + length) > src.length then .error .arrayIndex
    else
      (checkPut b b.pos length false).bind fun _ =>
        (copyMemory src offset mem (b.off + b.pos) length false).map fun mem => (mem, { b with pos := wrap (b.pos + length) })
  else
    (checkPut b b.pos length false).bind fun _ =>
      (arraycopy src offset mem (wrap (b.off + b.pos)) length).map fun mem => (mem, { b with pos := wrap (b.pos + length) })

/-- ArrayByteBuffer.java:72-79, DirectByteBuffer.java:79-92 `get(byte[], int, int)`: what is then in the array. -/
def getArray (mem : List Byte) (b : Buf) (dst : List Byte) (offset length : Int) : Except Exn (List Byte × Buf) :=
  if b.direct then
    if offset < 0 ∨ wrap (offset + length) > dst.length then .error .arrayIndex
    else
      (checkGet b b.pos length false).bind fun _ =>
        (copyMemory mem (b.off + b.pos) dst offset length false).map fun dst => (dst, b)
  else
    (checkGet b b.pos length false).bind fun _ =>
      (arraycopy mem (wrap (b.off + b.pos)) dst offset length).map fun dst => (dst, { b with pos := wrap (b.pos + length) })

/-- ArrayByteBuffer.java:55-61, DirectByteBuffer.java:45-62 `put(ByteBuffer)` with a buffer of the same kind on the same bytes: what is
then behind the buffer, and the buffer. -/
def putSame (mem : List Byte) (b src : Buf) : Except Exn (List Byte × Buf) :=
  (checkPut b b.pos src.remaining false).bind fun _ =>
    if b.direct then
      (copyMemory mem (src.off + src.pos) mem (b.off + b.pos) src.remaining true).map fun mem =>
        (mem, { b with pos := wrap (b.pos + src.remaining) })
    else
      (checkGet src src.pos src.remaining false).bind fun _ =>
        (arraycopy mem (wrap (src.off + src.pos)) mem (wrap (b.off + b.pos)) src.remaining).map fun mem =>
          (mem, { b with pos := wrap (b.pos + src.remaining) })

/-- ByteBuffer.java:56-69 `compact`. -/
def compact (mem : List Byte) (b : Buf) : Except Exn (List Byte × Buf) :=
  if b.pos ≠ 0 then
    (putSame mem { b with pos := 0 } b.slice).map fun (mem, b') => (mem, { b' with pos := b.remaining, lim := b.cap })
  else .ok (mem, { b with pos := b.remaining, lim := b.cap })

/-- ByteBuffer.java:89-94: the loop of `compareTo`, with `n` bytes to go. -/
def compareLoop (m1 : List Byte) (a : Buf) (m2 : List Byte) (o : Buf) (i : Int) : Nat → Except Exn Int
  | 0 => .ok (wrap (a.remaining - o.remaining))
  | n + 1 =>
    (getAt m1 a (wrap (a.pos + i)) .byte).bind fun x =>
      (getAt m2 o (wrap (o.pos + i)) .byte).bind fun y =>
        match x, y with
        | .byte x, .byte y => if x.toInt - y.toInt ≠ 0 then .ok (x.toInt - y.toInt) else compareLoop m1 a m2 o (i + 1) n
        | _, _ => .ok 0

/-- ByteBuffer.java:86-96 `compareTo`. -/
def compareTo (m1 : List Byte) (a : Buf) (m2 : List Byte) (o : Buf) : Except Exn Int :=
  compareLoop m1 a m2 o 0 (if a.remaining < o.remaining then a.remaining else o.remaining).toNat

/-- ByteBuffer.java:98-100 `equals`, with a buffer. -/
def equals (m1 : List Byte) (a : Buf) (m2 : List Byte) (o : Buf) : Except Exn Bool := (compareTo m1 a m2 o).map (· == 0)

end Avian.ByteBuf
