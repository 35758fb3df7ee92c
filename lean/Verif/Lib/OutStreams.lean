import Verif.Lib.ArrayList

/-
Output streams: classpath/java/io/ByteArrayOutputStream.java, BufferedOutputStream.java.

Fewer than 2^31 bytes are written and memory does not run out.  A method gives the state after it and the exception it ended
with, if any.
-/
namespace Avian.OutStreams

open ArrayList (Exn copy wrap)

abbrev Byte := BitVec 8

/-- `new byte[n]` -/
def newBytes (n : Int) : Except Exn (List Byte) :=
  if n < 0 then .error .negativeArraySize else .ok (List.replicate n.toNat 0)

/-- `array[i] = v` -/
def storeByte (a : List Byte) (i : Int) (v : Byte) : Except Exn (List Byte) :=
  if 0 ≤ i ∧ i < a.length then .ok (a.set i.toNat v) else .error .indexOutOfBounds

/-! ### Byte arrays -/

/-- ByteArrayOutputStream.java:136-147. -/
structure Cell where
  array : List Byte
  offset : Int
  length : Int
  deriving DecidableEq

/-- ByteArrayOutputStream.java:16-20.  `cells` are the cells from `firstCell` to `curCell`. -/
structure Baos where
  cells : List Cell
  length : Int
  buffer : Option (List Byte)
  position : Int
  deriving DecidableEq

/-- ByteArrayOutputStream.java:28-34 `reset`, also the state after the constructor. -/
def reset : Baos := ⟨[], 0, none, 0⟩

/-- ByteArrayOutputStream.java:36-38 `size`. -/
def size (s : Baos) : Int := s.length

/-- ByteArrayOutputStream.java:80-88 `chainCell`. -/
def chainCell (s : Baos) (c : Cell) : Baos := { s with cells := s.cells ++ [c] }

/-- ByteArrayOutputStream.java:90-99 `flushBuffer`; `null` stands for an empty array here, which is not read because `position`
    is then 0. -/
def flushBuffer (s : Baos) : Baos :=
  if s.position > 0 then
    chainCell { s with buffer := none, position := 0 } ⟨s.buffer.getD [], 0, s.position⟩
  else s

/-- ByteArrayOutputStream.java:41-46: the buffer in which `write(int)` stores. -/
def room (s : Baos) : Baos × List Byte :=
  match s.buffer with
  | none => (s, List.replicate 32 0)
  | some b => if s.position ≥ b.length then (flushBuffer s, List.replicate 32 0) else (s, b)

/-- ByteArrayOutputStream.java:40-50 `write(int)`. -/
def write (s : Baos) (c : BitVec 32) : Baos × Option Exn :=
  match storeByte (room s).2 (room s).1.position (BitVec.setWidth 8 (c &&& 0xFF#32)) with
  | .ok b => ({ (room s).1 with buffer := some b, position := (room s).1.position + 1, length := (room s).1.length + 1 }, none)
  | .error e => ({ (room s).1 with buffer := some (room s).2 }, some e)

/-- ByteArrayOutputStream.java:52-56 `copy`. -/
def copyOf (b : List Byte) (offset length : Int) : Except Exn (List Byte) :=
  (newBytes length).bind fun a => copy b a offset 0 length

/-- ByteArrayOutputStream.java:72-78: the bytes become a cell of their own. -/
def writeCell (s : Baos) (b : List Byte) (offset length : Int) : Baos × Option Exn :=
  match copyOf b offset length with
  | .ok a => ({ chainCell (flushBuffer s) ⟨a, 0, length⟩ with length := s.length + length }, none)
  | .error e => (flushBuffer s, some e)

/-- ByteArrayOutputStream.java:58-78 `write(byte[], int, int)`; the array is not null. -/
def writeAll (s : Baos) (b : List Byte) (offset length : Int) : Baos × Option Exn :=
  if offset < 0 ∨ wrap (offset + length) > b.length then (s, some .indexOutOfBounds)
  else if length = 0 then (s, none)
  else
    match s.buffer with
    | none => writeCell s b offset length
    | some buf =>
      if length ≤ buf.length - s.position then
        match copy b buf offset s.position length with
        | .ok buf => ({ s with buffer := some buf, position := s.position + length, length := s.length + length }, none)
        | .error e => (s, some e)
      else writeCell s b offset length

/-- ByteArrayOutputStream.java:106-109: the loop of `toByteArray`. -/
def gather : List Cell → List Byte → Int → Except Exn (List Byte)
  | [], array, _ => .ok array
  | c :: cs, array, pos => (copy c.array array c.offset pos c.length).bind fun array => gather cs array (pos + c.length)

/-- ByteArrayOutputStream.java:101-111 `toByteArray`. -/
def toByteArray (s : Baos) : Baos × Except Exn (List Byte) :=
  (flushBuffer s, (newBytes s.length).bind fun array => gather (flushBuffer s).cells array 0)

/-! ### A stream that keeps what it is given -/

/-- The stream a buffered stream writes to: the bytes it was given and how often it was flushed.  Writing a part that is not
    within the array is refused. -/
structure Sink where
  bytes : List Byte
  flushes : Nat
  deriving DecidableEq

/-- OutputStream.java:14-26. -/
def sinkWrite (o : Sink) (b : List Byte) (offset length : Int) : Sink × Option Exn :=
  if 0 ≤ offset ∧ 0 ≤ length ∧ offset + length ≤ b.length then
    ({ o with bytes := o.bytes ++ (b.drop offset.toNat).take length.toNat }, none)
  else (o, some .indexOutOfBounds)

/-- ByteArrayOutputStream.java:122-124: the loop of `writeTo`. -/
def writeCells : List Cell → Sink → Sink × Option Exn
  | [], o => (o, none)
  | c :: cs, o =>
    match sinkWrite o c.array c.offset c.length with
    | (o, none) => writeCells cs o
    | (o, some e) => (o, some e)

/-- ByteArrayOutputStream.java:113-125 `writeTo`; the stream is not null. -/
def writeTo (s : Baos) (o : Sink) : Baos × Sink × Option Exn :=
  if s.length = 0 then (s, o, none) else (flushBuffer s, writeCells (flushBuffer s).cells o)

/-! ### Buffered streams -/

/-- BufferedOutputStream.java:14-16. -/
structure Bos where
  out : Sink
  buffer : List Byte
  position : Int
  deriving DecidableEq

/-- BufferedOutputStream.java:18-21. -/
def newBos (out : Sink) (size : Int) : Except Exn Bos := (newBytes size).bind fun b => .ok ⟨out, b, 0⟩

/-- BufferedOutputStream.java:27-32 `drain`. -/
def drain (s : Bos) : Bos × Option Exn :=
  if s.position > 0 then
    match sinkWrite s.out s.buffer 0 s.position with
    | (o, none) => ({ s with out := o, position := 0 }, none)
    | (o, some e) => ({ s with out := o }, some e)
  else (s, none)

/-- BufferedOutputStream.java:39. -/
def put (s : Bos) (c : BitVec 32) : Bos × Option Exn :=
  match storeByte s.buffer s.position (BitVec.setWidth 8 (c &&& 0xFF#32)) with
  | .ok b => ({ s with buffer := b, position := s.position + 1 }, none)
  | .error e => ({ s with position := s.position + 1 }, some e)

/-- BufferedOutputStream.java:34-40 `write(int)`. -/
def bosWrite (s : Bos) (c : BitVec 32) : Bos × Option Exn :=
  if s.position ≥ s.buffer.length then
    match drain s with
    | (s, none) => put s c
    | (s, some e) => (s, some e)
  else put s c

/-- BufferedOutputStream.java:45: writing past the buffer. -/
def pass (s : Bos) (b : List Byte) (offset length : Int) : Bos × Option Exn :=
  match sinkWrite s.out b offset length with
  | (o, e) => ({ s with out := o }, e)

/-- BufferedOutputStream.java:42-50 `write(byte[], int, int)`. -/
def bosWriteAll (s : Bos) (b : List Byte) (offset length : Int) : Bos × Option Exn :=
  if length > s.buffer.length - s.position then
    match drain s with
    | (s, none) => pass s b offset length
    | (s, some e) => (s, some e)
  else
    match copy b s.buffer offset s.position length with
    | .ok buf => ({ s with buffer := buf, position := s.position + length }, none)
    | .error e => (s, some e)

/-- BufferedOutputStream.java:52-55 `flush`. -/
def bosFlush (s : Bos) : Bos × Option Exn :=
  match drain s with
  | (s, none) => ({ s with out := { s.out with flushes := s.out.flushes + 1 } }, none)
  | (s, some e) => (s, some e)

end Avian.OutStreams
