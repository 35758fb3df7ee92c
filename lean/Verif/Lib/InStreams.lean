import Verif.Lib.ArrayList

/-
Input streams and readers: classpath/java/io/BufferedInputStream.java, BufferedReader.java, PushbackReader.java,
ByteArrayInputStream.java, StringReader.java, InputStream.java (skip), Reader.java (read).

The elements are bytes or chars.  A read gives -1 or how many elements it stored.
-/
namespace Avian.InStreams

open ArrayList (Exn copy)

variable {A : Type}

/-! ### The stream behind -/

/-- A stream that still has the elements `rest`.  How many elements a read gives (at least one, if one is asked for and there
    is one) and what `available` says is up to the stream: `chunk` and `avail` give it for every point in time. -/
structure Src (A : Type) where
  rest : List A
  chunk : Nat → Nat
  avail : Nat → Int
  clock : Nat

/-- The documented behaviour of `read(array, offset, length)` (InputStream.java:20-34, Reader.java:41-42). -/
def Src.read (s : Src A) (b : List A) (offset length : Int) : Except Exn (Int × List A × Src A) :=
  if offset < 0 ∨ length < 0 ∨ offset + length > b.length then .error .indexOutOfBounds
  else if length = 0 then .ok (0, b, { s with clock := s.clock + 1 })
  else
    match s.rest with
    | [] => .ok (-1, b, { s with clock := s.clock + 1 })
    | _ :: _ =>
      let n := min (min length.toNat s.rest.length) (s.chunk s.clock + 1)
      .ok (n, b.take offset.toNat ++ s.rest.take n ++ b.drop (offset.toNat + n),
        { s with rest := s.rest.drop n, clock := s.clock + 1 })

/-- `available()` -/
def Src.available (s : Src A) : Int × Src A := (s.avail s.clock, { s with clock := s.clock + 1 })

/-- `array[i]` -/
def load (a : List A) (i : Int) : Except Exn A :=
  if 0 ≤ i then
    match a[i.toNat]? with
    | some v => .ok v
    | none => .error .indexOutOfBounds
  else .error .indexOutOfBounds

/-! ### Buffered streams -/

/-- BufferedInputStream.java:16-19, BufferedReader.java:14-17. -/
structure Buf (A : Type) where
  src : Src A
  buffer : List A
  position : Int
  limit : Int

/-- BufferedInputStream.java:21-24, BufferedReader.java:19-22; `zero` is the element an array is filled with. -/
def new (src : Src A) (zero : A) (size : Int) : Except Exn (Buf A) :=
  if size < 0 then .error .negativeArraySize else .ok ⟨src, List.replicate size.toNat zero, 0, 0⟩

/-- BufferedInputStream.java:30-35 `fill`, BufferedReader.java:28-31. -/
def fill (s : Buf A) : Except Exn (Buf A) :=
  (s.src.read s.buffer 0 s.buffer.length).bind fun r => .ok ⟨r.2.2, r.2.1, 0, r.1⟩

/-- BufferedInputStream.java:38, 47: `position >= limit && fill() == -1`. -/
def ended (s : Buf A) : Except Exn (Bool × Buf A) :=
  if s.position ≥ s.limit then (fill s).bind fun s => .ok (s.limit == -1, s) else .ok (false, s)

/-- BufferedInputStream.java:37-43 `read()`; `none` is -1. -/
def read (s : Buf A) : Except Exn (Option A × Buf A) :=
  (ended s).bind fun r =>
  match r with
  | (true, s) => .ok (none, s)
  | (false, s) => (load s.buffer s.position).bind fun c => .ok (some c, { s with position := s.position + 1 })

/-- What a read of an array works on: `offset`, `length` and `count` of BufferedInputStream.java:45-46. -/
structure Job (A : Type) where
  b : List A
  offset : Int
  length : Int
  count : Int

/-- BufferedInputStream.java:50-62, BufferedReader.java:70-82: elements are taken from the buffer. -/
def takeBuffered (s : Buf A) (j : Job A) : Except Exn (Buf A × Job A) :=
  if s.position < s.limit then
    let remaining := if s.limit - s.position > j.length then j.length else s.limit - s.position
    (copy s.buffer j.b s.position j.offset remaining).bind fun b =>
    .ok ({ s with position := s.position + remaining },
      ⟨b, j.offset + remaining, j.length - remaining, j.count + remaining⟩)
  else .ok (s, j)

/-- BufferedInputStream.java:63-76: the loop; `n` bounds the number of rounds. -/
def readLoop : Nat → Buf A → Job A → Except Exn (Int × List A × Buf A)
  | 0, s, j => .ok (j.count, j.b, s)
  | n + 1, s, j =>
    if j.length > 0 then
      let a := s.src.available
      if a.1 > 0 then
        (a.2.read j.b j.offset j.length).bind fun r =>
        if r.1 = -1 then .ok (if j.count = 0 then -1 else j.count, r.2.1, { s with src := r.2.2 })
        else readLoop n { s with src := r.2.2 } ⟨r.2.1, j.offset + r.1, j.length - r.1, j.count + r.1⟩
      else .ok (j.count, j.b, { s with src := a.2 })
    else .ok (j.count, j.b, s)

/-- BufferedInputStream.java:45-78 `read(byte[], int, int)`. -/
def readArray (s : Buf A) (b : List A) (offset length : Int) : Except Exn (Int × List A × Buf A) :=
  (ended s).bind fun r =>
  match r with
  | (true, s) => .ok (-1, b, s)
  | (false, s) => (takeBuffered s ⟨b, offset, length, 0⟩).bind fun r => readLoop (length.toNat + 1) r.1 r.2

/-- BufferedInputStream.java:80-82 `available`. -/
def available (s : Buf A) : Int × Buf A :=
  let a := s.src.available
  (a.1 + (s.limit - s.position), { s with src := a.2 })

/-- InputStream.java:42-46: the loop of `skip`; `n` bounds the number of rounds. -/
def skipLoop (size : Int) : Nat → Buf A → List A → Int → Except Exn (Int × Buf A)
  | 0, s, _, remaining => .ok (remaining, s)
  | n + 1, s, buffer, remaining =>
    (readArray s buffer 0 (if size < remaining then size else remaining)).bind fun r =>
    if r.1 ≥ 0 ∧ remaining > 0 then skipLoop size n r.2.2 r.2.1 (remaining - r.1) else .ok (remaining, r.2.2)

/-- InputStream.java:36-48 `skip` of a buffered stream. -/
def skip (s : Buf A) (zero : A) (count : Int) : Except Exn (Int × Buf A) :=
  let size := if count < 8 * 1024 then count else 8 * 1024
  if size < 0 then .error .negativeArraySize
  else
    (skipLoop size (count.toNat + 1) s (List.replicate size.toNat zero) count).bind fun r => .ok (count - r.1, r.2)

/-! ### Buffered readers -/

/-- BufferedReader.java:66-68. -/
def refill (s : Buf A) (length : Int) : Except Exn (Buf A) :=
  if s.position ≥ s.limit ∧ length < s.buffer.length then fill s else .ok s

/-- BufferedReader.java:84-95, PushbackReader.java:38-49: one read of the stream behind. -/
def readRest (src : Src A) (j : Job A) : Except Exn (Int × List A × Src A) :=
  if j.length > 0 then
    (src.read j.b j.offset j.length).bind fun r =>
    if r.1 = -1 then .ok (if j.count = 0 then -1 else j.count, r.2.1, r.2.2) else .ok (j.count + r.1, r.2.1, r.2.2)
  else .ok (j.count, j.b, src)

/-- BufferedReader.java:63-96 `read(char[], int, int)`. -/
def readChars (s : Buf A) (b : List A) (offset length : Int) : Except Exn (Int × List A × Buf A) :=
  (refill s length).bind fun s =>
  (takeBuffered s ⟨b, offset, length, 0⟩).bind fun r =>
  (readRest r.1.src r.2).bind fun q => .ok (q.1, q.2.1, { r.1 with src := q.2.2 })

/-- BufferedReader.java:44-57: the search for the end of the line from `i` on; `n` bounds the number of rounds.  The result is
    the place of the end and of the next line. -/
def findEnd (buffer : List Nat) (limit : Int) : Nat → Int → Except Exn (Option (Int × Int))
  | 0, _ => .ok none
  | n + 1, i =>
    if i < limit then
      (load buffer i).bind fun c =>
      if c = 13 then
        if i + 1 < limit then (load buffer (i + 1)).bind fun d => .ok (some (i, if d = 10 then i + 2 else i + 1))
        else .ok (some (i, i + 1))
      else if c = 10 then .ok (some (i, i + 1))
      else findEnd buffer limit n (i + 1)
    else .ok none

/-- `sb.append(buffer, offset, length)` -/
def append (sb buffer : List Nat) (offset length : Int) : Except Exn (List Nat) :=
  if offset < 0 ∨ length < 0 ∨ offset + length > buffer.length then .error .indexOutOfBounds
  else .ok (sb ++ (buffer.drop offset.toNat).take length.toNat)

/-- BufferedReader.java:35-60: the loop of `readLine`; `n` bounds the number of rounds. -/
def lineLoop : Nat → Buf Nat → List Nat → Except Exn (Option (List Nat) × Buf Nat)
  | 0, s, sb => .ok (some sb, s)
  | n + 1, s, sb =>
    (if s.position ≥ s.limit then fill s else .ok s).bind fun s =>
    if s.position ≥ s.limit then .ok (if sb.length = 0 then none else some sb, s)
    else
      (findEnd s.buffer s.limit (s.limit - s.position).toNat s.position).bind fun e =>
      match e with
      | some (i, next) => (append sb s.buffer s.position (i - s.position)).bind fun sb => .ok (some sb, { s with position := next })
      | none =>
        (append sb s.buffer s.position (s.limit - s.position)).bind fun sb => lineLoop n { s with position := s.limit } sb

/-- BufferedReader.java:33-61 `readLine`. -/
def readLine (s : Buf Nat) : Except Exn (Option (List Nat) × Buf Nat) := lineLoop (s.src.rest.length + 2) s []

/-! ### Pushing back -/

/-- PushbackReader.java:14-16; `saved` is `savedChar` while `hasSavedChar`. -/
structure Push (A : Type) where
  src : Src A
  saved : Option A

/-- PushbackReader.java:32-37. -/
def takeSaved (s : Push A) (j : Job A) : Except Exn (Push A × Job A) :=
  match s.saved with
  | none => .ok (s, j)
  | some c =>
    if j.length > 0 then
      if 0 ≤ j.offset ∧ j.offset < j.b.length then
        .ok ({ s with saved := none }, ⟨j.b.set j.offset.toNat c, j.offset + 1, j.length - 1, 1⟩)
      else .error .indexOutOfBounds
    else .ok (s, j)

/-- PushbackReader.java:30-50 `read(char[], int, int)`. -/
def pushRead (s : Push A) (b : List A) (offset length : Int) : Except Exn (Int × List A × Push A) :=
  (takeSaved s ⟨b, offset, length, 0⟩).bind fun r =>
  (readRest r.1.src r.2).bind fun q => .ok (q.1, q.2.1, { r.1 with src := q.2.2 })

/-- PushbackReader.java:52-61 `unread`; an IOException is `illegalState` here. -/
def unread (s : Push A) (b : List A) (offset length : Int) : Except Exn (Push A) :=
  if length ≠ 1 then .error .illegalState
  else match s.saved with
    | some _ => .error .illegalState
    | none => (load b offset).bind fun c => .ok { s with saved := some c }

/-! ### Arrays and strings -/

/-- ByteArrayInputStream.java:14-16. -/
structure Arr (A : Type) where
  array : List A
  position : Int
  limit : Int

/-- ByteArrayInputStream.java:18-22. -/
def newArr (array : List A) (offset length : Int) : Arr A := ⟨array, offset, offset + length⟩

/-- ByteArrayInputStream.java:28-34 `read()`. -/
def arrRead (s : Arr A) : Except Exn (Option A × Arr A) :=
  if s.position < s.limit then (load s.array s.position).bind fun c => .ok (some c, { s with position := s.position + 1 })
  else .ok (none, s)

/-- ByteArrayInputStream.java:36-50 `read(byte[], int, int)`. -/
def arrReadArray (s : Arr A) (b : List A) (offset length : Int) : Except Exn (Int × List A × Arr A) :=
  if length = 0 then .ok (0, b, s)
  else if s.position ≥ s.limit then .ok (-1, b, s)
  else
    let n := if s.limit - s.position < length then s.limit - s.position else length
    (copy s.array b s.position offset n).bind fun b => .ok (n, b, { s with position := s.position + n })

/-- ByteArrayInputStream.java:52-54 `available`. -/
def arrAvailable (s : Arr A) : Int := s.limit - s.position

/-- StringReader.java:21-31 `read`; `String.getChars` copies like `System.arraycopy`. -/
def strRead (s : List A) (position : Int) (b : List A) (offset length : Int) : Except Exn (Int × List A × Int) :=
  let n : Int := if length > s.length - position then s.length - position else length
  if length > s.length - position ∧ n ≤ 0 then .ok (-1, b, position)
  else (copy s b position offset n).bind fun b => .ok (n, b, position + n)

end Avian.InStreams
