import Verif.Lib.Outcome

/-
String builders (classpath/java/lang/StringBuilder.java).

Strings are the lists of their characters (Lib/Strings shows that they behave so).  The linked cells,
which no other object refers to, are a list, the cell `chain` refers to first.  Lengths do not reach
2^31.
-/
namespace Avian.Builder

inductive Exn where
  | indexOutOfBounds
  | stringIndex
  | arrayIndex
  | negativeSize
  | runtime
  deriving DecidableEq

abbrev R := Except Exn

/-- StringBuilder.java:14 -/
def bufferSize : Nat := 32

/-- StringBuilder.java:16-19 -/
structure SB where
  chain : List (List Nat)
  length : Int
  buffer : Option (List Nat)
  position : Nat
  deriving DecidableEq

/-- StringBuilder.java:25-29 -/
def new : SB := ⟨[], 0, none, 0⟩

/-- StringBuilder.java:31-37 `flush`. -/
def flush (sb : SB) : SB :=
  if sb.position > 0 then
    { sb with chain := (sb.buffer.getD []).take sb.position :: sb.chain, buffer := none, position := 0 }
  else sb

/-- StringBuilder.java:44-50: the string goes to the buffer if there is one with room, or else
becomes a cell. -/
def put (sb : SB) (s : List Nat) : SB :=
  match sb.buffer with
  | some b =>
    if s.length ≤ b.length - sb.position then
      { sb with buffer := some (b.take sb.position ++ s ++ b.drop (sb.position + s.length)),
                position := sb.position + s.length }
    else { flush sb with chain := s :: (flush sb).chain }
  | none => { flush sb with chain := s :: (flush sb).chain }

/-- StringBuilder.java:39-55 `append(String)`. -/
def append (sb : SB) (s : List Nat) : SB :=
  if s.length > 0 then { put sb s with length := sb.length + s.length } else sb

/-- StringBuilder.java:82-87: a buffer with room for one more character. -/
def room (sb : SB) : SB :=
  match sb.buffer with
  | none => { sb with buffer := some (List.replicate bufferSize 0) }
  | some b =>
    if sb.position ≥ b.length then { flush sb with buffer := some (List.replicate bufferSize 0) } else sb

/-- StringBuilder.java:81-93 `append(char)`. -/
def appendChar (sb : SB) (v : Nat) : SB :=
  let sb := room sb
  { sb with buffer := sb.buffer.map (·.set sb.position v), position := sb.position + 1,
            length := sb.length + 1 }

/-- StringBuilder.java:123-130: the loop of `charAt`. -/
def charLoop (i : Int) : List (List Nat) → Int → R Nat
  | [], _ => .error .runtime
  | c :: chain, index =>
    if i ≥ index - c.length then
      match c[(i - (index - c.length)).toNat]? with
      | some x => .ok x
      | none => .error .stringIndex
    else charLoop i chain (index - c.length)

/-- StringBuilder.java:115-133 `charAt`; it also flushes the buffer. -/
def charAt (sb : SB) (i : Int) : R (Nat × SB) :=
  if i < 0 ∨ i ≥ sb.length then .error .indexOutOfBounds
  else (charLoop i (flush sb).chain sb.length).map fun c => (c, flush sb)

/-- String.java:378-393 on lists of characters. -/
def sub (v : List Nat) (start stop : Int) : R (List Nat) :=
  if start < 0 ∨ stop > v.length ∨ stop < start then .error .stringIndex
  else .ok ((v.drop start.toNat).take (stop - start).toNat)

/-- StringBuilder.java:146-160: the loop of `insert`. -/
def insertLoop (i : Int) (s : List Nat) : List (List Nat) → Int → R (List (List Nat))
  | [], _ => .ok []
  | c :: chain, index =>
    let start := index - c.length
    if i ≥ start then
      if i = start then .ok (c :: s :: chain)
      else
        (sub c (i - start) c.length).bind fun upper => (sub c 0 (i - start)).bind fun lower =>
        .ok (upper :: s :: lower :: chain)
    else (insertLoop i s chain start).map (c :: ·)

/-- StringBuilder.java:135-166 `insert(int, String)`. -/
def insert (sb : SB) (i : Int) (s : List Nat) : R SB :=
  if i < 0 ∨ i > sb.length then .error .indexOutOfBounds
  else if i = sb.length then .ok (append sb s)
  else
    (insertLoop i s (flush sb).chain sb.length).map fun chain =>
      { flush sb with chain := chain, length := sb.length + s.length }

/-- StringBuilder.java:192-219: the loop of `delete`.  `before` are the cells passed so far, the last
one first; as `p` is never set, dropping a cell makes `chain` refer to the one behind it, so the cells
passed are lost. -/
def deleteLoop (start stop : Int) : List (List Nat) → List (List Nat) → Int → R (List (List Nat))
  | before, [], _ => .ok before.reverse
  | before, c :: chain, index =>
    let e := index
    let s := index - c.length
    if stop ≥ e then
      if start ≤ s then deleteLoop start stop [] chain s
      else (sub c 0 (start - s)).map fun v => before.reverse ++ v :: chain
    else
      if start ≤ s then
        (sub c (stop - s) (e - s)).bind fun v => deleteLoop start stop (v :: before) chain s
      else
        (sub c (stop - s) (e - s)).bind fun upper => (sub c 0 (start - s)).map fun lower =>
          before.reverse ++ upper :: lower :: chain

/-- StringBuilder.java:180-224 `delete`. -/
def delete (sb : SB) (start stop : Int) : R SB :=
  if start ≥ stop then .ok sb
  else if start < 0 ∨ stop > sb.length then .error .indexOutOfBounds
  else
    (deleteLoop start stop [] (flush sb).chain sb.length).map fun chain =>
      { flush sb with chain := chain, length := sb.length - (stop - start) }

/-- StringBuilder.java:226-228 `deleteCharAt`. -/
def deleteCharAt (sb : SB) (i : Int) : R SB := delete sb i (i + 1)

/-- StringBuilder.java:230-234 `replace`. -/
def replace (sb : SB) (start stop : Int) (s : List Nat) : R SB :=
  (delete sb start stop).bind fun sb => insert sb start s

/-- StringBuilder.java:375-379 `setCharAt`. -/
def setCharAt (sb : SB) (index : Int) (ch : Nat) : R SB :=
  if index < 0 ∨ index ≥ sb.length then .error .indexOutOfBounds
  else (deleteCharAt sb index).bind fun sb => insert sb index [ch]

/-- StringBuilder.java:301-313: the loop of `setLength`. -/
def cutLoop (v : Int) : List (List Nat) → Int → R (List (List Nat))
  | [], _ => .ok []
  | c :: chain, index =>
    let start := index - c.length
    if v > start then
      if v < index then (sub c 0 (v - start)).map fun x => x :: chain else .ok (c :: chain)
    else cutLoop v chain start

/-- StringBuilder.java:286-314 `setLength`. -/
def setLength (sb : SB) (v : Int) : R SB :=
  if v < 0 then .error .indexOutOfBounds
  else if v = 0 then .ok { sb with length := 0, chain := [] }
  else
    (cutLoop v (flush sb).chain sb.length).map fun chain => { flush sb with chain := chain, length := v }

/-- Characters are copied into an array. -/
def write (dst : List Nat) (at_ : Int) (w : List Nat) : R (List Nat) :=
  if 0 ≤ at_ ∧ at_ + w.length ≤ dst.length then
    .ok (dst.take at_.toNat ++ w ++ dst.drop (at_.toNat + w.length))
  else .error .arrayIndex

/-- StringBuilder.java:323-341: the loop of `getChars`. -/
def getLoop (srcStart srcEnd dstStart : Int) : List (List Nat) → Int → List Nat → R (List Nat)
  | [], _, dst => .ok dst
  | c :: chain, index, dst =>
    let low := index - c.length
    let start := if low < srcStart then srcStart else low
    let stop := if index > srcEnd then srcEnd else index
    if start < stop then
      (sub c (start - low) (stop - low)).bind fun w =>
      (write dst (dstStart + (start - srcStart)) w).bind fun dst =>
      getLoop srcStart srcEnd dstStart chain low dst
    else getLoop srcStart srcEnd dstStart chain low dst

/-- StringBuilder.java:316-342 `getChars`; the builder has its buffer flushed afterwards. -/
def getChars (sb : SB) (srcStart srcEnd : Int) (dst : List Nat) (dstStart : Int) : R (List Nat) :=
  if srcStart < 0 ∨ srcEnd > sb.length then .error .indexOutOfBounds
  else getLoop srcStart srcEnd dstStart (flush sb).chain sb.length dst

/-- StringBuilder.java:344-348 `toString`. -/
def toString (sb : SB) : R (List Nat) :=
  getChars sb 0 sb.length (List.replicate sb.length.toNat 0) 0

/-- StringBuilder.java:364-369 `substring(int, int)`. -/
def substring (sb : SB) (start stop : Int) : R (List Nat) :=
  if stop - start < 0 then .error .negativeSize
  else getChars sb start stop (List.replicate (stop - start).toNat 0) 0

end Avian.Builder
