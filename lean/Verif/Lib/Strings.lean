import Verif.Lib.JUtf8

/-
Strings (classpath/java/lang/String.java).

A string is an array, `char[]` or `byte[]`, of which it uses `length` elements from `offset` on.
Array elements are numbers below 65536 or 256.  The shortcuts for two references to the same object
are left out (they return what the loop would find), as is the field that remembers the hash code.
-/
namespace Avian.Strings

inductive Exn where
  | stringIndex
  | arrayIndex
  /-- a `RuntimeException` for bytes that are no text -/
  | runtime
  /-- a recursion without end -/
  | stackOverflow
  /-- the model's bound on the number of turns was too small -/
  | fuel
  deriving DecidableEq

abbrev R := Except Exn

/-- String.java:39-41. -/
structure JString where
  /-- the array is a `char[]` -/
  wide : Bool
  data : List Nat
  offset : Nat
  length : Nat
  deriving DecidableEq

/-- 32-bit two's complement arithmetic. -/
def wrap32 (x : Int) : Int := Int.bmod x (2 ^ 32)

/-- `System.arraycopy` into a new array of that size. -/
def slice (data : List Nat) (offset length : Nat) : R (List Nat) :=
  if offset + length ≤ data.length then .ok ((data.drop offset).take length) else .error .arrayIndex

/-- String.java:131-136: bytes are decoded.  If they cannot be, the message of the exception is made
by this constructor once more, without copying: it comes here again if a byte is above 127. -/
def decodeBytes (data : List Nat) (offset length : Nat) : R JString :=
  (slice data offset length).bind fun bytes =>
  match JUtf8.decode bytes with
  | .ok b => .ok ⟨b.wide, b.data, 0, if b.wide then b.data.length else length⟩
  | .error .null => if JUtf8.test data then .error .stackOverflow else .error .runtime
  | .error .outside => .error .arrayIndex

/-- String.java:112-153: the constructor behind all others; 48-81 are its public forms. -/
def make (wide : Bool) (data : List Nat) (offset length : Int) (copy : Bool) : R JString :=
  if offset < 0 then .error .stringIndex
  else if wrap32 (offset + length) > data.length then .error .stringIndex
  else if length < 0 then .error .stringIndex
  else if copy || (!wide && JUtf8.test data) then
    if wide then (slice data offset.toNat length.toNat).map fun c => ⟨true, c, 0, length.toNat⟩
    else decodeBytes data offset.toNat length.toNat
  else .ok ⟨wide, data, offset.toNat, length.toNat⟩

/-- The string constant "". -/
def empty : JString := ⟨false, [], 0, 0⟩

/-- String.java:503-513 `charAt`; a byte is extended by its sign. -/
def charAt (s : JString) (index : Int) : R Nat :=
  if index < 0 ∨ index > s.length then .error .stringIndex
  else
    match s.data[index.toNat + s.offset]? with
    | some x => .ok (if s.wide then x else if x < 128 then x else 0xFF00 + x)
    | none => .error .arrayIndex

/-- String.java:168: `for (int i = 0; i < length; ++i) h = (h * 31) + charAt(i)`. -/
def hashLoop (s : JString) : Nat → Nat → Int → R Int
  | 0, _, h => .ok h
  | n + 1, i, h => (charAt s i).bind fun c => hashLoop s n (i + 1) (wrap32 (wrap32 (h * 31) + c))

/-- String.java:165-172 `hashCode`. -/
def hashCode (s : JString) : R Int := hashLoop s s.length 0 0

/-- Character.java:53-59 `toLowerCase`. -/
def toLower (c : Nat) : Nat := if 65 ≤ c ∧ c ≤ 90 then c - 65 + 97 else c
/-- Character.java:69-75 `toUpperCase`. -/
def toUpper (c : Nat) : Nat := if 97 ≤ c ∧ c ≤ 122 then c - 97 + 65 else c
/-- Character.java:157-159 `isWhitespace`. -/
def isWhitespace (c : Nat) : Bool := c == 32 || c == 9 || c == 10 || c == 13

/-- String.java:203-209, 220-228: the loop that looks for a difference. -/
def compareLoop (fold : Nat → Nat) (s t : JString) : Nat → Nat → R Int
  | 0, _ => .ok ((s.length : Int) - t.length)
  | n + 1, i =>
    (charAt s i).bind fun a => (charAt t i).bind fun b =>
    if (fold a : Int) - fold b ≠ 0 then .ok ((fold a : Int) - fold b) else compareLoop fold s t n (i + 1)

/-- String.java:195-210 `compareTo`. -/
def compareTo (s t : JString) : R Int :=
  compareLoop id s t (if s.length < t.length then s.length else t.length) 0

/-- String.java:212-229 `compareToIgnoreCase`. -/
def compareToIgnoreCase (s t : JString) : R Int :=
  compareLoop toLower s t (if s.length < t.length then s.length else t.length) 0

/-- String.java:175-184 `equals`. -/
def equals (s t : JString) : R Bool :=
  if t.length = s.length then (compareTo s t).map (· == 0) else .ok false

/-- String.java:186-192 `equalsIgnoreCase`. -/
def equalsIgnoreCase (s t : JString) : R Bool :=
  if t.length = s.length then (compareToIgnoreCase s t).map (· == 0) else .ok false

/-- A loop `for (i = start; …; ++i) if (p) return i; return -1` of `n` turns. -/
def findUp (p : Int → R Bool) : Nat → Int → R Int
  | 0, _ => .ok (-1)
  | n + 1, i => (p i).bind fun b => if b then .ok i else findUp p n (i + 1)

/-- A loop `for (i = start; …; --i) if (p) return i; return -1` of `n` turns. -/
def findDown (p : Int → R Bool) : Nat → Int → R Int
  | 0, _ => .ok (-1)
  | n + 1, i => (p i).bind fun b => if b then .ok i else findDown p n (i - 1)

/-- String.java:289-297 `indexOf(int, int)`. -/
def indexOfChar (s : JString) (c : Int) (start : Int) : R Int :=
  findUp (fun i => (charAt s i).map fun (x : Nat) => decide ((x : Int) = c)) (s.length - start).toNat start

/-- String.java:636-647 `lastIndexOf(int, int)`. -/
def lastIndexOfChar (s : JString) (c : Int) (lastIndex : Int) : R Int :=
  let lastIndex := if lastIndex ≥ s.length then (s.length : Int) - 1 else lastIndex
  findDown (fun i => (charAt s i).map fun (x : Nat) => decide ((x : Int) = c)) (lastIndex + 1).toNat lastIndex

/-- String.java:311-315: the loop over `j`; the value of `j` at its end. -/
def matchLoop (s t : JString) (i : Int) : Nat → Nat → R Nat
  | 0, j => .ok j
  | n + 1, j =>
    (charAt s (i + j)).bind fun a => (charAt t j).bind fun b =>
    if a ≠ b then .ok j else matchLoop s t i n (j + 1)

/-- String.java:307-323 `indexOf(String, int)`. -/
def indexOf (s t : JString) (start : Int) : R Int :=
  if t.length = 0 then .ok start
  else
    findUp (fun i => (matchLoop s t i t.length 0).map fun j => decide (j = t.length))
      ((s.length : Int) - t.length + 1 - start).toNat start

/-- String.java:333-338: the loop over `j`, with one more condition. -/
def matchLoop2 (s t : JString) (i : Int) : Nat → Nat → R Nat
  | 0, j => .ok j
  | n + 1, j =>
    if i + j < s.length then
      (charAt s (i + j)).bind fun a => (charAt t j).bind fun b =>
      if a ≠ b then .ok j else matchLoop2 s t i n (j + 1)
    else .ok j

/-- String.java:329-345 `lastIndexOf(String, int)`. -/
def lastIndexOf (s t : JString) (lastIndex : Int) : R Int :=
  if t.length = 0 then .ok lastIndex
  else
    let first := min ((s.length : Int) - t.length) lastIndex
    findDown (fun i => (matchLoop2 s t i t.length 0).map fun j => decide (j = t.length))
      (first + 1).toNat first

/-- String.java:378-393 `substring(int, int)`; 374-376 has `end = length`. -/
def substring (s : JString) (start stop : Int) : R JString :=
  if start < 0 then .error .stringIndex
  else if stop > s.length then .error .stringIndex
  else if stop - start < 0 then .error .stringIndex
  else if start = 0 ∧ stop = s.length then .ok s
  else if stop - start = 0 then .ok empty
  else make s.wide s.data (s.offset + start) (stop - start) false

/-- String.java:395-401 `startsWith(String)`. -/
def startsWith (s t : JString) : R Bool :=
  if s.length ≥ t.length then
    (substring s 0 t.length).bind fun x => (compareTo x t).map (· == 0)
  else .ok false

/-- String.java:403-409 `startsWith(String, int)`. -/
def startsWithAt (s t : JString) (start : Int) : R Bool :=
  if (s.length : Int) ≥ t.length + start then
    (substring s start t.length).bind fun x => (compareTo x t).map (· == 0)
  else .ok false

/-- String.java:411-417 `endsWith`. -/
def endsWith (s t : JString) : R Bool :=
  if s.length ≥ t.length then
    (substring s ((s.length : Int) - t.length) s.length).bind fun x => (compareTo x t).map (· == 0)
  else .ok false

/-- String.java:655-665 `regionMatches`. -/
def regionMatches (s : JString) (ignoreCase : Bool) (thisOffset : Int) (t : JString)
    (matchOffset length : Int) : R Bool :=
  (substring s thisOffset (thisOffset + length)).bind fun a =>
  (substring t matchOffset (matchOffset + length)).bind fun b =>
  if ignoreCase then equalsIgnoreCase a b else equals a b

/-- String.java:231-255 `trim`. -/
def trim (s : JString) : R JString :=
  (findUp (fun i => (charAt s i).map fun c => !isWhitespace c) s.length 0).bind fun start =>
  (findDown (fun i => (charAt s i).map fun c => !isWhitespace c) s.length ((s.length : Int) - 1)).bind
    fun last =>
  let stop := if last = -1 then -1 else last + 1
  if start ≥ stop then .ok empty else substring s start stop

/-- A loop that makes a new array of `n` characters, `f` of the old ones. -/
def mapLoop (s : JString) (f : Nat → Nat) : Nat → Nat → R (List Nat)
  | 0, _ => .ok []
  | n + 1, i => (charAt s i).bind fun c => (mapLoop s f n (i + 1)).map (f c :: ·)

/-- String.java:257-269, 271-283 `toLowerCase`, `toUpperCase`. -/
def mapCase (f : Nat → Nat) (s : JString) : R JString :=
  (findUp (fun j => (charAt s j).map fun c => decide (f c ≠ c)) s.length 0).bind fun j =>
  if j = -1 then .ok s
  else (mapLoop s f s.length 0).bind fun b => make true b 0 s.length false

/-- String.java:347-372 `replace(char, char)`. -/
def replaceChar (s : JString) (oldChar newChar : Nat) : R JString :=
  if s.wide then
    (mapLoop s (fun c => if c = oldChar then newChar else c) s.length 0).bind fun b =>
      make true b 0 s.length false
  else
    (slice s.data s.offset s.length).bind fun b =>
      make false (b.map fun x => if x = oldChar % 256 then newChar % 256 else x) 0 s.length false

/-- String.java:476-494 `getChars`, for a destination that is large enough: the characters. -/
def getChars (s : JString) (srcOffset srcEnd : Int) : R (List Nat) :=
  if srcOffset < 0 then .error .stringIndex
  else if srcEnd > s.length then .error .stringIndex
  else if s.wide then
    if srcEnd < srcOffset then .error .arrayIndex
    else slice s.data (s.offset + srcOffset.toNat) (srcEnd - srcOffset).toNat
  else
    (slice s.data (s.offset + srcOffset.toNat) (srcEnd - srcOffset).toNat).map
      (·.map fun x => if x < 128 then x else 0xFF00 + x)

/-- String.java:496-500 `toCharArray`. -/
def toCharArray (s : JString) : R (List Nat) := getChars s 0 s.length

/-- String.java:457-474 `getBytes(String)` for "UTF-8" (427-446 for a `byte[]`). -/
def getBytes (s : JString) : R (List Nat) :=
  (slice s.data s.offset s.length).map fun d => if s.wide then JUtf8.encode d else d

/-- String.java:671-673 `contains`. -/
def contains (s t : JString) : R Bool := (indexOf s t 0).map (· != -1)

/-- String.java:553-557: the loop; `acc` is what the builder contains. -/
def replaceLoop (target replacement : JString) : Nat → JString → List Nat → R (List Nat)
  | 0, _, _ => .error .fuel
  | fuel + 1, unhandled, acc =>
    (indexOf unhandled target 0).bind fun index =>
    if index = -1 then (toCharArray unhandled).map (acc ++ ·)
    else
      (substring unhandled 0 index).bind fun before => (toCharArray before).bind fun b =>
      (toCharArray replacement).bind fun r =>
      (substring unhandled (index + target.length) unhandled.length).bind fun unhandled =>
      replaceLoop target replacement fuel unhandled (acc ++ b ++ r)

/-- String.java:567-570: the loop of `infuse`. -/
def infuseLoop (s with_ : JString) : Nat → Nat → List Nat → R (List Nat)
  | 0, _, acc => (toCharArray with_).map (acc ++ ·)
  | n + 1, i, acc =>
    (toCharArray with_).bind fun w => (substring s i (i + 1)).bind fun x => (toCharArray x).bind fun c =>
    infuseLoop s with_ n (i + 1) (acc ++ w ++ c)

/-- String.java:540-562 `replace(CharSequence, CharSequence)`: the characters of the result. -/
def replace (fuel : Nat) (s target replacement : JString) : R (List Nat) :=
  if target.length = 0 then infuseLoop s replacement s.length 0 []
  else replaceLoop target replacement fuel s []

end Avian.Strings
