import Verif.Lib.Outcome

/-
Characters and code points (classpath/java/lang/Character.java).

A `char` is a number below 65536, a code point is an `int`; a CharSequence is the list of its chars.
-/
namespace Avian.CodePoint

inductive Exn where
  | indexOutOfBounds
  deriving DecidableEq

/-- Character.java:200-202 `isSupplementaryCodePoint`. -/
def isSupplementary (cp : Int) : Bool := 0x10000 ≤ cp && cp ≤ 0x10FFFF

/-- The cast `(char) i` of an int. -/
def toChar (i : Int) : Nat := (i % 65536).toNat

/-- Character.java:53-59 `toLowerCase(char)`. -/
def lowerChar (c : Nat) : Nat := if 65 ≤ c && c ≤ 90 then c - 65 + 97 else c

/-- Character.java:61-67 `toLowerCase(int)`. -/
def lower (cp : Int) : Int := if isSupplementary cp then cp else lowerChar (toChar cp)

/-- Character.java:69-75 `toUpperCase(char)`. -/
def upperChar (c : Nat) : Nat := if 97 ≤ c && c ≤ 122 then c - 97 + 65 else c

/-- Character.java:77-83 `toUpperCase(int)`. -/
def upper (cp : Int) : Int := if isSupplementary cp then cp else upperChar (toChar cp)

/-- Character.java:93-110 `digit`. -/
def digit (c : Nat) (radix : Int) : Int :=
  let d : Option Int :=
    if 48 ≤ c && c ≤ 57 then some ((c : Int) - 48)
    else if 97 ≤ c && c ≤ 122 then some ((c : Int) - 97 + 10)
    else if 65 ≤ c && c ≤ 90 then some ((c : Int) - 65 + 10)
    else none
  match d with
  | none => -1
  | some d => if d < radix then d else -1

/-- Character.java:112-119 `forDigit`; MIN_RADIX is 2 and MAX_RADIX is 36 (lines 14-15). -/
def forDigit (d radix : Int) : Nat :=
  if 2 ≤ radix && radix ≤ 36 then
    if 0 ≤ d && d < radix then toChar (if d < 10 then d + 48 else d + 97 - 10) else 0
  else 0

/-- Character.java:165-167 `isHighSurrogate`. -/
def isHigh (c : Nat) : Bool := 0xD800 ≤ c && c ≤ 0xDBFF

/-- Character.java:169-171 `isLowSurrogate`. -/
def isLow (c : Nat) : Bool := 0xDC00 ≤ c && c ≤ 0xDFFF

/-- Character.java:196-198 `toCodePoint`. -/
def toCodePoint (high low : Nat) : Nat := (((high &&& 0x3FF) <<< 10) ||| (low &&& 0x3FF)) + 0x10000

/-- Character.java:208-216 `toChars`. -/
def toChars (cp : Int) : List Nat :=
  if isSupplementary cp then
    let p := (cp - 0x10000).toNat
    [toChar (Int.ofNat (0xD800 ||| ((p >>> 10) &&& 0x3FF))), toChar (Int.ofNat (0xDC00 ||| (p &&& 0x3FF)))]
  else [toChar cp]

/-- Character.java:218-220 `isSurrogatePair`. -/
def isPair (high low : Nat) : Bool := isHigh high && isLow low

/-- `CharSequence.charAt`. -/
def charAt (s : List Nat) (i : Int) : Except Exn Nat :=
  if 0 ≤ i then
    match s[i.toNat]? with
    | some c => .ok c
    | none => .error .indexOutOfBounds
  else .error .indexOutOfBounds

/-- Character.java:222-238 `codePointAt`. -/
def codePointAt (s : List Nat) (offset : Int) : Except Exn Nat :=
  let length : Int := s.length
  if offset < 0 || offset ≥ length then .error .indexOutOfBounds
  else
    (charAt s offset).bind fun high =>
    if !isHigh high || offset ≥ length then .ok high
    else
      (charAt s (offset + 1)).bind fun low =>
      if !isLow low then .ok high else .ok (toCodePoint high low)

/-- Character.java:248-250: the condition in the loop of `codePointCount`. -/
def pairAt (s : List Nat) (i fin : Int) : Except Exn Bool :=
  (charAt s i).bind fun c =>
  if isHigh c && i + 1 < fin then (charAt s (i + 1)).bind fun d => .ok (isLow d) else .ok false

/-- Character.java:247-255: the loop of `codePointCount`; `n` bounds the number of rounds. -/
def countLoop (s : List Nat) (fin : Int) : Nat → Int → Int → Except Exn Int
  | 0, _, count => .ok count
  | n + 1, i, count =>
    if i < fin then
      (pairAt s i fin).bind fun p =>
      countLoop s fin n ((if p then i + 1 else i) + 1) (count + 1)
    else .ok count

/-- Character.java:240-257 `codePointCount`. -/
def codePointCount (s : List Nat) (start fin : Int) : Except Exn Int :=
  if start < 0 || start > fin || fin ≥ (s.length : Int) then .error .indexOutOfBounds
  else countLoop s fin (fin - start).toNat start 0

end Avian.CodePoint
