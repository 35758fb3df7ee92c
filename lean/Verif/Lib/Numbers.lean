import Verif.Lib.Outcome

/-
Numbers as text (classpath/java/lang/Long.java, Integer.java, Character.java).

A `long` or `int` is an integer in its range; results are brought back into it by `wrap64` and
`wrap32`.  A `char` is a number below 65536 and a string the list of its characters.
-/
namespace Avian.Numbers

/-- 64-bit two's complement arithmetic. -/
def wrap64 (x : Int) : Int := Int.bmod x (2 ^ 64)
/-- 32-bit two's complement arithmetic, and the cast `(int)`. -/
def wrap32 (x : Int) : Int := Int.bmod x (2 ^ 32)
/-- The cast `(char)`. -/
def toChar (x : Int) : Nat := (x % 65536).toNat

inductive Exn where
  | illegalArgument
  | numberFormat
  deriving DecidableEq

/-- Long.java:65 (and 69): `for (long n = v; n != 0; n /= radix) ++size`; the fuel bounds the number
of turns. -/
def sizeLoop (radix : Int) : Nat → Int → Nat → Option Nat
  | 0, _, _ => none
  | fuel + 1, n, size => if n = 0 then some size else sizeLoop radix fuel (n.tdiv radix) (size + 1)

/-- Long.java:74-78: the character of a digit. -/
def digitChar (digit : Int) : Nat :=
  if 0 ≤ digit ∧ digit ≤ 9 then toChar (48 + digit) else toChar (97 + (digit - 10))

/-- `array[i] = c`; outside of the array `none`. -/
def store (a : List Nat) (i : Int) (c : Nat) : Option (List Nat) :=
  if 0 ≤ i ∧ i < a.length then some (a.set i.toNat c) else none

/-- Long.java:69-81. -/
def fillLoop (radix : Int) (negative : Bool) :
    Nat → Int → Int → List Nat → Option (Int × List Nat)
  | 0, _, _, _ => none
  | fuel + 1, n, i, a =>
    if n = 0 then some (i, a)
    else
      (store a i (digitChar (if negative then -(n.tmod radix) else n.tmod radix))).bind fun a =>
        fillLoop radix negative fuel (n.tdiv radix) (i - 1) a

/-- Long.java:53-87 `toString(long, int)`; `none` is a search that does not end (the fuel is used
up) or an index outside of the array. -/
def toString (fuel : Nat) (v radix : Int) : Option (Except Exn (List Nat)) :=
  if radix < 1 ∨ radix > 36 then some (.error .illegalArgument)
  else if v = 0 then some (.ok [48])
  else
    let negative := decide (v < 0)
    (sizeLoop radix fuel v (if negative then 1 else 0)).bind fun size =>
    (fillLoop radix negative fuel v (size - 1) (List.replicate size 0)).bind fun r =>
    if negative then (store r.2 r.1 45).map .ok else some (.ok r.2)

/-- Character.java:93-111 `digit`. -/
def digit (c : Nat) (radix : Int) : Int :=
  let d : Option Int :=
    if 48 ≤ c ∧ c ≤ 57 then some (c - 48)
    else if 97 ≤ c ∧ c ≤ 122 then some (c - 97 + 10)
    else if 65 ≤ c ∧ c ≤ 90 then some (c - 65 + 10)
    else none
  match d with
  | some d => if d < radix then d else -1
  | none => -1

/-- Long.java:135-139 `pow`: the number of turns is `b`, none if it is negative. -/
def pow (a : Int) : Nat → Int
  | 0 => 1
  | b + 1 => wrap64 (pow a b * a)

/-- Long.java:156-166: the loop over the characters. -/
def parseLoop (radix : Int) : List Nat → Int → Int → Except Exn Int
  | [], number, _ => .ok number
  | c :: s, number, factor =>
    if digit c radix ≥ 0 then
      parseLoop radix s (wrap64 (number + wrap64 (digit c radix * factor))) (factor.tdiv radix)
    else .error .numberFormat

/-- Long.java:145-173 `parseLong(String, int)`. -/
def parseLong (s : List Nat) (radix : Int) : Except Exn Int :=
  let negative := decide (s.head? = some 45)
  let t := if negative then s.tail else s
  (parseLoop radix t 0 (pow radix (t.length - 1))).map fun number =>
    if negative then wrap64 (-number) else number

/-- Integer.java:122-124 `parseInt(String, int)`. -/
def parseInt (s : List Nat) (radix : Int) : Except Exn Int := (parseLong s radix).map wrap32

/-- Integer.java:61-71 `toHexString`, `toOctalString`, `toBinaryString` (radix 16, 8, 2). -/
def toUnsignedString (fuel : Nat) (v radix : Int) : Option (Except Exn (List Nat)) :=
  toString fuel (v % 2 ^ 32) radix

/-- Long.java:93-103 `toHexString`, `toOctalString`, `toBinaryString` (radix 16, 8, 2). -/
def longToUnsignedString (fuel : Nat) (v radix : Int) : Option (Except Exn (List Nat)) :=
  toString fuel v radix

/-- Integer.java:45-47 `compareTo`. -/
def compareInt (a b : Int) : Int := wrap32 (a - b)

/-- Long.java:37-39 `compareTo`. -/
def compareLong (a b : Int) : Int := if a > b then 1 else if a < b then -1 else 0

/-- Short.java:29-31, Byte.java:41-43, Character.java:29-31, Enum.java:29: the operands are `int`s. -/
def compareSmall (a b : Int) : Int := wrap32 (a - b)

/-- Boolean.java:38-40 `compareTo`. -/
def compareBool (a b : Bool) : Int := if a then (if b then 0 else 1) else (if b then -1 else 0)

/-- Integer.java:104-108 `bitCount`. -/
def bitCount (v : BitVec 32) : BitVec 32 :=
  let v := v - (v.sshiftRight 1 &&& 0x55555555#32)
  let v := (v &&& 0x33333333#32) + (v.sshiftRight 2 &&& 0x33333333#32)
  (((v + v.sshiftRight 4) &&& 0x0F0F0F0F#32) * 0x01010101#32).sshiftRight 24

/-- Integer.java:110-116 `reverseBytes`. -/
def reverseBytes (v : BitVec 32) : BitVec 32 :=
  let byte3 := v >>> 24
  let byte2 := (v >>> 8) &&& 0xFF00#32
  let byte1 := (v <<< 8) &&& 0xFF00#32
  let byte0 := v <<< 24
  byte0 ||| byte1 ||| byte2 ||| byte3

/-- Integer.java:143-151 `numberOfLeadingZeros`. -/
def numberOfLeadingZeros (i : BitVec 32) : BitVec 32 :=
  let i := i ||| i.sshiftRight 1
  let i := i ||| i.sshiftRight 2
  let i := i ||| i.sshiftRight 4
  let i := i ||| i.sshiftRight 8
  let i := i ||| i.sshiftRight 16
  bitCount (~~~ i)

end Avian.Numbers
