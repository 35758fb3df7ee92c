import Verif.Lib.Outcome
import Verif.Lib.CodePoint
import Verif.Lib.JUtf8
import Verif.Lib.Strings

/-
Property files (classpath/java/util/Properties.java).

What the parser reads is a list of characters: the characters of a `Reader`, or the bytes of an `InputStream`.  What it puts into the map is kept
as a list, in the order in which it is put there.  The line separator is that of POSIX systems.
-/
namespace Avian.JProperties

inductive Exn where
  | io
  /-- No exception: the given number of rounds was too small. -/
  | fuel
  deriving DecidableEq

/-- Properties.java:68: what `current` is: null, `key` or `value`. -/
inductive Current where
  | null
  | key
  | value
  deriving DecidableEq

/-- Properties.java:66-68: the fields of the parser, and what was put into the map. -/
structure Parser where
  key : Option (List Nat)
  value : Option (List Nat)
  current : Current
  map : List (List Nat × List Nat)
  deriving DecidableEq

/-- Properties.java:70-80 `append`. -/
def Parser.append (p : Parser) (c : Nat) : Parser :=
  match p.current with
  | .null =>
    match p.key with
    | none => { p with key := some [c], current := .key }
    | some _ => { p with value := some [c], current := .value }
  | .key => { p with key := p.key.map (· ++ [c]) }
  | .value => { p with value := p.value.map (· ++ [c]) }

/-- String.java:231-255 `trim`, by what it does (C57). -/
def trim (s : List Nat) : List Nat := (((s.dropWhile Strings.isWhitespace).reverse).dropWhile Strings.isWhitespace).reverse

/-- Properties.java:82-89 `finishLine`. -/
def Parser.finishLine (p : Parser) : Parser :=
  { key := none, value := none, current := .null,
    map :=
      match p.key with
      | none => p.map
      | some k => p.map ++ [(k, match p.value with | none => [] | some v => trim v)] }

/-- Properties.java:95-100: the loop of `readUtf16`, with `n` digits to come.  At the end of the input, −1 as a character is no digit. -/
def readDigits : Nat → Nat → List Nat → Except Exn (Nat × List Nat)
  | 0, c, input => .ok (c, input)
  | _ + 1, _, [] => .error .io
  | n + 1, c, x :: input =>
    let digit := CodePoint.digit x 16
    if digit = -1 then .error .io else readDigits n (((c <<< 4) ||| digit.toNat) % 65536) input

/-- Properties.java:93-102 `readUtf16`. -/
def readUtf16 (input : List Nat) : Except Exn (Nat × List Nat) := readDigits 4 0 input

/-- Properties.java:123: the rest of a comment. -/
def skipComment : List Nat → List Nat
  | [] => []
  | c :: input => if c = 10 then input else skipComment input

/-- Properties.java:104-183 `parse`: the loop over the characters and the end. -/
def parseLoop : Nat → Parser → Bool → List Nat → Except Exn (List (List Nat × List Nat))
  | 0, _, _, _ => .error .fuel
  | _ + 1, p, _, [] => .ok p.finishLine.map
  | fuel + 1, p, escaped, c :: input =>
    if c = 92 then
      if escaped then parseLoop fuel (p.append c) false input else parseLoop fuel p true input
    else if c = 35 ∨ c = 33 then
      if p.key = none then parseLoop fuel p false (skipComment input) else parseLoop fuel (p.append c) false input
    else if c = 32 ∨ c = 13 ∨ c = 9 then
      if escaped ∨ p.current = .value then parseLoop fuel (p.append c) false input
      else if p.current = .key ∨ (p.current = .null ∧ p.key = none) then parseLoop fuel { p with current := .null } false input
      else parseLoop fuel p false input
    else if c = 58 ∨ c = 61 then
      if escaped ∨ p.current = .value then parseLoop fuel (p.append c) false input
      else parseLoop fuel { p with key := some (p.key.getD []), current := .null } false input
    else if c = 10 then
      if escaped then parseLoop fuel (p.append c) false input else parseLoop fuel p.finishLine false input
    else if c = 110 then
      parseLoop fuel (p.append (if escaped then 10 else c)) false input
    else if c = 117 then
      if escaped then (readUtf16 input).bind fun (x, input) => parseLoop fuel (p.append x) false input
      else parseLoop fuel (p.append c) false input
    else parseLoop fuel (p.append c) false input

/-- Properties.java:20-26 `load`: what is put into the map, in this order. -/
def load (input : List Nat) : Except Exn (List (List Nat × List Nat)) := parseLoop (input.length + 1) ⟨none, none, .null, []⟩ false input

/-- Properties.java:32-38: one entry. -/
def storeEntry (e : List Nat × List Nat) : List Nat := JUtf8.encode e.1 ++ [61] ++ JUtf8.encode e.2 ++ [10]

/-- Properties.java:28-40 `store`: the bytes written for the entries, in the order of the iterator (PrintStream.java:43-48). -/
def store (comment : List Nat) (entries : List (List Nat × List Nat)) : List Nat :=
  [35, 32] ++ JUtf8.encode comment ++ [10] ++ entries.flatMap storeEntry

end Avian.JProperties
