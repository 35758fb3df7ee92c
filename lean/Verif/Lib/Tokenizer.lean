import Verif.Lib.Outcome

/-
String tokenizers (classpath/java/util/StringTokenizer.java).  Strings are lists of UTF-16 units.
-/
namespace Avian.Tokenizer

/-- StringTokenizer.java:14-17: the fields. -/
structure Tok where
  input : List Nat
  delimiters : List Nat
  includeDelimiters : Bool
  position : Nat
  deriving DecidableEq

/-- StringTokenizer.java:19-25: the constructor. -/
def make (input delimiters : List Nat) (includeDelimiters : Bool) : Tok := ⟨input, delimiters, includeDelimiters, 0⟩

/-- StringTokenizer.java:35-37 `isDelimiter`. -/
def Tok.isDelimiter (t : Tok) (c : Nat) : Bool := t.delimiters.contains c

/-- StringTokenizer.java:42-59: the loop of `countTokens` over the characters from `i` on, and what follows it. -/
def countLoop (t : Tok) (count : Nat) (sawNonDelimiter : Bool) : List Nat → Nat
  | [] => if sawNonDelimiter then count + 1 else count
  | c :: rest =>
    if t.isDelimiter c then
      let (count, saw) := if sawNonDelimiter then (count + 1, false) else (count, sawNonDelimiter)
      countLoop t (if t.includeDelimiters then count + 1 else count) saw rest
    else countLoop t count true rest

/-- StringTokenizer.java:39-62 `countTokens`. -/
def Tok.countTokens (t : Tok) : Nat := countLoop t 0 false (t.input.drop t.position)

/-- StringTokenizer.java:65-75: the loop of `hasMoreTokens` over the characters from `i` on. -/
def hasLoop (t : Tok) (i : Nat) : List Nat → Bool × Tok
  | [] => (false, t)
  | c :: rest =>
    if t.isDelimiter c then if t.includeDelimiters then (true, t) else hasLoop t (i + 1) rest
    else (true, { t with position := i })

/-- StringTokenizer.java:64-76 `hasMoreTokens`. -/
def Tok.hasMoreTokens (t : Tok) : Bool × Tok := hasLoop t t.position (t.input.drop t.position)

/-- StringTokenizer.java:86-88: where the token ends. -/
def scan (t : Tok) (i : Nat) : List Nat → Nat
  | [] => i
  | c :: rest => if t.isDelimiter c then i else scan t (i + 1) rest

/-- `String.substring`. -/
def substring (s : List Nat) (i j : Nat) : List Nat := (s.take j).drop i

/-- StringTokenizer.java:79-92: the loop of `nextToken` over the characters from `i` on; `none` is NoSuchElementException. -/
def nextLoop (t : Tok) (i : Nat) : List Nat → Option (List Nat × Tok)
  | [] => none
  | c :: rest =>
    if t.isDelimiter c then
      if t.includeDelimiters then some (substring t.input i (i + 1), t) else nextLoop t (i + 1) rest
    else
      let position := scan t i (c :: rest)
      some (substring t.input i position, { t with position := position })

/-- StringTokenizer.java:78-93 `nextToken`. -/
def Tok.nextToken (t : Tok) : Option (List Nat × Tok) := nextLoop t t.position (t.input.drop t.position)

/-- StringTokenizer.java:95-98 `nextToken(String)`. -/
def Tok.nextTokenWith (t : Tok) (delimiters : List Nat) : Option (List Nat × Tok) := { t with delimiters := delimiters }.nextToken

end Avian.Tokenizer
