import Verif.Lib.Outcome

/-
Messages with parameters (classpath/java/text/MessageFormat.java). Characters are UTF-16 code units as numbers; the position `i` in
the pattern is the rest of the pattern, and the place in the loops is a mode.
-/
namespace Avian.MessageFormat

inductive Error where
  /-- `args[num]` outside of the array. -/
  | arrayIndex
  /-- "Character within {} isn't digit". -/
  | illegalArgument
  /-- `pattern.charAt(i)` behind the end. -/
  | stringIndex
  deriving DecidableEq

/-- Places in MessageFormat.java:46-86. -/
inductive Mode where
  /-- The outer loop, line 50. -/
  | text
  /-- The loop of a parameter, line 55, with `num`. -/
  | param (num : BitVec 32)
  /-- After the first tick, line 69. -/
  | tick
  /-- The loop of a literal string, line 74. -/
  | literal

/-- MessageFormat.java:61: `args[num]`, as text; a null is the text "null". -/
def argument (args : List (Option (List Nat))) (num : BitVec 32) : Option (List Nat) :=
  if num.toInt < 0 then none else (args[num.toInt.toNat]?).map fun a => a.getD [110, 117, 108, 108]

/-- MessageFormat.java:46-86 `format`. -/
def run (args : List (Option (List Nat))) : Mode → List Nat → List Nat → Except Error (List Nat)
  | .text, [], target => .ok target
  | .text, ch :: rest, target =>
    if ch = 123 then run args (.param 0#32) rest target
    else if ch = 39 then run args .tick rest target
    else run args .text rest (target ++ [ch])
  | .param _, [], target => .ok target
  | .param num, ch :: rest, target =>
    if 48 ≤ ch ∧ ch ≤ 57 then run args (.param (num * 10#32 + BitVec.ofNat 32 (ch - 48))) rest target
    else if ch = 125 then
      match argument args num with
      | none => .error .arrayIndex
      | some a => run args .text rest (target ++ a)
    else .error .illegalArgument
  | .tick, [], _ => .error .stringIndex
  | .tick, ch :: rest, target => if ch = 39 then run args .text rest (target ++ [39]) else run args .literal rest (target ++ [ch])
  | .literal, [], _ => .error .stringIndex
  | .literal, ch :: rest, target => if ch = 39 then run args .text rest target else run args .literal rest (target ++ [ch])

/-- MessageFormat.java:88-90 the static `format`: into a new buffer. -/
def format (pattern : List Nat) (args : List (Option (List Nat))) : Except Error (List Nat) := run args .text pattern []

end Avian.MessageFormat
