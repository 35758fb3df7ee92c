/-
Model of the line number table and its search.
Sources: /repo/src/avian/machine.h 176-177, 3822-3835; /repo/src/process.cpp 271-308
(`findLineNumber`); /repo/src/machine.cpp 2332-2340 (the table is made), 6340-6364 (`debug` search
by line is not modelled).

Simplifications: the table is a list of 64-bit words; indices are naturals (a table has at most 65535
entries, so `unsigned` does not wrap); a search that does not end is `none` for every amount of fuel.
-/
namespace Avian.Lines

/-- machine.h 176 -/
def nativeLine : Int := -2

/-- machine.h 177 -/
def unknownLine : Int := -1

/-- machine.h 3822-3825 `lineNumber` -/
def lineNumber (ip line : BitVec 64) : BitVec 64 := ip <<< (32 : Nat) ||| line

/-- machine.h 3827-3830 `lineNumberIp` -/
def lineNumberIp (ln : BitVec 64) : BitVec 32 := (ln >>> (32 : Nat)).setWidth 32

/-- machine.h 3832-3835 `lineNumberLine` -/
def lineNumberLine (ln : BitVec 64) : BitVec 32 := (ln &&& 0xFFFFFFFF#64).setWidth 32

/-- machine.cpp 2336-2340: the entries of the class file, two bytes each, put in the table. -/
def makeTable (entries : List (BitVec 16 × BitVec 16)) : List (BitVec 64) :=
  entries.map fun e => lineNumber (e.1.setWidth 64) (e.2.setWidth 64)

/-- How the loop ends: at an entry, or with the value of `top`. -/
inductive Found where
  | line (l : BitVec 32)
  | top (i : Nat)
  deriving DecidableEq

/-- process.cpp 285-299: the loop, `fuel` times at most. -/
def search (body : List (BitVec 64)) (ip : BitVec 32) : Nat → Nat → Nat → Option Found
  | 0, _, _ => none
  | fuel + 1, bottom, top =>
    if top - bottom = 0 then some (.top top)
    else
      let middle := bottom + (top - bottom) / 2
      let ln := body.getD middle 0
      if lineNumberIp ln ≤ ip ∧ (middle + 1 = body.length ∨ ip < lineNumberIp (body.getD (middle + 1) 0)) then
        some (.line (lineNumberLine ln))
      else if ip < lineNumberIp ln then search body ip fuel bottom middle
      else if lineNumberIp ln < ip then search body ip fuel (middle + 1) top
      else search body ip fuel bottom top

/-- process.cpp 301-307 -/
def finish (body : List (BitVec 64)) : Found → Int
  | .line l => l.toInt
  | .top i => if i < body.length then (lineNumberLine (body.getD i 0)).toInt else unknownLine

/-- process.cpp 271-308 `findLineNumber` for a method with the given table, or none. -/
def findLineNumber (native : Bool) (table : Option (List (BitVec 64))) (ip : BitVec 32) (fuel : Nat) : Option Int :=
  if native then some nativeLine
  else
    let ip := ip - 1
    match table with
    | some body => (search body ip fuel 0 body.length).map (finish body)
    | none => some unknownLine

end Avian.Lines
