import Verif.Lib.Outcome
import Verif.Lib.JBitSet

/-
Sets of enum constants (classpath/java/util/EnumSet.java).  A constant is its ordinal; the type has `count` constants.
-/
namespace Avian.EnumSet

open JBitSet (Word)

/-- EnumSet.java:97-102 `createEmptyEnumSet`, with the constructor 18-21; `none` is an exception. -/
def create (count : Nat) : Option (List Word) := JBitSet.new count

/-- The result of an operation on the bits that says whether it ended without an exception. -/
def okBits (r : List Word × Bool) : Option (List Word) := if r.2 then some r.1 else none

/-- EnumSet.java:24-32 `add`. -/
def add (bits : List Word) (index : Nat) : Option (Bool × List Word) :=
  (JBitSet.get bits index).bind fun contains =>
  if !contains then (okBits (JBitSet.set bits index)).map fun b => (!contains, b) else some (!contains, bits)

/-- EnumSet.java:35-45 `remove`, of a constant of the type. -/
def remove (bits : List Word) (index : Nat) : Option (Bool × List Word) :=
  (JBitSet.get bits index).bind fun contains =>
  if contains then (okBits (JBitSet.clear bits index)).map fun b => (contains, b) else some (contains, bits)

/-- EnumSet.java:48-52 `contains`, of a constant of the type. -/
def contains (bits : List Word) (index : Nat) : Option Bool := JBitSet.get bits index

/-- EnumSet.java:55-57 `size`. -/
def size (bits : List Word) : Option Nat := JBitSet.cardinality bits

/-- EnumSet.java:64-69 `allOf`. -/
def allOf (count : Nat) : Option (List Word) := (create count).bind fun b => okBits (JBitSet.setRange b 0 count)

/-- EnumSet.java:71-73 `noneOf`. -/
def noneOf (count : Nat) : Option (List Word) := create count

/-- EnumSet.java:104-108 `addAllElementsToSet`. -/
def addAll (bits : List Word) : List Nat → Option (List Word)
  | [] => some bits
  | e :: es => (add bits e).bind fun r => addAll r.2 es

/-- EnumSet.java:75-81 `of`. -/
def ofElements (count first : Nat) (rest : List Nat) : Option (List Word) :=
  (create count).bind fun b => (add b first).bind fun r => addAll r.2 rest

/-- EnumSet.java:90-95 `copyOf`. -/
def copyOf (count : Nat) (bits : List Word) : Option (List Word) := (create count).map fun b => JBitSet.or b bits

/-- EnumSet.java:83-88 `complementOf`. -/
def complementOf (count : Nat) (bits : List Word) : Option (List Word) :=
  (copyOf count bits).bind fun b => okBits (JBitSet.flipRange b 0 count)

/-- EnumSet.java:117-118: the fields of an iterator. -/
structure Iter where
  currentIndex : Nat
  removeAllowed : Bool
  deriving DecidableEq

/-- EnumSet.java:117-118: a new iterator. -/
def Iter.new : Iter := ⟨0, false⟩

/-- EnumSet.java:151-153 `nextIndex`. -/
def nextIndex (bits : List Word) (it : Iter) : Int := JBitSet.nextSetBit bits it.currentIndex

/-- EnumSet.java:133-140 `hasNext`. -/
def hasNext (bits : List Word) (it : Iter) : Bool := nextIndex bits it ≥ 0

inductive Res where
  | bool (b : Bool)
  | num (n : Nat)
  | element (ordinal : Nat)
  | done
  | noSuchElement
  | illegalState
  /-- An exception that is none of the above. -/
  | exception
  deriving DecidableEq

/-- EnumSet.java:120-131 `next`; the array of the constants has `count` elements. -/
def next (count : Nat) (bits : List Word) (it : Iter) : Res × Iter :=
  if !hasNext bits it then (.noSuchElement, it)
  else
    let index := (nextIndex bits it).toNat
    if index < count then (.element index, ⟨index + 1, true⟩) else (.exception, it)

/-- EnumSet.java:142-149 `remove` of an iterator. -/
def iterRemove (bits : List Word) (it : Iter) : Res × List Word × Iter :=
  if !it.removeAllowed then (.illegalState, bits, it)
  else
    match okBits (JBitSet.clear bits (it.currentIndex - 1)) with
    | some b => (.done, b, { it with removeAllowed := false })
    | none => (.exception, bits, it)

end Avian.EnumSet
