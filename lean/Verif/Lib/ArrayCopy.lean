/-
`System.arraycopy` (src/avian/classpath-common.h 61-120, reached from src/classpath-avian.cpp 441-450).

Arrays are modelled with the bytes of their elements.  Objects are numbers; different objects do not overlap.
-/
namespace Avian.ArrayCopy

abbrev Ref := Nat
abbrev Byte := BitVec 8

/-- What `arrayCopy` asks of a class: `arrayElementSize`, the primitive flag and whether there is an object mask
(classpath-common.h:63-65, 78, 98). -/
structure Cls where
  id : Nat
  elementSize : Nat
  primitiveFlag : Bool
  objectMask : Bool
  deriving DecidableEq

/-- An array: its length field and the bytes of its elements. -/
structure Arr where
  cls : Cls
  length : Nat
  body : List Byte

/-- The arrays, and the elements marked as changed for the garbage collector (classpath-common.h:98-100). -/
structure State where
  arr : Ref → Arr
  marks : List (Ref × Nat)

inductive Outcome where
  | done (s : State)
  | indexOutOfBounds
  | arrayStore
  | nullPointer
  /-- bytes outside the array are read or written -/
  | overrun

/-- The array classes of the virtual machine.  The primitive flag is set for the classes of the primitive types
only (machine.cpp:3326-3334), not for array classes (machine.cpp:2960-2978). -/
def arrayClass (id elementSize : Nat) (reference : Bool) : Cls := ⟨id, elementSize, false, reference⟩

/-- classpath-common.h:61-66 `compatibleArrayTypes`. -/
def compatible (a b : Cls) : Bool :=
  a.elementSize ≠ 0 && b.elementSize ≠ 0 && (a.id == b.id || !(a.primitiveFlag || b.primitiveFlag))

/-- Arithmetic of `int32_t`. -/
def wrap (i : Int) : Int := (i + 2 ^ 31) % 2 ^ 32 - 2 ^ 31

/-- Conversion to `unsigned`. -/
def unsigned (i : Int) : Nat := (i % 2 ^ 32).toNat

/-- classpath-common.h:84-85: one of the two range checks. -/
def inRange (offset length arrayLength : Int) : Bool :=
  offset ≥ 0 && wrap (offset + length) > offset && wrap (offset + length) ≤ arrayLength

/-- `memmove` (or `memcpy` between different arrays): `n` bytes from `src` at `s` to `dst` at `d`. -/
def copyBytes (src dst : List Byte) (s d n : Nat) : Option (List Byte) :=
  if s + n ≤ src.length ∧ d + n ≤ dst.length then
    some (dst.take d ++ (src.drop s).take n ++ dst.drop (d + n))
  else none

/-- classpath-common.h:68-120 `arrayCopy`; the multiplications at 89-95 are those of `unsigned`. -/
def arrayCopy (st : State) (src : Option Ref) (srcOffset : Int) (dst : Option Ref) (dstOffset length : Int) :
    Outcome :=
  match src, dst with
  | some s, some d =>
    if compatible (st.arr s).cls (st.arr d).cls then
      if length > 0 then
        if inRange srcOffset length (st.arr s).length && inRange dstOffset length (st.arr d).length then
          match copyBytes (st.arr s).body (st.arr d).body (unsigned (srcOffset * (st.arr s).cls.elementSize))
              (unsigned (dstOffset * (st.arr s).cls.elementSize))
              (unsigned (length * (st.arr s).cls.elementSize)) with
          | none => .overrun
          | some body =>
            .done {
              arr := fun r => if r = d then { st.arr d with body := body } else st.arr r
              marks := if (st.arr d).cls.objectMask then
                  st.marks ++ (List.range length.toNat).map fun k => (d, dstOffset.toNat + k)
                else st.marks }
        else .indexOutOfBounds
      else if length < 0 then .indexOutOfBounds
      else .done st
    else .arrayStore
  | _, _ => .nullPointer

end Avian.ArrayCopy
