import Verif.Util.Math

/-!
Field layout of a class being loaded: `parseFieldTable` (src/machine.cpp:1313-1525), the helpers it
uses, the singleton reference mask (src/avian/machine.h:3253-3350) and the collector's walk over an
object (src/machine.cpp:306-361, 5542-5613).

Simplifications: the class-file stream is replaced by the list of declarations read from it; names,
signatures and annotations do not influence the layout and are left out.  A `ConstantValue` index
is replaced by the word stored at that index of the pool (`none` for index 0).  Pointers are 64-bit
words.  `unsigned` is `BitVec 32`; `GcField::offset` and `GcClass::fixedSize` are 16 bits wide
(classpath/avian/VMField.java:17, classpath/avian/VMClass.java:16), so storing truncates.
-/

namespace Avian.Class

open Avian.Math (U32 U64 pad ceilingDivide)

abbrev U8 := BitVec 8
abbrev U16 := BitVec 16

/-- src/avian/machine.h:158-169 `FieldCode`. -/
inductive FieldCode where
  | void | byte | char | double | float | int | long | short | boolean | object
  deriving DecidableEq, Repr

/-- src/machine.cpp:4658-4689 `fieldCode`; `none` is `abort`. -/
def fieldCode (javaCode : Char) : Option FieldCode :=
  match javaCode with
  | 'B' => some .byte
  | 'C' => some .char
  | 'D' => some .double
  | 'F' => some .float
  | 'I' => some .int
  | 'J' => some .long
  | 'S' => some .short
  | 'V' => some .void
  | 'Z' => some .boolean
  | 'L' => some .object
  | '[' => some .object
  | _ => none

/-- src/avian/machine.h:2325-2332 `fieldSize` with src/machine.cpp:4715-4736 `primitiveSize`. -/
def fieldSize : FieldCode → U32
  | .void => 0#32
  | .byte => 1#32
  | .boolean => 1#32
  | .char => 2#32
  | .short => 2#32
  | .float => 4#32
  | .int => 4#32
  | .double => 8#32
  | .long => 8#32
  | .object => 8#32

/-- One entry of the field list of a class file (src/machine.cpp:1341-1383): what the layout uses. -/
structure Decl where
  isStatic : Bool
  code : FieldCode
  /-- pool word named by the `ConstantValue` attribute -/
  value : Option U64
  deriving DecidableEq, Repr

/-- The parts of `GcField` set by the layout (src/machine.cpp:1385-1415). -/
structure Field where
  isStatic : Bool
  code : FieldCode
  offset : U16
  deriving DecidableEq, Repr

/-- The running state of the loop src/machine.cpp:1341-1417. -/
structure Laid where
  fields : List Field
  member : U32
  static : U32
  deriving Repr

/-- src/machine.cpp:1341-1417, the loop over declared fields: static fields advance
`staticOffset` (1397-1405), instance fields advance `memberOffset` (1406-1415). -/
def layFields (member static : U32) : List Decl → Laid
  | [] => ⟨[], member, static⟩
  | d :: ds =>
    let size := fieldSize d.code
    if d.isStatic then
      let o := pad static size
      let r := layFields member (o + size) ds
      ⟨⟨true, d.code, o.setWidth 16⟩ :: r.fields, r.member, r.static⟩
    else
      let o := pad member size
      let r := layFields (o + size) static ds
      ⟨⟨false, d.code, o.setWidth 16⟩ :: r.fields, r.member, r.static⟩

/-- The (type, value) pairs recorded for the second pass (src/machine.cpp:1403-1405). -/
def staticDecls (ds : List Decl) : List (FieldCode × Option U64) :=
  (ds.filter (·.isStatic)).map fun d => (d.code, d.value)

/-! ### Words and masks -/

/-- A store of bytes into a byte buffer at an offset; `none` when it leaves the buffer. -/
def store (mem : List U8) (off : Nat) (bytes : List U8) : Option (List U8) :=
  if off + bytes.length ≤ mem.length then
    some (mem.take off ++ bytes ++ mem.drop (off + bytes.length))
  else none

/-- The low `n` bytes of a word in memory order (little endian). -/
def leBytes (n : Nat) (v : U64) : List U8 :=
  (List.range n).map fun i => v.extractLsb' (8 * i) 8

/-- `mask[i / 32] |= 1 << (i % 32)` (src/avian/machine.h:3289-3292, src/machine.cpp:1514);
`none` when the word is outside the mask array. -/
def setBit (mask : List U32) (i : Nat) : Option (List U32) :=
  if i / 32 < mask.length then
    some (mask.modify (i / 32) (· ||| (1#32 <<< (i % 32))))
  else none

/-- `mask[i / 32] & (1 << (i % 32))` (src/machine.cpp:318, src/avian/machine.h:3302-3308);
`none` when the word is outside the mask array. -/
def testBit (mask : List U32) (i : Nat) : Option Bool :=
  mask[i / 32]?.map fun w => (w &&& (1#32 <<< (i % 32))) != 0#32

/-! ### Singletons -/

/-- src/avian/machine.h:3253-3259 `singletonMaskSize(count, BitsPerWord)` (in words). -/
def singletonMaskSize (count : U32) : Option U32 :=
  if count ≠ 0#32 then ceilingDivide (count + 2#32) 64#32 else some 0#32

/-- src/avian/machine.h:3266-3273 `singletonMaskSize(t, singleton)` from the stored length. -/
def singletonMaskSizeOf (length : U32) : Option U32 :=
  if length ≠ 0#32 then ceilingDivide (length + 2#32) 65#32 else some 0#32

/-- src/avian/machine.h:3275-3278 `singletonCount`. -/
def singletonCount (length : U32) : Option U32 := do
  return length - (← singletonMaskSizeOf length)

/-- A singleton object (src/types.def:43-44): `data` is the body below the mask, `mask` the
32-bit words of the mask that follows it. -/
structure Singleton where
  data : List U8
  mask : List U32
  deriving DecidableEq, Repr

/-- src/avian/machine.h:3327-3335 `makeSingletonOfSize`: zeroed body, `mask[0] = 1`. -/
def makeSingletonOfSize (count : U32) : Option Singleton := do
  let m ← singletonMaskSize count
  let zero := List.replicate (2 * m.toNat) 0#32
  return ⟨List.replicate (8 * count.toNat) 0#8,
    if count ≠ 0#32 then zero.set 0 1#32 else zero⟩

/-- src/avian/machine.h:3289-3299 `singletonMarkObject`. -/
def singletonMarkObject (s : Singleton) (index : Nat) : Option Singleton := do
  return { s with mask := ← setBit s.mask (index + 2) }

/-- src/avian/machine.h:3301-3308 `singletonIsObject`. -/
def singletonIsObject (s : Singleton) (index : Nat) : Option Bool := testBit s.mask (index + 2)

/-! ### The static table -/

/-- src/machine.cpp:1440-1473: the switch writing a constant into the static table; `void`
reaches `default: abort`. -/
def storeConstant (data : List U8) (offset : Nat) (code : FieldCode) (v : U64) :
    Option (List U8) :=
  match code with
  | .byte => store data offset (leBytes 1 v)
  | .boolean => store data offset (leBytes 1 v)
  | .char => store data offset (leBytes 2 v)
  | .short => store data offset (leBytes 2 v)
  | .int => store data offset (leBytes 4 v)
  | .float => store data offset (leBytes 4 v)
  | .long => store data offset (leBytes 8 v)
  | .double => store data offset (leBytes 8 v)
  | .object => store data offset (leBytes 8 v)
  | .void => none

/-- src/machine.cpp:1434-1480: the second pass over the static fields. -/
def fillStatics (s : Singleton) (offset : U32) :
    List (FieldCode × Option U64) → Option Singleton
  | [] => some s
  | (code, value) :: rest => do
    let size := fieldSize code
    let o := pad offset size
    let data ← match value with
      | some v => storeConstant s.data o.toNat code v
      | none => some s.data
    let s := { s with data := data }
    let s ← if code = .object then singletonMarkObject s (o.toNat / 8) else some s
    fillStatics s (o + size) rest

/-- src/machine.cpp:1421-1483: allocation and filling of the static table.  `staticOffset` is the
value the first pass ended with, `cls` the pointer to the class. -/
def makeStaticTable (staticOffset : U32) (cls : U64) (statics : List (FieldCode × Option U64)) :
    Option Singleton := do
  let footprint ← ceilingDivide (staticOffset - 16#32) 8#32
  let s ← makeSingletonOfSize footprint
  let data ← store s.data 0 (leBytes 8 cls)
  let s ← singletonMarkObject { s with data := data } 0
  fillStatics s 8#32 statics

/-! ### The class -/

/-- The parts of `GcClass` written by `parseFieldTable`. -/
structure Cls where
  fixedSize : U16
  objectMask : Option (List U32)
  fields : List Field
  staticTable : Option Singleton
  deriving DecidableEq, Repr

/-- src/machine.cpp:1508-1517: the loop from the last field to the first that sets mask bits. -/
def markFields (mask : List U32) : List Field → Option (List U32)
  | [] => some mask
  | f :: fs => do
    let mask ← markFields mask fs
    if !f.isStatic && f.code = .object then setBit mask (f.offset.toNat / 8) else some mask

/-- src/machine.cpp:1489-1499: `mask[0] = 1` and the copy of the superclass mask. -/
def startMask (fixedSize : U16) (sup : Option Cls) : Option (List U32) := do
  let n ← ceilingDivide (fixedSize.setWidth 32) 256#32
  let mask := List.replicate n.toNat 0#32
  if mask.length = 0 then none
  let mask := mask.set 0 1#32
  match sup with
  | some c => match c.objectMask with
    | some superMask =>
      let k ← ceilingDivide (c.fixedSize.setWidth 32) 256#32
      if k.toNat ≤ superMask.length ∧ k.toNat ≤ mask.length then
        some (superMask.take k.toNat ++ mask.drop k.toNat)
      else none
    | none => some mask
  | none => some mask

/-- src/machine.cpp:1488-1523: the mask of a class that adds instance fields; kept only when the
superclass has a mask or a reference field was seen. -/
def ownMask (fixedSize : U16) (sup : Option Cls) (fields : List Field) :
    Option (Option (List U32)) :=
  (startMask fixedSize sup).bind fun mask =>
  (markFields mask fields).bind fun mask =>
  if (sup.bind (·.objectMask)).isSome || fields.any (fun f => !f.isStatic && f.code = .object) then
    some (some mask)
  else some none

/-- src/machine.cpp:1421-1484: the static table, made only when there are static fields. -/
def staticTableOf (staticOffset : U32) (cls : U64) (ds : List Decl) : Option (Option Singleton) :=
  if staticDecls ds = [] then some none
  else (makeStaticTable staticOffset cls (staticDecls ds)).map some

/-- src/machine.cpp:1486-1488: share the superclass mask when no instance field was added. -/
def objectMaskOf (member : U32) (sup : Option Cls) (fields : List Field) :
    Option (Option (List U32)) :=
  match sup with
  | some c => if member = c.fixedSize.setWidth 32 then some c.objectMask
    else ownMask (member.setWidth 16) sup fields
  | none => ownMask (member.setWidth 16) sup fields

/-- src/machine.cpp:1318-1321: where the instance fields start. -/
def start : Option Cls → U32
  | none => 8#32
  | some c => c.fixedSize.setWidth 32

/-- src/machine.cpp:1313-1525 `parseFieldTable`; `none` is an abort or an access outside an
array. -/
def parseFieldTable (sup : Option Cls) (cls : U64) (ds : List Decl) : Option Cls :=
  let laid := layFields (start sup) 24#32 ds
  (staticTableOf laid.static cls ds).bind fun staticTable =>
  (objectMaskOf laid.member sup laid.fields).bind fun objectMask =>
  some ⟨laid.member.setWidth 16, objectMask, laid.fields, staticTable⟩

/-! ### Walking an object -/

/-- src/machine.cpp:317-323: visit the marked words `i, i+1, …` (`n` of them). -/
def walkRange (mask : List U32) (i : Nat) : Nat → Option (List Nat)
  | 0 => some []
  | n + 1 => do
    let b ← testBit mask i
    let rest ← walkRange mask (i + 1) n
    return if b then i :: rest else rest

/-- src/machine.cpp:325-332: whether some word of an array element is a reference. -/
def arrayObjectElements (mask : List U32) (k : Nat) : Nat → Option Bool
  | 0 => some false
  | n + 1 => do
    if ← testBit mask k then return true
    arrayObjectElements mask (k + 1) n

/-- src/machine.cpp:346-355: the inner loop over the words `j, j+1, …` of element `i`. -/
def walkElement (mask : List U32) (fixedWords elementWords i j : Nat) : Nat → Option (List Nat)
  | 0 => some []
  | n + 1 => do
    let b ← testBit mask (fixedWords + j)
    let rest ← walkElement mask fixedWords elementWords i (j + 1) n
    return if b then (fixedWords + i * elementWords + j) :: rest else rest

/-- src/machine.cpp:345-356: the loop over array elements `i, i+1, …` (`n` of them), each starting
at word `elementStart`. -/
def walkElements (mask : List U32) (fixedWords elementWords elementStart i : Nat) :
    Nat → Option (List Nat)
  | 0 => some []
  | n + 1 => do
    let a ← walkElement mask fixedWords elementWords i elementStart (elementWords - elementStart)
    let rest ← walkElements mask fixedWords elementWords elementStart (i + 1) n
    return a ++ rest

/-- src/machine.cpp:306-361 `walk` with a visitor that always continues; the result is the list of
word indices visited, in order.  (A visitor that stops sees a prefix of it.) -/
def walk (mask : List U32) (fixedSize arrayElementSize arrayLength start : Nat) :
    Option (List Nat) := do
  let fixedWords := (fixedSize + 7) / 8
  let elementWords := (arrayElementSize + 7) / 8
  let head ← walkRange mask start (fixedWords - start)
  let elems ← arrayObjectElements mask fixedWords elementWords
  if elems then
    let s := if start > fixedWords then start - fixedWords else 0
    let tail ← walkElements mask fixedWords elementWords (s % elementWords) (s / elementWords)
      (arrayLength - s / elementWords)
    return head ++ tail
  else return head

/-- src/machine.cpp:5542-5589 `walk(t, w, o, start)` for an instance of an ordinary class (no array
part, no continuation): without a mask only the header word is visited. -/
def walkInstance (c : Cls) (start : Nat) : Option (List Nat) :=
  match c.objectMask with
  | some mask => walk mask c.fixedSize.toNat 0 0 start
  | none => if start = 0 then some [0] else some []

/-- src/machine.cpp:5565-5576: the same for a singleton (`length` words of body). -/
def walkSingleton (s : Singleton) (start : Nat) : Option (List Nat) :=
  if s.data.length / 8 + s.mask.length / 2 ≠ 0 then
    walk s.mask ((s.data.length / 8 + 2) * 8) 0 0 start
  else if start = 0 then some [0] else some []

/-- src/machine.cpp:5591-5613 `walkNext`: the visitor stops at the first word; -1 when none. -/
def walkNext (c : Cls) (previous : Int) : Option Int := do
  let l ← walkInstance c (previous + 1).toNat
  return match l with
    | [] => -1
    | i :: _ => (i : Int)

end Avian.Class
