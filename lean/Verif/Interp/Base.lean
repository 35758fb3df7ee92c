import Verif.Interp.Float
/-
Data shared by the interpreter model (`Verif.Interp.Machine`) and by the independent
specification of the Java instruction set (`Verif.Interp.Spec`): stack slots, objects, the static
environment of a program.

What is a parameter (`Env`) rather than modelled here: constant pool resolution, class
initialisation, method lookup (modelled in `Verif.Class`), the address chosen for a new object,
floating-point rounding.  Resolution that fails (and so would run class loading code) is `none`.
Garbage collection does not happen between the steps of the model.
-/
namespace Avian.Interp

/-- An object reference or method pointer; zero is null. -/
abbrev Ref := BitVec 64

/-- One operand stack or local variable slot of the interpreter: a tag word and a value word
(src/interpret.cpp:55-81 `pushObject`, `pushInt`; src/avian/machine.h:171-174 `StackTag`).  The
code always writes the two together. -/
inductive Slot where
  | int (v : BitVec 32)
  | obj (o : Ref)
  deriving DecidableEq, Repr

/-- A slot cleared by `memset` (src/interpret.cpp:313-315): `IntTag` is zero. -/
def Slot.zero : Slot := .int 0#32

instance : Inhabited Slot := ⟨Slot.zero⟩

/-- src/avian/machine.h:113-125 `FieldCode`. -/
inductive FKind where
  | byte | boolean | char | short | float | int | double | long | object
  deriving DecidableEq, Repr

/-- A resolved field: its type, its offset, and for a static field the table holding it. -/
structure Field where
  kind : FKind
  offset : Nat
  table : Ref

/-- Array contents by element type (src/types.def:312-364). -/
inductive Arr where
  | bool (l : List (BitVec 8))
  | byte (l : List (BitVec 8))
  | char (l : List (BitVec 16))
  | short (l : List (BitVec 16))
  | int (l : List (BitVec 32))
  | float (l : List (BitVec 32))
  | long (l : List (BitVec 64))
  | double (l : List (BitVec 64))
  | ref (l : List Ref)

/-- Number of elements. -/
def Arr.length : Arr → Nat
  | .bool l => l.length
  | .byte l => l.length
  | .char l => l.length
  | .short l => l.length
  | .int l => l.length
  | .float l => l.length
  | .long l => l.length
  | .double l => l.length
  | .ref l => l.length

/-- An object: its class, its contents if it is an array, and the bytes of its instance fields
(or, for a static table, of the static fields) by offset. -/
structure Obj where
  cls : Ref
  arr : Option Arr
  bytes : Nat → BitVec 8

/-- The heap. -/
abbrev Heap := Ref → Option Obj

/-- Replace one object. -/
def Heap.set (h : Heap) (o : Ref) (x : Obj) : Heap := fun p => if p = o then some x else h p

/-- The exceptions raised by the instructions themselves. -/
inductive ExKind where
  | nullPointer | arrayIndex | negativeSize | classCast | arithmetic | stackOverflow
  | arrayStore
  deriving DecidableEq, Repr

/-- A visible action on a monitor. -/
inductive Ev where
  | acquire (o : Ref)
  | release (o : Ref)
  deriving DecidableEq, Repr

/-- The parts of `GcCode` used by the interpreter (src/types.def:343-353). -/
structure Code where
  body : List (BitVec 8)
  maxLocals : Nat
  maxStack : Nat
  /-- packed handlers, see src/avian/machine.h:3794-3800 `exceptionHandler` -/
  handlers : List (BitVec 64)

/-- The parts of `GcMethod` used by the interpreter. -/
structure Meth where
  isStatic : Bool
  isSync : Bool
  isNative : Bool
  paramFootprint : Nat
  /-- the class object, locked by a static synchronized method -/
  jclass : Ref
  code : Code

/-- A loadable constant of one slot. -/
inductive Const where
  | int (v : BitVec 32)
  | obj (o : Ref)

/-- The floating-point operations whose rounding is not modelled, on bit patterns. -/
structure FPOps where
  fadd : BitVec 32 → BitVec 32 → BitVec 32
  fsub : BitVec 32 → BitVec 32 → BitVec 32
  fmul : BitVec 32 → BitVec 32 → BitVec 32
  fdiv : BitVec 32 → BitVec 32 → BitVec 32
  frem : BitVec 32 → BitVec 32 → BitVec 32
  dadd : BitVec 64 → BitVec 64 → BitVec 64
  dsub : BitVec 64 → BitVec 64 → BitVec 64
  dmul : BitVec 64 → BitVec 64 → BitVec 64
  ddiv : BitVec 64 → BitVec 64 → BitVec 64
  drem : BitVec 64 → BitVec 64 → BitVec 64
  f2d : BitVec 32 → BitVec 64
  d2f : BitVec 64 → BitVec 32
  i2f : BitVec 32 → BitVec 32
  i2d : BitVec 32 → BitVec 64
  l2f : BitVec 64 → BitVec 32
  l2d : BitVec 64 → BitVec 64

/-- The static environment of an execution. -/
structure Env where
  /-- slots in the stack area: `stackSizeInWords(t) / 2` -/
  size : Nat
  meth : Ref → Meth
  /-- constant pool lookups, by calling method and index as written in the code -/
  resolveMethod : Ref → BitVec 16 → Option Ref
  resolveField : Ref → BitVec 16 → Option Field
  resolveClass : Ref → BitVec 16 → Option Ref
  constant : Ref → BitVec 16 → Option Const
  constant2 : Ref → BitVec 16 → Option (BitVec 64)
  dynamicTarget : Ref → BitVec 16 → Option Ref
  /-- `findVirtualMethod(t, m, class)` and `findInterfaceMethod(t, m, class)` -/
  findVirtual : Ref → Ref → Ref
  findInterface : Ref → Ref → Ref
  /-- the target of `invokespecial` in the class of the calling method: the method itself or, for
  a superclass method, the virtual method found in the direct superclass -/
  specialTarget : Ref → Ref → Ref
  /-- `instanceOf` on the class of the object -/
  subclass : Ref → Ref → Bool
  /-- the class of an exception kind -/
  exClass : ExKind → Ref
  /-- the class object of the array of a class -/
  arrayClass : Ref → Ref
  /-- the element class of an array class -/
  elemClass : Ref → Ref
  /-- an address for a new object -/
  newAddr : Heap → Ref
  fp : FPOps

/-- Fields of a new object are zero. -/
def zeroBytes : Nat → BitVec 8 := fun _ => 0#8

/-- Allocate an object. -/
def Env.alloc (env : Env) (h : Heap) (x : Obj) : Heap × Ref := (h.set (env.newAddr h) x, env.newAddr h)

/-- `makeThrowable`: a new exception object of the class of the kind. -/
def Env.newThrowable (env : Env) (h : Heap) (k : ExKind) : Heap × Ref :=
  env.alloc h ⟨env.exClass k, none, zeroBytes⟩

/-- Little-endian value of `n` bytes. -/
def leNat (bytes : Nat → BitVec 8) (off : Nat) : Nat → Nat
  | 0 => 0
  | n + 1 => (bytes off).toNat + 256 * leNat bytes (off + 1) n

/-- Store the low `n` bytes of `v` at `off`, little-endian. -/
def leStore (bytes : Nat → BitVec 8) (off : Nat) : Nat → Nat → (Nat → BitVec 8)
  | 0, _ => bytes
  | n + 1, v => leStore (fun i => if i = off then BitVec.ofNat 8 v else bytes i) (off + 1) n (v / 256)

end Avian.Interp
