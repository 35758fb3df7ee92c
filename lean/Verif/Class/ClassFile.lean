import Verif.Class.Pool

/-
Reading a class file (src/machine.cpp:1236-1260, 1313-1391, 2288-2349, 2416-2580, 2760-2862,
4738-4838): which bytes become which part of the class.

Left out: what is done with the parts once they are read (field layout: `Verif.Class.Fields`,
method tables: `Verif.Class.Dispatch`), the loading of the superclass and of the interfaces (here
they are names), and the packing of handlers and line numbers into words (`Verif.Interp.Machine`,
`Verif.Interp.Lines`).
-/
namespace Avian.ClassFile
open Avian.Stream

/-- A counted loop `for (i = 0; i < n; ++i)`. -/
def times {α : Type} : Nat → (α → P α) → α → P α
  | 0, _, a => pure a
  | n + 1, f, a => do
    let b ← f a
    times n f b

/-- `vm::strcmp(literal, name) == 0` on the zero terminated name (src/avian/machine.h:954-958). -/
def nameIs (literal : String) (name : List (BitVec 8)) : Bool :=
  name.takeWhile (fun b => b ≠ 0#8) = literal.toList.map Descriptor.ch

/-- `cast<GcByteArray>(t, singletonObject(t, pool, s.read2() - 1))`. -/
def readText (st : St) : P (List (BitVec 8)) := do
  let i ← read2
  lift (st.byteArray (minus1 i))

/-- `singletonObject(t, pool, s.read2() - 1)`: any object (null is excluded). -/
def readObject (st : St) : P Obj := do
  let i ← read2
  match ← lift (st.pool.object (minus1 i)) with
  | some o => pure o
  | none => fail

/-- The name and the length in front of every attribute. -/
def readAttributeHead (st : St) : P (List (BitVec 8) × BitVec 32) := do
  let name ← readText st
  let length ← read4
  pure (name, length)

/-! ### Fields -/

/-- What becomes of a field declaration. -/
structure FieldInfo where
  flags : Nat
  name : List (BitVec 8)
  spec : List (BitVec 8)
  code : Descriptor.FieldCode
  value : Nat
  signature : Option Obj
  annotations : Option (List (BitVec 8))

/-- The locals of one turn: `value` and the addendum. -/
structure FieldAcc where
  value : Nat
  signature : Option Obj
  annotations : Option (List (BitVec 8))

/-- machine.cpp:1350-1380: one attribute of a field. -/
def fieldAttribute (st : St) (a : FieldAcc) : P FieldAcc := do
  let h ← readAttributeHead st
  if nameIs "ConstantValue" h.1 then do
    let v ← read2
    pure { a with value := v.toNat }
  else if nameIs "Signature" h.1 then do
    let o ← readObject st
    pure { a with signature := some o }
  else if nameIs "RuntimeVisibleAnnotations" h.1 then do
    let b ← readBytes h.2
    pure { a with annotations := some b }
  else do
    skip h.2
    pure a

/-- The first character of the type of a field: `body()[0]`, zero for an empty text. -/
def firstByte (l : List (BitVec 8)) : BitVec 8 := l.headD 0#8

/-- machine.cpp:1334-1391: one field. -/
def parseField (st : St) (acc : List FieldInfo) : P (List FieldInfo) := do
  let flags ← read2
  let name ← read2
  let spec ← read2
  let s ← lift (st.byteArray (minus1 spec))
  let code ← lift (Descriptor.fieldCode (firstByte s))
  let n ← read2
  let a ← times n.toNat (fieldAttribute st) ⟨0, none, none⟩
  let nm ← lift (st.byteArray (minus1 name))
  pure (acc ++ [⟨flags.toNat, nm, s, code, a.value, a.signature, a.annotations⟩])

/-- machine.cpp:1323-1391. -/
def parseFields (st : St) : P (List FieldInfo) := do
  let count ← read2
  times count.toNat (parseField st) []

/-! ### Code -/

/-- `start`, `end`, `ip`, `catchType` (machine.cpp:2321-2325). -/
structure Handler where
  start : Nat
  stop : Nat
  ip : Nat
  catchType : Nat
  deriving DecidableEq

structure CodeInfo where
  maxStack : Nat
  maxLocals : Nat
  body : List (BitVec 8)
  handlers : List Handler
  /-- `ip`, `line` -/
  lines : Option (List (Nat × Nat))

/-- machine.cpp:2320-2326. -/
def parseHandler (acc : List Handler) : P (List Handler) := do
  let start ← read2
  let stop ← read2
  let ip ← read2
  let catchType ← read2
  pure (acc ++ [⟨start.toNat, stop.toNat, ip.toNat, catchType.toNat⟩])

/-- machine.cpp:2339-2343. -/
def parseLine (acc : List (Nat × Nat)) : P (List (Nat × Nat)) := do
  let ip ← read2
  let line ← read2
  pure (acc ++ [(ip.toNat, line.toNat)])

/-- machine.cpp:2331-2348. -/
def codeAttribute (st : St) (a : Option (List (Nat × Nat))) : P (Option (List (Nat × Nat))) := do
  let h ← readAttributeHead st
  if nameIs "LineNumberTable" h.1 then do
    let n ← read2
    let l ← times n.toNat parseLine []
    pure (some l)
  else do
    skip h.2
    pure a

/-- machine.cpp:2288-2349 `parseCode`. -/
def parseCode (st : St) : P CodeInfo := do
  let maxStack ← read2
  let maxLocals ← read2
  let length ← read4
  let body ← readBytes length
  let n ← read2
  let handlers ← times n.toNat parseHandler []
  let m ← read2
  let lines ← times m.toNat (codeAttribute st) none
  pure ⟨maxStack.toNat, maxLocals.toNat, body, handlers, lines⟩

/-! ### Methods -/

structure MethodInfo where
  flags : Nat
  name : List (BitVec 8)
  spec : List (BitVec 8)
  parameterCount : Nat
  footprint : Nat
  returnCode : Descriptor.FieldCode
  code : Option CodeInfo
  exceptions : Option (List Nat)
  annotationDefault : Option (List (BitVec 8))
  signature : Option Obj
  annotations : Option (List (BitVec 8))
  parameterAnnotations : Option (List (BitVec 8))

structure MethodAcc where
  code : Option CodeInfo
  exceptions : Option (List Nat)
  annotationDefault : Option (List (BitVec 8))
  signature : Option Obj
  annotations : Option (List (BitVec 8))
  parameterAnnotations : Option (List (BitVec 8))

/-- machine.cpp:2494-2498. -/
def parseException (acc : List Nat) : P (List Nat) := do
  let v ← read2
  pure (acc ++ [v.toNat])

/-- machine.cpp:2478-2548: one attribute of a method. -/
def methodAttribute (st : St) (a : MethodAcc) : P MethodAcc := do
  let h ← readAttributeHead st
  if nameIs "Code" h.1 then do
    let c ← parseCode st
    pure { a with code := some c }
  else if nameIs "Exceptions" h.1 then do
    let n ← read2
    let l ← times n.toNat parseException []
    pure { a with exceptions := some l }
  else if nameIs "AnnotationDefault" h.1 then do
    let b ← readBytes h.2
    pure { a with annotationDefault := some b }
  else if nameIs "Signature" h.1 then do
    let o ← readObject st
    pure { a with signature := some o }
  else if nameIs "RuntimeVisibleAnnotations" h.1 then do
    let b ← readBytes h.2
    pure { a with annotations := some b }
  else if nameIs "RuntimeVisibleParameterAnnotations" h.1 then do
    let b ← readBytes h.2
    pure { a with parameterAnnotations := some b }
  else do
    skip h.2
    pure a

/-- `flags & ACC_STATIC` (src/avian/constants.h: 0x0008). -/
def isStatic (flags : BitVec 16) : Bool := flags &&& 8#16 ≠ 0#16

/-- machine.cpp:2454-2580: one method. -/
def parseMethod (st : St) (acc : List MethodInfo) : P (List MethodInfo) := do
  let flags ← read2
  let name ← read2
  let spec ← read2
  let n ← read2
  let a ← times n.toNat (methodAttribute st) ⟨none, none, none, none, none, none⟩
  let s ← lift (st.byteArray (minus1 spec))
  let scan ← lift (Descriptor.scanMethodSpec (s ++ [0#8]) (isStatic flags))
  let nm ← lift (st.byteArray (minus1 name))
  pure (acc ++ [⟨flags.toNat, nm, s, scan.1, scan.2.1, scan.2.2, a.code, a.exceptions,
    a.annotationDefault, a.signature, a.annotations, a.parameterAnnotations⟩])

/-- machine.cpp:2440-2580. -/
def parseMethods (st : St) : P (List MethodInfo) := do
  let count ← read2
  times count.toNat (parseMethod st) []

/-! ### The class -/

/-- `inner`, `outer`, `name`, `flags` of machine.cpp:2788-2804. -/
structure InnerInfo where
  inner : Option (List (BitVec 8))
  outer : Option (List (BitVec 8))
  name : Option (List (BitVec 8))
  flags : Nat
  deriving DecidableEq

structure ClassAcc where
  sourceFile : Option (List (BitVec 8))
  signature : Option Obj
  inner : Option (List InnerInfo)
  annotations : Option (List (BitVec 8))
  /-- The table of bootstrap methods given to every invocation: method and arguments as slots. -/
  bootstrap : Option (List (Nat × List Nat))
  enclosing : Option (List (BitVec 8) × Option (List (BitVec 8) × List (BitVec 8)))

/-- An `int16_t` constant number minus one, used as an `unsigned` slot. -/
def slot16 (v : BitVec 16) : Nat := (v.signExtend 32 - 1#32).toNat

/-- `x ? cast<GcReference>(t, singletonObject(t, pool, x - 1))->name() : 0`. -/
def className16 (st : St) (v : BitVec 16) : P (Option (List (BitVec 8))) :=
  if v = 0#16 then pure none
  else do
    let r ← lift (st.reference (slot16 v))
    pure (some r.2.2.1)

/-- `x ? cast<GcByteArray>(t, singletonObject(t, pool, x - 1)) : 0`. -/
def text16 (st : St) (v : BitVec 16) : P (Option (List (BitVec 8))) :=
  if v = 0#16 then pure none
  else do
    let r ← lift (st.byteArray (slot16 v))
    pure (some r)

/-- machine.cpp:2787-2806. -/
def parseInner (st : St) (acc : List InnerInfo) : P (List InnerInfo) := do
  let inner ← read2
  let outer ← read2
  let name ← read2
  let flags ← read2
  let i ← className16 st inner
  let o ← className16 st outer
  let n ← text16 st name
  pure (acc ++ [⟨i, o, n, flags.toNat⟩])

/-- An element of a char array: `s.read2() - 1` cut to 16 bits. -/
def char1 (v : BitVec 16) : Nat := (v - 1#16).toNat

/-- machine.cpp:2829-2831. -/
def parseArgument (acc : List Nat) : P (List Nat) := do
  let v ← read2
  pure (acc ++ [char1 v])

/-- machine.cpp:2824-2834. -/
def parseBootstrap (acc : List (Nat × List Nat)) : P (List (Nat × List Nat)) := do
  let reference ← read2
  let n ← read2
  let args ← times n.toNat parseArgument []
  pure (acc ++ [(char1 reference, args)])

/-- machine.cpp:2770-2862: one attribute of the class. -/
def classAttribute (st : St) (a : ClassAcc) : P ClassAcc := do
  let h ← readAttributeHead st
  if nameIs "SourceFile" h.1 then do
    let t ← readText st
    pure { a with sourceFile := some t }
  else if nameIs "Signature" h.1 then do
    let o ← readObject st
    pure { a with signature := some o }
  else if nameIs "InnerClasses" h.1 then do
    let n ← read2
    let l ← times n.toNat (parseInner st) []
    pure { a with inner := some l }
  else if nameIs "RuntimeVisibleAnnotations" h.1 then do
    let b ← readBytes h.2
    pure { a with annotations := some b }
  else if nameIs "BootstrapMethods" h.1 then do
    let n ← read2
    let l ← times n.toNat parseBootstrap []
    pure { a with bootstrap := some l }
  else if nameIs "EnclosingMethod" h.1 then do
    let c ← read2
    let m ← read2
    let r ← lift (st.reference (slot16 c))
    if m = 0#16 then pure { a with enclosing := some (r.2.2.1, none) }
    else do
      let p ← lift (st.pair (slot16 m))
      pure { a with enclosing := some (r.2.2.1, some p) }
  else do
    skip h.2
    pure a

/-- machine.cpp:1264-1266: the name of one interface. -/
def parseInterface (st : St) (acc : List (List (BitVec 8))) : P (List (List (BitVec 8))) := do
  let i ← read2
  let r ← lift (st.reference (minus1 i))
  pure (acc ++ [r.2.2.1])

/-- machine.cpp:4804-4810: the name of the superclass, if there is one. -/
def superName (st : St) (super : BitVec 16) : P (Option (List (BitVec 8))) :=
  if super = 0#16 then pure none
  else do
    let r ← lift (st.reference (minus1 super))
    pure (some r.2.2.1)

/-- What becomes of a class file. -/
structure ClassInfo where
  pool : St
  flags : Nat
  name : List (BitVec 8)
  super : Option (List (BitVec 8))
  interfaces : List (List (BitVec 8))
  fields : List FieldInfo
  methods : List MethodInfo
  attributes : ClassAcc

/-- machine.cpp:4738-4838 `parseClass`: the reading part. -/
def parseClass (debug : Bool) (depth : Nat) : P ClassInfo := do
  let magic ← read4
  if magic ≠ 0xCAFEBABE#32 then fail
  else do
    let _minor ← read2
    let _major ← read2
    let st ← parsePool debug depth
    let flags ← read2
    let name ← read2
    let nm ← lift (st.reference (minus1 name))
    let super ← read2
    let sup ← superName st super
    let ni ← read2
    let interfaces ← times ni.toNat (parseInterface st) []
    let fields ← parseFields st
    let methods ← parseMethods st
    let na ← read2
    let attributes ← times na.toNat (classAttribute st) ⟨none, none, none, none, none, none⟩
    pure ⟨st, flags.toNat, nm.2.2.1, sup, interfaces, fields, methods, attributes⟩

end Avian.ClassFile
