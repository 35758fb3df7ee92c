import Verif.Class.ClassFile
import Verif.Class.PoolFill

/-
Written class files (JVM specification, chapter 4) and what they state.
-/
namespace Avian.ClassFile

abbrev Bytes := List (BitVec 8)

/-- The last of the items that say something (the JVM specification allows at most one). -/
def last {α β : Type} (f : α → Option β) (l : List α) : Option β := (l.filterMap f).getLast?

/-- The text of a constant known to be a text. -/
def text (es : List Entry) (n : Nat) : Bytes := (textAt es n).getD []

/-- ASCII text. -/
def ascii (s : String) : Bytes := s.toList.map Descriptor.ch

/-- An attribute: the number of the constant with its name, its length and its content. -/
def attrBytes (num : Nat) (content : Bytes) : Bytes :=
  be2 num ++ be4 content.length ++ content

/-- A counted table. -/
def table {α : Type} (f : α → Bytes) (l : List α) : Bytes := be2 l.length ++ l.flatMap f

/-- The attribute name is one the loader does not know. -/
def Unknown (known : List String) (name : Bytes) : Prop :=
  0#8 ∉ name ∧ ∀ k ∈ known, name ≠ ascii k

/-! ### Fields -/

inductive FieldAttr where
  | constantValue (n : Nat)
  | signature (n : Nat)
  | annotations (b : Bytes)
  | other (name b : Bytes)

def FieldAttr.name : FieldAttr → Bytes
  | .constantValue _ => ascii "ConstantValue"
  | .signature _ => ascii "Signature"
  | .annotations _ => ascii "RuntimeVisibleAnnotations"
  | .other n _ => n

def FieldAttr.content : FieldAttr → Bytes
  | .constantValue n | .signature n => be2 n
  | .annotations b | .other _ b => b

def FieldAttr.Ok (es : List Entry) : FieldAttr → Prop
  | .constantValue n => n < 65536
  | .signature n => ∃ l, textAt es n = some l
  | .annotations b => b.length < 2 ^ 32
  | .other n b => b.length < 2 ^ 32 ∧
      Unknown ["ConstantValue", "Signature", "RuntimeVisibleAnnotations"] n

/-- A field: flags, constant numbers of name and type, the type, and attributes each with the
constant number of its name. -/
structure SrcField where
  flags : Nat
  name : Nat
  spec : Nat
  type : Descriptor.Ty
  attrs : List (Nat × FieldAttr)

def SrcField.bytes (f : SrcField) : Bytes :=
  be2 f.flags ++ (be2 f.name ++ (be2 f.spec ++
    table (fun a : Nat × FieldAttr => attrBytes a.1 a.2.content) f.attrs))

structure SrcField.Ok (es : List Entry) (f : SrcField) : Prop where
  flags : f.flags < 65536
  name : ∃ l, textAt es f.name = some l
  spec : textAt es f.spec = some f.type.text
  count : f.attrs.length < 65536
  attrs : ∀ a ∈ f.attrs, textAt es a.1 = some a.2.name ∧ a.2.Ok es

/-- What the class file states about a field. -/
def SrcField.info (es : List Entry) (f : SrcField) : FieldInfo where
  flags := f.flags
  name := text es f.name
  spec := f.type.text
  code := Descriptor.kind (some f.type)
  value := (last (fun a : Nat × FieldAttr =>
    match a.2 with | .constantValue n => some n | _ => none) f.attrs).getD 0
  signature := last (fun a : Nat × FieldAttr =>
    match a.2 with | .signature n => some (.bytes (text es n)) | _ => none) f.attrs
  annotations := last (fun a : Nat × FieldAttr =>
    match a.2 with | .annotations b => some b | _ => none) f.attrs

/-! ### Code -/

inductive CodeAttr where
  | lines (l : List (Nat × Nat))
  | other (name b : Bytes)

def lineBytes (p : Nat × Nat) : Bytes := be2 p.1 ++ be2 p.2

def CodeAttr.name : CodeAttr → Bytes
  | .lines _ => ascii "LineNumberTable"
  | .other n _ => n

def CodeAttr.content : CodeAttr → Bytes
  | .lines l => table lineBytes l
  | .other _ b => b

def CodeAttr.Ok : CodeAttr → Prop
  | .lines l => l.length < 65536 ∧ ∀ p ∈ l, p.1 < 65536 ∧ p.2 < 65536
  | .other n b => b.length < 2 ^ 32 ∧ Unknown ["LineNumberTable"] n

def Handler.bytes (h : Handler) : Bytes :=
  be2 h.start ++ (be2 h.stop ++ (be2 h.ip ++ be2 h.catchType))

def Handler.Ok (h : Handler) : Prop :=
  h.start < 65536 ∧ h.stop < 65536 ∧ h.ip < 65536 ∧ h.catchType < 65536

structure SrcCode where
  maxStack : Nat
  maxLocals : Nat
  body : Bytes
  handlers : List Handler
  attrs : List (Nat × CodeAttr)

def SrcCode.bytes (c : SrcCode) : Bytes :=
  be2 c.maxStack ++ (be2 c.maxLocals ++ (be4 c.body.length ++ (c.body ++
    (table Handler.bytes c.handlers ++
      table (fun a : Nat × CodeAttr => attrBytes a.1 a.2.content) c.attrs))))

structure SrcCode.Ok (es : List Entry) (c : SrcCode) : Prop where
  maxStack : c.maxStack < 65536
  maxLocals : c.maxLocals < 65536
  body : c.body.length < 2 ^ 32
  handlerCount : c.handlers.length < 65536
  handlers : ∀ h ∈ c.handlers, h.Ok
  count : c.attrs.length < 65536
  attrs : ∀ a ∈ c.attrs, textAt es a.1 = some a.2.name ∧ a.2.Ok

def SrcCode.info (c : SrcCode) : CodeInfo where
  maxStack := c.maxStack
  maxLocals := c.maxLocals
  body := c.body
  handlers := c.handlers
  lines := last (fun a : Nat × CodeAttr =>
    match a.2 with | .lines l => some l | _ => none) c.attrs

/-! ### Methods -/

inductive MethodAttr where
  | code (c : SrcCode)
  | exceptions (l : List Nat)
  | annotationDefault (b : Bytes)
  | signature (n : Nat)
  | annotations (b : Bytes)
  | parameterAnnotations (b : Bytes)
  | other (name b : Bytes)

def MethodAttr.name : MethodAttr → Bytes
  | .code _ => ascii "Code"
  | .exceptions _ => ascii "Exceptions"
  | .annotationDefault _ => ascii "AnnotationDefault"
  | .signature _ => ascii "Signature"
  | .annotations _ => ascii "RuntimeVisibleAnnotations"
  | .parameterAnnotations _ => ascii "RuntimeVisibleParameterAnnotations"
  | .other n _ => n

def MethodAttr.content : MethodAttr → Bytes
  | .code c => c.bytes
  | .exceptions l => table be2 l
  | .annotationDefault b | .annotations b | .parameterAnnotations b | .other _ b => b
  | .signature n => be2 n

def MethodAttr.Ok (es : List Entry) : MethodAttr → Prop
  | .code c => c.Ok es
  | .exceptions l => l.length < 65536 ∧ ∀ n ∈ l, n < 65536
  | .annotationDefault b | .annotations b | .parameterAnnotations b => b.length < 2 ^ 32
  | .signature n => ∃ l, textAt es n = some l
  | .other n b => b.length < 2 ^ 32 ∧ Unknown ["Code", "Exceptions", "AnnotationDefault",
      "Signature", "RuntimeVisibleAnnotations", "RuntimeVisibleParameterAnnotations"] n

structure SrcMethod where
  flags : Nat
  name : Nat
  spec : Nat
  params : List Descriptor.Ty
  ret : Option Descriptor.Ty
  attrs : List (Nat × MethodAttr)

def SrcMethod.bytes (m : SrcMethod) : Bytes :=
  be2 m.flags ++ (be2 m.name ++ (be2 m.spec ++
    table (fun a : Nat × MethodAttr => attrBytes a.1 a.2.content) m.attrs))

structure SrcMethod.Ok (es : List Entry) (m : SrcMethod) : Prop where
  flags : m.flags < 65536
  name : ∃ l, textAt es m.name = some l
  spec : ∃ t, textAt es m.spec = some t ∧ t ++ [0#8] = Descriptor.text m.params m.ret
  params : ∀ p ∈ m.params, p.Ok
  count : m.attrs.length < 65536
  attrs : ∀ a ∈ m.attrs, textAt es a.1 = some a.2.name ∧ a.2.Ok es

/-- What the class file states about a method; bit 3 of the flags means static. -/
def SrcMethod.info (es : List Entry) (m : SrcMethod) : MethodInfo where
  flags := m.flags
  name := text es m.name
  spec := text es m.spec
  parameterCount := m.params.length
  footprint := Descriptor.slots m.params + (if m.flags.testBit 3 then 0 else 1)
  returnCode := Descriptor.kind m.ret
  code := last (fun a : Nat × MethodAttr =>
    match a.2 with | .code c => some c.info | _ => none) m.attrs
  exceptions := last (fun a : Nat × MethodAttr =>
    match a.2 with | .exceptions l => some l | _ => none) m.attrs
  annotationDefault := last (fun a : Nat × MethodAttr =>
    match a.2 with | .annotationDefault b => some b | _ => none) m.attrs
  signature := last (fun a : Nat × MethodAttr =>
    match a.2 with | .signature n => some (.bytes (text es n)) | _ => none) m.attrs
  annotations := last (fun a : Nat × MethodAttr =>
    match a.2 with | .annotations b => some b | _ => none) m.attrs
  parameterAnnotations := last (fun a : Nat × MethodAttr =>
    match a.2 with | .parameterAnnotations b => some b | _ => none) m.attrs

/-! ### Classes -/

/-- An inner class record; a zero stands for "none". -/
structure SrcInner where
  inner : Nat
  outer : Nat
  name : Nat
  flags : Nat

def SrcInner.bytes (i : SrcInner) : Bytes :=
  be2 i.inner ++ (be2 i.outer ++ (be2 i.name ++ be2 i.flags))

/-- The numbers fit a signed 16-bit integer: see `inner_class_number_sign`. -/
structure SrcInner.Ok (es : List Entry) (i : SrcInner) : Prop where
  inner : i.inner = 0 ∨ i.inner < 32768 ∧ ∃ l, classAt es i.inner = some l
  outer : i.outer = 0 ∨ i.outer < 32768 ∧ ∃ l, classAt es i.outer = some l
  name : i.name = 0 ∨ i.name < 32768 ∧ ∃ l, textAt es i.name = some l
  flags : i.flags < 65536

def SrcInner.info (es : List Entry) (i : SrcInner) : InnerInfo where
  inner := classAt es i.inner
  outer := classAt es i.outer
  name := textAt es i.name
  flags := i.flags

def bootstrapBytes (b : Nat × List Nat) : Bytes := be2 b.1 ++ table be2 b.2

inductive ClassAttr where
  | sourceFile (n : Nat)
  | signature (n : Nat)
  | inner (l : List SrcInner)
  | annotations (b : Bytes)
  /-- Constant numbers of the method handle and of the arguments. -/
  | bootstrap (l : List (Nat × List Nat))
  | enclosing (cls method : Nat)
  | other (name b : Bytes)

def ClassAttr.name : ClassAttr → Bytes
  | .sourceFile _ => ascii "SourceFile"
  | .signature _ => ascii "Signature"
  | .inner _ => ascii "InnerClasses"
  | .annotations _ => ascii "RuntimeVisibleAnnotations"
  | .bootstrap _ => ascii "BootstrapMethods"
  | .enclosing _ _ => ascii "EnclosingMethod"
  | .other n _ => n

def ClassAttr.content : ClassAttr → Bytes
  | .sourceFile n | .signature n => be2 n
  | .inner l => table SrcInner.bytes l
  | .annotations b | .other _ b => b
  | .bootstrap l => table bootstrapBytes l
  | .enclosing c m => be2 c ++ be2 m

def ClassAttr.Ok (es : List Entry) : ClassAttr → Prop
  | .sourceFile n | .signature n => ∃ l, textAt es n = some l
  | .inner l => l.length < 65536 ∧ ∀ i ∈ l, i.Ok es
  | .annotations b => b.length < 2 ^ 32
  | .bootstrap l => l.length < 65536 ∧ ∀ b ∈ l, 1 ≤ b.1 ∧ b.1 < 65536 ∧ b.2.length < 65536 ∧
      ∀ a ∈ b.2, 1 ≤ a ∧ a < 65536
  | .enclosing c m => (c < 32768 ∧ ∃ l, classAt es c = some l) ∧
      (m = 0 ∨ m < 32768 ∧ ∃ p, nameTypeAt es m = some p)
  | .other n b => b.length < 2 ^ 32 ∧ Unknown ["SourceFile", "Signature", "InnerClasses",
      "RuntimeVisibleAnnotations", "BootstrapMethods", "EnclosingMethod"] n

structure SrcClass where
  minor : Nat
  major : Nat
  pool : List Entry
  flags : Nat
  name : Nat
  super : Nat
  interfaces : List Nat
  fields : List SrcField
  methods : List SrcMethod
  attrs : List (Nat × ClassAttr)

def SrcClass.bytes (c : SrcClass) : Bytes :=
  be4 0xCAFEBABE ++ (be2 c.minor ++ (be2 c.major ++ (poolBytes c.pool ++ (be2 c.flags ++
    (be2 c.name ++ (be2 c.super ++ (table be2 c.interfaces ++ (table SrcField.bytes c.fields ++
      (table SrcMethod.bytes c.methods ++
        table (fun a : Nat × ClassAttr => attrBytes a.1 a.2.content) c.attrs)))))))))

structure SrcClass.Ok (c : SrcClass) : Prop where
  pool : Legal c.pool
  flags : c.flags < 65536
  name : ∃ l, classAt c.pool c.name = some l
  super : c.super = 0 ∨ ∃ l, classAt c.pool c.super = some l
  interfaceCount : c.interfaces.length < 65536
  interfaces : ∀ i ∈ c.interfaces, ∃ l, classAt c.pool i = some l
  fieldCount : c.fields.length < 65536
  fields : ∀ f ∈ c.fields, f.Ok c.pool
  methodCount : c.methods.length < 65536
  methods : ∀ m ∈ c.methods, m.Ok c.pool
  count : c.attrs.length < 65536
  attrs : ∀ a ∈ c.attrs, textAt c.pool a.1 = some a.2.name ∧ a.2.Ok c.pool

/-- What the class attributes state; constants are numbered from zero in the bootstrap table. -/
def classAttrInfo (es : List Entry) (attrs : List (Nat × ClassAttr)) : ClassAcc where
  sourceFile := last (fun a : Nat × ClassAttr =>
    match a.2 with | .sourceFile n => some (text es n) | _ => none) attrs
  signature := last (fun a : Nat × ClassAttr =>
    match a.2 with | .signature n => some (.bytes (text es n)) | _ => none) attrs
  inner := last (fun a : Nat × ClassAttr =>
    match a.2 with | .inner l => some (l.map (SrcInner.info es)) | _ => none) attrs
  annotations := last (fun a : Nat × ClassAttr =>
    match a.2 with | .annotations b => some b | _ => none) attrs
  bootstrap := last (fun a : Nat × ClassAttr =>
    match a.2 with
    | .bootstrap l => some (l.map fun b => (b.1 - 1, b.2.map (· - 1)))
    | _ => none) attrs
  enclosing := last (fun a : Nat × ClassAttr =>
    match a.2 with
    | .enclosing c m => some ((classAt es c).getD [], nameTypeAt es m)
    | _ => none) attrs

end Avian.ClassFile
