import Verif.Class.Reader
import Verif.Text.Utf8
import Verif.Text.Descriptor

/-
The constant pool of a class: the singleton it is kept in (src/avian/machine.h:3253-3369) and its
parser (src/machine.cpp:876-1200).

Simplifications: objects are values, not addresses (byte arrays and strings are interned, so equal
ones are one object); the fields of a reference, pair and invocation that are not set from the file
are left out; the 32-bit counts are natural numbers (they are below 2^17, see `parsePool` for the
one exception).
-/
namespace Avian.ClassFile
open Avian.Stream

/-- The objects a constant pool holds. -/
inductive Obj where
  /-- `GcByteArray`, without the terminating zero (machine.cpp:847-852). -/
  | bytes (l : List (BitVec 8))
  /-- `GcReference` (kind, class, name, spec). -/
  | ref (kind : Nat) (cls : Option (List (BitVec 8))) (name : List (BitVec 8))
      (spec : Option (List (BitVec 8)))
  /-- An interned string and its characters. -/
  | str (units : List (BitVec 16))
  /-- `GcPair` of name and type. -/
  | pair (name type : List (BitVec 8))
  /-- `GcInvocation` with its method template (machine.cpp:1044-1090). -/
  | invocation (bootstrap : Nat) (name spec : List (BitVec 8)) (parameterCount footprint : Nat)
      (returnCode : Descriptor.FieldCode)
  deriving DecidableEq

/-- One word of the body: a number or a pointer to an object (null is the number zero). -/
inductive Word where
  | raw (v : BitVec 64)
  | obj (o : Obj)
  deriving DecidableEq

/-- `GcSingleton`: `length` words of `body`. -/
structure Pool where
  length : Nat
  body : Nat → Word

/-- include/avian/util/math.h:35-38 `ceilingDivide`. -/
def ceilingDivide (n d : Nat) : Nat := (n + d - 1) / d

/-- src/avian/machine.h:3253-3264 `singletonMaskSize(unsigned)`. -/
def singletonMaskSizeFor (count : Nat) : Nat := if count ≠ 0 then ceilingDivide (count + 2) 64 else 0

/-- src/avian/machine.h:3266-3273 `singletonMaskSize(Thread*, GcSingleton*)`. -/
def Pool.maskSize (p : Pool) : Nat :=
  if p.length ≠ 0 then ceilingDivide (p.length + 2) 65 else 0

/-- src/avian/machine.h:3275-3278 `singletonCount`. -/
def Pool.count (p : Pool) : Nat := p.length - p.maskSize

/-- A body word read as a number. -/
def Pool.word (p : Pool) (i : Nat) : Option (BitVec 64) :=
  if i < p.length then
    match p.body i with
    | .raw v => some v
    | .obj _ => none
  else none

/-- A body word written. -/
def Pool.store (p : Pool) (i : Nat) (w : Word) : Option Pool :=
  if i < p.length then some { p with body := fun j => if j = i then w else p.body j } else none

/-- src/avian/machine.h:3280-3285 `singletonMask`: element `k` of the mask, a `uint32_t` in the
words after the values (little-endian). -/
def Pool.mask (p : Pool) (k : Nat) : Option (BitVec 32) :=
  (p.word (p.count + k / 2)).map fun (w : BitVec 64) =>
    (w >>> (32 * (k % 2) : Nat)).setWidth 32

/-- src/avian/machine.h:3287-3297 `singletonMarkObject`. -/
def Pool.markObject (p : Pool) (index : Nat) : Option Pool :=
  (p.word (p.count + (index + 2) / 32 / 2)).bind fun w =>
  p.store (p.count + (index + 2) / 32 / 2)
    (.raw (w ||| ((1#32 <<< ((index + 2) % 32)).setWidth 64 <<< (32 * ((index + 2) / 32 % 2)))))

/-- src/avian/machine.h:3299-3305 `singletonIsObject`. -/
def Pool.isObject (p : Pool) (index : Nat) : Option Bool :=
  if index < p.count then
    (p.mask ((index + 2) / 32)).map fun m => (m &&& (1#32 <<< ((index + 2) % 32))) ≠ 0#32
  else none

/-- src/avian/machine.h:3307-3313 `singletonObject`, read: null or an object. -/
def Pool.object (p : Pool) (index : Nat) : Option (Option Obj) :=
  (p.isObject index).bind fun b =>
  if b then
    match p.body index with
    | .raw v => if v = 0#64 then some none else none
    | .obj o => some (some o)
  else none

/-- src/avian/machine.h:3315-3321 `singletonValue`, written. -/
def Pool.setValue (p : Pool) (index : Nat) (v : BitVec 64) : Option Pool :=
  (p.isObject index).bind fun b => if b then none else p.store index (.raw v)

/-- src/avian/machine.h:3315-3321 `singletonValue`, read. -/
def Pool.value (p : Pool) (index : Nat) : Option (BitVec 64) :=
  (p.isObject index).bind fun b => if b then none else p.word index

/-- src/avian/machine.h:3323-3331 `makeSingletonOfSize`: `makeSingleton` zeroes the body; the
assertion is a failure. -/
def makeSingletonOfSize (count : Nat) : Option Pool :=
  let o : Pool := { length := count + singletonMaskSizeFor count, body := fun _ => .raw 0#64 }
  if o.length = count + o.maskSize then
    if count ≠ 0 then
      -- `singletonMask(t, o)[0] = 1`: the low half of the first mask word
      (o.word o.count).bind fun w =>
        o.store o.count (.raw (w &&& 0xFFFFFFFF00000000#64 ||| 1#64))
    else some o
  else none

/-- src/avian/machine.h:3333-3340 `singletonSetBit`. -/
def Pool.setBit (p : Pool) (start index : Nat) : Option Pool :=
  (p.value (start + index / 64)).bind fun v =>
  p.store (start + index / 64) (.raw (v ||| (1#64 <<< (index % 64))))

/-- src/avian/machine.h:3342-3349 `singletonBit`. -/
def Pool.bit (p : Pool) (start index : Nat) : Option Bool :=
  (p.value (start + index / 64)).map fun v => (v &&& (1#64 <<< (index % 64))) ≠ 0#64

/-- src/avian/machine.h:3351-3359 `poolMaskSize(unsigned)`. -/
def poolMaskSizeFor (count : Nat) : Nat := ceilingDivide count 64

/-- src/avian/machine.h:3361-3364 `poolMaskSize(Thread*, GcSingleton*)`. -/
def Pool.poolMaskSize (p : Pool) : Nat := ceilingDivide p.count 65

/-- src/avian/machine.h:3366-3369 `poolSize`. -/
def Pool.poolSize (p : Pool) : Nat := p.count - p.poolMaskSize

/-! ### The parser -/

/-- `s.read2() - 1` as an `unsigned`. -/
def minus1 (v : BitVec 16) : Nat := (v.setWidth 32 - 1#32).toNat

/-- The pool under construction and the list of invocations, each given by its slot
(machine.cpp:1092: `listAppend`). -/
structure St where
  pool : Pool
  invocations : List Nat

/-- `cast<GcByteArray>(t, singletonObject(t, pool, i))`. -/
def St.byteArray (st : St) (i : Nat) : Option (List (BitVec 8)) :=
  (st.pool.object i).bind fun o => match o with
  | some (.bytes l) => some l
  | _ => none

/-- `cast<GcReference>(t, singletonObject(t, pool, i))`. -/
def St.reference (st : St) (i : Nat) :
    Option (Nat × Option (List (BitVec 8)) × List (BitVec 8) × Option (List (BitVec 8))) :=
  (st.pool.object i).bind fun o => match o with
  | some (.ref k c n s) => some (k, c, n, s)
  | _ => none

/-- `cast<GcPair>(t, singletonObject(t, pool, i))`. -/
def St.pair (st : St) (i : Nat) : Option (List (BitVec 8) × List (BitVec 8)) :=
  (st.pool.object i).bind fun o => match o with
  | some (.pair n t) => some (n, t)
  | _ => none

/-- `pool->setBodyElement(t, i, value)`. -/
def St.set (st : St) (i : Nat) (o : Obj) : Option St :=
  (st.pool.store i (.obj o)).map fun p => { st with pool := p }

/-- The recursive call. -/
abbrev Rec := St → Nat → P (Nat × St)

/-- The common shape `if (singletonObject(t, pool, i) == 0) { … } return 1`. -/
def whenNull (st : St) (i : Nat) (k : P St) : P (Nat × St) := do
  match ← lift (st.pool.object i) with
  | some _ => pure (1, st)
  | none => do
    let st ← k
    pure (1, st)

/-- machine.cpp:911-922 (with 847-852 `makeByteArray` and 859-875 `internByteArray`). -/
def entryUtf8 (st : St) (i : Nat) : P St := do
  let length ← read2
  let l ← readBytes (length.setWidth 32)
  lift (st.set i (.bytes l))

/-- machine.cpp:924-938. -/
def entryClass (rec : Rec) (st : St) (i : Nat) : P St := do
  let si ← read2
  let r ← rec st (minus1 si)
  let name ← lift (r.2.byteArray (minus1 si))
  lift (r.2.set i (.ref 0 none name none))

/-- machine.cpp:940-957; `debug` tells whether the assertions of the UTF-8 parser are compiled
in. -/
def entryString (debug : Bool) (rec : Rec) (st : St) (i : Nat) : P St := do
  let si ← read2
  let r ← rec st (minus1 si)
  let text ← lift (r.2.byteArray (minus1 si))
  match Utf8.parseArray debug text with
  | .ok p => lift (r.2.set i (.str (Utf8.units p)))
  | _ => fail

/-- machine.cpp:959-982. -/
def entryNameAndType (rec : Rec) (st : St) (i : Nat) : P St := do
  let ni ← read2
  let ti ← read2
  let r ← rec st (minus1 ni)
  let r ← rec r.2 (minus1 ti)
  let name ← lift (r.2.byteArray (minus1 ni))
  let type ← lift (r.2.byteArray (minus1 ti))
  lift (r.2.set i (.pair name type))

/-- machine.cpp:984-1016. -/
def entryMember (rec : Rec) (st : St) (i : Nat) : P St := do
  let ci ← read2
  let nti ← read2
  let r ← rec st (minus1 ci)
  let r ← rec r.2 (minus1 nti)
  let c ← lift (r.2.reference (minus1 ci))
  let nt ← lift (r.2.pair (minus1 nti))
  lift (r.2.set i (.ref 0 (some c.2.2.1) nt.1 (some nt.2)))

/-- machine.cpp:1018-1043. -/
def entryMethodHandle (rec : Rec) (st : St) (i : Nat) : P St := do
  let kind ← read1
  let ri ← read2
  let r ← rec st (minus1 ri)
  let v ← lift (r.2.reference (minus1 ri))
  lift (r.2.set i (.ref kind.toNat v.2.1 v.2.2.1 v.2.2.2))

/-- machine.cpp:1045-1054. -/
def entryMethodType (rec : Rec) (st : St) (i : Nat) : P St := do
  let ni ← read2
  let r ← rec st (minus1 ni)
  match ← lift (r.2.pool.object (minus1 ni)) with
  | some o => lift (r.2.set i o)
  | none => fail

/-- machine.cpp:1056-1099. -/
def entryInvokeDynamic (rec : Rec) (st : St) (i : Nat) : P St := do
  let bootstrap ← read2
  let nti ← read2
  let r ← rec st (minus1 nti)
  let nt ← lift (r.2.pair (minus1 nti))
  let scan ← lift (Descriptor.scanMethodSpec (nt.2 ++ [0#8]) true)
  let st ← lift (r.2.set i (.invocation bootstrap.toNat nt.1 nt.2 scan.1 scan.2.1 scan.2.2))
  pure { st with invocations := st.invocations ++ [i] }

/-- The switch of machine.cpp:885-1102; constants from src/avian/constants.h:236-249. -/
def entryCase (debug : Bool) (rec : Rec) (st : St) (i : Nat) (tag : Nat) : P (Nat × St) :=
  match tag with
  | 3 | 4 => do
    let v ← read4
    let pool ← lift (st.pool.setValue i (v.setWidth 64))
    pure (1, { st with pool := pool })
  | 5 | 6 => do
    let v ← read8
    let pool ← lift (st.pool.setValue i v)
    pure (2, { st with pool := pool })
  | 1 => whenNull st i (entryUtf8 st i)
  | 7 => whenNull st i (entryClass rec st i)
  | 8 => whenNull st i (entryString debug rec st i)
  | 12 => whenNull st i (entryNameAndType rec st i)
  | 9 | 10 | 11 => whenNull st i (entryMember rec st i)
  | 15 => whenNull st i (entryMethodHandle rec st i)
  | 16 => whenNull st i (entryMethodType rec st i)
  | 18 => whenNull st i (entryInvokeDynamic rec st i)
  | _ => fail

/-- machine.cpp:876-1103 `parsePoolEntry`.  `index` is the array of offsets, `none` where it has no
element or was never written; the fuel bounds the depth of the recursion (the machine stack). -/
def parsePoolEntry (debug : Bool) (index : Nat → Option (BitVec 32)) : Nat → St → Nat → P (Nat × St)
  | 0, _, _ => fail
  | fuel + 1, st, i => do
    let p ← lift (index i)
    setPosition p
    let tag ← read1
    entryCase debug (parsePoolEntry debug index fuel) st i tag.toNat

/-- One turn of the first loop, machine.cpp:1126-1184: what is marked, the length of the entry and
the number of slots it takes. -/
def scanEntry (count : Nat) (pool : Pool) (i : Nat) : P (Nat × Pool) := do
  let tag ← read1
  match tag.toNat with
  | 7 | 8 => do
    let pool ← lift (pool.markObject i)
    skip 2#32
    pure (1, pool)
  | 3 => do
    skip 4#32
    pure (1, pool)
  | 4 => do
    let pool ← lift (pool.setBit count i)
    skip 4#32
    pure (1, pool)
  | 12 | 9 | 10 | 11 => do
    let pool ← lift (pool.markObject i)
    skip 4#32
    pure (1, pool)
  | 5 => do
    skip 8#32
    pure (2, pool)
  | 6 => do
    let pool ← lift (pool.setBit count i)
    let pool ← lift (pool.setBit count (i + 1))
    skip 8#32
    pure (2, pool)
  | 1 => do
    let pool ← lift (pool.markObject i)
    let n ← read2
    skip (n.setWidth 32)
    pure (1, pool)
  | 15 => do
    let pool ← lift (pool.markObject i)
    skip 3#32
    pure (1, pool)
  | 16 => do
    let pool ← lift (pool.markObject i)
    skip 2#32
    pure (1, pool)
  | 18 => do
    let pool ← lift (pool.markObject i)
    skip 4#32
    pure (1, pool)
  | _ => fail

/-- The first loop, machine.cpp:1126-1184; the fuel is at least the number of turns. -/
def scanLoop (count : Nat) : Nat → Pool → (Nat → Option (BitVec 32)) → Nat →
    P (Pool × (Nat → Option (BitVec 32)))
  | 0, _, _, _ => fail
  | fuel + 1, pool, index, i =>
    if i < count then do
      let p ← position
      let r ← scanEntry count pool i
      scanLoop count fuel r.2 (fun j => if j = i then some p else index j) (i + r.1)
    else pure (pool, index)

/-- The second loop, machine.cpp:1188-1190. -/
def fillLoop (debug : Bool) (index : Nat → Option (BitVec 32)) (depth count : Nat) :
    Nat → St → Nat → P St
  | 0, _, _ => fail
  | fuel + 1, st, i =>
    if i < count then do
      let r ← parsePoolEntry debug index depth st i
      fillLoop debug index depth count fuel r.2 (i + r.1)
    else pure st

/-- machine.cpp:1105-1200 `parsePool`; `depth` is the depth of recursion the machine stack allows.
A count of zero in the file makes the singleton arithmetic wrap around and the mask is written
outside of the object: undefined. -/
def parsePool (debug : Bool) (depth : Nat) : P St := do
  let n ← read2
  if n = 0#16 then fail
  else do
    let count := n.toNat - 1
    let pool ← lift (makeSingletonOfSize (count + poolMaskSizeFor count))
    if count ≠ 0 then do
      let r ← scanLoop count (count + 1) pool (fun _ => none) 0
      let stop ← position
      let st ← fillLoop debug r.2 depth count (count + 1) ⟨r.1, []⟩ 0
      setPosition stop
      pure st
    else pure ⟨pool, []⟩

end Avian.ClassFile
