import Verif.Interp.Base
/-
Model of the bytecode interpreter src/interpret.cpp: the thread's slot array, frames inside the
same array, and `interpret3` (lines 767-3016) instruction by instruction.

Choices:
* A step either finishes (`ok`), jumps to the label `throw_` (`throw`), returns from `interpret3`
  (`done`) or ends in `undef`: `abort`, a failed assertion on a slot tag, an access outside the
  slot array or outside the code, undefined C++ arithmetic.  The assertion
  `sp + 1 < stackSizeInWords / 2` of `pushObject`/`pushInt` is compiled out of release builds and
  is replaced by the weaker memory bound; see `Verif.Props.Interp` for the difference.
* Signed overflow in `+`, `-`, `*`, `<<` is taken as wrap-around (what the supported compilers
  produce); division and remainder of the minimum by -1 are `undef` (they trap on x86).
* `ip` is a 32-bit number that wraps; `sp` is a natural number and `frame` an integer.
-/
namespace Avian.Interp

/-- src/interpret.cpp:33-55 `Thread`: the interpreter's part of the thread, the heap, the
pending exception (0 when none) and the log of monitor operations.  `code` is the method whose code
object is current. -/
structure St where
  mem : Nat → Slot
  sp : Nat
  frame : Int
  ip : BitVec 32
  code : Ref
  exc : Ref
  heap : Heap
  log : List Ev

/-- Outcome of a piece of the interpreter. -/
inductive Out (α : Type) where
  | ok (a : α) (s : St)
  | throw (s : St)
  | done (r : List Slot) (s : St)
  | undef

/-- Interpreter actions. -/
def M (α : Type) := St → Out α

/-- Sequencing. -/
def M.bind {α β : Type} (x : M α) (f : α → M β) : M β := fun s =>
  match x s with
  | .ok a s => f a s
  | .throw s => .throw s
  | .done r s => .done r s
  | .undef => .undef

instance : Monad M where
  pure a := fun s => .ok a s
  bind := M.bind

/-- Abort, failed assertion or undefined behaviour. -/
def fail {α : Type} : M α := fun _ => .undef

/-- The current state. -/
def getS : M St := fun s => .ok s s

/-- Change the state. -/
def modS (f : St → St) : M Unit := fun s => .ok () (f s)

/-- Continue only with a value. -/
def ofOpt {α : Type} : Option α → M α
  | some a => pure a
  | none => fail

/-- `goto throw_;` with the exception already stored. -/
def throwS {α : Type} : M α := fun s => .throw s

/-- Return from `interpret3` with a result. -/
def doneS {α : Type} (r : List Slot) : M α := fun s => .done r s

/-- Write one slot of the array. -/
def writeSlot (env : Env) (i : Nat) (x : Slot) : M Unit := fun s =>
  if i < env.size then .ok () { s with mem := fun j => if j = i then x else s.mem j } else .undef

/-- Read one slot of the array. -/
def readSlot (env : Env) (i : Nat) : M Slot := fun s =>
  if i < env.size then .ok (s.mem i) s else .undef

/-- src/interpret.cpp:55-81 `pushObject`, `pushInt`. -/
def pushSlot (env : Env) (x : Slot) : M Unit := do
  let s ← getS
  writeSlot env s.sp x
  modS fun s => { s with sp := s.sp + 1 }

def pushInt (env : Env) (v : BitVec 32) : M Unit := pushSlot env (.int v)
def pushObject (env : Env) (o : Ref) : M Unit := pushSlot env (.obj o)

/-- src/interpret.cpp:88-97 `pushLong`: the high word first. -/
def pushLong (env : Env) (v : BitVec 64) : M Unit := do
  pushInt env ((v >>> (32 : Nat)).setWidth 32)
  pushInt env ((v &&& 0xFFFFFFFF#64).setWidth 32)

/-- Take the top slot off. -/
def popSlot (env : Env) : M Slot := do
  let s ← getS
  if s.sp = 0 then fail else
    let x ← readSlot env (s.sp - 1)
    modS fun s => { s with sp := s.sp - 1 }
    pure x

/-- src/interpret.cpp:117-128 `popInt`, with its tag assertion. -/
def popInt (env : Env) : M (BitVec 32) := do
  match ← popSlot env with
  | .int v => pure v
  | .obj _ => fail

/-- src/interpret.cpp:105-115 `popObject`. -/
def popObject (env : Env) : M Ref := do
  match ← popSlot env with
  | .obj o => pure o
  | .int _ => fail

/-- src/interpret.cpp:135-148 `popLong`. -/
def popLong (env : Env) : M (BitVec 64) := do
  let a ← popInt env
  let b ← popInt env
  pure ((b.setWidth 64 <<< (32 : Nat)) ||| a.setWidth 64)

/-- src/interpret.cpp:169-179 `peekInt`. -/
def peekInt (env : Env) (i : Nat) : M (BitVec 32) := do
  match ← readSlot env i with
  | .int v => pure v
  | .obj _ => fail

/-- src/interpret.cpp:156-167 `peekObject`. -/
def peekObject (env : Env) (i : Nat) : M Ref := do
  match ← readSlot env i with
  | .obj o => pure o
  | .int _ => fail

/-- src/interpret.cpp:181-193 `peekLong`. -/
def peekLong (env : Env) (i : Nat) : M (BitVec 64) := do
  let a ← peekInt env i
  let b ← peekInt env (i + 1)
  pure ((a.setWidth 64 <<< (32 : Nat)) ||| b.setWidth 64)

/-- src/interpret.cpp:205-213 `pokeInt`. -/
def pokeInt (env : Env) (i : Nat) (v : BitVec 32) : M Unit := writeSlot env i (.int v)

/-- src/interpret.cpp:195-203 `pokeObject`. -/
def pokeObject (env : Env) (i : Nat) (o : Ref) : M Unit := writeSlot env i (.obj o)

/-- src/interpret.cpp:215-223 `pokeLong`. -/
def pokeLong (env : Env) (i : Nat) (v : BitVec 64) : M Unit := do
  pokeInt env i ((v >>> (32 : Nat)).setWidth 32)
  pokeInt env (i + 1) ((v &&& 0xFFFFFFFF#64).setWidth 32)

/-- A slot index relative to a frame. -/
def slotAt (frame : Int) (off : Nat) : M Nat :=
  if 0 ≤ frame then pure (frame.toNat + off) else fail

/-- src/interpret.cpp:233-236 `frameNext`: read back as a signed number. -/
def frameNext (env : Env) (frame : Int) : M Int := do
  let v ← peekInt env (← slotAt frame 1)
  pure v.toInt

/-- src/interpret.cpp:238-241 `frameMethod`. -/
def frameMethod (env : Env) (frame : Int) : M Ref := do
  peekObject env (← slotAt frame 2)

/-- src/interpret.cpp:243-246 `frameIp`. -/
def frameIp (env : Env) (frame : Int) : M (BitVec 32) := do
  peekInt env (← slotAt frame 3)

/-- src/interpret.cpp:248-251 `frameBase`. -/
def frameBase (env : Env) (frame : Int) : M Nat := do
  let v ← peekInt env (← slotAt frame 0)
  pure v.toNat

/-- The slot of local variable `i`: `frameBase(t, t->frame) + index` in 32-bit arithmetic. -/
def localIdx (b i : Nat) : Nat := (b + i) % 2 ^ 32

/-- src/interpret.cpp:253-256 `localObject`. -/
def localObject (env : Env) (i : Nat) : M Ref := do
  let s ← getS
  let b ← frameBase env s.frame
  peekObject env (localIdx b i)

/-- src/interpret.cpp:258-261 `localInt`. -/
def localInt (env : Env) (i : Nat) : M (BitVec 32) := do
  let s ← getS
  let b ← frameBase env s.frame
  peekInt env (localIdx b i)

/-- src/interpret.cpp:263-266 `localLong`. -/
def localLong (env : Env) (i : Nat) : M (BitVec 64) := do
  let s ← getS
  let b ← frameBase env s.frame
  peekLong env (localIdx b i)

/-- src/interpret.cpp:268-271 `setLocalObject`. -/
def setLocalObject (env : Env) (i : Nat) (o : Ref) : M Unit := do
  let s ← getS
  let b ← frameBase env s.frame
  pokeObject env (localIdx b i) o

/-- src/interpret.cpp:273-276 `setLocalInt`. -/
def setLocalInt (env : Env) (i : Nat) (v : BitVec 32) : M Unit := do
  let s ← getS
  let b ← frameBase env s.frame
  pokeInt env (localIdx b i) v

/-- src/interpret.cpp:278-281 `setLocalLong`. -/
def setLocalLong (env : Env) (i : Nat) (v : BitVec 64) : M Unit := do
  let s ← getS
  let b ← frameBase env s.frame
  pokeLong env (localIdx b i) v

/-- src/interpret.cpp:663-668 `store`: the slot is copied with its tag. -/
def store (env : Env) (i : Nat) : M Unit := do
  let x ← popSlot env
  let s ← getS
  let b ← frameBase env s.frame
  writeSlot env (localIdx b i) x

/-- `memcpy` of one slot. -/
def copySlot (env : Env) (dst src : Nat) : M Unit := do
  let x ← readSlot env src
  writeSlot env dst x

/-- `memcpy` of two slots at different places. -/
def copySlot2 (env : Env) (dst src : Nat) : M Unit := do
  let x ← readSlot env src
  let y ← readSlot env (src + 1)
  writeSlot env dst x
  writeSlot env (dst + 1) y

/-- `sp - n` as an index. -/
def spMinus (n : Nat) : M Nat := do
  let s ← getS
  if s.sp < n then fail else pure (s.sp - n)

/-- Move `sp` up. -/
def spAdd (n : Nat) : M Unit := modS fun s => { s with sp := s.sp + n }

/-- `code->body()[ip++]`; the slice access aborts outside the code. -/
def fetch8 (env : Env) : M (BitVec 8) := fun s =>
  match (env.meth s.code).code.body[s.ip.toNat]? with
  | some b => .ok b { s with ip := s.ip + 1 }
  | none => .undef

/-- src/avian/process.h:21-26 `codeReadInt16`. -/
def fetch16 (env : Env) : M (BitVec 16) := do
  let v1 ← fetch8 env
  let v2 ← fetch8 env
  pure ((v1.setWidth 16 <<< (8 : Nat)) ||| v2.setWidth 16)

/-- src/avian/process.h:28-35 `codeReadInt32`. -/
def fetch32 (env : Env) : M (BitVec 32) := do
  let v1 ← fetch8 env
  let v2 ← fetch8 env
  let v3 ← fetch8 env
  let v4 ← fetch8 env
  pure ((v1.setWidth 32 <<< (24 : Nat)) ||| (v2.setWidth 32 <<< (16 : Nat)) |||
    (v3.setWidth 32 <<< (8 : Nat)) ||| v4.setWidth 32)

/-- `exception = makeThrowable(...); goto throw_;` -/
def throwNew {α : Type} (env : Env) (k : ExKind) : M α := fun s =>
  let r := env.newThrowable s.heap k
  .throw { s with heap := r.1, exc := r.2 }

/-- Append to the log of monitor operations (`acquire`/`release` of src/avian/machine.h). -/
def logEv (e : Ev) : M Unit := modS fun s => { s with log := e :: s.log }

/-- src/interpret.cpp:291-301: the monitor taken by `pushFrame`. -/
def lockFrame (env : Env) (m : Ref) (base : Nat) : M Unit :=
  if (env.meth m).isSync then
    if (env.meth m).isStatic then logEv (.acquire (env.meth m).jclass)
    else do logEv (.acquire (← peekObject env base))
  else pure ()

/-- src/interpret.cpp:303-305: the position of the caller is kept in its frame. -/
def saveIp (env : Env) : M Unit := do
  let s ← getS
  if 0 ≤ s.frame then pokeInt env (s.frame.toNat + 3) s.ip else pure ()

/-- src/interpret.cpp:309-317: clear the local variables that are not parameters.
`locals - parameterFootprint` is unsigned, so code that declares fewer locals than parameters would
clear far outside the array: `undef`. -/
def clearLocals (env : Env) (m : Ref) (base : Nat) : M Unit :=
  let meth := env.meth m
  if meth.isNative then pure ()
  else if meth.code.maxLocals < meth.paramFootprint then fail
  else if base + meth.code.maxLocals ≤ env.size then
    modS fun s => { s with
      code := m
      mem := fun j =>
        if base + meth.paramFootprint ≤ j ∧ j < base + meth.code.maxLocals then Slot.zero
        else s.mem j }
  else fail

/-- src/interpret.cpp:318-326: the four words of the new frame. -/
def writeFrame (env : Env) (m : Ref) (base frame : Nat) : M Unit := do
  let s ← getS
  pokeInt env (frame + 1) (BitVec.ofInt 32 s.frame)
  modS fun s => { s with frame := frame, sp := frame + 4 }
  pokeInt env (frame + 0) (BitVec.ofNat 32 base)
  pokeObject env (frame + 2) m
  pokeInt env (frame + 3) 0#32

/-- src/interpret.cpp:283-327 `pushFrame`. -/
def pushFrame (env : Env) (m : Ref) : M Unit := do
  let meth := env.meth m
  let base ← spMinus meth.paramFootprint
  lockFrame env m base
  saveIp env
  modS fun s => { s with ip := 0#32 }
  clearLocals env m base
  writeFrame env m base
    (base + (if meth.isNative then meth.paramFootprint else meth.code.maxLocals))

/-- src/interpret.cpp:329-350 `popFrame`. -/
def popFrame (env : Env) : M Unit := do
  let s ← getS
  let m ← frameMethod env s.frame
  let meth := env.meth m
  if meth.isSync then
    if meth.isStatic then logEv (.release meth.jclass)
    else logEv (.release (← peekObject env (← frameBase env s.frame)))
  let b ← frameBase env s.frame
  let n ← frameNext env s.frame
  modS fun s => { s with sp := b, frame := n }
  if 0 ≤ n then
    let c ← frameMethod env n
    let i ← frameIp env n
    modS fun s => { s with code := c, ip := i }
  else
    modS fun s => { s with code := 0#64, ip := 0#32 }

/-- src/interpret.cpp:391-398 `checkStack`. -/
def checkStack (env : Env) (m : Ref) : M Unit := do
  let s ← getS
  let meth := env.meth m
  if s.sp + meth.paramFootprint + meth.code.maxLocals + 4 + meth.code.maxStack > env.size then
    throwNew env .stackOverflow
  else pure ()

/-- src/avian/machine.h:3802-3820: the fields of a packed handler. -/
def ehStart (eh : BitVec 64) : BitVec 32 := (eh >>> (48 : Nat)).setWidth 32
def ehEnd (eh : BitVec 64) : BitVec 32 := ((eh >>> (32 : Nat)) &&& 0xFFFF#64).setWidth 32
def ehIp (eh : BitVec 64) : BitVec 32 := ((eh >>> (16 : Nat)) &&& 0xFFFF#64).setWidth 32
def ehCatchType (eh : BitVec 64) : BitVec 32 := (eh &&& 0xFFFF#64).setWidth 32

/-- src/avian/machine.h:3221-3225 `exceptionMatch`; the special shutdown exception is not
modelled.  `none` when the exception object does not exist. -/
def exceptionMatch (env : Env) (h : Heap) (type : Option Ref) (exc : Ref) : Option Bool :=
  match type with
  | none => some true
  | some c => (h exc).map fun x => env.subclass x.cls c

/-- src/interpret.cpp:680-719 `findExceptionHandler` on a method and an `ip` that points behind the
instruction: the packed handler, or 0.  A catch type that cannot be resolved raises an exception
inside the resolver and is `none` here. -/
def findHandler (env : Env) (m : Ref) (ip : BitVec 32) (h : Heap) (exc : Ref) :
    List (BitVec 64) → Option (BitVec 64)
  | [] => some 0#64
  | eh :: rest =>
    if ehStart eh ≤ ip - 1#32 ∧ ip - 1#32 < ehEnd eh then
      if ehCatchType eh ≠ 0#32 then
        match env.resolveClass m ((ehCatchType eh).setWidth 16) with
        | none => none
        | some c =>
          match exceptionMatch env h (some c) exc with
          | none => none
          | some true => some eh
          | some false => findHandler env m ip h exc rest
      else some eh
    else findHandler env m ip h exc rest

/-- src/interpret.cpp:2998-3015 label `throw_`: the loop over frames.  The number of frames visited
is bounded by `fuel`; the caller passes enough (frames are strictly nested). -/
def unwind (env : Env) (base : Int) : Nat → M Unit
  | 0 => fail
  | fuel + 1 => do
    let s ← getS
    if s.frame < base then throwS
    else
      let m ← frameMethod env s.frame
      let ip ← frameIp env s.frame
      let eh ← ofOpt (findHandler env m ip s.heap s.exc (env.meth m).code.handlers)
      if eh ≠ 0#64 then
        modS fun s => { s with sp := s.frame.toNat + 4, ip := ehIp eh }
        pushObject env s.exc
        modS fun s => { s with exc := 0#64 }
      else
        popFrame env
        unwind env base fuel

/-- src/interpret.cpp:3003: the current position is saved in the frame before unwinding. -/
def throwLabel (env : Env) (base : Int) : M Unit := do
  let s ← getS
  let i ← slotAt s.frame 3
  pokeInt env i s.ip
  unwind env base (s.frame.toNat + 2)

/-- src/interpret.cpp:2988-2996 label `invoke` for a method with bytecode (native methods are not
modelled here). -/
def invokeLabel (env : Env) (m : Ref) : M Unit := do
  if (env.meth m).isNative then fail else
    checkStack env m
    pushFrame env m

/-! ### Instruction bodies -/

/-- A binary `int` instruction: `b` is popped first. -/
def intBin (env : Env) (f : BitVec 32 → BitVec 32 → BitVec 32) : M Unit := do
  let b ← popInt env
  let a ← popInt env
  pushInt env (f a b)

/-- A binary `long` instruction. -/
def longBin (env : Env) (f : BitVec 64 → BitVec 64 → BitVec 64) : M Unit := do
  let b ← popLong env
  let a ← popLong env
  pushLong env (f a b)

/-- src/interpret.cpp:1734-1745 `idiv` (and 2099-2110 `irem`). -/
def intDiv (env : Env) (f : BitVec 32 → BitVec 32 → BitVec 32) : M Unit := do
  let b ← popInt env
  let a ← popInt env
  if b = 0#32 then throwNew env .arithmetic
  else if a = BitVec.intMin 32 ∧ b = BitVec.allOnes 32 then fail
  else pushInt env (f a b)

/-- src/interpret.cpp:2349-2360 `ldiv_` (and 2446-2457 `lrem`). -/
def longDiv (env : Env) (f : BitVec 64 → BitVec 64 → BitVec 64) : M Unit := do
  let b ← popLong env
  let a ← popLong env
  if b = 0#64 then throwNew env .arithmetic
  else if a = BitVec.intMin 64 ∧ b = BitVec.allOnes 64 then fail
  else pushLong env (f a b)

/-- A `long` shift: the distance is an `int` (src/interpret.cpp:2472-2486, 2526-2532; `lushr`
widens the distance to 64 bits before masking, which keeps its low six bits). -/
def longShift (env : Env) (f : BitVec 64 → Nat → BitVec 64) : M Unit := do
  let b ← popInt env
  let a ← popLong env
  pushLong env (f a (b &&& 0x3F#32).toNat)

/-- An `int` shift (src/interpret.cpp:2125-2139, 2179-2185). -/
def intShift (env : Env) (f : BitVec 32 → Nat → BitVec 32) : M Unit := do
  let b ← popInt env
  let a ← popInt env
  pushInt env (f a (b &&& 0x1F#32).toNat)

/-- An `int` to `int` instruction. -/
def intUn (env : Env) (f : BitVec 32 → BitVec 32) : M Unit := do
  let a ← popInt env
  pushInt env (f a)

/-- src/interpret.cpp:2289-2295 `lcmp`. -/
def lcmpBody (env : Env) : M Unit := do
  let b ← popLong env
  let a ← popLong env
  pushInt env (if b.slt a then 1#32 else if a = b then 0#32 else BitVec.ofInt 32 (-1))

/-- src/interpret.cpp:1211-1247 `dcmpg`, `dcmpl`. -/
def dcmpBody (env : Env) (nanResult : BitVec 32) : M Unit := do
  let b ← popLong env
  let a ← popLong env
  (cmpPushes nanResult (dval a) (dval b)).forM (pushInt env)

/-- src/interpret.cpp:1465-1501 `fcmpg`, `fcmpl`. -/
def fcmpBody (env : Env) (nanResult : BitVec 32) : M Unit := do
  let b ← popInt env
  let a ← popInt env
  (cmpPushes nanResult (fval a) (fval b)).forM (pushInt env)

/-- src/interpret.cpp:1298-1306 `dup`. -/
def dupBody (env : Env) : M Unit := do
  copySlot env (← spMinus 0) (← spMinus 1)
  spAdd 1

/-- src/interpret.cpp:1308-1318 `dup_x1`. -/
def dupX1Body (env : Env) : M Unit := do
  copySlot env (← spMinus 0) (← spMinus 1)
  copySlot env (← spMinus 1) (← spMinus 2)
  copySlot env (← spMinus 2) (← spMinus 0)
  spAdd 1

/-- src/interpret.cpp:1320-1331 `dup_x2`. -/
def dupX2Body (env : Env) : M Unit := do
  copySlot env (← spMinus 0) (← spMinus 1)
  copySlot env (← spMinus 1) (← spMinus 2)
  copySlot env (← spMinus 2) (← spMinus 3)
  copySlot env (← spMinus 3) (← spMinus 0)
  spAdd 1

/-- src/interpret.cpp:1333-1341 `dup2`. -/
def dup2Body (env : Env) : M Unit := do
  copySlot2 env (← spMinus 0) (← spMinus 2)
  spAdd 2

/-- src/interpret.cpp:1343-1354 `dup2_x1`. -/
def dup2X1Body (env : Env) : M Unit := do
  copySlot env ((← spMinus 0) + 1) (← spMinus 1)
  copySlot env (← spMinus 0) (← spMinus 2)
  copySlot env (← spMinus 1) (← spMinus 3)
  copySlot2 env (← spMinus 3) (← spMinus 0)
  spAdd 2

/-- src/interpret.cpp:1356-1368 `dup2_x2`. -/
def dup2X2Body (env : Env) : M Unit := do
  copySlot env ((← spMinus 0) + 1) (← spMinus 1)
  copySlot env (← spMinus 0) (← spMinus 2)
  copySlot env (← spMinus 1) (← spMinus 3)
  copySlot env (← spMinus 2) (← spMinus 4)
  copySlot2 env (← spMinus 4) (← spMinus 0)
  spAdd 2

/-- src/interpret.cpp:2875-2881 `swap`. -/
def swapBody (env : Env) : M Unit := do
  let tmp ← readSlot env (← spMinus 1)
  copySlot env (← spMinus 1) (← spMinus 2)
  writeSlot env (← spMinus 2) tmp

/-- src/interpret.cpp:2662-2670 `pop_`, `pop2`. -/
def popBody (n : Nat) : M Unit := do
  let i ← spMinus n
  modS fun s => { s with sp := i }

/-- `if (c) ip = (ip - len) + offset;` (the offset has been read, so `ip` points behind the
instruction of `len` bytes). -/
def branchIf (len : BitVec 32) (c : Bool) (offset : BitVec 32) : M Unit :=
  modS fun s => if c then { s with ip := (s.ip - len) + offset } else s

/-- src/interpret.cpp:1843-1895 `ifeq` and the other comparisons with zero. -/
def ifBody (env : Env) (c : BitVec 32 → Bool) : M Unit := do
  let offset ← fetch16 env
  let a ← popInt env
  branchIf 3 (c a) (offset.signExtend 32)

/-- src/interpret.cpp:1771-1841 `if_icmpeq` and the other comparisons of two integers. -/
def ificmpBody (env : Env) (c : BitVec 32 → BitVec 32 → Bool) : M Unit := do
  let offset ← fetch16 env
  let b ← popInt env
  let a ← popInt env
  branchIf 3 (c a b) (offset.signExtend 32)

/-- src/interpret.cpp:1747-1769 `if_acmpeq`, `if_acmpne`. -/
def ifacmpBody (env : Env) (c : Ref → Ref → Bool) : M Unit := do
  let offset ← fetch16 env
  let b ← popObject env
  let a ← popObject env
  branchIf 3 (c a b) (offset.signExtend 32)

/-- src/interpret.cpp:1897-1913 `ifnonnull`, `ifnull`. -/
def ifnullBody (env : Env) (c : Ref → Bool) : M Unit := do
  let offset ← fetch16 env
  let a ← popObject env
  branchIf 3 (c a) (offset.signExtend 32)

/-- src/interpret.cpp:1594-1598 `goto_`. -/
def gotoBody (env : Env) : M Unit := do
  let offset ← fetch16 env
  branchIf 3 true (offset.signExtend 32)

/-- src/interpret.cpp:1600-1604 `goto_w`. -/
def gotoWBody (env : Env) : M Unit := do
  let offset ← fetch32 env
  branchIf 5 true offset

/-- src/interpret.cpp:2195-2201 `jsr`. -/
def jsrBody (env : Env) : M Unit := do
  let offset ← fetch16 env
  let s ← getS
  pushInt env s.ip
  branchIf 3 true (offset.signExtend 32)

/-- src/interpret.cpp:2203-2209 `jsr_w`. -/
def jsrWBody (env : Env) : M Unit := do
  let offset ← fetch32 env
  let s ← getS
  pushInt env s.ip
  branchIf 5 true offset

/-- src/interpret.cpp:2802-2805 `ret`. -/
def retBody (env : Env) : M Unit := do
  let i ← fetch8 env
  let v ← localInt env i.toNat
  modS fun s => { s with ip := v }

/-- src/interpret.cpp:2415-2434: the binary search of `lookupswitch`.  `tbl` is the value of `ip`
at the first pair.  `bottom` and `top` are `int32_t`, represented by integers. -/
def lookupLoop (env : Env) (key : BitVec 32) (tbl : BitVec 32) (base dflt : BitVec 32) :
    Nat → Int → Int → M Unit
  | 0, _, _ => fail
  | fuel + 1, bottom, top =>
    let span := top - bottom
    if span = 0 then modS fun s => { s with ip := base + dflt }
    else do
      let middle := bottom + span.tdiv 2
      modS fun s => { s with ip := tbl + BitVec.ofInt 32 (middle * 8) }
      let k ← fetch32 env
      if key.slt k then lookupLoop env key tbl base dflt fuel bottom middle
      else if k.slt key then lookupLoop env key tbl base dflt fuel (middle + 1) top
      else
        let off ← fetch32 env
        modS fun s => { s with ip := base + off }

/-- `ip += 3; ip -= (ip % 4);` -/
def alignIp : M Unit := modS fun s => { s with ip := (s.ip + 3) - ((s.ip + 3) % 4) }

/-- src/interpret.cpp:2405-2436 `lookupswitch`.  In the source the loop reads through a separate
variable `index`; here `ip` plays its part and is overwritten at the end. -/
def lookupswitchBody (env : Env) : M Unit := do
  let s ← getS
  let base := s.ip - 1
  alignIp
  let dflt ← fetch32 env
  let pairCount ← fetch32 env
  let key ← popInt env
  let s ← getS
  if pairCount.toInt < 0 then fail else
    lookupLoop env key s.ip base dflt (pairCount.toNat + 1) 0 pairCount.toInt

/-- src/interpret.cpp:2883-2902 `tableswitch`.  `key - bottom` is computed in 32 bits. -/
def tableswitchBody (env : Env) : M Unit := do
  let s ← getS
  let base := s.ip - 1
  alignIp
  let dflt ← fetch32 env
  let bottom ← fetch32 env
  let top ← fetch32 env
  let key ← popInt env
  if bottom.sle key ∧ key.sle top then
    modS fun s => { s with ip := s.ip + (key - bottom) * 4 }
    let off ← fetch32 env
    modS fun s => { s with ip := base + off }
  else modS fun s => { s with ip := base + dflt }

/-- Return instructions: `popFrame` when this is not the frame `interpret3` was entered with,
otherwise leave with the result (src/interpret.cpp:905-915, 2112-2123, 2459-2470, 2807-2821). -/
def returnWith (env : Env) (base : Int) (r : List Slot) : M Unit := do
  let s ← getS
  if s.frame > base then
    popFrame env
    r.forM (pushSlot env)
  else doneS r

/-- src/interpret.cpp:2112-2123 `ireturn`, `freturn`. -/
def ireturnBody (env : Env) (base : Int) : M Unit := do
  let v ← popInt env
  returnWith env base [.int v]

/-- src/interpret.cpp:905-915 `areturn`. -/
def areturnBody (env : Env) (base : Int) : M Unit := do
  let v ← popObject env
  returnWith env base [.obj v]

/-- src/interpret.cpp:2459-2470 `lreturn`, `dreturn`. -/
def lreturnBody (env : Env) (base : Int) : M Unit := do
  let v ← popLong env
  returnWith env base
    [.int ((v >>> (32 : Nat)).setWidth 32), .int ((v &&& 0xFFFFFFFF#64).setWidth 32)]

/-- src/interpret.cpp:953-959 `athrow`. -/
def athrowBody (env : Env) : M Unit := do
  let e ← popObject env
  if e = 0#64 then throwNew env .nullPointer
  else do
    modS fun s => { s with exc := e }
    throwS

/-- `index >= 0 and static_cast<uintptr_t>(index) < length` -/
def inBounds (index : BitVec 32) (length : Nat) : Bool :=
  decide (0 ≤ index.toInt) && decide ((index.signExtend 64).toNat < length)

/-- `array->body()[index]` of the array at a reference. -/
def arrayAt (h : Heap) (o : Ref) : Option Arr := (h o).bind (·.arr)

/-- The value pushed by the array load instructions, by element type: `baload` (961-998), `caload`
(1045), `saload` (2823), `iaload` (1644), `faload` (1418), `laload` (2234), `daload` (1164),
`aaload` (809).  `GcBooleanArray` has unsigned, `GcByteArray` signed elements. -/
inductive AElem where
  | a | b | c | s | i | f | l | d
  deriving DecidableEq, Repr

/-- Push element `i` of the array. -/
def pushElem (env : Env) (k : AElem) (arr : Arr) (i : Nat) : M Unit :=
  match k, arr with
  | .a, .ref l => do pushObject env (← ofOpt l[i]?)
  | .b, .bool l => do pushInt env ((← ofOpt l[i]?).setWidth 32)
  | .b, .byte l => do pushInt env ((← ofOpt l[i]?).signExtend 32)
  | .c, .char l => do pushInt env ((← ofOpt l[i]?).setWidth 32)
  | .s, .short l => do pushInt env ((← ofOpt l[i]?).signExtend 32)
  | .i, .int l => do pushInt env (← ofOpt l[i]?)
  | .f, .float l => do pushInt env (← ofOpt l[i]?)
  | .l, .long l => do pushLong env (← ofOpt l[i]?)
  | .d, .double l => do pushLong env (← ofOpt l[i]?)
  | _, _ => fail

/-- The array load instructions. -/
def xaloadBody (env : Env) (k : AElem) : M Unit := do
  let index ← popInt env
  let array ← popObject env
  if array ≠ 0#64 then
    let s ← getS
    let arr ← ofOpt (arrayAt s.heap array)
    if inBounds index arr.length then pushElem env k arr index.toNat
    else throwNew env .arrayIndex
  else throwNew env .nullPointer

/-- A value popped for an array store. -/
inductive AVal where
  | w (v : BitVec 32)
  | l (v : BitVec 64)
  | o (v : Ref)

/-- Pop the value of an array store instruction. -/
def popElem (env : Env) (k : AElem) : M AVal :=
  match k with
  | .a => do pure (.o (← popObject env))
  | .l | .d => do pure (.l (← popLong env))
  | _ => do pure (.w (← popInt env))

/-- `array->body()[index] = value`, with the conversion of `value` to the declared C++ type
(`int8_t`, `uint16_t`, `int16_t`, ...). -/
def setElem (k : AElem) (arr : Arr) (i : Nat) (v : AVal) : Option Arr :=
  match k, arr, v with
  | .a, .ref l, .o v => some (.ref (l.set i v))
  | .b, .bool l, .w v => some (.bool (l.set i (v.setWidth 8)))
  | .b, .byte l, .w v => some (.byte (l.set i (v.setWidth 8)))
  | .c, .char l, .w v => some (.char (l.set i (v.setWidth 16)))
  | .s, .short l, .w v => some (.short (l.set i (v.setWidth 16)))
  | .i, .int l, .w v => some (.int (l.set i v))
  | .f, .float l, .w v => some (.float (l.set i v))
  | .l, .long l, .l v => some (.long (l.set i v))
  | .d, .double l, .l v => some (.double (l.set i v))
  | _, _, _ => none

/-- The array store instructions: `aastore` (833-856, no check of the element's class), `bastore`
(1000), `castore` (1068), `sastore` (2846), `iastore` (1675), `fastore` (1441), `lastore` (2265),
`dastore` (1187). -/
def xastoreBody (env : Env) (k : AElem) : M Unit := do
  let v ← popElem env k
  let index ← popInt env
  let array ← popObject env
  if array ≠ 0#64 then
    let s ← getS
    let x ← ofOpt (s.heap array)
    let arr ← ofOpt x.arr
    if inBounds index arr.length then
      let arr' ← ofOpt (setElem k arr index.toNat v)
      modS fun s => { s with heap := s.heap.set array { x with arr := some arr' } }
    else throwNew env .arrayIndex
  else throwNew env .nullPointer

/-- src/interpret.cpp:917-926 `arraylength`. -/
def arraylengthBody (env : Env) : M Unit := do
  let array ← popObject env
  if array ≠ 0#64 then
    let s ← getS
    let arr ← ofOpt (arrayAt s.heap array)
    pushInt env (BitVec.ofNat 32 arr.length)
  else throwNew env .nullPointer

/-- src/interpret.cpp:2613-2648: a new primitive array by type code. -/
def newPrimArray (type : BitVec 8) (count : Nat) : Option Arr :=
  match type.toNat with
  | 4 => some (.bool (List.replicate count 0))
  | 5 => some (.char (List.replicate count 0))
  | 6 => some (.float (List.replicate count 0))
  | 7 => some (.double (List.replicate count 0))
  | 8 => some (.byte (List.replicate count 0))
  | 9 => some (.short (List.replicate count 0))
  | 10 => some (.int (List.replicate count 0))
  | 11 => some (.long (List.replicate count 0))
  | _ => none

/-- Allocate and push an object. -/
def pushNew (env : Env) (x : Obj) : M Unit := do
  let s ← getS
  let r := env.alloc s.heap x
  modS fun s => { s with heap := r.1 }
  pushObject env r.2

/-- src/interpret.cpp:2605-2657 `newarray`.  The class of a primitive array is named by the type
code. -/
def newarrayBody (env : Env) : M Unit := do
  let count ← popInt env
  if 0 ≤ count.toInt then
    let type ← fetch8 env
    let arr ← ofOpt (newPrimArray type count.toNat)
    pushNew env ⟨env.arrayClass (type.setWidth 64), some arr, zeroBytes⟩
  else throwNew env .negativeSize

/-- src/interpret.cpp:888-903 `anewarray`. -/
def anewarrayBody (env : Env) : M Unit := do
  let count ← popInt env
  if 0 ≤ count.toInt then
    let index ← fetch16 env
    let s ← getS
    let c ← ofOpt (env.resolveClass (← frameMethod env s.frame) index)
    pushNew env ⟨env.arrayClass c, some (.ref (List.replicate count.toNat 0#64)), zeroBytes⟩
  else throwNew env .negativeSize

/-- src/interpret.cpp:2593-2603 `new_`. -/
def newBody (env : Env) : M Unit := do
  let index ← fetch16 env
  let s ← getS
  let c ← ofOpt (env.resolveClass (← frameMethod env s.frame) index)
  pushNew env ⟨c, none, zeroBytes⟩

/-- src/interpret.cpp:725-758 `pushField`: `CharField` is read as `int16_t`, so it is
sign-extended. -/
def pushField (env : Env) (bytes : Nat → BitVec 8) (f : Field) : M Unit :=
  match f.kind with
  | .byte | .boolean => pushInt env ((BitVec.ofNat 8 (leNat bytes f.offset 1)).signExtend 32)
  | .char | .short => pushInt env ((BitVec.ofNat 16 (leNat bytes f.offset 2)).signExtend 32)
  | .float | .int => pushInt env (BitVec.ofNat 32 (leNat bytes f.offset 4))
  | .double | .long => pushLong env (BitVec.ofNat 64 (leNat bytes f.offset 8))
  | .object => pushObject env (BitVec.ofNat 64 (leNat bytes f.offset 8))

/-- src/interpret.cpp:1557-1575 `getfield`.  The null test comes before the index is read. -/
def getfieldBody (env : Env) : M Unit := do
  let o ← peekObject env (← spMinus 1)
  if o ≠ 0#64 then
    let index ← fetch16 env
    let s ← getS
    let f ← ofOpt (env.resolveField (← frameMethod env s.frame) index)
    let o ← popObject env
    let x ← ofOpt (s.heap o)
    pushField env x.bytes f
  else throwNew env .nullPointer

/-- src/interpret.cpp:1577-1592 `getstatic`. -/
def getstaticBody (env : Env) : M Unit := do
  let index ← fetch16 env
  let s ← getS
  let f ← ofOpt (env.resolveField (← frameMethod env s.frame) index)
  let x ← ofOpt (s.heap f.table)
  pushField env x.bytes f

/-- The value popped for a field store. -/
def popFieldValue (env : Env) (f : Field) : M AVal :=
  match f.kind with
  | .double | .long => do pure (.l (← popLong env))
  | .object => do pure (.o (← popObject env))
  | _ => do pure (.w (← popInt env))

/-- `fieldAtOffset<T>(o, offset) = value`: the low bytes of the value, by field type. -/
def storeField (bytes : Nat → BitVec 8) (f : Field) (v : AVal) : Nat → BitVec 8 :=
  match f.kind, v with
  | .byte, .w v | .boolean, .w v => leStore bytes f.offset 1 v.toNat
  | .char, .w v | .short, .w v => leStore bytes f.offset 2 v.toNat
  | .float, .w v | .int, .w v => leStore bytes f.offset 4 v.toNat
  | .double, .l v | .long, .l v => leStore bytes f.offset 8 v.toNat
  | .object, .o v => leStore bytes f.offset 8 v.toNat
  | _, _ => bytes

/-- src/interpret.cpp:2672-2744 `putfield`. -/
def putfieldBody (env : Env) : M Unit := do
  let index ← fetch16 env
  let s ← getS
  let f ← ofOpt (env.resolveField (← frameMethod env s.frame) index)
  let v ← popFieldValue env f
  let o ← popObject env
  if o ≠ 0#64 then
    let x ← ofOpt (s.heap o)
    modS fun s => { s with heap := s.heap.set o { x with bytes := storeField x.bytes f v } }
  else throwNew env .nullPointer

/-- src/interpret.cpp:2746-2800 `putstatic`. -/
def putstaticBody (env : Env) : M Unit := do
  let index ← fetch16 env
  let s ← getS
  let f ← ofOpt (env.resolveField (← frameMethod env s.frame) index)
  let v ← popFieldValue env f
  let x ← ofOpt (s.heap f.table)
  modS fun s => { s with heap := s.heap.set f.table { x with bytes := storeField x.bytes f v } }

/-- src/interpret.cpp:1092-1111 `checkcast`. -/
def checkcastBody (env : Env) : M Unit := do
  let index ← fetch16 env
  let o ← peekObject env (← spMinus 1)
  if o ≠ 0#64 then
    let s ← getS
    let c ← ofOpt (env.resolveClass (← frameMethod env s.frame) index)
    let x ← ofOpt (s.heap o)
    if env.subclass x.cls c then pure () else throwNew env .classCast
  else pure ()

/-- src/interpret.cpp:1966-1982 `instanceof`. -/
def instanceofBody (env : Env) : M Unit := do
  let index ← fetch16 env
  let o ← peekObject env (← spMinus 1)
  if o ≠ 0#64 then
    let s ← getS
    let c ← ofOpt (env.resolveClass (← frameMethod env s.frame) index)
    let o ← popObject env
    let x ← ofOpt (s.heap o)
    pushInt env (if env.subclass x.cls c then 1#32 else 0#32)
  else do
    let _ ← popObject env
    pushInt env 0#32

/-- src/interpret.cpp:2542-2562 `monitorenter`, `monitorexit`. -/
def monitorBody (env : Env) (e : Ref → Ev) : M Unit := do
  let o ← popObject env
  if o ≠ 0#64 then logEv (e o) else throwNew env .nullPointer

/-- src/interpret.cpp:2307-2336 `ldc`, `ldc_w`. -/
def ldcBody (env : Env) (index : BitVec 16) : M Unit := do
  let s ← getS
  match ← ofOpt (env.constant (← frameMethod env s.frame) index) with
  | .int v => pushInt env v
  | .obj o => pushObject env o

/-- src/interpret.cpp:2338-2347 `ldc2_w`. -/
def ldc2Body (env : Env) : M Unit := do
  let index ← fetch16 env
  let s ← getS
  pushLong env (← ofOpt (env.constant2 (← frameMethod env s.frame) index))

/-- src/interpret.cpp:2071-2089 `invokevirtual` (and 2012-2029 `invokeinterface`, 2031-2057
`invokespecial`): the receiver is below the other arguments. -/
def invokeInstance (env : Env) (skip : BitVec 32) (target : Ref → Ref → Ref → Ref) : M Unit := do
  let index ← fetch16 env
  modS fun s => { s with ip := s.ip + skip }
  let s ← getS
  let caller ← frameMethod env s.frame
  let m ← ofOpt (env.resolveMethod caller index)
  let o ← peekObject env (← spMinus (env.meth m).paramFootprint)
  if o ≠ 0#64 then
    let x ← ofOpt (s.heap o)
    invokeLabel env (target caller m x.cls)
  else throwNew env .nullPointer

/-- src/interpret.cpp:2059-2069 `invokestatic`. -/
def invokestaticBody (env : Env) : M Unit := do
  let index ← fetch16 env
  let s ← getS
  let m ← ofOpt (env.resolveMethod (← frameMethod env s.frame) index)
  invokeLabel env m

/-- src/interpret.cpp:1984-2010 `invokedynamic`, with the call site resolved. -/
def invokedynamicBody (env : Env) : M Unit := do
  let index ← fetch16 env
  modS fun s => { s with ip := s.ip + 2 }
  let s ← getS
  let m ← ofOpt (env.dynamicTarget (← frameMethod env s.frame) index)
  invokeLabel env m

/-- src/interpret.cpp:1915-1921 `iinc`. -/
def iincBody (env : Env) : M Unit := do
  let i ← fetch8 env
  let c ← fetch8 env
  let v ← localInt env i.toNat
  setLocalInt env i.toNat (v + c.signExtend 32)

/-- src/interpret.cpp:1923-1951 `iload`, `fload` and their short forms. -/
def iloadBody (env : Env) (i : Nat) : M Unit := do pushInt env (← localInt env i)
/-- src/interpret.cpp:2362-2390 `lload`, `dload` and their short forms. -/
def lloadBody (env : Env) (i : Nat) : M Unit := do pushLong env (← localLong env i)
/-- src/interpret.cpp:863-886 `aload` and its short forms. -/
def aloadBody (env : Env) (i : Nat) : M Unit := do pushObject env (← localObject env i)
/-- src/interpret.cpp:2141-2169 `istore`, `fstore` and their short forms. -/
def istoreBody (env : Env) (i : Nat) : M Unit := do setLocalInt env i (← popInt env)
/-- src/interpret.cpp:2488-2516 `lstore`, `dstore` and their short forms. -/
def lstoreBody (env : Env) (i : Nat) : M Unit := do setLocalLong env i (← popLong env)
/-- src/interpret.cpp:2942-2945 `wide astore`: unlike `astore` it pops an object. -/
def wideAstoreBody (env : Env) (i : Nat) : M Unit := do setLocalObject env i (← popObject env)

/-- Run an action on an index read from the code. -/
def withIndex8 (env : Env) (f : Nat → M Unit) : M Unit := do
  let i ← fetch8 env
  f i.toNat

/-- Run an action on a 16-bit index read from the code; `codeReadInt16` returns `int16_t`, which is
sign-extended into `unsigned` when used as an index, so an index of 32768 or more denotes another
slot. -/
def withIndex16 (env : Env) (f : Nat → M Unit) : M Unit := do
  let i ← fetch16 env
  f (i.signExtend 32).toNat

/-- src/interpret.cpp:2947-2953 `wide iinc`: here the index goes through `uint16_t`. -/
def wideIincBody (env : Env) : M Unit := do
  let i ← fetch16 env
  let c ← fetch16 env
  let v ← localInt env i.toNat
  setLocalInt env i.toNat (v + c.signExtend 32)

/-- src/interpret.cpp:2975-2978 `wide ret`. -/
def wideRetBody (env : Env) : M Unit :=
  withIndex16 env fun i => do
    let v ← localInt env i
    modS fun s => { s with ip := v }

/-- src/interpret.cpp:2935-2982 label `wide`; the floating-point forms are missing there. -/
def wideBody (env : Env) : M Unit := do
  let op ← fetch8 env
  match op.toNat with
  | 0x19 => withIndex16 env (aloadBody env)
  | 0x3a => withIndex16 env (wideAstoreBody env)
  | 0x84 => wideIincBody env
  | 0x15 => withIndex16 env (iloadBody env)
  | 0x36 => withIndex16 env (istoreBody env)
  | 0x16 => withIndex16 env (lloadBody env)
  | 0x37 => withIndex16 env (lstoreBody env)
  | 0xa9 => wideRetBody env
  | _ => fail

/-- `if (f >= INT32_MAX ...)` conversions: pop, convert, push; undefined conversions fail. -/
def d2iBody (env : Env) : M Unit := do
  let f ← popLong env
  pushInt env (← ofOpt (d2iC (dval f)))
/-- src/interpret.cpp:1137-1154 `d2l`. -/
def d2lBody (env : Env) : M Unit := do
  let f ← popLong env
  pushLong env (← ofOpt (d2lC (dval f)))
/-- src/interpret.cpp:1375-1392 `f2i`. -/
def f2iBody (env : Env) : M Unit := do
  let f ← popInt env
  pushInt env (← ofOpt (f2iC (fval f)))
/-- src/interpret.cpp:1394-1408 `f2l`. -/
def f2lBody (env : Env) : M Unit := do
  let f ← popInt env
  pushLong env (← ofOpt (f2lC (fval f)))

/-- An instruction from one slot to two (`i2l`, `i2d`, `f2d`). -/
def intToLong (env : Env) (f : BitVec 32 → BitVec 64) : M Unit := do
  let a ← popInt env
  pushLong env (f a)

/-- An instruction from two slots to one (`l2i`, `l2f`, `d2f`). -/
def longToInt (env : Env) (f : BitVec 64 → BitVec 32) : M Unit := do
  let a ← popLong env
  pushInt env (f a)

/-- An instruction on one two-slot value (`lneg`, `dneg`, `l2d`). -/
def longUn (env : Env) (f : BitVec 64 → BitVec 64) : M Unit := do
  let a ← popLong env
  pushLong env (f a)

/-- C++ unary minus on a floating-point value flips the sign bit. -/
def fneg32 (a : BitVec 32) : BitVec 32 := a ^^^ BitVec.intMin 32
/-- The same for `double`. -/
def fneg64 (a : BitVec 64) : BitVec 64 := a ^^^ BitVec.intMin 64

/-- src/interpret.cpp:808-2933: the `switch (instruction)`.  `base` is the parameter of
`interpret3`.  `multianewarray` and `impdep1` are not modelled. -/
def dispatch (env : Env) (base : Int) (op : Nat) : M Unit :=
  match op with
  | 0x00 => pure ()
  | 0x01 => pushObject env 0#64
  | 0x02 => pushInt env (BitVec.allOnes 32)
  | 0x03 => pushInt env 0
  | 0x04 => pushInt env 1
  | 0x05 => pushInt env 2
  | 0x06 => pushInt env 3
  | 0x07 => pushInt env 4
  | 0x08 => pushInt env 5
  | 0x09 => pushLong env 0
  | 0x0a => pushLong env 1
  | 0x0b => pushInt env 0
  | 0x0c => pushInt env 0x3f800000#32
  | 0x0d => pushInt env 0x40000000#32
  | 0x0e => pushLong env 0
  | 0x0f => pushLong env 0x3ff0000000000000#64
  | 0x10 => do pushInt env ((← fetch8 env).signExtend 32)
  | 0x11 => do pushInt env ((← fetch16 env).signExtend 32)
  | 0x12 => do ldcBody env ((← fetch8 env).setWidth 16)
  | 0x13 => do ldcBody env (← fetch16 env)
  | 0x14 => ldc2Body env
  | 0x15 => withIndex8 env (iloadBody env)
  | 0x16 => withIndex8 env (lloadBody env)
  | 0x17 => withIndex8 env (iloadBody env)
  | 0x18 => withIndex8 env (lloadBody env)
  | 0x19 => withIndex8 env (aloadBody env)
  | 0x1a => iloadBody env 0
  | 0x1b => iloadBody env 1
  | 0x1c => iloadBody env 2
  | 0x1d => iloadBody env 3
  | 0x1e => lloadBody env 0
  | 0x1f => lloadBody env 1
  | 0x20 => lloadBody env 2
  | 0x21 => lloadBody env 3
  | 0x22 => iloadBody env 0
  | 0x23 => iloadBody env 1
  | 0x24 => iloadBody env 2
  | 0x25 => iloadBody env 3
  | 0x26 => lloadBody env 0
  | 0x27 => lloadBody env 1
  | 0x28 => lloadBody env 2
  | 0x29 => lloadBody env 3
  | 0x2a => aloadBody env 0
  | 0x2b => aloadBody env 1
  | 0x2c => aloadBody env 2
  | 0x2d => aloadBody env 3
  | 0x2e => xaloadBody env .i
  | 0x2f => xaloadBody env .l
  | 0x30 => xaloadBody env .f
  | 0x31 => xaloadBody env .d
  | 0x32 => xaloadBody env .a
  | 0x33 => xaloadBody env .b
  | 0x34 => xaloadBody env .c
  | 0x35 => xaloadBody env .s
  | 0x36 => withIndex8 env (istoreBody env)
  | 0x37 => withIndex8 env (lstoreBody env)
  | 0x38 => withIndex8 env (istoreBody env)
  | 0x39 => withIndex8 env (lstoreBody env)
  | 0x3a => withIndex8 env (store env)
  | 0x3b => istoreBody env 0
  | 0x3c => istoreBody env 1
  | 0x3d => istoreBody env 2
  | 0x3e => istoreBody env 3
  | 0x3f => lstoreBody env 0
  | 0x40 => lstoreBody env 1
  | 0x41 => lstoreBody env 2
  | 0x42 => lstoreBody env 3
  | 0x43 => istoreBody env 0
  | 0x44 => istoreBody env 1
  | 0x45 => istoreBody env 2
  | 0x46 => istoreBody env 3
  | 0x47 => lstoreBody env 0
  | 0x48 => lstoreBody env 1
  | 0x49 => lstoreBody env 2
  | 0x4a => lstoreBody env 3
  | 0x4b => store env 0
  | 0x4c => store env 1
  | 0x4d => store env 2
  | 0x4e => store env 3
  | 0x4f => xastoreBody env .i
  | 0x50 => xastoreBody env .l
  | 0x51 => xastoreBody env .f
  | 0x52 => xastoreBody env .d
  | 0x53 => xastoreBody env .a
  | 0x54 => xastoreBody env .b
  | 0x55 => xastoreBody env .c
  | 0x56 => xastoreBody env .s
  | 0x57 => popBody 1
  | 0x58 => popBody 2
  | 0x59 => dupBody env
  | 0x5a => dupX1Body env
  | 0x5b => dupX2Body env
  | 0x5c => dup2Body env
  | 0x5d => dup2X1Body env
  | 0x5e => dup2X2Body env
  | 0x5f => swapBody env
  | 0x60 => intBin env (· + ·)
  | 0x61 => longBin env (· + ·)
  | 0x62 => intBin env env.fp.fadd
  | 0x63 => longBin env env.fp.dadd
  | 0x64 => intBin env (· - ·)
  | 0x65 => longBin env (· - ·)
  | 0x66 => intBin env env.fp.fsub
  | 0x67 => longBin env env.fp.dsub
  | 0x68 => intBin env (· * ·)
  | 0x69 => longBin env (· * ·)
  | 0x6a => intBin env env.fp.fmul
  | 0x6b => longBin env env.fp.dmul
  | 0x6c => intDiv env BitVec.sdiv
  | 0x6d => longDiv env BitVec.sdiv
  | 0x6e => intBin env env.fp.fdiv
  | 0x6f => longBin env env.fp.ddiv
  | 0x70 => intDiv env BitVec.srem
  | 0x71 => longDiv env BitVec.srem
  | 0x72 => intBin env env.fp.frem
  | 0x73 => longBin env env.fp.drem
  | 0x74 => intUn env (- ·)
  | 0x75 => longUn env (- ·)
  | 0x76 => intUn env fneg32
  | 0x77 => longUn env fneg64
  | 0x78 => intShift env (· <<< ·)
  | 0x79 => longShift env (· <<< ·)
  | 0x7a => intShift env BitVec.sshiftRight
  | 0x7b => longShift env BitVec.sshiftRight
  | 0x7c => intShift env (· >>> ·)
  | 0x7d => longShift env (· >>> ·)
  | 0x7e => intBin env (· &&& ·)
  | 0x7f => longBin env (· &&& ·)
  | 0x80 => intBin env (· ||| ·)
  | 0x81 => longBin env (· ||| ·)
  | 0x82 => intBin env (· ^^^ ·)
  | 0x83 => longBin env (· ^^^ ·)
  | 0x84 => iincBody env
  | 0x85 => intToLong env (BitVec.signExtend 64)
  | 0x86 => intUn env env.fp.i2f
  | 0x87 => intToLong env env.fp.i2d
  | 0x88 => longToInt env (BitVec.setWidth 32)
  | 0x89 => longToInt env env.fp.l2f
  | 0x8a => longUn env env.fp.l2d
  | 0x8b => f2iBody env
  | 0x8c => f2lBody env
  | 0x8d => intToLong env env.fp.f2d
  | 0x8e => d2iBody env
  | 0x8f => d2lBody env
  | 0x90 => longToInt env env.fp.d2f
  | 0x91 => intUn env fun a => (a.setWidth 8).signExtend 32
  | 0x92 => intUn env fun a => (a.setWidth 16).setWidth 32
  | 0x93 => intUn env fun a => (a.setWidth 16).signExtend 32
  | 0x94 => lcmpBody env
  | 0x95 => fcmpBody env (BitVec.allOnes 32)
  | 0x96 => fcmpBody env 1#32
  | 0x97 => dcmpBody env (BitVec.allOnes 32)
  | 0x98 => dcmpBody env 1#32
  | 0x99 => ifBody env fun a => a == 0#32
  | 0x9a => ifBody env fun a => a != 0#32
  | 0x9b => ifBody env fun a => a.slt 0#32
  | 0x9c => ifBody env fun a => (0#32).sle a
  | 0x9d => ifBody env fun a => (0#32).slt a
  | 0x9e => ifBody env fun a => a.sle 0#32
  | 0x9f => ificmpBody env fun a b => a == b
  | 0xa0 => ificmpBody env fun a b => a != b
  | 0xa1 => ificmpBody env fun a b => a.slt b
  | 0xa2 => ificmpBody env fun a b => b.sle a
  | 0xa3 => ificmpBody env fun a b => b.slt a
  | 0xa4 => ificmpBody env fun a b => a.sle b
  | 0xa5 => ifacmpBody env fun a b => a == b
  | 0xa6 => ifacmpBody env fun a b => a != b
  | 0xa7 => gotoBody env
  | 0xa8 => jsrBody env
  | 0xa9 => retBody env
  | 0xaa => tableswitchBody env
  | 0xab => lookupswitchBody env
  | 0xac => ireturnBody env base
  | 0xad => lreturnBody env base
  | 0xae => ireturnBody env base
  | 0xaf => lreturnBody env base
  | 0xb0 => areturnBody env base
  | 0xb1 => returnWith env base []
  | 0xb2 => getstaticBody env
  | 0xb3 => putstaticBody env
  | 0xb4 => getfieldBody env
  | 0xb5 => putfieldBody env
  | 0xb6 => invokeInstance env 0 fun _ m c => env.findVirtual m c
  | 0xb7 => invokeInstance env 0 fun caller m _ => env.specialTarget caller m
  | 0xb8 => invokestaticBody env
  | 0xb9 => invokeInstance env 2 fun _ m c => env.findInterface m c
  | 0xba => invokedynamicBody env
  | 0xbb => newBody env
  | 0xbc => newarrayBody env
  | 0xbd => anewarrayBody env
  | 0xbe => arraylengthBody env
  | 0xbf => athrowBody env
  | 0xc0 => checkcastBody env
  | 0xc1 => instanceofBody env
  | 0xc2 => monitorBody env .acquire
  | 0xc3 => monitorBody env .release
  | 0xc4 => wideBody env
  | 0xc6 => ifnullBody env fun a => a == 0#64
  | 0xc7 => ifnullBody env fun a => a != 0#64
  | 0xc8 => gotoWBody env
  | 0xc9 => jsrWBody env
  | _ => fail

/-- One turn of the loop of `interpret3` (src/interpret.cpp:783-3015): fetch, execute and, when
the instruction raises, unwind to a handler.  `ok` means that the loop continues, `done` that
`interpret3` returns normally, `throw` that it returns with the exception pending. -/
def step (env : Env) (base : Int) : M Unit := fun s =>
  match (do let op ← fetch8 env; dispatch env base op.toNat : M Unit) s with
  | .throw s => throwLabel env base s
  | r => r

end Avian.Interp
