import Verif.Text.Descriptor

/-
Calls of native functions by Java methods and of Java methods by native code (src/compile.cpp, src/avian/x86.h, src/x86_64.S), on x86-64 with the calling
convention of System V.

Memory is a map from byte addresses to words of 64 bits (little endian; all addresses used are multiples of 8).  Which parameters a method has is a list of
their field codes, as the iteration over the descriptor gives it (`Descriptor.parameterStarts`, `Descriptor.fieldCode`; C23).
-/
namespace Avian.NativeCall

open Descriptor (FieldCode)

abbrev Word := BitVec 64
abbrev Mem := Nat → Word

/-- src/avian/types.h:14-21. -/
inductive Ty where
  | void | int8 | int16 | int32 | int64 | float | double | pointer
  deriving DecidableEq

/-- src/machine.cpp:4688-4713 `fieldType`. -/
def fieldType : FieldCode → Ty
  | .void => .void
  | .byte => .int8
  | .boolean => .int8
  | .char => .int16
  | .short => .int16
  | .double => .double
  | .float => .float
  | .int => .int32
  | .long => .int64
  | .object => .pointer

/-- src/compile.cpp:7620-7650: the loop over the parameters, with `sp` at the next one; `none` is the abort. -/
def marshal (mem : Mem) : Nat → List FieldCode → Option (List (Word × Ty))
  | _, [] => some []
  | sp, c :: codes =>
    match fieldType c with
    | .int8 => (marshal mem (sp + 8) codes).map ((mem sp, .int8) :: ·)
    | .int16 => (marshal mem (sp + 8) codes).map ((mem sp, .int16) :: ·)
    | .int32 => (marshal mem (sp + 8) codes).map ((mem sp, .int32) :: ·)
    | .float => (marshal mem (sp + 8) codes).map ((mem sp, .float) :: ·)
    | .int64 => (marshal mem (sp + 16) codes).map ((mem sp, .int64) :: ·)
    | .double => (marshal mem (sp + 16) codes).map ((mem sp, .double) :: ·)
    | .pointer => (marshal mem (sp + 8) codes).map ((if mem sp ≠ 0 then BitVec.ofNat 64 sp else 0, .pointer) :: ·)
    | .void => none

/-- src/compile.cpp:7586-7650 `invokeNativeSlow`: all arguments; `cell` is the address of the local variable with the class. -/
def arguments (mem : Mem) (thread : Word) (static_ : Bool) (cell sp : Nat) (codes : List FieldCode) : Option (List (Word × Ty)) :=
  if static_ then (marshal mem sp codes).map fun r => (thread, .pointer) :: (BitVec.ofNat 64 cell, .pointer) :: r
  else (marshal mem (sp + 8) codes).map fun r => (thread, .pointer) :: (BitVec.ofNat 64 sp, .pointer) :: r

/-- The tables of `dynamicCall` (x86.h:177-186). -/
structure Tables where
  gpr : List Word
  sse : List Word
  stack : List Word
  deriving DecidableEq

/-- src/avian/x86.h:188-207: one argument. -/
def place (t : Tables) (a : Word × Ty) : Tables :=
  match a.2 with
  | .float => if t.sse.length < 8 then { t with sse := t.sse ++ [a.1] } else { t with stack := t.stack ++ [a.1] }
  | .double => if t.sse.length < 8 then { t with sse := t.sse ++ [a.1] } else { t with stack := t.stack ++ [a.1] }
  | _ => if t.gpr.length < 6 then { t with gpr := t.gpr ++ [a.1] } else { t with stack := t.stack ++ [a.1] }

/-- src/avian/x86.h:177-207. -/
def distribute (args : List (Word × Ty)) : Tables := args.foldl place ⟨[], [], []⟩

/-- What a called function finds: the registers rdi, rsi, rdx, rcx, r8, r9; xmm0 to xmm7; the stack pointer in front of the call; memory. -/
structure Cpu where
  gpr : List Word
  sse : List Word
  rsp : Nat
  mem : Mem

/-- src/x86_64.S:216-230: the loop that copies; `rcx` is the counter. -/
def copyLoop (src rsp size : Nat) : Nat → Nat → Mem → Mem
  | 0, _, mem => mem
  | fuel + 1, rcx, mem =>
    if rcx < size then copyLoop src rsp size fuel (rcx + 8) (fun a => if a = rsp + rcx then mem (src + rcx) else mem a) else mem

/-- src/x86_64.S:192-262 `vmNativeCall` up to the call: `rbp` is the frame pointer, below which six registers are saved; `src` is where the array `stack`
lies; `junk` is what lies behind the filled part of the tables; `regs` are the registers before. -/
def vmNativeCall (mem : Mem) (rbp src : Nat) (t : Tables) (junk : List Word × List Word) (regs : List Word × List Word) : Cpu :=
  let size := t.stack.length * 8
  let rsp := (rbp - 48 - size) / 16 * 16
  { gpr := if t.gpr.length = 0 then regs.1 else (t.gpr ++ junk.1).take 6
    sse := if t.sse.length = 0 then regs.2 else (t.sse ++ junk.2).take 8
    rsp := rsp
    mem := copyLoop src rsp size (t.stack.length + 1) 0 mem }

/-- src/x86_64.S:264-288: which register has the result. -/
def returned (ty : Ty) (rax xmm0 : Word) : Word :=
  match ty with
  | .float => xmm0
  | .double => xmm0
  | _ => rax

/-- src/compile.cpp:7705-7740: what becomes of the result. -/
def convert (mem : Mem) (c : FieldCode) (result : Word) : Word :=
  match c with
  | .byte => (result.setWidth 8).signExtend 64
  | .boolean => (result.setWidth 8).signExtend 64
  | .char => (result.setWidth 16).setWidth 64
  | .short => (result.setWidth 16).signExtend 64
  | .float => (result.setWidth 32).signExtend 64
  | .int => (result.setWidth 32).signExtend 64
  | .long => result
  | .double => result
  | .object => if result ≠ 0 then mem result.toNat else 0
  | .void => 0

/-- src/compile.cpp:8315-8330, 8448-8480: `ArgumentList`: the words and the mask up to `position`.  `junk` is what is in the array in the beginning. -/
structure ArgList where
  array : List Word
  mask : List Bool
  deriving DecidableEq

/-- src/compile.cpp:8450-8457 `addObject`. -/
def ArgList.addObject (l : ArgList) (v : Word) : ArgList := ⟨l.array ++ [v], l.mask ++ [true]⟩

/-- src/compile.cpp:8459-8466 `addInt`. -/
def ArgList.addInt (l : ArgList) (v : Word) : ArgList := ⟨l.array ++ [v], l.mask ++ [false]⟩

/-- src/compile.cpp:8468-8478 `addLong`: the second word stays as it is. -/
def ArgList.addLong (l : ArgList) (junk : Word) (v : Word) : ArgList := ⟨l.array ++ [v, junk], l.mask ++ [false, false]⟩

/-- src/compile.cpp:8334-8336. -/
def ArgList.start (this_ : Word) : ArgList := if this_ ≠ 0 then ArgList.addObject ⟨[], []⟩ this_ else ⟨[], []⟩

/-- `*v` where `v` is a reference given to native code, and 0 for null (src/compile.cpp:8343-8344, 8391-8392). -/
def follow (mem : Mem) (v : Word) : Word := if v ≠ 0 then mem v.toNat else 0

/-- What `va_arg` gives, one after the other. -/
inductive VArg where
  | ptr (v : Word)
  | int (v : BitVec 32)
  | long (v : Word)
  /-- The bits of a `float`, passed as a `double` and converted back without loss. -/
  | float (v : BitVec 32)
  | double (v : Word)
  deriving DecidableEq

/-- src/compile.cpp:8338-8366: the loop with a `va_list`; `none` is a `va_arg` of another type than that of the argument. -/
def vaLoop (mem : Mem) (indirect : Bool) (junk : Word) : List FieldCode → List VArg → ArgList → Option ArgList
  | [], _, l => some l
  | .object :: codes, .ptr v :: args, l => vaLoop mem indirect junk codes args (l.addObject (if indirect then follow mem v else v))
  | .long :: codes, .long v :: args, l => vaLoop mem indirect junk codes args (l.addLong junk v)
  | .double :: codes, .double v :: args, l => vaLoop mem indirect junk codes args (l.addLong junk v)
  | .float :: codes, .float v :: args, l => vaLoop mem indirect junk codes args (l.addInt (v.setWidth 64))
  | .int :: codes, .int v :: args, l => vaLoop mem indirect junk codes args (l.addInt (v.setWidth 64))
  | .short :: codes, .int v :: args, l => vaLoop mem indirect junk codes args (l.addInt (v.setWidth 64))
  | .char :: codes, .int v :: args, l => vaLoop mem indirect junk codes args (l.addInt (v.setWidth 64))
  | .byte :: codes, .int v :: args, l => vaLoop mem indirect junk codes args (l.addInt (v.setWidth 64))
  | .boolean :: codes, .int v :: args, l => vaLoop mem indirect junk codes args (l.addInt (v.setWidth 64))
  | _, _, _ => none

/-- src/compile.cpp:8386-8412: the loop with an array of `jvalue`s (unions of 8 bytes). -/
def jvalueLoop (mem : Mem) (junk : Word) : List FieldCode → List Word → ArgList → Option ArgList
  | [], _, l => some l
  | _ :: _, [], _ => none
  | c :: codes, v :: args, l =>
    match c with
    | .object => jvalueLoop mem junk codes args (l.addObject (follow mem v))
    | .long => jvalueLoop mem junk codes args (l.addLong junk v)
    | .double => jvalueLoop mem junk codes args (l.addLong junk v)
    | .float => jvalueLoop mem junk codes args (l.addInt ((v.setWidth 32).setWidth 64))
    | _ => jvalueLoop mem junk codes args (l.addInt ((v.setWidth 32).signExtend 64))

/-- src/compile.cpp:8431-8450: the loop with an array of objects, of which primitive ones are boxed: what lies behind the header word is read. -/
def boxedLoop (mem : Mem) (junk : Word) : List FieldCode → List Word → ArgList → Option ArgList
  | [], _, l => some l
  | _ :: _, [], _ => none
  | c :: codes, v :: args, l =>
    match c with
    | .object => boxedLoop mem junk codes args (l.addObject v)
    | .long => boxedLoop mem junk codes args (l.addLong junk (mem (v.toNat + 8)))
    | .double => boxedLoop mem junk codes args (l.addLong junk (mem (v.toNat + 8)))
    | _ => boxedLoop mem junk codes args (l.addInt (((mem (v.toNat + 8)).setWidth 32).signExtend 64))

end Avian.NativeCall
