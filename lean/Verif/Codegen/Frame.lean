import Verif.Codegen.X86

/-
Frames of compiled methods, and changing the target of a call that is already there.
-/
namespace Avian.X86

open Cpu (Byte Width)

/-- src/codegen/target/x86/registers.h:21: the register with the current thread. -/
def rbx : Register := 3#5

/-- src/codegen/target/x86/assembler.cpp:54 `FrameHeaderSize`, in words; `fp` is `UseFramePointer`. -/
def frameHeaderSize (fp : Bool) : Nat := if fp then 2 else 1

/-- assembler.cpp:418-422 `alignFrameSize`, with `pad` (src/avian/common.h) for two words. -/
def alignFrameSize (fp : Bool) (sizeInWords : Nat) : Nat :=
  (sizeInWords + frameHeaderSize fp + 1) / 2 * 2 - frameHeaderSize fp

/-- assembler.cpp:975-995 `allocateFrame`; `tmp` is a temporary register, which no frame below 2 GB needs. -/
def allocateFrame (fp : Bool) (footprint : Nat) (tmp : Register) : List Byte :=
  (if fp then pushR rbp ++ moveRR .q rsp .q rbp else []) ++ subtractCR .q (BitVec.ofNat 64 (footprint * 8)) rsp tmp

/-- assembler.cpp:1009-1028 `popFrame`. -/
def popFrame (fp : Bool) (footprint : Nat) (tmp : Register) : List Byte :=
  if fp then moveRR .q rbp .q rsp ++ popR .q rbp else addCR .q (BitVec.ofNat 64 (footprint * 8)) rsp tmp

/-- assembler.cpp:1094-1116 `popFrameAndPopArgumentsAndReturn`; `tails` is `TailCalls`, the stack is aligned to two words. -/
def popFrameAndPopArgumentsAndReturn (fp tails : Bool) (frameFootprint argumentFootprint : Nat) (tmp : Register) : List Byte :=
  popFrame fp frameFootprint tmp ++
    (if tails && decide (2 < argumentFootprint) then
      popR .q rcx ++ addCR .q (BitVec.ofNat 64 ((argumentFootprint - 2) * 8)) rsp tmp ++ jumpR rcx
    else return_)

/-- assembler.cpp:1118-1132 `popFrameAndUpdateStackAndReturn`. -/
def popFrameAndUpdateStackAndReturn (fp : Bool) (frameFootprint : Nat) (stackOffsetFromThread : BitVec 32) (tmp : Register) : List Byte :=
  popFrame fp frameFootprint tmp ++ popR .q rcx ++ moveMR .q ⟨rbx, stackOffsetFromThread, none, 1⟩ .q rsp ++ jumpR rcx

/-- assembler.cpp:1069-1083, in `popFrameForTailCall`: a register to be stored in the stack, unless it is `NoRegister`. -/
def surrogate (r : Option Register) (offset : Int) : List Byte :=
  match r with
  | some r => moveRM .q r ⟨rsp, BitVec.ofInt 32 (offset * 8), none, 1⟩
  | none => []

/-- assembler.cpp:1030-1092 `popFrameForTailCall` (of a build with `TailCalls`; others abort); `none`: an assertion fails.  The unsigned
32 bit arithmetic of the offsets is that of integers, for frames below 2 GB that are larger than `offset`. -/
def popFrameForTailCall (fp : Bool) (frameFootprint : Nat) (offset : Int) (returnAddressSurrogate framePointerSurrogate : Option Register)
    (tmp : Register) : Option (List Byte) :=
  if offset = 0 then some (popFrame fp frameFootprint tmp)
  else if (returnAddressSurrogate.isSome || framePointerSurrogate.isSome) && decide (offset ≤ 0) then none
  else
    let baseSize := if fp then 1 else 0
    some (moveMR .q ⟨rsp, BitVec.ofNat 32 ((frameFootprint + baseSize) * 8), none, 1⟩ .q tmp ++
      moveRM .q tmp ⟨rsp, BitVec.ofInt 32 ((frameFootprint - offset + baseSize) * 8), none, 1⟩ ++
      (if fp then moveMR .q ⟨rsp, BitVec.ofNat 32 (frameFootprint * 8), none, 1⟩ .q rbp else []) ++
      addCR .q ((BitVec.ofInt 32 ((frameFootprint - offset + baseSize) * 8)).setWidth 64) rsp tmp ++
      surrogate returnAddressSurrogate offset ++ surrogate framePointerSurrogate (offset - 1))

/-- assembler.cpp:900-912 `checkStackOverflow`. -/
def checkStackOverflow (handler : BitVec 64) (stackLimitOffsetFromThread : BitVec 32) : Asm :=
  branchRM .greaterOrEqual .q rsp ⟨rbx, stackLimitOffsetFromThread, none, 1⟩ handler

/-- assembler.cpp:334-342 `matchCall`: `code` is what is in front of the return address. -/
def matchCall (code : List Byte) (returnAddress target : BitVec 64) : Bool :=
  match code.drop (code.length - 5) with
  | [op, a, b, c, d] =>
    op == 0xe8#8 &&
      returnAddress + (d ++ (c ++ (b ++ a : BitVec 16) : BitVec 24) : BitVec 32).signExtend 64 == target
  | _ => false

/-- include/avian/codegen/lir.h: the calls and jumps whose target can be changed. -/
inductive Patchable where
  | call | jump | longCall | longJump
deriving DecidableEq

/-- assembler.cpp:344-410 `updateCall`, in the code in front of the return address; `none`: an assertion fails. -/
def updateCall (op : Patchable) (code : List Byte) (returnAddress newTarget : BitVec 64) : Option (List Byte) :=
  if op = .call ∨ op = .jump then
    let start := code.length - 5
    let v := newTarget - returnAddress
    if code.length < 5 ∨ code[start]? ≠ some (if op = .call then 0xe8#8 else 0xe9#8) ∨ fitsInInt32 v = false then none
    else some (code.take (start + 1) ++ append4 v)
  else
    let start := code.length - 13
    if code.length < 13 ∨ code[start]? ≠ some 0x49#8 ∨ code[start + 1]? ≠ some 0xba#8 ∨ code[start + 10]? ≠ some 0x41#8 ∨
        code[start + 11]? ≠ some 0xff#8 ∨ code[start + 12]? ≠ some (if op = .longCall then 0xd2#8 else 0xe2#8) then none
    else some (code.take (start + 2) ++ append8 newTarget ++ code.drop (start + 10))

end Avian.X86
