import Verif.Codegen.Frame

/-
Going from the frame of a compiled method to that of its caller.
-/
namespace Avian.X86

open Cpu (Byte Width)

/-- src/codegen/target/x86/assembler.cpp:60-63 `argumentFootprint`, in words. -/
def argumentFootprint (footprint : Nat) : Nat := max ((footprint + 1) / 2 * 2) 2

/-- assembler.cpp:997-1007 `adjustFrame`: behind a call that has popped its arguments (src/codegen/compiler/event.cpp:637-652). -/
def adjustFrame (difference : Nat) (tmp : Register) : List Byte := subtractCR .q (BitVec.ofNat 64 (difference * 8)) rsp tmp

/-- assembler.cpp:65-70 `read4`; behind the code there are zeros here. -/
def read4 (code : List Byte) (i : Nat) : Nat :=
  (code.getD (i + 3) 0 ++ (code.getD (i + 2) 0 ++ (code.getD (i + 1) 0 ++ code.getD i 0 : BitVec 16) : BitVec 24) : BitVec 32).toNat

/-- assembler.cpp:92-95: where the code starts behind the check for stack overflow. -/
def skipCheck (code : List Byte) : Nat := if code.getD 0 0 = 0x48#8 ∧ code.getD 1 0 = 0x39#8 then 13 else 0

/-- assembler.cpp:129-142: the words that the instruction at `k` subtracts from the stack pointer. -/
def adjustment (code : List Byte) (k : Nat) : Nat :=
  if code.getD k 0 = 0x48#8 ∧ (code.getD (k + 1) 0 = 0x83#8 ∨ code.getD (k + 1) 0 = 0x81#8) ∧ code.getD (k + 2) 0 = 0xec#8 then
    (if code.getD (k + 1) 0 = 0x83#8 then (code.getD (k + 3) 0).toNat else read4 code (k + 3)) / 8
  else 0

/-- assembler.cpp:120-146: the distance to the return address, in words; `target` is the parameter footprint, `none` for -1. -/
def frameOffset (fp tails : Bool) (code : List Byte) (footprint : Nat) (mostRecent : Bool) (target : Option Nat) (k : Nat) : Int :=
  (footprint + frameHeaderSize fp : Int) - (if mostRecent then 1 else 0) +
    (match tails, target with
    | true, some p => (argumentFootprint p - 2 : Int) - adjustment code k
    | _, _ => 0)

/-- assembler.cpp:72-160 `nextFrame`; `code` is the code of the method, `k` the distance of the instruction from its start.  The result is
the new instruction and the new stack; `none`: an assertion fails. -/
def nextFrame (fp tails : Bool) (mem : BitVec 64 → Byte) (code : List Byte) (footprint : Nat) (mostRecent : Bool) (target : Option Nat) (k : Nat)
    (stack : BitVec 64) : Option (BitVec 64 × BitVec 64) :=
  let start := skipCheck code
  if code.length < k then none
  else if k ≤ start then if mostRecent then some (Cpu.readMem mem stack .q, stack) else none
  else if fp = true ∧ (k ≤ start + 4 ∨ code.getD k 0 = 0x5d#8) then
    if mostRecent then some (Cpu.readMem mem (stack + 8) .q, stack + 8) else none
  else if code.getD k 0 = 0xc3#8 then some (Cpu.readMem mem stack .q, stack)
  else
    let next := stack + (BitVec.ofInt 32 (frameOffset fp tails code footprint mostRecent target k)).setWidth 64 * 8
    if fp = true ∧ mostRecent = false ∧
        (Cpu.readMem mem (stack - 8) .q + 8 ≠ next ∨ Cpu.readMem mem (Cpu.readMem mem (stack - 8) .q + 8) .q ≠ Cpu.readMem mem next .q) then none
    else some (Cpu.readMem mem next .q, next)

/-- What the VM knows of a compiled method: the code and where it starts, the size of the frame (src/compile.cpp:431-437
`alignedFrameSize`) and the footprint of the parameters. -/
structure Compiled where
  start : BitVec 64
  code : List Byte
  footprint : Nat
  parameters : Nat
deriving DecidableEq

/-- src/compile.cpp:562-650, in `MyStackWalker`: the methods with their instructions, until there is no method for an instruction, and
that instruction with its stack.  No native methods or continuations.  `none`: an assertion fails, or the steps are used up. -/
def walk (fp tails : Bool) (mem : BitVec 64 → Byte) (methodForIp : BitVec 64 → Option Compiled) :
    Nat → Bool → Option Nat → BitVec 64 → BitVec 64 → Option (List (Compiled × BitVec 64) × BitVec 64 × BitVec 64)
  | 0, _, _, _, _ => none
  | f + 1, mostRecent, target, ip, stack =>
    match methodForIp ip with
    | none => some ([], ip, stack)
    | some m =>
      match nextFrame fp tails mem m.code m.footprint mostRecent target (ip - m.start).toNat stack with
      | none => none
      | some (ip', stack') =>
        (walk fp tails mem methodForIp f false (some m.parameters) ip' stack').map fun r => ((m, ip) :: r.1, r.2)

end Avian.X86
