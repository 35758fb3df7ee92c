import Verif.Codegen.X86

/-
Where compiled code goes: blocks, which are placed in an order of their own, padding in front of calls whose target may be changed,
and the distances of jumps.
-/
namespace Avian.X86.Layout

open Cpu (Byte)

/-- src/codegen/target/x86/padding.h:20-35 `AlignmentPadding`; `cache` is `padding`, `none` is -1. -/
structure Pad where
  offset : Nat
  instr : Nat
  align : Nat
  cache : Option Nat
deriving DecidableEq

/-- block.h:20-36 `MyBlock`; `next` is the order in which blocks are resolved. -/
structure Blk where
  offset : Nat
  bytes : Nat
  pads : List Pad
  start : Option Nat
deriving DecidableEq

/-- fixup.h `OffsetPromise`: the block, the place in the code, and the last padding there was: its number plus one, zero for none. -/
structure Mark where
  block : Nat
  offset : Nat
  limit : Nat
deriving DecidableEq

/-- The target of a jump: an address, or a place in the code (a `CodePromise`), which was or will be marked. -/
inductive Target where
  | addr (a : BitVec 64)
  | label (k : Nat)
deriving DecidableEq

/-- fixup.h `OffsetTask`. -/
structure Task where
  target : Target
  instr : Mark
  length : Nat
deriving DecidableEq

/-- What the compiler asks for: instructions, a call or jump (encode.cpp `unconditional` and `conditional`), alignment for the
next one (operations.cpp:144-178), and `offset()`. -/
inductive Item where
  | bytes (l : List Byte)
  | jump (op : List Byte) (t : Target)
  | align (instr al : Nat)
  | mark
deriving DecidableEq

/-- context.h `Context`; `blocks` are those that have ended. -/
structure Asm where
  code : List Byte
  blocks : List Blk
  last : Blk
  marks : List Mark
  tasks : List Task

/-- context.cpp:18-31: one block, that is empty. -/
def Asm.new : Asm := ⟨[], [], ⟨0, 0, [], none⟩, [], []⟩

/-- fixup.cpp:62-66 `offsetPromise`. -/
def Asm.offset (s : Asm) : Mark := ⟨s.blocks.length, s.code.length, s.last.pads.length⟩

/-- encode.cpp:162-176 `unconditional` and `conditional`; operations.cpp:144-178 the aligned ones; padding.cpp:20-35;
assembler.cpp:1211-1214. -/
def Asm.step (s : Asm) : Item → Asm
  | .bytes l => { s with code := s.code ++ l }
  | .jump op t => { s with code := s.code ++ (op ++ [0#8, 0#8, 0#8, 0#8]), tasks := ⟨t, s.offset, op.length + 4⟩ :: s.tasks }
  | .align instr al => { s with last := { s.last with pads := s.last.pads ++ [⟨s.code.length, instr, al, none⟩] } }
  | .mark => { s with marks := s.marks ++ [s.offset] }

/-- assembler.cpp:1216-1226 `endBlock`; behind the last block there is none, here it is one that is not used. -/
def Asm.endBlock (s : Asm) : Asm :=
  { s with
    blocks := s.blocks ++ [{ s.last with bytes := s.code.length - s.last.offset }]
    last := ⟨s.code.length, 0, [], none⟩ }

/-- src/codegen/compiler.cpp:1964-2085 `compile`, as far as the assembler is concerned: the blocks, in the order in which they are
compiled. -/
def Asm.compile (s : Asm) : List (List Item) → Asm
  | [] => s
  | b :: bs => Asm.compile (b.foldl Asm.step s).endBlock bs

/-- The loop `while ((n + padding) % alignment) ++padding` (padding.cpp:48-51, assembler.cpp:1187-1191), `fuel` times at most; it
ends after less than `alignment` rounds. -/
def bump (al n : Nat) : Nat → Nat
  | 0 => 0
  | f + 1 => if n % al = 0 then 0 else 1 + bump al (n + 1) f

/-- padding.cpp:44-62, the loop; `i` counts the paddings, `limit` is the number of the last one plus one. -/
def padLoop (start offset limit : Nat) : List Pad → Nat → Nat → Nat × List Pad
  | [], _, padding => (padding, [])
  | p :: ps, i, padding =>
    match p.cache with
    | none =>
      let padding' := padding + bump p.align (start + (p.offset - offset) + padding + p.instr) p.align
      if i + 1 = limit then (padding', { p with cache := some padding' } :: ps)
      else
        let r := padLoop start offset limit ps (i + 1) padding'
        (r.1, { p with cache := some padding' } :: r.2)
    | some c =>
      let r := padLoop start offset limit ps (i + 1) c
      (r.1, p :: r.2)

/-- padding.cpp:37-67 `padding`. -/
def padding (pads : List Pad) (start offset limit : Nat) : Nat × List Pad :=
  if limit = 0 then (0, pads)
  else
    match (pads[limit - 1]?).bind Pad.cache with
    | some c => (c, pads)
    | none => padLoop start offset limit pads 0 0

/-- block.cpp:35-41 `MyBlock::resolve`. -/
def Blk.resolve (b : Blk) (start : Nat) : Nat × Blk :=
  let r := padding b.pads start b.offset b.pads.length
  (start + b.bytes + r.1, { b with start := some start, pads := r.2 })

/-- src/codegen/compiler.cpp:2883-2902 `resolve`, with the order that the chain of blocks has. -/
def resolveAll (blocks : List Blk) (start : Nat) : List Nat → Nat × List Blk
  | [] => (start, blocks)
  | j :: order =>
    match blocks[j]? with
    | none => (start, blocks)
    | some b =>
      let r := b.resolve start
      resolveAll (blocks.set j r.2) r.1 order

/-- fixup.cpp:45-61 `OffsetPromise::value`; `none`: an assertion fails. -/
def value (blocks : List Blk) (m : Mark) : Option (Nat × List Blk) :=
  match blocks[m.block]? with
  | none => none
  | some b =>
    match b.start with
    | none => none
    | some start =>
      let r := padding b.pads start b.offset m.limit
      some (start + (m.offset - b.offset) + r.1, blocks.set m.block { b with pads := r.2 })

/-- The memory behind the destination. -/
abbrev Mem := Nat → Byte

def memcpy (m : Mem) (at' : Nat) (l : List Byte) : Mem := fun x =>
  if h : at' ≤ x ∧ x - at' < l.length then l[x - at']'h.2 else m x

/-- assembler.cpp:1178-1202, in `write`: one block. -/
def writePads (code : List Byte) (b : Blk) (start : Nat) : List Pad → Nat → Nat → Mem → Mem
  | [], index, padding, m => memcpy m (start + index + padding) ((code.drop (b.offset + index)).take (b.bytes - index))
  | p :: ps, index, padding, m =>
    let size := p.offset - b.offset - index
    let m := memcpy m (start + index + padding) ((code.drop (b.offset + index)).take size)
    let index := index + size
    let k := bump p.align (start + index + padding + p.instr) p.align
    writePads code b start ps index (padding + k) (memcpy m (start + index + padding) (List.replicate k 0x90#8))

/-- assembler.cpp:1173-1203, in `write`: the blocks, in order. -/
def writeBlocks (code : List Byte) (blocks : List Blk) : List Nat → Mem → Mem
  | [], m => m
  | j :: order, m =>
    match blocks[j]? with
    | none => m
    | some b => writeBlocks code blocks order (writePads code b (b.start.getD 0) b.pads 0 0 m)

/-- compiler/promise.cpp `CodePromise::value`: the value of a label is an address in the code; `none`: an assertion fails. -/
def Target.value (dst : BitVec 64) (marks : List Mark) (blocks : List Blk) : Target → Option (BitVec 64 × List Blk)
  | .addr a => some (a, blocks)
  | .label k =>
    match marks[k]? with
    | none => none
    | some m => (Layout.value blocks m).map fun r => (dst + BitVec.ofNat 64 r.1, r.2)

/-- fixup.cpp:68-82 `resolveOffset`, 112-124 `OffsetTask::run`; `none`: a check fails. -/
def Task.perform (dst : BitVec 64) (marks : List Mark) (t : Task) (s : List Blk × Mem) : Option (List Blk × Mem) :=
  match Layout.value s.1 t.instr with
  | none => none
  | some (at', blocks) =>
    match t.target.value dst marks blocks with
    | none => none
    | some (target, blocks) =>
      let v := target - (dst + BitVec.ofNat 64 at') - BitVec.ofNat 64 t.length
      if fitsInInt32 v then some (blocks, memcpy s.2 (at' + t.length - 4) (append4 v)) else none

/-- assembler.cpp:1204-1206, in `write`: the tasks. -/
def performAll (dst : BitVec 64) (marks : List Mark) : List Task → List Blk × Mem → Option (List Blk × Mem)
  | [], s => some s
  | t :: ts, s =>
    match t.perform dst marks s with
    | none => none
    | some s => performAll dst marks ts s

/-- The code of a program: `compile`, `resolve` and `write`, src/codegen/compiler.cpp:2877-2909.  The result is the size of the code, the
blocks and the memory. -/
def assemble (program : List (List Item)) (order : List Nat) (dst : BitVec 64) (m : Mem) : Option (Nat × List Blk × Mem) :=
  let s := Asm.new.compile program
  let r := resolveAll s.blocks 0 order
  (performAll dst s.marks s.tasks (r.2, writeBlocks s.code r.2 order m)).map fun q => (r.1, q)

end Avian.X86.Layout
