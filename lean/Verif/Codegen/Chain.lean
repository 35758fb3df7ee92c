import Verif.Lib.Outcome

/-
The order in which the code of a method is laid out (src/codegen/compiler.cpp): events are compiled in the order in which they were
appended, in blocks, which are chained so that the code comes in the order of the instructions.

An event is given by its instruction, whose index is counted from 1 here (0 is the entry, -1 in the source).  The instructions that there
are (`logicalCode`) are those with events: each gets at least a dummy (2123, 2157, 2305, 2347).
-/
namespace Avian.Chain

/-- src/codegen/compiler/ir.cpp:30-38 `LogicalInstruction::next`; `count` is the size of `logicalCode`. -/
def next (count : Nat) (es : List Nat) (i : Nat) : Option Nat := (List.range' (i + 1) (count - (i + 1))).find? (es.contains ·)

def upd {α : Type} (f : Nat → α) (n : Nat) (x : α) : Nat → α := fun m => if m = n then x else f m

/-- What `compile` changes: `block` (the number of the current one), the blocks of the events so far (`Event::block`), and what is in the
blocks (src/codegen/compiler/ir.h:67-76). -/
structure St where
  block : Nat
  blockOf : List Nat
  nextBlock : Nat → Option Nat
  nextInstruction : Nat → Option Nat

/-- compiler.cpp:1974-1975 -/
def start : St := ⟨0, [], fun _ => none, fun _ => none⟩

/-- compiler.cpp:2073-2075: the block ends behind an event of `i`; `rest` are the events behind it. -/
def ends (count : Nat) (es : List Nat) (i : Nat) (rest : List Nat) : Bool :=
  match rest with
  | [] => true
  | j :: _ => j != i && (next count es i != some j || rest.contains i)

/-- compiler.cpp:2079-2081: the loop; the first argument limits the number of steps. -/
def lastBlock (nextBlock : Nat → Option Nat) : Nat → Nat → Nat
  | 0, b => b
  | f + 1, b =>
    match nextBlock b with
    | none => b
    | some b' => lastBlock nextBlock f b'

/-- compiler.cpp:2076-2093: the end of a block behind an event of `i`; `pre` are the events up to it. -/
def close (count : Nat) (es pre : List Nat) (i : Nat) (more : Bool) (s : St) : St :=
  let b := lastBlock s.nextBlock (es.length + 1) (s.blockOf.getD (pre.idxOf i) 0)
  { s with
    nextBlock := if b ≠ s.block then upd s.nextBlock b (some s.block) else s.nextBlock
    nextInstruction := upd s.nextInstruction s.block (next count es i)
    block := if more then s.block + 1 else s.block }

/-- compiler.cpp:1983-2095: one event. -/
def step (count : Nat) (es pre : List Nat) (i : Nat) (rest : List Nat) (s : St) : St :=
  let s := { s with blockOf := s.blockOf ++ [s.block] }
  if ends count es i rest then close count es (pre ++ [i]) i (!rest.isEmpty) s else s

/-- compiler.cpp:1983-2095: the loop. -/
def loop (count : Nat) (es : List Nat) : List Nat → List Nat → St → St
  | _, [], s => s
  | pre, i :: rest, s => loop count es (pre ++ [i]) rest (step count es pre i rest s)

/-- compiler.cpp:1964-2098 `compile`. -/
def compile (count : Nat) (es : List Nat) : St := loop count es [] es start

/-- compiler.cpp:2890-2892: the block behind a block. -/
def following (es : List Nat) (s : St) (b : Nat) : Option Nat :=
  match s.nextBlock b with
  | some b' => some b'
  | none =>
    match s.nextInstruction b with
    | none => none
    | some i => some (s.blockOf.getD (es.idxOf i) 0)

/-- compiler.cpp:2883-2902 `resolve`: the blocks in the order in which they are laid out.  The first argument limits the number of blocks. -/
def chain (es : List Nat) (s : St) : Nat → Nat → List Nat
  | 0, _ => []
  | f + 1, b =>
    b :: match following es s b with
      | none => []
      | some b' => chain es s f b'

/-- The events of a block, by their numbers. -/
def eventsOf (s : St) (b : Nat) : List Nat := (List.range s.blockOf.length).filter fun p => s.blockOf.getD p 0 == b

/-- The events in the order in which their code is laid out. -/
def layout (count : Nat) (es : List Nat) : List Nat :=
  (chain es (compile count es) (es.length + 1) 0).flatMap (eventsOf (compile count es))

end Avian.Chain
