import Verif.Lib.Outcome

/-
Which slots of the frame of a compiled method hold references, at every call (src/compile.cpp): the analysis of the log of events that
the compiler leaves, and the table that the collector reads.

A set of slots (`mapSize` words of bits) is a `BitVec w`.  The log is a list of events, not of bytes.
-/
namespace Avian.FrameMap

variable {w : Nat}

/-- compile.cpp:859-867 `Event`, with operands.  A trace is given by a number instead of its address, and the
instruction it belongs to. -/
inductive Event where
  | push
  | pop
  | ip (n : Nat)
  | mark (i : Nat)
  | clear (i : Nat)
  | handler (start stop : Nat)
  | trace (id at_ : Nat)
deriving DecidableEq, Repr

/-- src/avian/common.h:358-362 `markBit` -/
def markBit (r : BitVec w) (i : Nat) : BitVec w := r ||| (1#w <<< i)

/-- src/avian/common.h:364-368 `clearBit` -/
def clearBit (r : BitVec w) (i : Nat) : BitVec w := r &&& ~~~(1#w <<< i)

/-- What the analysis changes: `rootTable`, the maps and the marks of the traces, `dirtyRoots`. -/
structure St (w : Nat) where
  table : Nat → BitVec w
  map : Nat → BitVec w
  watch : Nat → Bool
  dirty : Bool

/-- What it reads: `visitTable`, and the numbers and instructions of the traces there are. -/
structure Ctx where
  visits : Nat → Nat
  traces : List (Nat × Nat)

def upd {α : Type} (f : Nat → α) (n : Nat) (x : α) : Nat → α := fun m => if m = n then x else f m

/-- compile.cpp:1179-1182, 811-817: tables and maps begin with all bits set. -/
def init : St w := ⟨fun _ => BitVec.allOnes w, fun _ => BitVec.allOnes w, fun _ => false, false⟩

/-- compile.cpp:6806: is the trace in the range? -/
def within (start stop : Nat) (e : Nat × Nat) : Bool := start ≤ e.2 && e.2 < stop

/-- compile.cpp:6793-6834 `calculateTryCatchRoots`: the roots. -/
def tryCatchRoots (c : Ctx) (start stop : Nat) (s : St w) : BitVec w :=
  (c.traces.filter (within start stop)).foldl (fun r e => r &&& s.map e.1) (BitVec.allOnes w)

/-- compile.cpp:6809: and the marks. -/
def tryCatchWatch (c : Ctx) (start stop : Nat) (s : St w) : St w :=
  { s with watch := fun id => s.watch id || (c.traces.filter (within start stop)).any (·.1 == id) }

/-- compile.cpp:6898-6899: nothing comes after. -/
def isEnd : List Event → Bool
  | [] => true
  | .pop :: _ => true
  | _ => false

/-- compile.cpp:6882-6921: the roots after an instruction was reached, -/
def ipRoots (c : Ctx) (n : Nat) (r : BitVec w) (s : St w) : BitVec w := if c.visits n > 1 then s.table n &&& r else r

/-- and the table. -/
def ipState (c : Ctx) (n : Nat) (last : Bool) (r : BitVec w) (s : St w) : St w :=
  { s with
    table := upd s.table n (ipRoots c n r s)
    dirty := s.dirty || (decide (c.visits n > 1) && last && decide (ipRoots c n r s ≠ s.table n)) }

/-- compile.cpp:6950-6980: a trace. -/
def traceState (id : Nat) (r : BitVec w) (s : St w) : St w :=
  { s with map := upd s.map id r, dirty := s.dirty || (s.watch id && decide (s.map id ≠ r)) }

/-- compile.cpp:6836-6998 `calculateFrameMaps`, which gives back where it stopped.  The first argument limits the number of steps; it is never
reached if it is greater than the number of events. -/
def calculate (c : Ctx) : Nat → BitVec w → List Event → St w → St w × List Event
  | 0, _, _, s => (s, [])
  | _ + 1, _, [], s => (s, [])
  | f + 1, r, .push :: es, s =>
    let p := calculate c f r es s
    calculate c f r p.2 p.1
  | _ + 1, _, .pop :: es, s => (s, es)
  | f + 1, r, .ip n :: es, s => calculate c f (ipRoots c n r s) es (ipState c n (isEnd es) r s)
  | f + 1, r, .mark i :: es, s => calculate c f (markBit r i) es s
  | f + 1, r, .clear i :: es, s => calculate c f (clearBit r i) es s
  | f + 1, _, .handler a b :: es, s =>
    let p := calculate c f (tryCatchRoots c a b s) es (tryCatchWatch c a b s)
    calculate c f (tryCatchRoots c a b s) p.2 p.1
  | f + 1, r, .trace id _ :: es, s => calculate c f r es (traceState id r s)

/-- compile.cpp:7381, 7436, 7446: a call with no roots. -/
def pass (c : Ctx) (es : List Event) (s : St w) : St w := (calculate c (es.length + 1) 0 es s).1

/-- compile.cpp:4092 (`visitTable`) and 1960-1976 (`traceLog`): what the compiler knows when it has left these events.  There are no subroutines
(`jsr`), for which the number in the event and that in `visitTable` are different. -/
def ctxOf (es : List Event) : Ctx :=
  ⟨fun n => es.count (.ip n), es.filterMap fun
    | .trace id a => some (id, a)
    | _ => none⟩

/-- compile.cpp:7378-7442: the method is compiled and analysed, then one exception handler after the other. -/
def stages : List Event → List (List Event) → St w → St w
  | _, [], s => s
  | before, j :: js, s => stages (before ++ j) js (pass (ctxOf (before ++ j)) j s)

/-- compile.cpp:7378-7447: the states after a pass. -/
inductive Analysis (jobs : List (List Event)) : St w → Prop where
  | first : Analysis jobs (stages [] jobs init)
  | again {s : St w} : Analysis jobs s → s.dirty = true →
      Analysis jobs (pass (ctxOf jobs.flatten) jobs.flatten { s with dirty := false })

/-! ### The table -/

/-- include/avian/util/math.h:35-38 `ceilingDivide` of two `unsigned`. -/
def ceilingDivide (n d : Nat) : Nat := (n % 2 ^ 32 + d - 1) % 2 ^ 32 / d

/-- compile.cpp:3148-3152 `simpleFrameMapTableSize`; the product is a `uintptr_t` that becomes an `unsigned`. -/
def tableSize (size length : Nat) : Nat := ceilingDivide (length * size) (32 + size)

/-- A trace whose address is known (compile.cpp:794-837): the distance from the start of the code, the map and `argumentIndex`. -/
structure Element where
  offset : BitVec 32
  map : Nat → Bool
  argumentIndex : Nat

/-- compile.cpp:7030-7033 `setBit` -/
def setBit (a : List (BitVec 32)) (i : Nat) : List (BitVec 32) := a.modify (i / 32) (· ||| 1#32 <<< (i % 32))

/-- compile.cpp:7035-7038 `clearBit` -/
def unsetBit (a : List (BitVec 32)) (i : Nat) : List (BitVec 32) := a.modify (i / 32) (· &&& ~~~(1#32 <<< (i % 32)))

/-- compile.cpp:7879: the test of a bit. -/
def testBit (a : List (BitVec 32)) (i : Nat) : Bool := (a.getD (i / 32) 0).getLsbD (i % 32)

/-- compile.cpp:7040-7071 `copyFrameMap`: bits `0 … n-1`. -/
def copyMap (e : Element) (offset : Nat) : Nat → List (BitVec 32) → List (BitVec 32)
  | 0, a => a
  | n + 1, a =>
    let a := copyMap e offset n a
    if e.map n then setBit a (offset + n) else unsetBit a (offset + n)

/-- compile.cpp:7122-7138: the maps of the elements, from the element with number `i`. -/
def copyMaps (size : Nat) : Nat → List Element → List (BitVec 32) → List (BitVec 32)
  | _, [], a => a
  | i, e :: r, a => copyMaps size (i + 1) r (if size = 0 then a else copyMap e (i * size) e.argumentIndex a)

/-- compile.cpp:7107-7142 `makeSimpleFrameMapTable`. -/
def makeTable (size : Nat) (es : List Element) : List (BitVec 32) :=
  es.map (·.offset) ++ copyMaps size 0 es (List.replicate (ceilingDivide (es.length * size) 32) 0)

/-- compile.cpp:7825-7839: the search in the index. -/
def search (table : List (BitVec 32)) (offset : BitVec 32) : Nat → Nat → Nat → Option Nat
  | 0, _, _ => none
  | f + 1, bottom, top =>
    if bottom < top then
      let middle := bottom + (top - bottom) / 2
      let v := table.getD middle 0
      if offset = v then some middle
      else if offset.slt v then search table offset f bottom middle
      else search table offset f (middle + 1) top
    else none

/-- compile.cpp:7814-7843 `findFrameMapInSimpleTable`: the words with maps, and the first bit.  `none`: the VM aborts. -/
def findMap (size : Nat) (table : List (BitVec 32)) (offset : BitVec 32) : Option (List (BitVec 32) × Nat) :=
  let indexSize := table.length - tableSize size table.length
  (search table offset (indexSize + 1) 0 indexSize).map fun m => (table.drop indexSize, size * m)

/-- compile.cpp:7856-7884 `visitStackAndLocals`: the slots that are visited. -/
def visited (size : Nat) (table : List (BitVec 32)) (offset : BitVec 32) : Option (List Nat) :=
  if size = 0 then some []
  else (findMap size table offset).map fun p => (List.range size).filter fun i => testBit p.1 (p.2 + i)

end Avian.FrameMap
