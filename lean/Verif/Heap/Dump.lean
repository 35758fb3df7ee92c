import Verif.Heap.Walker

/-
src/heapdump.cpp: the heap as a file.
-/
namespace Avian.HeapWalk

/-- A byte. -/
abbrev Byte := BitVec 8

/-- What the dump tells of an object besides its references: its size in words (heapdump.cpp:43-46 `objectSize`), and its name if it is a class that has
one (heapdump.cpp:75-81, without the zero at the end). -/
structure Info where
  words : Nat → Nat
  name : Nat → Option (List Byte)

/-- heapdump.cpp:27-35 `write4` -/
def write4 (v : Nat) : List Byte := [BitVec.ofNat 8 (v / 2 ^ 24), BitVec.ofNat 8 (v / 2 ^ 16), BitVec.ofNat 8 (v / 2 ^ 8), BitVec.ofNat 8 v]

/-- heapdump.cpp:37-41 `writeString` -/
def writeString (s : List Byte) : List Byte := write4 s.length ++ s

/-- How many objects other than null were told as new. -/
def counted : List Event → Nat
  | [] => 0
  | .new p _ :: es => (if p = 0 then 0 else 1) + counted es
  | _ :: es => counted es

/-- heapdump.cpp:67-70, 83-86: the number of a new object; `nextNumber` is one more than the number of objects that were told. -/
def dumpNumber (h : List Event) (p : Nat) : Nat := if p = 0 then 0 else 1 + counted h

/-- heapdump.cpp:19 the tags -/
def tagRoot : Byte := 0
def tagSize : Byte := 1
def tagName : Byte := 2
def tagPush : Byte := 3
def tagPop : Byte := 4

/-- heapdump.cpp:60-104: what is written for an event. -/
def dumpEvent (i : Info) : Event → List Byte
  | .root => [tagRoot]
  | .new p n =>
    if p = 0 then []
    else
      write4 n ++ tagSize :: write4 (i.words p) ++
        match i.name p with
        | none => []
        | some s => tagName :: writeString s
  | .old _ n => write4 n
  | .push _ _ _ => [tagPush]
  | .pop => [tagPop]

/-- heapdump.cpp:54-117 `dumpHeap`, with a limit of steps for each root. -/
def dumpHeap (g : Graph) (i : Info) (n : Nat) (roots : List Nat) : Option (List Byte) :=
  match initial dumpNumber with
  | none => none
  | some s =>
    match walks g dumpNumber n s roots with
    | none => none
    | some (s, _) => some (s.events.flatMap (dumpEvent i))

end Avian.HeapWalk
