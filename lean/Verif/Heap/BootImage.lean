import Verif.Heap.Walker

/-
The heap of a boot image: how it is written (src/tools/bootimage-generator/main.cpp) and how it is taken into use (src/compile.cpp `fixupHeap`).

The machine that makes the image and the one that uses it have 64-bit little-endian words.  What is copied of an object is a parameter: its words in
the image, with zero where a reference will be, and with marks if there are any.  It may depend on the reference over which the object was met first
(the object mask of a class is laid out for the target, main.cpp:1252-1287; the static table of a class is fixed, main.cpp:1352-1356).
-/
namespace Avian.BootImage
open Avian.HeapWalk

/-- A word. -/
abbrev Word := BitVec 64

/-- The reference over which an object was met first: its object and its offset; none for a root. -/
abbrev Referer := Option (Nat × Nat)

/-- What the generator knows of the objects. -/
structure Objects where
  /-- main.cpp:1091-1290 `copy` -/
  words : Referer → Nat → List Word
  /-- main.cpp:961-977 `targetSize`; the room in words, which may be larger than what is copied -/
  room : Referer → Nat → Nat
  /-- main.cpp:1352-1356: a static table, a system class loader or an addendum -/
  fixed : Referer → Nat → Bool
  /-- main.cpp:893-906 `targetOffset`, in words -/
  off : Nat → Nat → Nat

/-- main.cpp:41, 1457: the capacity in words. -/
def capacity : Nat := 512 * 1024 * 1024 / 8

/-- main.cpp:43-45 -/
def fixieWords : Nat := 3

/-- machine.h:140 -/
def fixedMark : Word := 3

/-- main.cpp:1370 -/
def maskWords (room : Nat) : Nat := (room + 63) / 64

/-- main.cpp:1375-1391: the first word of a fixie: age 6 (`FixieTenureThreshold + 1`, heap.h:21-23), flags 1 (marked), and the size in the upper half. -/
def fixieHeader (room : Nat) : Word := 0x10006 ||| (BitVec.ofNat 32 room).setWidth 64 <<< 32

/-- main.cpp:1299-1455 `Visitor` -/
structure Visitor where
  /-- `currentObject`, `currentNumber`, `currentOffset` -/
  current : Option (Nat × Nat × Nat)
  heap : Nat → Word
  map : Nat → Word
  position : Nat
  /-- an `expect` failed -/
  failed : Bool

/-- Words from a position on. -/
def fill (h : Nat → Word) (at_ : Nat) (ws : List Word) : Nat → Word := fun i => if at_ ≤ i then (ws[i - at_]?).getD (h i) else h i

/-- target.h:144-148 `targetMarkBit` -/
def markBit (map : Nat → Word) (i : Nat) : Nat → Word := fun w => if w = i / 64 then map w ||| (1#64 <<< (i % 64)) else map w

/-- main.cpp:1334-1335: the number of an object and the marks of the reference; 32 bits (bootimage-template.cpp:4: `TargetBootShift` is 29). -/
def entry (number : Nat) (mark : Word) : Word := (BitVec.ofNat 32 number ||| (mark.setWidth 32) <<< 29).setWidth 64

/-- main.cpp:1318-1342 `visit` -/
def Visitor.visit (o : Objects) (v : Visitor) (number : Nat) : Visitor :=
  match v.current with
  | none => v
  | some (p, n, off) =>
    let i := n - 1 + o.off p off
    let value := entry number (v.heap i &&& 7)
    { v with map := if value ≠ 0 then markBit v.map i else v.map, heap := fun j => if j = i then value else v.heap j }

/-- The reference over which an object is met. -/
def Visitor.referer (v : Visitor) : Referer := v.current.map fun c => (c.1, c.2.2)

/-- The words in front of an object. -/
def front (fixed : Bool) : Nat := if fixed then fixieWords else 0

/-- All words that an object takes (main.cpp:1372, 1424). -/
def total (fixed : Bool) (room : Nat) : Nat := if fixed then fixieWords + room + maskWords room else room

/-- main.cpp:1349-1428: the number that `visitNew` answers. -/
def Visitor.number (o : Objects) (v : Visitor) (p : Nat) : Nat := if p = 0 then 0 else v.position + front (o.fixed v.referer p) + 1

/-- main.cpp:1406: the mark goes to the first word. -/
def markFirst : List Word → List Word
  | [] => []
  | w :: ws => (w ||| fixedMark) :: ws

/-- What is copied (main.cpp:1399-1406, 1417-1422). -/
def copied (fixed : Bool) (ws : List Word) : List Word := if fixed then markFirst ws else ws

/-- main.cpp:1349-1425: a new object is copied. -/
def Visitor.alloc (o : Objects) (v : Visitor) (p : Nat) : Visitor :=
  let r := v.referer
  let f := o.fixed r p
  let n := o.room r p
  if v.position + total f n < capacity then
    let h := if f then fill v.heap v.position [fixieHeader n, 0, 0] else v.heap
    let h := fill h (v.position + front f) (copied f (o.words r p))
    let h := if f then fill h (v.position + fixieWords + n) (List.replicate (maskWords n) 0) else h
    { v with heap := h, position := v.position + total f n }
  else { v with failed := true }

/-- main.cpp:1344-1447: what the visitor does when it is told something. -/
def Visitor.step (o : Objects) (v : Visitor) : Event → Visitor
  | .root => { v with current := none }
  | .new p _ => if p = 0 then v else (v.alloc o p).visit o (v.number o p)
  | .old _ n => v.visit o n
  | .push p n off => { v with current := some (p, n, off) }
  | .pop => { v with current := none }

/-- main.cpp:1805-1812, 1306-1316: the visitor at the start; the memory of the image is not cleared, that of the map is. -/
def Visitor.start (memory : Nat → Word) : Visitor := ⟨none, memory, fun _ => 0, 0, false⟩

/-- The visitor after it was told this. -/
def told (o : Objects) (memory : Nat → Word) (es : List Event) : Visitor := es.foldl (Visitor.step o) (.start memory)

/-- What the visitor answers for a new object. -/
def answer (o : Objects) (memory : Nat → Word) (h : List Event) (p : Nat) : Nat := (told o memory h).number o p

/-- main.cpp:1292-1465 `makeHeapImage` with a limit of steps for each root: the visitor at the end, and the answers for the roots. -/
def makeHeapImage (g : Graph) (o : Objects) (memory : Nat → Word) (n : Nat) (roots : List Nat) : Option (Visitor × List Nat) :=
  match initial (answer o memory) with
  | none => none
  | some s =>
    match walks g (answer o memory) n s roots with
    | none => none
    | some (s, xs) => some (told o memory s.events, xs)

/-! ### Taking it into use -/

/-- bootimage-template.cpp:1-2 -/
def bootMask : Word := 0x1fffffff

/-- compile.cpp:9949-9965: a word that is marked. -/
def fixupWord (base : Nat) (w : Word) : Word :=
  let number := w &&& bootMask
  let mark := w >>> 29
  if number ≠ 0 then BitVec.ofNat 64 (base + 8 * (number.toNat - 1)) ||| mark else mark

/-- compile.cpp:9944-9968: the bits of a word of the map. -/
def fixupBits (base : Nat) (w : Word) (word : Nat) : Nat → Nat → (Nat → Word) → Nat → Word
  | 0, _, h => h
  | n + 1, bit, h =>
    let i := word * 64 + bit
    fixupBits base w word n (bit + 1) (if w &&& (1#64 <<< bit) ≠ 0 then fun j => if j = i then fixupWord base (h i) else h j else h)

/-- compile.cpp:9937-9971 `fixupHeap` -/
def fixupHeap (base : Nat) (map : Nat → Word) : Nat → Nat → (Nat → Word) → Nat → Word
  | 0, _, h => h
  | n + 1, word, h => fixupHeap base map n (word + 1) (if map word ≠ 0 then fixupBits base (map word) word 64 0 h else h)

/-- bootimage-template.cpp:12-17, main.cpp:1462, compile.cpp:10102-10103: the words of the map. -/
def mapWords (position : Nat) : Nat := (position * 8 + 511) / 512

/-- compile.cpp:10124-10126: the heap after the image is taken into use at an address. -/
def use (base : Nat) (v : Visitor) : Nat → Word := fixupHeap base v.map (mapWords v.position) 0 v.heap

end Avian.BootImage
