import Verif.Heap.Remember

/-
The room a collection reserves for the objects it keeps: src/heap/heap.cpp 369-437 (`Segment`), 843-915 (capacities of the new
generations), 1045-1107 (copying), 1720-1840 (`collect`), 2108-2121 (`pad`), src/machine.cpp 275-286 (`footprint`), 666-702
(`postCollect`), 3448-3462 (`copiedSizeInWords`), src/avian/machine.h 1643-1652, 2146-2176.

Sizes and positions are in words and are natural numbers: none of the sums reaches 2^32 while the limit of the heap is given
in 32 bits of bytes.
-/
namespace Avian.Room

open Avian.Remember

/-! ### Segments -/

/-- include/avian/util/math.h:30-33 `avg`. -/
def avg (a b : Nat) : Nat := (a + b) / 2

/-- heap.cpp:388-411: the search for a capacity; `none` if the fuel does not suffice. -/
def search (fp : Nat → Nat) (target : Nat) : Nat → Nat → Nat → Nat → Option Nat
  | 0, _, _, _ => none
  | fuel + 1, top, bottom, cap =>
    if fp cap > target then
      if bottom = cap then some cap
      else if fp (cap - 1) ≤ target then some (cap - 1)
      else search fp target fuel cap bottom (avg bottom cap)
    else if fp cap < target then
      if top = cap ∨ fp (cap + 1) ≥ target then some cap
      else search fp target fuel top cap (avg top cap)
    else some cap

/-- heap.cpp:414-428: memory is requested, for smaller and smaller capacities; `ok i` tells whether the request number `i`
    succeeds.  `none`: the last request fails and `expect` ends the process. -/
def request (fp : Nat → Nat) (minimum : Nat) : Nat → (Nat → Bool) → Nat → Option Nat
  | 0, _, _ => none
  | fuel + 1, ok, cap =>
    if ok 0 then some cap
    else if cap > minimum then request fp minimum fuel (fun i => ok (i + 1)) (avg minimum cap)
    else if ok 1 then some cap else none

/-- `unsigned target = available` (heap.cpp:387). -/
def unsignedOf (available : Int) : Nat := (available % 4294967296).toNat

/-- heap.cpp:384-386: the capacity for which memory is requested first. -/
def firstCapacity (fp : Nat → Nat) (desired minimum : Nat) (available : Int) : Option Nat :=
  if (fp desired : Int) > available then search fp (unsignedOf available) (desired + 2) desired minimum desired else some desired

/-- heap.cpp:369-437: the capacity of a new segment. -/
def capacity (fp : Nat → Nat) (desired minimum : Nat) (available : Int) (ok : Nat → Bool) : Option Nat :=
  if desired = 0 then some 0
  else
    let minimum := if minimum = 0 then 1 else minimum
    match firstCapacity fp desired minimum available with
    | none => none
    | some c => request fp minimum (desired + 1) ok c

/-- heap.cpp:455-459 `footprint` of the young generation; its age map has two bits for each word (heap.cpp:706). -/
def footprint1 (cap : Nat) : Nat := cap + if cap = 0 then 0 else calculateSize cap 1 2

/-- heap.cpp:455-459 `footprint` of the old generation. -/
def footprint2 (cap : Nat) : Nat := cap + if cap = 0 then 0 else footprint gen2Scale cap 2

/-! ### Objects -/

/-- include/avian/heap/heap.h:21 -/
def TenureThreshold : Nat := 3

/-- Where an object lies: in the memory of a thread, in the young generation with its age, or in the old generation. -/
inductive Place where
  | thread
  | young (age : Nat)
  | old
  deriving DecidableEq

/-- An object.  `words`: the words that were reserved for it; `size`: `baseSize`, and one more if it is extended; `taken`: its
    hash code was taken and it is not extended.  `survived` is not in the program: the collections that kept it. -/
structure Obj where
  id : Nat
  words : Nat
  size : Nat
  taken : Bool
  place : Place
  survived : Nat
  deriving DecidableEq

/-- machine.cpp:3448-3462 `copiedSizeInWords`. -/
def copiedSize (o : Obj) : Nat := o.size + if o.taken then 1 else 0

/-- machine.h:1351-1362: what a thread has used of its memory. -/
structure ThreadHeap where
  offset : Nat
  index : Nat
  backup : Nat
  backupFlag : Bool

/-- machine.cpp:275-286 `footprint`; the threads as a list. -/
def footprint (ts : List ThreadHeap) : Nat := (ts.map fun t => t.offset + t.index + t.backup).sum

structure Heap where
  objs : List Obj
  threads : List ThreadHeap
  position1 : Nat
  capacity1 : Nat
  position2 : Nat
  capacity2 : Nat
  tenureFootprint : Nat
  padding1 : Nat
  tenurePadding : Nat
  padding2 : Nat

/-- heap.cpp:706-736: the first state. -/
def start : Heap := ⟨[], [], 0, 0, 0, 0, 0, 0, 0, 0⟩

/-! ### Between collections -/

/-- machine.cpp:3835-3844: a new thread. -/
def newThread (h : Heap) : Heap := { h with threads := h.threads ++ [⟨0, 0, 0, false⟩] }

def modifyThread (h : Heap) (t : Nat) (f : ThreadHeap → ThreadHeap) : Heap := { h with threads := h.threads.modify t f }

/-- machine.h:1643-1652 `allocateSmall`. -/
def allocateSmall (h : Heap) (t id words size : Nat) : Heap :=
  { modifyThread h t (fun x => { x with index := x.index + words }) with
    objs := h.objs ++ [⟨id, words, size, false, .thread, 0⟩] }

/-- machine.cpp:4252-4260: allocation from the backup memory. -/
def allocateBackup (h : Heap) (t id words size : Nat) : Heap :=
  { modifyThread h t (fun x => { x with backup := x.backup + words }) with
    objs := h.objs ++ [⟨id, words, size, false, .thread, 0⟩] }

/-- machine.cpp:4299-4300: the thread goes on in another chunk of memory. -/
def newChunk (h : Heap) (t : Nat) : Heap := modifyThread h t fun x => { x with offset := x.offset + x.index, index := 0 }

/-- machine.h:1617-1633 `ensure`. -/
def useBackup (h : Heap) (t : Nat) : Heap := modifyThread h t fun x => { x with backupFlag := true }

/-- heap.cpp:2108-2121 `pad` of an object at a place. -/
def pad (h : Heap) : Place → Heap
  | .young age => if age = TenureThreshold then { h with tenurePadding := h.tenurePadding + 1 } else { h with padding1 := h.padding1 + 1 }
  | .old => { h with padding2 := h.padding2 + 1 }
  | .thread => { h with padding1 := h.padding1 + 1 }

/-- Mark the hash code of an object as taken; with its place. -/
def take (id : Nat) : List Obj → Option (List Obj × Place)
  | [] => none
  | o :: l =>
    if o.id = id then some ({ o with taken := true } :: l, o.place)
    else
      match take id l with
      | none => none
      | some r => some (o :: r.1, r.2)

/-- machine.h:2146-2155, 2166-2176 `objectHash` of an object that is not extended. -/
def hash (h : Heap) (id : Nat) : Heap :=
  match take id h.objs with
  | none => h
  | some r => pad { h with objs := r.1 } r.2

/-! ### Collection -/

/-- The state of a collection: the objects that were not copied yet and those that were; the positions and capacities of the
    new young generation, the old and the new old generation. -/
structure Col where
  src : List Obj
  dst : List Obj
  next1 : Nat
  cap1 : Nat
  gen2 : Nat
  cap2 : Nat
  next2 : Nat
  capN2 : Nat
  tenure : Nat

/-- The object after having been copied. -/
def moved (o : Obj) (p : Place) : Obj := ⟨o.id, copiedSize o, copiedSize o, false, p, o.survived + 1⟩

/-- heap.cpp:1053-1059 `copyTo` the new young generation; `none`: there is no room and the object is written beyond the end of
    the segment (an assertion only). -/
def toNext1 (c : Col) (o : Obj) (age : Nat) : Option Col :=
  if c.cap1 - c.next1 ≥ copiedSize o then
    some { c with dst := c.dst ++ [moved o (.young age)], next1 := c.next1 + copiedSize o,
                  tenure := if age = TenureThreshold then c.tenure + copiedSize o else c.tenure }
  else none

/-- Likewise to the old generation. -/
def toGen2 (c : Col) (o : Obj) : Option Col :=
  if c.cap2 - c.gen2 ≥ copiedSize o then some { c with dst := c.dst ++ [moved o .old], gen2 := c.gen2 + copiedSize o } else none

/-- Likewise to the new old generation. -/
def toNext2 (c : Col) (o : Obj) : Option Col :=
  if c.capN2 - c.next2 ≥ copiedSize o then some { c with dst := c.dst ++ [moved o .old], next2 := c.next2 + copiedSize o } else none

/-- heap.cpp:1066-1107 `copy2`; `tenure` of an object that comes from a thread is never changed, as its age is 0. -/
def copy2 (major : Bool) (c : Col) (o : Obj) : Option Col :=
  match o.place with
  | .old => if major then toNext2 c o else none
  | .young age =>
    if age = TenureThreshold then if major then toNext2 c o else toGen2 c o
    else toNext1 c o (age + 1)
  | .thread => toNext1 c o 0

/-- heap.cpp:1128-1167 `update2`, `update3` for an object of the program: an object that was copied is followed, objects of the
    old generation are left alone in a minor collection. -/
def update (major : Bool) (c : Col) (id : Nat) : Option Col :=
  match c.src.find? (fun o => o.id = id) with
  | none => some c
  | some o =>
    if major = false ∧ o.place = .old then some c
    else copy2 major { c with src := c.src.erase o } o

/-- The objects are met in some order. -/
def updateAll (major : Bool) (c : Col) (order : List Nat) : Option Col := order.foldlM (update major) c

/-- heap.cpp:843-847 `minimumNextGen1Capacity`. -/
def minimum1 (h : Heap) : Nat := h.position1 - h.tenureFootprint + footprint h.threads + h.padding1

/-- heap.cpp:849-853 `minimumNextGen2Capacity`. -/
def minimum2 (h : Heap) : Nat := h.position2 + h.tenureFootprint + h.tenurePadding + h.padding2

/-- heap.cpp:27 in words -/
def InitialGen2Capacity : Nat := 4 * 1024 * 1024 / 8

/-- heap.cpp:855-859 `oversizedGen2`. -/
def oversized (h : Heap) : Bool := h.capacity2 > InitialGen2Capacity && h.position2 < h.capacity2 / 4

/-- heap.cpp:892-902: the capacity wished for the new old generation. -/
def desired2 (h : Heap) : Nat :=
  let d := if oversized h then minimum2 h else minimum2 h * 2
  if d < InitialGen2Capacity then InitialGen2Capacity else d

/-- heap.cpp:1782-1787: whether the collection is a major one; `forced`: it was asked for, the limit is exceeded or there are too
    many fixed objects. -/
def isMajor (h : Heap) (forced : Bool) : Bool :=
  forced || oversized h || decide (h.tenureFootprint + h.tenurePadding > h.capacity2 - h.position2)

/-- What is not determined by the heap: whether a major collection is forced, the memory available for the new old generation,
    the success of the requests for memory of both segments, the order in which objects are met, and whether the limit is
    exceeded afterwards. -/
structure Choices where
  forced : Bool
  available : Int
  ok1 : Nat → Bool
  ok2 : Nat → Bool
  order : List Nat
  full : Bool

inductive Res where
  | ok (h : Heap)
  /-- the system has no memory for a generation of the smallest possible size -/
  | exhausted
  /-- an object is written beyond the end of a segment -/
  | overflow

/-- machine.h:143 -/
def ThreadHeapSize : Nat := 64 * 1024 / 8

/-- machine.cpp:666-702 `postCollect`. -/
def postCollect (full : Bool) (t : ThreadHeap) : ThreadHeap :=
  ⟨0, if full then ThreadHeapSize else 0, if t.backupFlag then 0 else t.backup, false⟩

/-- heap.cpp:1818-1822 and machine.cpp:3524: the heap after the objects were copied. -/
def finish (h : Heap) (major full : Bool) (c : Col) : Heap :=
  { objs := if major then c.dst else c.src.filter (fun o => o.place = .old) ++ c.dst
    threads := h.threads.map (postCollect full)
    position1 := c.next1
    capacity1 := c.cap1
    position2 := if major then c.next2 else c.gen2
    capacity2 := if major then c.capN2 else c.cap2
    tenureFootprint := c.tenure
    padding1 := 0
    tenurePadding := 0
    padding2 := if major then 0 else h.padding2 }

/-- heap.cpp:890-915 `initNextGen2`, if the collection is a major one. -/
def newGen2 (h : Heap) (major : Bool) (x : Choices) : Option Nat :=
  if major then capacity footprint2 (desired2 h) (minimum2 h) x.available x.ok2 else some 0

/-- heap.cpp:1780-1822 `collect`, with the parts of `doCollect` (machine.cpp:3518-3524) around it. -/
def collect (h : Heap) (x : Choices) : Res :=
  let major := isMajor h x.forced
  match capacity footprint1 (minimum1 h) (minimum1 h) 9223372036854775807 x.ok1 with
  | none => .exhausted
  | some cap1 =>
    match newGen2 h major x with
    | none => .exhausted
    | some capN2 =>
      match updateAll major ⟨h.objs, [], 0, cap1, h.position2, h.capacity2, 0, capN2, 0⟩ x.order with
      | none => .overflow
      | some c => .ok (finish h major x.full c)

/-! ### Histories -/

inductive Op where
  | newThread
  | allocate (t id words size : Nat)
  | backup (t id words size : Nat)
  | chunk (t : Nat)
  | useBackup (t : Nat)
  | hash (id : Nat)
  | collect (x : Choices)

def step (h : Heap) : Op → Res
  | .newThread => .ok (newThread h)
  | .allocate t id words size => if t < h.threads.length then .ok (allocateSmall h t id words size) else .ok h
  | .backup t id words size => if t < h.threads.length then .ok (allocateBackup h t id words size) else .ok h
  | .chunk t => .ok (newChunk h t)
  | .useBackup t => .ok (useBackup h t)
  | .hash id => .ok (hash h id)
  | .collect x => collect h x

def run (h : Heap) : List Op → Res
  | [] => .ok h
  | op :: ops =>
    match step h op with
    | .ok h => run h ops
    | r => r

end Avian.Room
