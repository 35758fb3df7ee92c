import Verif.Heap.Bitset

/-!
The copying collector (src/heap/heap.cpp:1053-1760): forwarding, the traversal that keeps its stack inside
the objects already copied, the visit of non-moving objects, of remembered slots and of roots.

Memory is a function from addresses to objects. An object is what does not take part (`info`: scalars,
array length, and the two low bits of every pointer, which `set` at heap.cpp:86-91 keeps), the offsets of
its references in the order in which the client walks them (offset 0 is the class), and the references.
Null is address 0. The three things that the collector writes over an original (forwarding pointer in word
0, parent in word 1, bit set from word 2) are kept in maps of their own; the rest of an original is
replaced by rubbish when it is copied, so that nothing can depend on it.

The segments hand out addresses one after another; only their being new matters, so the sequence of the
addresses is a parameter.
-/

namespace Avian.Collect

open Avian.Bits (Map)

abbrev Addr := Nat

/-- The part of memory an address belongs to (heap.cpp:499-502 `Segment::contains`, 1061-1064
`immortalHeapContains`, `Client::isFixed`). `young` is memory outside of the segments, where threads
allocate. -/
inductive Region
  | young | gen1 | gen2 | next1 | next2 | immortal | fixed
  deriving DecidableEq, Repr

inductive Mode
  | minor | major
  deriving DecidableEq, Repr

structure Obj where
  info : Nat
  slots : List Nat
  ref : Nat → Addr

/-- include/avian/heap/heap.h:21 `TenureThreshold` -/
def tenureThreshold : Nat := 3
/-- include/avian/heap/heap.h:23 `FixieTenureThreshold` -/
def fixieTenureThreshold : Nat := 5

structure Env where
  mode : Mode
  /-- the address of the n-th copy -/
  alloc : Nat → Addr

structure St where
  mem : Addr → Obj
  region : Addr → Region
  /-- `ageMap`/`nextAgeMap` for movable objects, `Fixie::age` for non-moving ones -/
  age : Addr → Nat
  fwd : Addr → Option Addr
  parent : Addr → Addr
  bits : Addr → Map
  /-- the bit of a slot: `heapMap`/`nextHeapMap` for movable owners, `Fixie::mask` for the others -/
  remembered : Addr → Nat → Bool
  marked : Addr → Bool
  markedList : List Addr
  visitedList : List Addr
  roots : Nat → Addr
  count : Nat

def upd {α : Type} (f : Addr → α) (a : Addr) (v : α) : Addr → α := fun x => if x = a then v else f x

/-- the second generation as seen by `updateHeapMap` (heap.cpp:1202-1208) -/
def seg (e : Env) : Region := match e.mode with | .minor => .gen2 | .major => .next2

/-- heap.cpp:1066-1110 `copy2`: where the copy goes, and its age -/
def dest (e : Env) (s : St) (o : Addr) : Region × Nat :=
  match s.region o with
  | .gen2 => (.next2, 0)
  | .gen1 =>
    if s.age o = tenureThreshold then
      ((match e.mode with | .minor => .gen2 | .major => .next2), 0)
    else (.next1, s.age o + 1)
  | _ => (.next1, 0)

/-- what is left of an original once it has been copied -/
def rubbish : Obj := ⟨0, [], fun _ => 0⟩

/-- heap.cpp:1053-1059 `copyTo`, 1112-1128 `copy` -/
def copy (e : Env) (s : St) (o : Addr) : St × Addr :=
  let d := e.alloc s.count
  ({ s with
      mem := upd (upd s.mem d (s.mem o)) o rubbish
      region := upd s.region d (dest e s o).1
      age := upd s.age d (dest e s o).2
      fwd := upd s.fwd o (some d)
      count := s.count + 1 }, d)

/-- heap.cpp:1130-1155 `update3`; `marked(true)` and `move` to `markedFixies` -/
def update3 (e : Env) (s : St) (o : Addr) : St × Addr × Bool :=
  if s.region o = .fixed then
    if s.marked o = false ∧ (e.mode = .major ∨ s.age o < fixieTenureThreshold) then
      ({ s with marked := upd s.marked o true, markedList := o :: s.markedList }, o, false)
    else (s, o, false)
  else if s.region o = .immortal then (s, o, false)
  else
    match s.fwd o with
    | some d => (s, d, false)
    | none => ((copy e s o).1, (copy e s o).2, true)

/-- heap.cpp:1157-1165 `update2` -/
def update2 (e : Env) (s : St) (o : Addr) : St × Addr × Bool :=
  if e.mode = .minor ∧ s.region o = .gen2 then (s, o, false) else update3 e s o

/-- A slot: a root or a field. -/
inductive Slot
  | root (i : Nat)
  | field (a : Addr) (k : Nat)
  deriving DecidableEq

def read (s : St) : Slot → Addr
  | .root i => s.roots i
  | .field a k => (s.mem a).ref k

def setRef (s : St) (a : Addr) (k : Nat) (v : Addr) : St :=
  { s with mem := upd s.mem a { s.mem a with ref := upd (s.mem a).ref k v } }

/-- heap.cpp:86-96 `set` -/
def write (s : St) (sl : Slot) (v : Addr) : St :=
  match sl with
  | .root i => { s with roots := fun j => if j = i then v else s.roots j }
  | .field a k => setRef s a k v

def remember (s : St) (a : Addr) (k : Nat) (v : Bool) : St :=
  { s with remembered := fun x j => if x = a ∧ j = k then v else s.remembered x j }

/-- heap.cpp:1211-1214: the condition under which `updateHeapMap` may have to remember a slot that now
holds `r` -/
def needsMemory (e : Env) (s : St) (r : Addr) : Bool :=
  !(decide (s.region r = .immortal) || (decide (s.region r = .fixed) && decide (fixieTenureThreshold ≤ s.age r))
    || decide (s.region r = seg e))

/-- heap.cpp:1193-1244 `updateHeapMap` -/
def updateHeapMap (e : Env) (s : St) (sl : Slot) (r : Addr) : St :=
  if needsMemory e s r then
    match sl with
    | .root _ => s
    | .field a k =>
      if s.region a = .fixed then
        if fixieTenureThreshold ≤ s.age a + 1 then remember s a k true else s
      else if s.region a = seg e then remember s a k true
      else s
  else s

/-- heap.cpp:1246-1264 `update`, for a slot that holds `v` -/
def update (e : Env) (s : St) (sl : Slot) (v : Addr) : St × Addr × Bool :=
  if v = 0 then (s, 0, false)
  else
    let r := update2 e s v
    (updateHeapMap e r.1 sl r.2.1, r.2.1, r.2.2)

/-- heap.cpp:1414-1465: the walker's `visit` for one field of the copy `d` -/
def scanField (e : Env) (d : Addr) (x : St × Bitset.Walker) (k : Nat) : St × Bitset.Walker :=
  let r := update e x.1 (.field d k) ((x.1.mem d).ref k)
  (if r.2.2 then r.1 else setRef r.1 d k r.2.1, x.2.visit (k, r.2.2))

/-- heap.cpp:1395-1481: the walk over the copy `d` of `o` -/
def scanAll (e : Env) (s : St) (o d : Addr) : St × Bitset.Walker :=
  (s.mem d).slots.foldl (scanField e d) (s, ⟨s.bits o, 0, 0, 0, 0, 0⟩)

/-- heap.cpp:1490-1492 and 1560-1562: go on with the object that field `k` of the copy `d` held, after
redirecting the field; the parent is `par` from now on -/
def descend (s : St) (d : Addr) (k : Nat) (par : Addr) : Option (St × Addr × Addr) :=
  match s.fwd ((s.mem d).ref k) with
  | none => none
  | some c => some (setRef s d k c, (s.mem d).ref k, par)

/-- heap.cpp:1499-1563: take the next pending field of `o` -/
def ascend (s : St) (o : Addr) : Option (St × Addr × Addr) :=
  match s.fwd o with
  | none => none
  | some d =>
    match (s.mem d).slots with
    | [_, k] => descend s d k (s.parent o)
    | _ :: _ :: _ :: _ =>
      match Bitset.next (s.bits o) with
      | none => none
      | some (k, m) =>
        let r := Bitset.hasMore m
        descend { s with bits := upd s.bits o r.2 } d k (if r.1 then o else s.parent o)
    | _ => none

/-- heap.cpp:1393-1497: visit `o`, which has been copied; the result is the next object to visit, 0 if
there is none, and the top of the stack of parents -/
def visit (e : Env) (s : St) (o par : Addr) : Option (St × Addr × Addr) :=
  match s.fwd o with
  | none => none
  | some d =>
    let r := scanAll e s o d
    let s : St := { r.1 with bits := upd r.1.bits o r.2.bits }
    if r.2.visits = 0 then
      if par = 0 then some (s, 0, 0) else ascend s par
    else if r.2.visits = 1 then descend s d r.2.first par
    else descend { s with parent := upd s.parent o par } d r.2.first o

/-- the loop of heap.cpp:1393-1568 -/
def loop (e : Env) : Nat → St → Addr → Addr → Option St
  | 0, _, _, _ => none
  | n + 1, s, o, par =>
    match visit e s o par with
    | none => none
    | some r => if r.2.1 = 0 then some r.1 else loop e n r.1 r.2.1 r.2.2

/-- heap.cpp:1366-1579 `collect` of one slot -/
def collect (e : Env) (n : Nat) (s : St) (sl : Slot) : Option St :=
  let v := read s sl
  let r := update e s sl v
  if r.2.2 then loop e n (write r.1 sl r.2.1) v 0 else some (write r.1 sl r.2.1)

/-- heap.cpp:1643-1673 `visitMarkedFixies` -/
def visitMarked (e : Env) (n : Nat) : Nat → St → Option St
  | m, s =>
    match s.markedList with
    | [] => some s
    | f :: rest =>
      match m with
      | 0 => none
      | m + 1 =>
        match (s.mem f).slots.foldlM (fun s k => collect e n s (.field f k)) { s with markedList := rest } with
        | none => none
        | some s => visitMarked e n m { s with visitedList := f :: s.visitedList }

/-- heap.cpp:1698-1713: one remembered slot of the second generation -/
def collectOld (e : Env) (n : Nat) (s : St) (p : Addr × Nat) : Option St :=
  let s := remember s p.1 p.2 false
  if s.region (read s (.field p.1 p.2)) = .next1 then some (remember s p.1 p.2 true)
  else
    match collect e n s (.field p.1 p.2) with
    | none => none
    | some s =>
      some (if s.region (read s (.field p.1 p.2)) = .gen2 then s else remember s p.1 p.2 true)

/-- heap.cpp:1603-1625: one dirty slot of a tenured non-moving object -/
def collectDirty (e : Env) (n : Nat) (s : St) (p : Addr × Nat) : Option St :=
  collect e n (remember s p.1 p.2 false) (.field p.1 p.2)

/-- heap.cpp:1743-1752: one root -/
def collectRoot (e : Env) (n : Nat) (s : St) (i : Nat) : Option St :=
  match collect e n s (.root i) with
  | none => none
  | some s => visitMarked e n n s

/-- heap.cpp:1719-1758 `collect2`: the remembered slots of the second generation, the dirty slots of
tenured non-moving objects, then the roots, of which there are `roots` -/
def collect2 (e : Env) (n : Nat) (s : St) (old dirty : List (Addr × Nat)) (roots : Nat) : Option St :=
  match (if e.mode = .minor then old.foldlM (collectOld e n) s else some s) with
  | none => none
  | some s =>
    match (if e.mode = .minor then dirty.foldlM (collectDirty e n) s else some s) with
    | none => none
    | some s => (List.range roots).foldlM (collectRoot e n) s

end Avian.Collect
