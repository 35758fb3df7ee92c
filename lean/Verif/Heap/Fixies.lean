/-
Model of the intrusive doubly linked lists of non-moving objects ("fixies") of
/repo/src/heap/heap.cpp: `Fixie::add`, `remove`, `move`, and the functions which
move fixies between the five lists of a heap.

A fixie is a non-zero number (its address).  `next` is its `next` field, `handle` its
`handle` field: a pointer to the pointer that points at this fixie, which is either one
of the five list heads or the `next` field of another fixie.  The walk over the slots of
a fixie is not repeated here (it is in `Verif.Heap.Collect`); only its effect on the
lists is, through `updateHeapMap`, which may call `markDirty`.
-/
namespace Avian.Fixies

/-- The lists of `Context` (heap.cpp 812-816). -/
inductive L where
  | fixies | tenured | dirty | marked | visited
deriving DecidableEq, Repr

/-- A `Fixie**`: null, the address of a list head, or of a fixie's `next` field. -/
inductive Handle where
  | null
  | head (l : L)
  | next (f : Nat)
deriving DecidableEq, Repr

/-- Point update. -/
def upd {α : Type} [DecidableEq α] {β : Type} (g : α → β) (a : α) (b : β) : α → β :=
  fun x => if x = a then b else g x

/-- List heads and the link fields of all fixies (heap.cpp 680-683, 815-819). -/
structure Mem where
  heads : L → Nat
  next : Nat → Nat
  handle : Nat → Handle

/-- `*handle`. -/
def read (m : Mem) : Handle → Nat
  | .null => 0
  | .head l => m.heads l
  | .next f => m.next f

/-- `*handle = v`. -/
def write (m : Mem) (h : Handle) (v : Nat) : Mem :=
  match h with
  | .null => m
  | .head l => { m with heads := upd m.heads l v }
  | .next f => { m with next := upd m.next f v }

/-- `Fixie::add` (heap.cpp 566-581).  The order of the writes is the code's. -/
def add (m : Mem) (f : Nat) (h : Handle) : Mem :=
  let m : Mem := { m with handle := upd m.handle f h }
  if h ≠ .null then
    let m : Mem := { m with next := upd m.next f (read m h) }
    let m : Mem := if m.next f ≠ 0 then { m with handle := upd m.handle (m.next f) (.next f) } else m
    write m h f
  else { m with next := upd m.next f 0 }

/-- `Fixie::remove` (heap.cpp 583-594). -/
def remove (m : Mem) (f : Nat) : Mem :=
  let m : Mem := if m.handle f ≠ .null then write m (m.handle f) (m.next f) else m
  let m : Mem := if m.next f ≠ 0 then { m with handle := upd m.handle (m.next f) (m.handle f) } else m
  { m with next := upd m.next f 0, handle := upd m.handle f .null }

/-- `Fixie::move` (heap.cpp 596-604). -/
def move (m : Mem) (f : Nat) (h : Handle) : Mem := add (remove m f) f h

/-- Links plus the other fields of a fixie (heap.cpp 678-679): age and flags, and the
set of fixies that exist. -/
structure St where
  mem : Mem
  age : Nat → Nat
  mark : Nat → Bool
  isDirty : Nat → Bool
  dead : Nat → Bool
  live : List Nat

/-- `FixieTenureThreshold` (/repo/include/avian/heap/heap.h 21-23). -/
def threshold : Nat := 5

/-- `Fixie::immortal` (heap.cpp 561-564). -/
def immortal (s : St) (f : Nat) : Bool := s.age f == threshold + 1

/-- An empty heap (heap.cpp 735-739). -/
def empty : St :=
  { mem := { heads := fun _ => 0, next := fun _ => 0, handle := fun _ => .null }
    age := fun _ => 0, mark := fun _ => false, isDirty := fun _ => false, dead := fun _ => false
    live := [] }

/-- The `Fixie` constructor (heap.cpp 548-559) as called by `allocateFixed` (heap.cpp
2012-2018) and, with a null handle, by `allocateImmortalFixed` (heap.cpp 2020-2025). -/
def alloc (s : St) (f : Nat) (imm : Bool) : St :=
  { s with
    mem := add { s.mem with next := upd s.mem.next f 0, handle := upd s.mem.handle f .null } f
      (if imm then .null else .head .fixies)
    age := upd s.age f (if imm then threshold + 1 else 0)
    mark := upd s.mark f false
    isDirty := upd s.isDirty f false
    dead := upd s.dead f false
    live := f :: s.live }

/-- `markDirty` (heap.cpp 1167-1180). -/
def markDirty (s : St) (f : Nat) : St :=
  if s.isDirty f then s
  else { s with isDirty := upd s.isDirty f true, mem := move s.mem f (.head .dirty) }

/-- `markClean` (heap.cpp 1182-1192). -/
def markClean (s : St) (f : Nat) : St :=
  if s.isDirty f then
    { s with
      isDirty := upd s.isDirty f false
      mem := if immortal s f then remove s.mem f else move s.mem f (.head .tenured) }
  else s

/-- The part of `update3` about fixies (heap.cpp 1132-1144). -/
def touch (s : St) (major : Bool) (f : Nat) : St :=
  if !s.mark f && (major || decide (s.age f < threshold)) then
    { s with
      mark := upd s.mark f true
      dead := upd s.dead f false
      mem := move s.mem f (.head .marked) }
  else s

/-- The start of a turn of `visitMarkedFixies` (heap.cpp 1645-1647). -/
def visitBegin (s : St) (f : Nat) : St := { s with mem := remove s.mem f }

/-- The end of a turn of `visitMarkedFixies` (heap.cpp 1672). -/
def visitEnd (s : St) (f : Nat) : St := { s with mem := move s.mem f (.head .visited) }

/-- `free(Context*, Fixie**, bool)` (heap.cpp 950-976): the loop with its cursor `p`.
A released fixie no longer exists; its memory is given back, which is shown here by
clearing its links.  `fuel` bounds the number of turns. -/
def freeLoop (reset : Bool) : Nat → St → Handle → St
  | 0, s, _ => s
  | fuel + 1, s, p =>
    let f := read s.mem p
    if f = 0 then s
    else if immortal s f then
      if reset then
        let m : Mem := write s.mem p (s.mem.next f)
        freeLoop reset fuel
          { s with
            mem := { m with next := upd m.next f 0, handle := upd m.handle f .null }
            mark := upd s.mark f false
            isDirty := upd s.isDirty f false } p
      else freeLoop reset fuel s (.next f)
    else
      let m : Mem := write s.mem p (s.mem.next f)
      freeLoop reset fuel
        { s with
          mem := { m with next := upd m.next f 0, handle := upd m.handle f .null }
          live := s.live.erase f } p

/-- One turn of the loop over `visitedFixies` in `sweepFixies` (heap.cpp 1014-1048). -/
def sweepOne (s : St) (f : Nat) : St :=
  let m := remove s.mem f
  let a := if immortal s f then s.age f
    else if threshold < s.age f + 1 then threshold else s.age f + 1
  { s with
    mem := add m f (.head (if threshold ≤ a then (if s.isDirty f then .dirty else .tenured) else .fixies))
    age := upd s.age f a
    mark := upd s.mark f false }

/-- The loop over `visitedFixies` in `sweepFixies` (heap.cpp 1014-1048). -/
def sweepLoop : Nat → St → St
  | 0, s => s
  | fuel + 1, s =>
    let f := s.mem.heads .visited
    if f = 0 then s else sweepLoop fuel (sweepOne s f)

/-- `sweepFixies` (heap.cpp 1000-1052) without its footprint counters.  Every loop ends
after at most as many turns as there are fixies. -/
def sweep (s : St) (major : Bool) : St :=
  let n := s.live.length + 1
  let s := if major then freeLoop true n (freeLoop true n s (.head .tenured)) (.head .dirty) else s
  sweepLoop n (freeLoop false n s (.head .fixies))

/-- `kill` (heap.cpp 978-985): walks one list. -/
def killLoop : Nat → St → Nat → St
  | 0, s, _ => s
  | fuel + 1, s, f =>
    if f = 0 then s
    else killLoop fuel (if immortal s f then s else { s with dead := upd s.dead f true }) (s.mem.next f)

/-- `killFixies` (heap.cpp 987-998). -/
def kill (s : St) (major : Bool) : St :=
  let n := s.live.length + 1
  let s := if major then
      let s := killLoop n s (s.mem.heads .tenured)
      killLoop n s (s.mem.heads .dirty)
    else s
  killLoop n s (s.mem.heads .fixies)

end Avian.Fixies
