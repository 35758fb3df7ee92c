import Verif.Lib.Outcome

/-
The memory from which a thread allocates: src/avian/machine.h 1617-1664, src/machine.cpp 666-702 (`postCollect`), 3821-3852,
4236-4362 (`allocate2`, `allocate3`).
-/
namespace Avian.ThreadHeap

/-- machine.h:142-143 in words -/
def heapSize : Nat := 64 * 1024 / 8

/-- machine.h:145-147 in words -/
def backupSize : Nat := 2 * 1024 / 8

/-- A piece of memory: `defaultHeap`, a further chunk (with the number of its request), `backupHeap`, or the memory of an object
    that is allocated separately. -/
inductive Chunk where
  | default
  | pool (k : Nat)
  | backup
  | fixed (k : Nat)
  deriving DecidableEq

def sizeOf : Chunk → Nat
  | .default => heapSize
  | .pool _ => heapSize
  | .backup => backupSize
  | .fixed _ => 0

/-- A part of a chunk. -/
structure Part where
  chunk : Chunk
  start : Nat
  words : Nat
  deriving DecidableEq

/-- machine.h:1351-1363.  `requests`: the chunks requested so far; `objs` is not in the program: the objects allocated since the
    last collection. -/
structure T where
  mem : Chunk → Nat → Nat
  heap : Option Chunk
  index : Nat
  backupIndex : Nat
  backupFlag : Bool
  requests : Nat
  objs : List Part

/-- `memset` of the words from `start` on to 0. -/
def clear (mem : Chunk → Nat → Nat) (c : Chunk) (start words : Nat) : Chunk → Nat → Nat :=
  fun d i => if d = c ∧ start ≤ i ∧ i < start + words then 0 else mem d i

/-- machine.cpp:3835-3852: a new thread, whatever its memory contains. -/
def newThread (mem : Chunk → Nat → Nat) : T :=
  ⟨clear (clear mem .default 0 heapSize) .backup 0 backupSize, some .default, 0, 0, false, 0, []⟩

/-- machine.cpp:675-680 -/
def clearDefault (s : T) : T :=
  if s.heap = some .default then { s with mem := clear s.mem .default 0 s.index }
  else { s with mem := clear s.mem .default 0 heapSize, heap := some .default }

/-- machine.cpp:692-697 -/
def clearBackup (s : T) : T :=
  if s.backupFlag then { s with mem := clear s.mem .backup 0 backupSize, backupFlag := false, backupIndex := 0 } else s

/-- machine.cpp:666-702 `postCollect`: the objects were moved elsewhere; `full`: `limitExceeded()`. -/
def postCollect (s : T) (full : Bool) : T :=
  let s := clearDefault s
  let s := { s with index := if full then heapSize else 0 }
  { clearBackup s with objs := [] }

/-- machine.h:1617-1633 `ensure`; `none`: the process ends. -/
def ensure (s : T) (words : Nat) : Option (T × Bool) :=
  if s.index + words > heapSize then
    if words ≤ backupSize then
      if s.backupFlag then none else some ({ s with backupFlag := true }, true)
    else some (s, false)
  else some (s, true)

inductive Res where
  | ok (s : T) (p : Part)
  /-- OutOfMemoryError -/
  | outOfMemory (s : T)
  /-- the process ends -/
  | abort

/-- What the rest of the program decides: whether another thread wants to be alone (`m->exclusive`), whether another chunk is
    given (or, for an object that is allocated separately, whether there is no need for a collection), what the new memory
    contains, whether the limit would be exceeded, and whether it is exceeded after a collection without and with the object. -/
structure Env where
  exclusive : Bool
  chunk : Bool
  junk : Nat → Nat
  limit : Bool
  full : Bool
  over : Bool

/-- machine.h:1643-1652 `allocateSmall`. -/
def allocateSmall (s : T) (words : Nat) : Res :=
  match s.heap with
  | none => .abort
  | some c => .ok { s with index := s.index + words, objs := s.objs ++ [⟨c, s.index, words⟩] } ⟨c, s.index, words⟩

/-- machine.cpp:4256-4264: allocation from the backup memory. -/
def allocateBackup (s : T) (words : Nat) : Res :=
  if s.backupIndex + words ≤ backupSize then
    .ok { s with mem := clear s.mem .backup s.backupIndex 1, backupIndex := s.backupIndex + words,
                 objs := s.objs ++ [⟨.backup, s.backupIndex, words⟩] } ⟨.backup, s.backupIndex, words⟩
  else .abort

/-- machine.cpp:4293-4301: the thread goes on in a new chunk. -/
def newChunk (s : T) (junk : Nat → Nat) : T :=
  { s with mem := clear (fun d i => if d = .pool s.requests then junk i else s.mem d i) (.pool s.requests) 0 heapSize,
           heap := some (.pool s.requests), index := 0, requests := s.requests + 1 }

/-- machine.cpp:4286-4308: a movable object needs room. -/
def makeRoom (s : T) (e : Env) (words : Nat) : T :=
  if s.index + words > heapSize then
    if e.chunk then newChunk { s with heap := none } e.junk else { s with heap := none }
  else s

/-- machine.cpp:4310-4313: many objects were allocated separately. -/
def makeRoomFixed (s : T) (e : Env) : T := if e.chunk then s else { s with heap := none }

/-- machine.cpp:4320-4331: collect if there is no memory or the limit would be exceeded; `none`: OutOfMemoryError. -/
def collectIf (s : T) (e : Env) : T × Bool :=
  if s.heap = none ∨ e.limit then (postCollect s e.full, e.full || e.over) else (s, false)

/-- machine.cpp:4283-4338: an object of at most `heapSize` words. -/
def allocateMovable (s : T) (e : Env) (words : Nat) : Res :=
  match collectIf (makeRoom s e words) e with
  | (s, true) => .outOfMemory s
  | (s, false) => if s.index + words > heapSize then .abort /- the loop is repeated -/ else allocateSmall s words

/-- machine.cpp:4340-4353: an object that is allocated separately. -/
def allocateFixed (s : T) (e : Env) (words : Nat) : Res :=
  match collectIf (makeRoomFixed s e) e with
  | (s, true) => .outOfMemory s
  | (s, false) =>
    .ok { s with mem := clear (fun d i => if d = .fixed s.requests then e.junk i else s.mem d i) (.fixed s.requests) 0 words,
                 requests := s.requests + 1, objs := s.objs ++ [⟨.fixed s.requests, 0, words⟩] } ⟨.fixed s.requests, 0, words⟩

/-- machine.h:1654-1664 `allocate`, machine.cpp:4236-4362 `allocate2`, `allocate3`. -/
def allocate (s : T) (e : Env) (words : Nat) : Res :=
  if s.index + words > heapSize ∨ e.exclusive then
    if s.backupFlag then allocateBackup s words
    else if words > heapSize then allocateFixed s e words
    else allocateMovable s e words
  else allocateSmall s words

inductive Op where
  | allocate (e : Env) (words : Nat)
  /-- a thread writes `v` to word `i` of an object -/
  | write (p : Part) (i v : Nat)
  | ensure (words : Nat)
  | collect (full : Bool)

def write (s : T) (p : Part) (i v : Nat) : T :=
  if p ∈ s.objs ∧ i < p.words then { s with mem := fun d j => if d = p.chunk ∧ j = p.start + i then v else s.mem d j } else s

/-- The state after an operation; `none`: the process has ended. -/
def step (s : T) : Op → Option T
  | .allocate e words =>
    match allocate s e words with
    | .ok s _ => some s
    | .outOfMemory s => some s
    | .abort => none
  | .write p i v => some (write s p i v)
  | .ensure words => (ensure s words).map (·.1)
  | .collect full => some (postCollect s full)

def run (s : T) : List Op → Option T
  | [] => some s
  | op :: ops =>
    match step s op with
    | none => none
    | some s => run s ops

end Avian.ThreadHeap
