/-
Model of the tree of threads.
Sources: /repo/src/machine.cpp 94-153 (`dispose`), 155-165 (`visitAll`), 167-170 (`disposeNoRemove`),
252-275 (`killZombies`), 3822-3858 (constructor and `init`), 3959-3974 (`Thread::dispose`);
/repo/src/avian/machine.h 1832-1871 (`addThread`, `removeThread`).

Simplifications: a thread is a number, 0 is the null pointer; reading or writing a field of a thread
that is not allocated gives `none`, as does `abort`; the checks compiled in only without NDEBUG are
left out; loops take fuel (the number of threads is enough, which is proved).
-/
namespace Avian.Threads

/-- The links of the threads, the root, the allocated threads and the machine's counter. -/
structure St where
  parent : Nat → Nat
  peer : Nat → Nat
  child : Nat → Nat
  root : Nat
  alloc : List Nat
  threadCount : Int
  /-- the threads a visit was made to (not in the code) -/
  log : List Nat

def upd (f : Nat → Nat) (i v : Nat) : Nat → Nat := fun j => if j = i then v else f j

/-- Read a field of `o`. -/
def rd (s : St) (f : Nat → Nat) (o : Nat) : Option Nat := if o ∈ s.alloc then some (f o) else none

def setParent (s : St) (o v : Nat) : Option St :=
  if o ∈ s.alloc then some { s with parent := upd s.parent o v } else none
def setPeer (s : St) (o v : Nat) : Option St :=
  if o ∈ s.alloc then some { s with peer := upd s.peer o v } else none
def setChild (s : St) (o v : Nat) : Option St :=
  if o ∈ s.alloc then some { s with child := upd s.child o v } else none

/-- machine.cpp 3697, 3822-3858: the machine with its first thread. -/
def start (o : Nat) : St :=
  { parent := fun _ => 0, peer := fun _ => 0, child := fun _ => 0, root := o, alloc := [o], threadCount := 1, log := [] }

/-- machine.h 1832-1851 `addThread`, for a thread `p` just made with parent `q` (machine.cpp
3822-3847). -/
def addThread (s : St) (p q : Nat) : Option St := do
  let s : St := { s with
    alloc := p :: s.alloc
    parent := upd s.parent p q
    peer := upd s.peer p 0
    child := upd s.child p 0
    threadCount := s.threadCount + 1 }
  let c ← rd s s.child q
  let s ← setPeer s p c
  setChild s q p

/-- machine.cpp 3959-3974 `Thread::dispose` and the processor's, which frees the thread. -/
def free (s : St) (o : Nat) : Option St :=
  if o ∈ s.alloc then some { s with alloc := s.alloc.erase o, threadCount := s.threadCount - 1 } else none

/-- machine.h 1853-1871 `removeThread` -/
def removeThread (s : St) (p : Nat) : Option St := do
  let s := { s with threadCount := s.threadCount - 1 }
  let q ← rd s s.parent p
  let n ← rd s s.peer p
  let s ← setChild s q n
  free s p

/-- machine.cpp 106-119: take `o` off the list of its parent `q`. -/
def unlink (o q : Nat) : Nat → Nat → Nat → St → Option St
  | 0, _, _, _ => none
  | n + 1, previous, p, s =>
    if p = 0 then some s
    else if p = o then do
      let first ← rd s s.child q
      let next ← rd s s.peer p
      if p = first then setChild s q next else setPeer s previous next
    else do
      let next ← rd s s.peer p
      unlink o q n p next s

/-- machine.cpp 121-127: hand the children of `o` on to its parent `q`. -/
def adopt (q : Nat) : Nat → Nat → St → Option St
  | 0, _, _ => none
  | n + 1, p, s =>
    if p = 0 then some s
    else do
      let next ← rd s s.peer p
      let c ← rd s s.child q
      let s ← setPeer s p c
      let s ← setChild s q p
      let s ← setParent s p q
      adopt q n next s

/-- machine.cpp 131-136: the peers of the old root go in front of the new one. -/
def pushPeers : Nat → Nat → St → Option St
  | 0, _, _ => none
  | n + 1, p, s =>
    if p = 0 then some s
    else do
      let next ← rd s s.peer p
      let s ← setPeer s p s.root
      pushPeers n next { s with root := p }

/-- machine.cpp 94-153 `dispose(t, o, true)` -/
def dispose (s : St) (o : Nat) : Option St := do
  let n := s.alloc.length + 1
  let q ← rd s s.parent o
  let k ← rd s s.child o
  let e ← rd s s.peer o
  let s ← if q ≠ 0 then do
      let first ← rd s s.child q
      let s ← unlink o q n 0 first s
      let k ← rd s s.child o
      adopt q n k s
    else if k ≠ 0 then pushPeers n e { s with root := k }
    else if e ≠ 0 then some { s with root := e }
    else none
  free s o

mutual
/-- machine.cpp 155-165 `visitAll`, 252-261 -/
def visitAll (visit : St → Nat → Option St) : Nat → St → Nat → Option St
  | 0, _, _ => none
  | n + 1, s, o => do
    let p ← rd s s.child o
    let s ← visitKids visit n s p
    visit s o
/-- the loop in `visitAll` -/
def visitKids (visit : St → Nat → Option St) : Nat → St → Nat → Option St
  | 0, _, _ => none
  | n + 1, s, p =>
    if p = 0 then some s
    else do
      let next ← rd s s.peer p
      let s ← visitAll visit n s p
      visitKids visit n s next
end

/-- machine.cpp 252-275 `killZombies`; `zombie o` says that the state of `o` is `ZombieState` or
`JoinedState` and that it is no system thread. -/
def killZombies (zombie : Nat → Bool) : Nat → St → Nat → Option St :=
  visitAll fun s o => if zombie o then dispose s o else some s

end Avian.Threads
