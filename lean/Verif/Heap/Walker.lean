import Verif.Lib.Outcome

/-
Walking over the objects of the heap (src/heapwalk.cpp), as heap dumps and boot images do it.

An object is its address; null is 0.  The references of an object are the offsets that `walkNext` (machine.cpp:5591-5610) gives, which go
upwards (C18, C33).  A visitor may answer with any number for a new object, depending on all that it was told before.  Sizes are naturals
(in the source, indices are `int`).
-/
namespace Avian.HeapWalk

/-- The objects of the heap: the offsets of the references in an object, and where they lead (machine.cpp:5591-5610, heapwalk.cpp:222-226 `get`). -/
structure Graph where
  refs : Nat → List Nat
  target : Nat → Nat → Nat

/-- machine.cpp:5591-5610 `walkNext`; `start` is one more than `previous`, and `none` is -1. -/
def Graph.walkNext (g : Graph) (p start : Nat) : Option Nat := (g.refs p).find? fun o => decide (start ≤ o)

/-- heapwalk.cpp:27-32 `Set::Entry`; -1 is `none`. -/
structure Entry where
  value : Nat
  number : Nat
  next : Option Nat

/-- heapwalk.cpp:25-64 `Set`; `size` is the number of entries. -/
structure Table where
  capacity : Nat
  index : Nat → Option Nat
  entries : List Entry

/-- heapwalk.cpp:143-146 `hash` -/
def hash (p capacity : Nat) : Nat := (p >>> 3) &&& (capacity - 1)

/-- heapwalk.cpp:148-162 `find`: the loop.  Chains lead to smaller offsets, so that there are at most as many rounds as entries. -/
def Table.findLoop (t : Table) (p : Nat) : Nat → Option Nat → Option Nat
  | 0, _ => none
  | _ + 1, none => none
  | f + 1, some i =>
    match t.entries[i]? with
    | none => none
    | some e => if e.value = p then some i else t.findLoop p f e.next

/-- heapwalk.cpp:148-162 `find`: the offset of the entry. -/
def Table.find (t : Table) (p : Nat) : Option Nat := t.findLoop p (t.entries.length + 1) (t.index (hash p t.capacity))

/-- heapwalk.cpp:179-192 `add`: the table and the offset; `none` is the failed assertion. -/
def Table.add (t : Table) (p number : Nat) : Option (Table × Nat) :=
  if t.entries.length < t.capacity then
    let h := hash p t.capacity
    some ({ t with entries := t.entries ++ [⟨p, number, t.index h⟩], index := fun b => if b = h then some t.entries.length else t.index b }, t.entries.length)
  else none

/-- heapwalk.cpp:202-207: an empty table. -/
def Table.empty (capacity : Nat) : Table := ⟨capacity, fun _ => none, []⟩

/-- heapwalk.cpp:211-215: the entries of a chain go to the new table. -/
def Table.moveChain (old : Table) : Nat → Option Nat → Table → Option Table
  | 0, _, t => some t
  | _ + 1, none, t => some t
  | f + 1, some j, t =>
    match old.entries[j]? with
    | none => none
    | some e =>
      match t.add e.value e.number with
      | none => none
      | some (t, _) => old.moveChain f e.next t

/-- heapwalk.cpp:210-216: the chains from the one at `i`, of which there are `n`. -/
def Table.moveChains (old : Table) : Nat → Nat → Table → Option Table
  | 0, _, t => some t
  | n + 1, i, t =>
    match old.moveChain (old.entries.length + 1) (old.index i) t with
    | none => none
    | some t => old.moveChains n (i + 1) t

/-- heapwalk.cpp:194-223 `add` -/
def add : Option Table → Nat → Option (Table × Nat)
  | none, p => (Table.empty 4096).add p 0
  | some t, p =>
    if t.entries.length = t.capacity then
      match t.moveChains t.capacity 0 (.empty (t.capacity * 2)) with
      | none => none
      | some t => t.add p 0
    else t.add p 0

/-- `e->number = …` (heapwalk.cpp:244, 273) -/
def Table.setNumber (t : Table) (i number : Nat) : Table :=
  { t with entries := t.entries.modify i fun e => { e with number := number } }

/-- The number of an object in the table (heapwalk.cpp:164-172 `Set::find`; -1 is `none`). -/
def Table.number (t : Table) (p : Nat) : Option Nat := (t.find p).bind fun i => t.entries[i]?.map (·.number)

/-- heapwalk.cpp:66-84 `Stack`: a block of entries, the last one first, and those below. -/
abbrev Blocks := List (List (Nat × Nat))

/-- heapwalk.cpp:74 -/
def blockCapacity : Nat := 4096

/-- heapwalk.cpp:110-119 `push` -/
def push : Blocks → Nat × Nat → Blocks
  | [], e => [[e]]
  | b :: bs, e => if b.length = blockCapacity then [e] :: b :: bs else (e :: b) :: bs

/-- What `pop` does: nothing to pop, an entry, or an access in front of the entries of a block. -/
inductive Popped where
  | nothing
  | bad
  | entry (e : Nat × Nat) (blocks : Blocks)

/-- heapwalk.cpp:121-140 `pop` -/
def pop : Blocks → Popped
  | [] => .nothing
  | (e :: b) :: bs => .entry e (b :: bs)
  | [[]] => .nothing
  | [] :: (e :: b) :: bs => .entry e (b :: bs)
  | [] :: [] :: _ => .bad

/-- What a visitor is told (heapwalk.h:27-36). -/
inductive Event where
  | root
  | new (p number : Nat)
  | old (p number : Nat)
  | push (p number offset : Nat)
  | pop
  deriving DecidableEq

/-- Where the walk is: at the label `visit`, `children` or `pop`, or at the end. -/
inductive At where
  | visit (p : Nat)
  | children (p offset : Nat)
  | pop
  | done

/-- The walker, and what the visitor was told so far. -/
structure State where
  at_ : At
  objects : Table
  stack : Blocks
  events : List Event

/-- heapwalk.cpp:236-251: at `visit`. -/
def visitStep (g : Graph) (num : List Event → Nat → Nat) (s : State) (p : Nat) : Option State :=
  match s.objects.find p with
  | some i =>
    match s.objects.entries[i]? with
    | none => none
    | some e => some { s with events := s.events ++ [.old p e.number], at_ := .pop }
  | none =>
    match add (some s.objects) p with
    | none => none
    | some (t, i) =>
      let n := num s.events p
      let s' := { s with objects := t.setNumber i n, events := s.events ++ [Event.new p n] }
      match g.walkNext p 0 with
      | none => some { s' with at_ := .pop }
      | some o => some { s' with at_ := .children p o }

/-- heapwalk.cpp:236-275: from one label to the next; `none` is a failure. -/
def step (g : Graph) (num : List Event → Nat → Nat) (s : State) : Option State :=
  match s.at_ with
  | .done => some s
  | .visit p => visitStep g num s p
  | .children p o =>
    match s.objects.number p with
    | none => none
    | some n => some { s with events := s.events ++ [.push p n o], stack := push s.stack (p, o), at_ := .visit (g.target p o) }
  | .pop =>
    match pop s.stack with
    | .bad => none
    | .nothing => some { s with at_ := .done }
    | .entry (p, o) stack =>
      let s' := { s with stack := stack, events := s.events ++ [.pop] }
      match g.walkNext p (o + 1) with
      | some o' => some { s' with at_ := .children p o' }
      | none => some s'

/-- So many steps. -/
def run (g : Graph) (num : List Event → Nat → Nat) : Nat → State → Option State
  | 0, s => some s
  | n + 1, s =>
    match step g num s with
    | none => none
    | some s => run g num n s

/-- heapwalk.cpp:228-234: the walk from an object begins. -/
def startAt (s : State) (root : Nat) : State := { s with events := s.events ++ [.root], at_ := .visit root }

/-- heapwalk.cpp:281-285: the walker is made. -/
def initial (num : List Event → Nat → Nat) : Option State :=
  match add none 0 with
  | none => none
  | some (t, i) => some ⟨.done, t.setNumber i (num [] 0), [], [Event.new 0 (num [] 0)]⟩

/-- heapwalk.cpp:228-277 `walk` from an object after the other, with `n` as the limit of steps for each: the walker afterwards and the answers.
`visitAllRoots` (heapwalk.cpp:292-313) does the same with the roots of the machine. -/
def walks (g : Graph) (num : List Event → Nat → Nat) (n : Nat) : State → List Nat → Option (State × List Nat)
  | s, [] => some (s, [])
  | s, r :: rs =>
    match run g num n (startAt s r) with
    | none => none
    | some s =>
      match s.at_, s.objects.number r with
      | .done, some x =>
        match walks g num n s rs with
        | none => none
        | some (s, xs) => some (s, x :: xs)
      | _, _ => none

end Avian.HeapWalk
