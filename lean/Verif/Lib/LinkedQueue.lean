/-
The lock-free queue of the class library (classpath/java/util/concurrent/ConcurrentLinkedQueue.java)
as a transition system: one queue, any number of threads, one access to shared memory per step,
sequential consistency (all the fields are volatile).

Nodes are names; a new node gets a name that was not used before, since the collector does not reuse a
node that some thread still refers to.  `Atomic.compareAndSwapObject` is one step.  Elements are not
null.
-/
namespace Avian.LinkedQueue

abbrev Tid := Nat
abbrev Node := Nat

/-- ConcurrentLinkedQueue.java:39-40, 109-117: the fields of the queue and of its nodes. -/
structure Shared (V : Type) where
  head : Node
  tail : Node
  next : Node → Option Node
  value : Node → Option V
  fresh : Node

/-- function update -/
def set {α : Type} (f : Nat → α) (i : Nat) (v : α) : Nat → α := fun j => if j = i then v else f j

/-- Program counters.  `a…`: `add` (56-72); `p…`: `poll(boolean)` (84-107).  The arguments are the
local variables; `x` and `y` are the values of `tail` or `head` read on the way to one of its fields. -/
inductive Pc (V : Type) where
  | idle
  /-- a null pointer was followed -/
  | abort
  /-- 59: `t = tail` -/
  | a0 (n : Node)
  /-- 60: `x = tail` -/
  | a1 (n t : Node)
  /-- 60: `next = x.next` -/
  | a2 (n t x : Node)
  /-- 61-62: `if (t == tail) if (next != null)` -/
  | a3 (n t : Node) (next : Option Node)
  /-- 63: `compareAndSwapObject(this, QueueTail, t, next)` -/
  | a4 (n t next : Node)
  /-- 64: `y = tail` -/
  | a5 (n t : Node)
  /-- 64: `compareAndSwapObject(y, NodeNext, null, n)` -/
  | a6 (n t y : Node)
  /-- 65: `compareAndSwapObject(this, QueueTail, t, n)` -/
  | a7 (n t : Node)
  /-- 86: `h = head` -/
  | p0 (remove : Bool)
  /-- 87: `t = tail` -/
  | p1 (remove : Bool) (h : Node)
  /-- 88: `x = head` -/
  | p2 (remove : Bool) (h t : Node)
  /-- 88: `next = x.next` -/
  | p3 (remove : Bool) (h t x : Node)
  /-- 90-92: `if (h == head) if (h == t) if (next != null)` -/
  | p4 (remove : Bool) (h t : Node) (next : Option Node)
  /-- 93: `compareAndSwapObject(this, QueueTail, t, next)` -/
  | p5 (remove : Bool) (t next : Node)
  /-- 98: `value = next.value` -/
  | p6 (remove : Bool) (h : Node) (next : Option Node)
  /-- 99-102: `if (! remove || compareAndSwapObject(this, QueueHead, h, next)) return value` -/
  | p7 (remove : Bool) (h next : Node) (value : Option V)
  deriving DecidableEq

/-- What a step shows to the outside: calls and returns, and the moments at which the queue changes. -/
inductive Label (V : Type) where
  | tau
  | callAdd (v : V)
  | callPoll (remove : Bool)
  /-- a node was linked to the last one -/
  | enq (v : Option V)
  /-- `add` returned -/
  | added
  /-- `poll()` returned an element, after it had moved `head` in the same step -/
  | deq (v : Option V)
  /-- `peek()` returned an element -/
  | peeked (v : Option V)
  /-- `poll()` or `peek()` returned null -/
  | null
  deriving DecidableEq

variable {V : Type}

/-- One step of a thread within an operation. -/
def step (s : Shared V) : Pc V → Shared V × Pc V × Label V
  | .idle => (s, .idle, .tau)
  | .abort => (s, .abort, .tau)
  | .a0 n => (s, .a1 n s.tail, .tau)
  | .a1 n t => (s, .a2 n t s.tail, .tau)
  | .a2 n t x => (s, .a3 n t (s.next x), .tau)
  | .a3 n t next =>
    if t = s.tail then
      match next with
      | some m => (s, .a4 n t m, .tau)
      | none => (s, .a5 n t, .tau)
    else (s, .a0 n, .tau)
  | .a4 n t m => (if s.tail = t then { s with tail := m } else s, .a0 n, .tau)
  | .a5 n t => (s, .a6 n t s.tail, .tau)
  | .a6 n t y =>
    if s.next y = none then ({ s with next := set s.next y (some n) }, .a7 n t, .enq (s.value n))
    else (s, .a0 n, .tau)
  | .a7 n t => (if s.tail = t then { s with tail := n } else s, .idle, .added)
  | .p0 r => (s, .p1 r s.head, .tau)
  | .p1 r h => (s, .p2 r h s.tail, .tau)
  | .p2 r h t => (s, .p3 r h t s.head, .tau)
  | .p3 r h t x => (s, .p4 r h t (s.next x), .tau)
  | .p4 r h t next =>
    if h = s.head then
      if h = t then
        match next with
        | some m => (s, .p5 r t m, .tau)
        | none => (s, .idle, .null)
      else (s, .p6 r h next, .tau)
    else (s, .p0 r, .tau)
  | .p5 r t m => (if s.tail = t then { s with tail := m } else s, .p0 r, .tau)
  | .p6 r h next =>
    match next with
    | some m => (s, .p7 r h m (s.value m), .tau)
    | none => (s, .abort, .tau)
  | .p7 r h m v =>
    if r = false then (s, .idle, .peeked v)
    else if s.head = h then ({ s with head := m }, .idle, .deq v)
    else (s, .p0 r, .tau)

structure Sys (V : Type) where
  sh : Shared V
  pc : Tid → Pc V

/-- ConcurrentLinkedQueue.java:39-40. -/
def init : Sys V := ⟨⟨0, 0, fun _ => none, fun _ => none, 1⟩, fun _ => .idle⟩

/-- ConcurrentLinkedQueue.java:57 `new Node<T>(value, null)`; no other thread knows the node yet. -/
def newNode (s : Shared V) (v : V) : Shared V :=
  { s with value := set s.value s.fresh (some v), next := set s.next s.fresh none, fresh := s.fresh + 1 }

/-- The executions: any thread may call an operation if it is in none, or take a step of the one it is
in. -/
inductive Exec : List (Tid × Label V) → Sys V → Prop where
  | init : Exec [] init
  | add {ls s} (t : Tid) (v : V) : Exec ls s → s.pc t = .idle →
      Exec (ls ++ [(t, .callAdd v)]) ⟨newNode s.sh v, set s.pc t (.a0 s.sh.fresh)⟩
  | poll {ls s} (t : Tid) (remove : Bool) : Exec ls s → s.pc t = .idle →
      Exec (ls ++ [(t, .callPoll remove)]) ⟨s.sh, set s.pc t (.p0 remove)⟩
  | step {ls s} (t : Tid) : Exec ls s → s.pc t ≠ .idle → s.pc t ≠ .abort →
      Exec (ls ++ [(t, (step s.sh (s.pc t)).2.2)]) ⟨(step s.sh (s.pc t)).1, set s.pc t (step s.sh (s.pc t)).2.1⟩

end Avian.LinkedQueue
