/-!
Thread state changes: `enter` (src/machine.cpp:4041-4234) as a transition system in which every
step is one access to shared memory (`activeCount`, `exclusive`, the state lock), for any number of
threads, under sequential consistency.

Each thread has a program counter `Pc`.  The fields of the machine that `enter` shares are
`activeCount`, `exclusive`, the owner of `stateLock` and the set of threads waiting on it.
`t->state` is written and read only by `t` itself inside `enter`, so it is part of the program
counter; its stores are still separate steps.

Waiting on the state lock gives up the lock and marks the thread as waiting in one step; a wake-up
re-acquires the lock.  A thread may also wake up without being notified (interrupts,
src/system/posix.cpp).  The lock is re-entrant, so acquiring it again inside `ENTER(t, IdleState)`
(src/machine.cpp:4071) is no step.

Left out: `liveCount`/`daemonCount` bookkeeping, and the exit state, which is entered only by the
last live thread (src/machine.cpp:178-184).  The build without `USE_ATOMIC_OPERATIONS`, where all of
`enter` holds the lock, is not modelled.
-/

namespace Avian.Enter

/-- Thread names; `n` threads are `0 … n-1`. -/
abbrev Tid := Nat

/-- src/avian/machine.h:1124-1133 `Thread::State` (without the exit and joined states). -/
inductive TState where
  | noState | active | idle | zombie | exclusive
  deriving DecidableEq, Repr

/-- Program counters of `enter` (src/machine.cpp:4041-4234). Resting positions are outside `enter`.
`x…` is the request for the exclusive state, with `old` telling whether it came from the active
state; `i…` the fast path to idle; `z…` the slow path to idle or zombie; `a…` the paths to active;
`e…` the way from exclusive to active. -/
inductive Pc where
  | noState | active | idle | exclusive | zombie
  | x0 (old : Bool) | x1 (old : Bool) | x2 | x2b | x2c | x2n | x3 (old : Bool) | x3w (old : Bool)
  | x4 | x4f | x4g | x4h | x4i | x4j | x4k | x4n | x4s | x4d | x4w | x4t | x4u
  | x5 (old : Bool) | x6 (old : Bool) | x7 | x8 | x8d | x8w | x9
  | i1 | i2 | i3 | i4 | i5 | i6
  | z0 (ex zb : Bool) | z1 (ex zb : Bool) | z2 (zb : Bool) | z3 (zb : Bool) | z4 (zb : Bool)
  | z5 (zb : Bool)
  | a1 | a2 | a3 | a4 | a5 | a6 | a7 | a7l | a7n | a7r
  | a8 (new : Bool) | a9 (new : Bool) | a9d (new : Bool) | a9w (new : Bool) | a10 (new : Bool)
  | a11 (new : Bool) | a12
  | e0 | e1 | e2 | e3 | e4
  deriving DecidableEq, Repr

/-- The shared part (`Machine`): src/avian/machine.h `activeCount`, `exclusive`, `stateLock`. -/
structure Shared where
  count : Int
  excl : Option Tid
  lock : Option Tid
  waiting : Tid → Bool

/-- `stateLock->notifyAll` (src/system/posix.cpp): all waiters may go on. -/
def Shared.notifyAll (s : Shared) : Shared := { s with waiting := fun _ => false }

/-- taking the lock -/
def Shared.take (s : Shared) (t : Tid) : Shared := { s with lock := some t }

/-- giving the lock back -/
def Shared.drop (s : Shared) : Shared := { s with lock := none }

/-- `activeCount += d` (`INCREMENT`, src/machine.cpp:4053) -/
def Shared.add (s : Shared) (d : Int) : Shared := { s with count := s.count + d }

/-- `stateLock->wait`: give up the lock and wait -/
def Shared.sleep (s : Shared) (t : Tid) : Shared :=
  { s with lock := none, waiting := fun u => if u = t then true else s.waiting u }

/-- return from `stateLock->wait`: hold the lock again -/
def Shared.wake (s : Shared) (t : Tid) : Shared :=
  { s with lock := some t, waiting := fun u => if u = t then false else s.waiting u }

/-- One step of thread `t` inside (or into, or out of) `enter`. -/
inductive Local (t : Tid) (s : Shared) : Pc → Shared → Pc → Prop where
  -- calls (the early return for an unchanged state, src/machine.cpp:4045, is no step)
  | callExclA : Local t s .active s (.x0 true)
  | callExclI : Local t s .idle s (.x0 false)
  | callIdleA : Local t s .active s .i1
  | callIdleX : Local t s .exclusive s (.z0 true false)
  | callZombieA : Local t s .active s (.z0 false true)
  | callZombieX : Local t s .exclusive s (.z0 true true)
  | callActiveI : Local t s .idle s .a1
  | callActiveN : Local t s .noState s (.a8 true)
  | callActiveX : Local t s .exclusive s .e0
  -- src/machine.cpp:4067: lock
  | x0 (o) : s.lock = none → Local t s (.x0 o) (s.take t) (.x1 o)
  -- 4069: while (exclusive)
  | x1busyA : s.excl ≠ none → Local t s (.x1 true) s .x2
  | x1busyI : s.excl ≠ none → Local t s (.x1 false) s (.x3 false)
  | x1free (o) : s.excl = none → Local t s (.x1 o) s (.x5 o)
  -- 4071: ENTER(Idle) through the fast path 4098-4112
  | x2 : Local t s .x2 (s.add (-1)) .x2b
  | x2b : Local t s .x2b s .x2c
  | x2cSome : s.excl ≠ none → Local t s .x2c s .x2n
  | x2cNone : s.excl = none → Local t s .x2c s (.x3 true)
  | x2n : Local t s .x2n s.notifyAll (.x3 true)
  -- 4072: wait
  | x3 (o) : Local t s (.x3 o) (s.sleep t) (.x3w o)
  | x3wA : s.lock = none → Local t s (.x3w true) (s.wake t) .x4
  | x3wI : s.lock = none → Local t s (.x3w false) (s.wake t) (.x1 false)
  -- end of ENTER(Idle): enter(Active), fast path 4153-4168
  | x4free : s.excl = none → Local t s .x4 s .x4f
  | x4busy : s.excl ≠ none → Local t s .x4 s .x4s
  | x4f : Local t s .x4f (s.add 1) .x4g
  | x4g : Local t s .x4g s .x4h
  | x4hfree : s.excl = none → Local t s .x4h s (.x1 true)
  | x4hbusy : s.excl ≠ none → Local t s .x4h s .x4i
  | x4i : Local t s .x4i (s.add (-1)) .x4j
  | x4j : Local t s .x4j s .x4k
  | x4kSome : s.excl ≠ none → Local t s .x4k s .x4n
  | x4kNone : s.excl = none → Local t s .x4k s .x4s
  | x4n : Local t s .x4n s.notifyAll .x4s
  -- slow path 4185-4193
  | x4sbusy : s.excl ≠ none → Local t s .x4s s .x4d
  | x4sfree : s.excl = none → Local t s .x4s s .x4t
  | x4d : Local t s .x4d (s.sleep t) .x4w
  | x4w : s.lock = none → Local t s .x4w (s.wake t) .x4s
  | x4t : Local t s .x4t (s.add 1) .x4u
  | x4u : Local t s .x4u s (.x1 true)
  -- 4075-4085
  | x5A : Local t s (.x5 true) s (.x6 true)
  | x5I : Local t s (.x5 false) (s.add 1) (.x6 false)
  -- 4087-4088
  | x6 (o) : Local t s (.x6 o) s .x7
  | x7 : Local t s .x7 { s with excl := some t } .x8
  -- 4092: while (activeCount > 1) wait
  | x8busy : s.count > 1 → Local t s .x8 s .x8d
  | x8ok : ¬ s.count > 1 → Local t s .x8 s .x9
  | x8d : Local t s .x8d (s.sleep t) .x8w
  | x8w : s.lock = none → Local t s .x8w (s.wake t) .x8
  | x9 : Local t s .x9 s.drop .exclusive
  -- 4098-4112: to idle, fast path
  | i1 : Local t s .i1 (s.add (-1)) .i2
  | i2 : Local t s .i2 s .i3
  | i3none : s.excl = none → Local t s .i3 s .idle
  | i3some : s.excl ≠ none → Local t s .i3 s .i4
  | i4 : s.lock = none → Local t s .i4 (s.take t) .i5
  | i5 : Local t s .i5 s.notifyAll .i6
  | i6 : Local t s .i6 s.drop .idle
  -- 4119-4150: slow path to idle or zombie
  | z0 (ex zb) : s.lock = none → Local t s (.z0 ex zb) (s.take t) (.z1 ex zb)
  | z1X (zb) : Local t s (.z1 true zb) { s with excl := none } (.z2 zb)
  | z1A (zb) : Local t s (.z1 false zb) s (.z2 zb)
  | z2 (zb) : Local t s (.z2 zb) (s.add (-1)) (.z3 zb)
  | z3 (zb) : Local t s (.z3 zb) s (.z4 zb)
  | z4 (zb) : Local t s (.z4 zb) s.notifyAll (.z5 zb)
  | z5 (zb) : Local t s (.z5 zb) s.drop (if zb then .zombie else .idle)
  -- 4153-4168: to active, fast path
  | a1free : s.excl = none → Local t s .a1 s .a2
  | a1busy : s.excl ≠ none → Local t s .a1 s (.a8 false)
  | a2 : Local t s .a2 (s.add 1) .a3
  | a3 : Local t s .a3 s .a4
  | a4free : s.excl = none → Local t s .a4 s .active
  | a4busy : s.excl ≠ none → Local t s .a4 s .a5
  | a5 : Local t s .a5 (s.add (-1)) .a6
  | a6 : Local t s .a6 s .a7
  | a7none : s.excl = none → Local t s .a7 s (.a8 false)
  | a7some : s.excl ≠ none → Local t s .a7 s .a7l
  | a7l : s.lock = none → Local t s .a7l (s.take t) .a7n
  | a7n : Local t s .a7n s.notifyAll .a7r
  | a7r : Local t s .a7r s.drop (.a8 false)
  -- 4171-4197: slow path
  | a8 (nw) : s.lock = none → Local t s (.a8 nw) (s.take t) (.a9 nw)
  | a9busy (nw) : s.excl ≠ none → Local t s (.a9 nw) s (.a9d nw)
  | a9free (nw) : s.excl = none → Local t s (.a9 nw) s (.a10 nw)
  | a9d (nw) : Local t s (.a9d nw) (s.sleep t) (.a9w nw)
  | a9w (nw) : s.lock = none → Local t s (.a9w nw) (s.wake t) (.a9 nw)
  | a10 (nw) : Local t s (.a10 nw) (s.add 1) (.a11 nw)
  | a11 (nw) : Local t s (.a11 nw) s .a12
  | a12 : Local t s .a12 s.drop .active
  -- 4174-4181: exclusive to active
  | e0 : s.lock = none → Local t s .e0 (s.take t) .e1
  | e1 : Local t s .e1 s .e2
  | e2 : Local t s .e2 { s with excl := none } .e3
  | e3 : Local t s .e3 s.notifyAll .e4
  | e4 : Local t s .e4 s.drop .active

/-- A machine with its threads. -/
structure Sys where
  sh : Shared
  pc : Tid → Pc

/-- set the program counter of one thread -/
def upd (f : Tid → Pc) (t : Tid) (p : Pc) : Tid → Pc := fun u => if u = t then p else f u

/-- One step of one of `n` threads. -/
inductive Step (n : Nat) (s : Sys) : Sys → Prop where
  | mk (t : Tid) (sh' : Shared) (p' : Pc) : t < n → Local t s.sh (s.pc t) sh' p' →
      Step n s ⟨sh', upd s.pc t p'⟩

/-- Start of the machine: no thread has entered a state (src/machine.cpp, `Machine` constructor:
`activeCount(0)`, `exclusive(0)`). -/
def init : Sys := ⟨⟨0, none, none, fun _ => false⟩, fun _ => .noState⟩

/-- Reachable states of a machine with `n` threads. -/
inductive Reachable (n : Nat) : Sys → Prop where
  | init : Reachable n init
  | step {s s'} : Reachable n s → Step n s s' → Reachable n s'

/-- The thread state of a thread that is outside `enter` (and so runs, or may run, in that state). -/
def restState : Pc → Option TState
  | .noState => some .noState
  | .active => some .active
  | .idle => some .idle
  | .exclusive => some .exclusive
  | .zombie => some .zombie
  | _ => none

end Avian.Enter
