/-
A task whose outcome is waited for (classpath/java/util/concurrent/FutureTask.java).

Any number of threads call `run`, `cancel`, `get`, `isDone` and `isCancelled`.  Each access to a
shared field is one step.  `notifyLock` is modelled by its holder; a notification, which takes and
leaves the lock, is one step.  The callable answers with a value (`none` is null) or a thrown
object, whenever it likes, and may clear its thread's interrupt flag, but does not itself call the
task it belongs to.  `done` is the default, empty one.

The clock is arbitrary: whether a timed `get` has no time left is a `Bool` chosen when it is called
and whenever it wakes up.  `Long.MAX_VALUE` milliseconds are taken as for ever.
-/
namespace Avian.FutureTask

abbrev Tid := Nat

/-- FutureTask.java:16 -/
inductive St where
  | new | canceling | canceled | running | done
  deriving DecidableEq

/-- What the callable did: returned a value or threw. -/
inductive Out (V E : Type) where
  | value (v : Option V)
  | thrown (e : E)
  deriving DecidableEq

inductive Op where
  | run
  | cancel (mayInterrupt : Bool)
  /-- `timed` is `false` for a limit of `Long.MAX_VALUE`; `over`: the limit is not positive -/
  | get (timed over : Bool)
  | isDone
  | isCancelled
  deriving DecidableEq

/-- How `get` ends. -/
inductive Res (V E : Type) where
  | value (v : Option V)
  /-- ExecutionException -/
  | failed (e : E)
  /-- CancellationException -/
  | cancelled
  /-- TimeoutException -/
  | timeout
  /-- InterruptedException -/
  | interrupted
  deriving DecidableEq

/-- Where a thread is; the line about to be executed. -/
inductive Pc where
  | idle
  /-- 47 -/
  | rCas
  /-- 48 -/
  | rSetThread
  /-- 50, before the call -/
  | rCall
  /-- 50, inside the call -/
  | rCalling
  /-- 54 -/
  | rFinish
  /-- 55 -/
  | rLook
  /-- 68 -/
  | rSleep
  /-- 74 -/
  | rClear
  /-- 75 -/
  | rNotify
  /-- 76 -/
  | rUnset
  /-- 95 -/
  | cCas (m : Bool)
  /-- 96 -/
  | cNotify (m : Bool)
  /-- 100 -/
  | cCas2
  /-- 103 -/
  | cRead
  /-- 105 -/
  | cInterrupt (r : Tid)
  /-- 111, with the result to return -/
  | cSet (b : Bool)
  /-- 148, and coming back from the wait in 151 -/
  | gEnter (timed over : Bool)
  /-- 150, `isDone`'s first read (125) -/
  | gRead1 (timed over : Bool)
  /-- 150, `isDone`'s second read (120) and the beginning of the wait -/
  | gRead2 (timed over : Bool)
  /-- 151 -/
  | gWait (timed : Bool)
  /-- 159-161 -/
  | gState (timed over : Bool)
  /-- 163 -/
  | gFailure (timed : Bool)
  /-- 166 -/
  | gResult (timed : Bool)
  /-- 125 -/
  | dRead1
  /-- 120 -/
  | dRead2
  /-- 120 -/
  | isCancelled
  deriving DecidableEq

/-- FutureTask.java:18-23, the holder of `notifyLock`, and the threads' interrupt flags. -/
structure State (V E : Type) where
  st : St
  runningThread : Option Tid
  result : Option V
  failure : Option E
  lock : Option Tid
  intr : Tid → Bool
  pc : Tid → Pc

/-- FutureTask.java:36-43 -/
def init (V E : Type) : State V E :=
  { st := .new, runningThread := none, result := none, failure := none, lock := none,
    intr := fun _ => false, pc := fun _ => .idle }

/-- What can be seen from outside. -/
inductive Ev (V E : Type) where
  | call (op : Op)
  /-- `run` returns -/
  | ranOut
  /-- `cancel m` returns `b` -/
  | cancel (m b : Bool)
  /-- `get` ends -/
  | got (timed : Bool) (r : Res V E)
  | isDone (b : Bool)
  | isCancelled (b : Bool)
  /-- the callable is called -/
  | callStart
  /-- the callable has returned or thrown -/
  | callEnd (o : Out V E)
  /-- `cancel` interrupts the thread `r` -/
  | interrupts (r : Tid)
  /-- somebody else interrupts the thread -/
  | outside
  /-- a wait ends without notification -/
  | woke
  deriving DecidableEq

/-- What the environment chooses. -/
inductive Act (V E : Type) where
  | call (op : Op)
  /-- the next step of the operation -/
  | go
  /-- the callable answers -/
  | answer (o : Out V E)
  /-- the callable clears its thread's interrupt flag, as catching InterruptedException does -/
  | clear
  /-- a wait ends without notification: time out or no reason at all; is the time over? -/
  | wake (over : Bool)
  /-- somebody interrupts the thread -/
  | interrupt
  deriving DecidableEq

variable {V E : Type}

/-- Update at one place. -/
def set {α : Type} (f : Tid → α) (t : Tid) (x : α) : Tid → α := fun u => if u = t then x else f u

/-- The thread goes on at `p`. -/
def goto (s : State V E) (t : Tid) (p : Pc) : State V E := { s with pc := set s.pc t p }

/-- Object.notifyAll: every waiting thread is to enter the monitor again. -/
def awake : Pc → Pc
  | .gWait timed => .gEnter timed false
  | p => p

/-- The line at which an operation begins. -/
def start : Op → Pc
  | .run => .rCas
  | .cancel m => .cCas m
  | .get timed over => .gEnter timed (timed && over)
  | .isDone => .dRead1
  | .isCancelled => .isCancelled

/-- One step of thread `t`; `none` if it cannot be taken. -/
def step (s : State V E) (t : Tid) : Act V E → Option (State V E × List (Ev V E))
  | .call op => if s.pc t = .idle then some (goto s t (start op), [.call op]) else none
  | .interrupt => some ({ s with intr := set s.intr t true }, [.outside])
  | .answer o =>
    if s.pc t = .rCalling then
      match o with
      | .value v => some (goto { s with result := v } t .rFinish, [.callEnd o])
      | .thrown e => some (goto { s with failure := some e } t .rFinish, [.callEnd o])
    else none
  | .clear =>
    if s.pc t = .rCalling then some ({ s with intr := set s.intr t false }, []) else none
  | .wake over =>
    match s.pc t with
    | .gWait timed => some (goto s t (.gEnter timed (timed && over)), [.woke])
    | _ => none
  | .go =>
    match s.pc t with
    | .idle => none
    | .rCas =>
      if s.st = .new then some (goto { s with st := .running } t .rSetThread, [])
      else some (goto s t .idle, [.ranOut])
    | .rSetThread => some (goto { s with runningThread := some t } t .rCall, [])
    | .rCall => some (goto s t .rCalling, [.callStart])
    | .rCalling => none
    | .rFinish =>
      if s.st = .running then some (goto { s with st := .done } t .rClear, [])
      else some (goto s t .rLook, [])
    | .rLook =>
      if s.st = .canceled then some (goto s t .rClear, []) else some (goto s t .rSleep, [])
    | .rSleep =>
      if s.intr t then some (goto { s with intr := set s.intr t false } t .rClear, []) else none
    | .rClear => some (goto { s with intr := set s.intr t false } t .rNotify, [])
    | .rNotify =>
      if s.lock = none then some (goto { s with pc := fun u => awake (s.pc u) } t .rUnset, [])
      else none
    | .rUnset => some (goto { s with runningThread := none } t .idle, [.ranOut])
    | .cCas m =>
      if s.st = .new then some (goto { s with st := .canceled } t (.cNotify m), [])
      else if m then some (goto s t .cCas2, [])
      else some (goto s t .idle, [.cancel m false])
    | .cNotify m =>
      if s.lock = none then
        some (goto { s with pc := fun u => awake (s.pc u) } t .idle,
          [.cancel m true])
      else none
    | .cCas2 =>
      if s.st = .running then some (goto { s with st := .canceling } t .cRead, [])
      else some (goto s t .idle, [.cancel true false])
    | .cRead =>
      match s.runningThread with
      | some r => some (goto s t (.cInterrupt r), [])
      | none => some (goto s t (.cSet false), [])
    | .cInterrupt r =>
      some (goto { s with intr := set s.intr r true } t (.cSet true), [.interrupts r])
    | .cSet b =>
      some (goto { s with st := .canceled } t .idle, [.cancel true b])
    | .gEnter timed over =>
      if s.lock = none then some (goto { s with lock := some t } t (.gRead1 timed over), [])
      else none
    | .gRead1 timed over =>
      if s.st = .done then some (goto { s with lock := none } t (.gState timed over), [])
      else some (goto s t (.gRead2 timed over), [])
    | .gRead2 timed over =>
      if s.st = .canceled ∨ over = true then
        some (goto { s with lock := none } t (.gState timed over), [])
      else some (goto { s with lock := none } t (.gWait timed), [])
    | .gWait timed =>
      if s.intr t then
        some (goto { s with intr := set s.intr t false } t .idle,
          [.got timed .interrupted])
      else none
    | .gState timed over =>
      if over then some (goto s t .idle, [.got timed .timeout])
      else if s.st = .canceled then some (goto s t .idle, [.got timed .cancelled])
      else some (goto s t (.gFailure timed), [])
    | .gFailure timed =>
      match s.failure with
      | some e => some (goto s t .idle, [.got timed (.failed e)])
      | none => some (goto s t (.gResult timed), [])
    | .gResult timed => some (goto s t .idle, [.got timed (.value s.result)])
    | .dRead1 =>
      if s.st = .done then some (goto s t .idle, [.isDone true])
      else some (goto s t .dRead2, [])
    | .dRead2 =>
      some (goto s t .idle, [.isDone (decide (s.st = .canceled))])
    | .isCancelled =>
      some (goto s t .idle, [.isCancelled (decide (s.st = .canceled))])

/-- An execution from `s`; the events of each thread, latest first. -/
inductive Steps (s : State V E) : List (Tid × Ev V E) → State V E → Prop where
  | refl : Steps s [] s
  | step {tr : List (Tid × Ev V E)} {s1 s2 : State V E} {t : Tid} {a : Act V E}
      {evs : List (Ev V E)} :
      Steps s tr s1 → step s1 t a = some (s2, evs) → Steps s (evs.map (fun e => (t, e)) ++ tr) s2

/-- The events of given choices, for concrete executions. -/
def runActs (s : State V E) (tr : List (Tid × Ev V E)) :
    List (Tid × Act V E) → Option (State V E × List (Tid × Ev V E))
  | [] => some (s, tr)
  | (t, a) :: rest =>
    match step s t a with
    | some (s', evs) => runActs s' (evs.map (fun e => (t, e)) ++ tr) rest
    | none => none

end Avian.FutureTask
