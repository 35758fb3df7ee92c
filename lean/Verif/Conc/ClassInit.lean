/-
Model of the initialization of classes by several threads.
Sources: /repo/src/machine.cpp 3579-3587 (`isInitializing`), 5188-5222 (`preInitClass`), 5224-5248
(`postInitClass`), 5250-5270 (`initClass`), 2610-2613 and 4815-4816 (who needs initialization);
/repo/src/avian/machine.h 182-184 (flags), 1206-1230 (`ClassInitStack`).

A step is one access to shared memory, or several made while holding the class lock that only the
holder of the lock can see.  Any number of threads; sequentially consistent memory.

Simplifications: `classLock` is a mutex with a set of sleepers (the monitor itself is C31), and a
thread that asks for initialization does not hold it already; a sleeper may wake at any time; a call
from an initializer to code that uses classes is a call of `initClass`; making the error objects does
not fail.
-/
namespace Avian.ClassInit

/-- The classes: superclass, and whether there is a `<clinit>`.  `marked` are the classes without
one that have inherited `NeedInitFlag` (machine.cpp 4815-4816). -/
structure Prog where
  super : Nat → Option Nat
  hasInit : Nat → Bool
  marked : Nat → Bool

/-- How an initializer ends: normally, with an `Exception` or with another throwable. -/
inductive Kind
  | ok
  | exc
  | err
  deriving DecidableEq

/-- What can be observed, with the thread and the class.  A request is known by the number of
events before it. -/
inductive Ev
  | called (t c : Nat)
  | returned (t c id : Nat)
  | threw (t c id : Nat)
  | started (t c : Nat)
  | finished (t c : Nat) (k : Kind)
  /-- the class has been marked as failed -/
  | failed (c : Nat)
  deriving DecidableEq

/-- Where a call of `initClass` is. -/
inductive Pc
  | start
  /-- in the call for the superclass (5256) -/
  | super
  /-- at the unlocked test (5190-5194) -/
  | check
  /-- at `ACQUIRE` (5196) -/
  | lock
  /-- has the lock (5198) -/
  | decide
  /-- asleep in `wait` (5210) -/
  | asleep
  /-- to get the lock back -/
  | woken
  /-- has the lock, at the test of the loop (5208) -/
  | test
  /-- `preInitClass` has returned true (5259) -/
  | run
  /-- in the initializer (5267) -/
  | body
  /-- at `ACQUIRE` in `postInitClass` (5227) -/
  | post (k : Kind)
  /-- has the lock (5229) -/
  | postLocked (k : Kind)
  /-- 5232 -/
  | postError
  /-- to unwind from 5243, which releases the lock -/
  | postThrow
  /-- 5247 -/
  | postNotify (k : Kind)
  /-- to release the lock -/
  | postRelease (k : Kind)
  /-- the call for the superclass has thrown -/
  | fail
  deriving DecidableEq

structure Frame where
  cls : Nat
  pc : Pc
  /-- the number of events when the request was made (not in the code) -/
  born : Nat
  deriving DecidableEq

structure Shared where
  need : Nat → Bool
  init : Nat → Bool
  err : Nat → Bool
  holder : Option Nat
  /-- who has set `InitFlag` (not in the code) -/
  owner : Nat → Option Nat
  log : List Ev

structure St where
  sh : Shared
  /-- the calls of `initClass` of each thread, innermost first -/
  stack : Nat → List Frame

def upd {α : Type} (f : Nat → α) (i : Nat) (v : α) : Nat → α := fun j => if j = i then v else f j

def emit (sh : Shared) (e : Ev) : Shared := { sh with log := sh.log ++ [e] }

/-- machine.cpp 2610-2613, 4815-4816: no request has been made yet. -/
def initial (P : Prog) : St where
  sh := {
    need := fun c => P.hasInit c || P.marked c
    init := fun _ => false
    err := fun _ => false
    holder := none
    owner := fun _ => none
    log := [] }
  stack := fun _ => []

/-- What the environment chooses: which class to use, how an initializer ends, to wake a thread. -/
inductive Choice
  | go
  | call (c : Nat)
  | finish (k : Kind)
  | wake

/-- Enter `initClass`. -/
def enter (sh : Shared) (t c : Nat) (stk : List Frame) : Shared × List Frame :=
  (emit sh (.called t c), { cls := c, pc := .start, born := sh.log.length } :: stk)

/-- Return from the call `f` to the one below. -/
def ret (sh : Shared) (t : Nat) (f : Frame) : List Frame → Shared × List Frame
  | [] => (emit sh (.returned t f.cls f.born), [])
  | g :: stk => (emit sh (.returned t f.cls f.born), { g with pc := if g.pc = .super then .check else g.pc } :: stk)

/-- Leave the call `f` with a throwable; an initializer below may catch it. -/
def throw (sh : Shared) (t : Nat) (f : Frame) : List Frame → Shared × List Frame
  | [] => (emit sh (.threw t f.cls f.born), [])
  | g :: stk => (emit sh (.threw t f.cls f.born), { g with pc := if g.pc = .super then .fail else g.pc } :: stk)

def release (sh : Shared) : Shared := { sh with holder := none }

/-- machine.cpp 3579-3587 `isInitializing`: the class init stack of the thread. -/
def isInitializing (stk : List Frame) (c : Nat) : Bool := stk.any fun f => f.cls == c && f.pc == .body

/-- One step of thread `t`, whose calls are `stk`. -/
def localStep (P : Prog) (sh : Shared) (t : Nat) (stk : List Frame) (ch : Choice) : Option (Shared × List Frame) :=
  match stk with
  | [] =>
    match ch with
    | .call c => some (enter sh t c [])
    | _ => none
  | f :: rest =>
    let c := f.cls
    let goto (pc : Pc) : List Frame := { f with pc := pc } :: rest
    match f.pc with
    | .start =>
      -- 5254-5257
      match P.super c with
      | some d => some (enter sh t d (goto .super))
      | none => some (sh, goto .check)
    | .super => none
    | .check =>
      -- 5190-5194
      if sh.need c then some (sh, goto .lock) else some (ret sh t f rest)
    | .lock =>
      -- 5196
      if sh.holder = none then some ({ sh with holder := some t }, goto .decide) else none
    | .decide =>
      -- 5198-5219
      if sh.need c then
        if sh.init c then
          if isInitializing stk c then some (ret (release sh) t f rest)
          else some (release sh, goto .asleep)
        else if sh.err c then some (throw (release sh) t f rest)
        else some (release { sh with init := upd sh.init c true, owner := upd sh.owner c (some t) }, goto .run)
      else some (ret (release sh) t f rest)
    | .asleep =>
      match ch with
      | .wake => some (sh, goto .woken)
      | _ => none
    | .woken => if sh.holder = none then some ({ sh with holder := some t }, goto .test) else none
    | .test =>
      -- 5208-5211
      if sh.init c then some (release sh, goto .asleep) else some (ret (release sh) t f rest)
    | .run =>
      -- 5262-5265
      if P.hasInit c then some (emit sh (.started t c), goto .body) else some (sh, goto (.post .ok))
    | .body =>
      match ch with
      | .call d => some (enter sh t d stk)
      | .finish k => some (emit sh (.finished t c k), goto (.post k))
      | _ => none
    | .post k =>
      -- 5227
      if sh.holder = none then some ({ sh with holder := some t }, goto (.postLocked k)) else none
    | .postLocked k =>
      -- 5229-5231, 5245
      if k = .exc then
        some ({ sh with need := upd sh.need c true, err := upd sh.err c true }, goto .postError)
      else
        some ({ sh with need := upd sh.need c false, init := upd sh.init c false, owner := upd sh.owner c none },
          goto (.postNotify k))
    | .postError =>
      -- 5232
      some (emit { sh with init := upd sh.init c false, owner := upd sh.owner c none } (.failed c), goto .postThrow)
    | .postThrow =>
      -- 5243
      some (throw (release sh) t f rest)
    | .postNotify k =>
      -- 5247; the sleepers are woken by `step`
      some (sh, goto (.postRelease k))
    | .postRelease k =>
      if k = .ok then some (ret (release sh) t f rest) else some (throw (release sh) t f rest)
    | .fail => some (throw sh t f rest)

/-- Whether the next step of the thread is `notifyAll`. -/
def notifies : List Frame → Bool
  | { pc := .postNotify _, .. } :: _ => true
  | _ => false

def wakeTop : List Frame → List Frame
  | f :: rest => { f with pc := if f.pc = .asleep then .woken else f.pc } :: rest
  | [] => []

/-- One step of the VM: thread `t` moves. -/
def step (P : Prog) (s : St) (t : Nat) (ch : Choice) : Option St :=
  (localStep P s.sh t (s.stack t) ch).map fun r =>
    { sh := r.1
      stack := upd (if notifies (s.stack t) then fun u => wakeTop (s.stack u) else s.stack) t r.2 }

inductive Reachable (P : Prog) : St → Prop
  | initial : Reachable P (initial P)
  | step {s s' : St} (t : Nat) (ch : Choice) : Reachable P s → step P s t ch = some s' → Reachable P s'

def exec (P : Prog) (s : St) : List (Nat × Choice) → Option St
  | [] => some s
  | (t, ch) :: l => (step P s t ch).bind fun s => exec P s l

end Avian.ClassInit
