import Verif.Lib.Outcome

/-
Parking and interrupting a thread (src/builtin.cpp:1053-1106, src/machine.cpp:6022-6053, src/avian/machine.h:2980-3022, 3121-3155,
src/system/posix.cpp:142-155, 331-408, with the Avian classpath), as a transition system: one thread `P` that parks and waits, and any number of others that
unpark and interrupt it.

Sections under the thread's `interruptLock` are one step, except `threadInterrupt`, which holds it over two steps. `monitorWait` gives the
lock up in the step that begins it, and takes it again in `reacquire`; between, the wait of the system ends in `sleepEnds`, because
of a signal, the time, or for no reason. The interrupt flag of the system thread is that of the Java thread (machine.h:1778-1786).
-/
namespace Avian.Parking

/-- Where `P` is. -/
inductive Pc where
  | out
  /-- In the wait of the system below `park`; the time that is left (0: no limit). -/
  | parked (time : Int)
  /-- That wait is over, it told whether it was interrupted; the lock is not yet taken. -/
  | back (time : Int) (interrupted : Bool)
  /-- In the wait of the system below `Object.wait`, of `Thread.sleep` or another. -/
  | waiting
  deriving DecidableEq

structure State where
  unparked : Bool
  flag : Bool
  pc : Pc
  /-- The wait of the system was told to end. -/
  signaled : Bool
  /-- A thread is inside of `threadInterrupt`. -/
  held : Bool
  deriving DecidableEq

inductive Action where
  | park (time : Int)
  | sleepEnds
  | reacquire (elapsed : Nat)
  | unpark
  | interruptBegin
  | interruptEnd
  /-- `Thread.interrupted` by `P`. -/
  | interrupted
  | wait
  | wakes
  deriving DecidableEq

inductive Event where
  | unpark
  | parkReturns
  | interrupt
  /-- `Thread.interrupted` gave this. -/
  | asked (answer : Bool)
  /-- `Object.wait` ended, with InterruptedException or not. -/
  | waited (exception : Bool)
  deriving DecidableEq

/-- builtin.cpp:1101-1105: the end of `park`. -/
def leave (s : State) (interrupted : Bool) : State × List Event :=
  ({ s with flag := s.flag || interrupted, unparked := false, pc := .out, signaled := false }, [.parkReturns])

/-- builtin.cpp:1087-1092: the condition of the loop, up to the begin of the wait. -/
def loop (s : State) (time : Int) : State × List Event :=
  if time ≥ 0 ∧ !(s.unparked || s.flag) then ({ s with pc := .parked time, signaled := false }, [])
  else leave s false

/-- A step; an action that is not possible changes nothing. -/
def step (s : State) : Action → State × List Event
  -- builtin.cpp:1085-1092
  | .park time => if s.pc = .out ∧ s.held = false then loop s time else (s, [])
  -- posix.cpp:346-376 (`waitAndClearInterrupted`)
  | .sleepEnds =>
    match s.pc with
    | .parked time => ({ s with pc := .back time s.flag, flag := false, signaled := false }, [])
    | _ => (s, [])
  -- machine.h:3009, builtin.cpp:1087-1105
  | .reacquire elapsed =>
    match s.pc with
    | .back time interrupted =>
      if s.held then (s, [])
      else if interrupted then leave s true
      else if time - elapsed = 0 then leave s false
      else loop s (time - elapsed)
    | _ => (s, [])
  -- builtin.cpp:1058-1061
  | .unpark =>
    if s.held then (s, [])
    else ({ s with unparked := true, signaled := s.signaled || (match s.pc with | .parked _ => true | _ => false) }, [.unpark])
  -- machine.cpp:6033-6037, posix.cpp:142-155
  | .interruptBegin =>
    if s.held then (s, [])
    else ({ s with held := true, flag := true, signaled := s.signaled || (match s.pc with | .parked _ => true | .waiting => true | _ => false) }, [.interrupt])
  -- machine.cpp:6038-6039
  | .interruptEnd => if s.held then ({ s with held := false, flag := true }, []) else (s, [])
  -- machine.cpp:6046-6052 with `clear`
  | .interrupted => if s.pc = .out ∧ s.held = false then ({ s with flag := false }, [.asked s.flag]) else (s, [])
  -- machine.h:3142, posix.cpp:346-350: an interrupt that is there ends the wait at once
  | .wait => if s.pc = .out then ({ s with pc := .waiting, signaled := s.flag }, []) else (s, [])
  -- posix.cpp:373-376, machine.h:3144-3147, classpath-avian.cpp:100-103 (`clearInterrupted` does nothing)
  | .wakes => if s.pc = .waiting then ({ s with pc := .out, flag := false, signaled := false }, [.waited s.flag]) else (s, [])

def exec (s : State) : List Action → State × List Event
  | [] => (s, [])
  | a :: as => ((exec (step s a).1 as).1, (step s a).2 ++ (exec (step s a).1 as).2)

/-- A new thread. -/
def initial : State := ⟨false, false, .out, false, false⟩

/-- builtin.cpp:1068-1083: the time given to the loop, in milliseconds; `none` is a return at once. -/
def parkTime (absolute : Bool) (time now : Int) : Option Int :=
  if absolute then (if time - now ≤ 0 then none else some (time - now))
  else if time ≠ 0 then some (time.tdiv 1000000 + 1)
  else some time

/-- LockSupport.java:39-45, 75-79 `parkNanos`. -/
def parkNanos (nanos now : Int) : Option Int := if nanos ≤ 0 then none else parkTime false nanos now

end Avian.Parking
