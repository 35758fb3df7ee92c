import Verif.Lib.Outcome

/-
Atomic numbers (classpath/java/util/concurrent/atomic/AtomicInteger.java, and AtomicLong.java, which differs in the width
only): any number of threads, interleaved at reads and writes of the field and at compareAndSwap, which is one step.
-/
namespace Avian.Atomics

/-- AtomicInteger.java:42-106: the operations; `weakCompareAndSet` is `cas`, `lazySet` is `set`. -/
inductive Op (w : Nat) where
  | get
  | set (v : BitVec w)
  | cas (expect update : BitVec w)
  | getAndSet (v : BitVec w)
  | getAndAdd (delta : BitVec w)
  | addAndGet (delta : BitVec w)
  deriving DecidableEq

/-- AtomicInteger.java:81-83 `getAndIncrement`. -/
def getAndIncrement {w : Nat} : Op w := .getAndAdd 1

/-- AtomicInteger.java:85-87 `getAndDecrement`. -/
def getAndDecrement {w : Nat} : Op w := .getAndAdd (-1)

/-- AtomicInteger.java:99-101 `incrementAndGet`. -/
def incrementAndGet {w : Nat} : Op w := .addAndGet 1

/-- AtomicInteger.java:103-105 `decrementAndGet`. -/
def decrementAndGet {w : Nat} : Op w := .addAndGet (-1)

inductive Res (w : Nat) where
  | value (v : BitVec w)
  | bool (b : Bool)
  | unit
  deriving DecidableEq

/-- Where a thread is. -/
inductive Pc (w : Nat) where
  | idle
  /-- At the begin of the operation, or of a round of its loop. -/
  | called (op : Op w)
  /-- `current` was read, before `compareAndSet`. -/
  | loaded (op : Op w) (current : BitVec w)
  | done (r : Res w)
  deriving DecidableEq

structure State (w : Nat) where
  value : BitVec w
  pc : Nat → Pc w

inductive Action (w : Nat) where
  | call (t : Nat) (op : Op w)
  | run (t : Nat)
  | ret (t : Nat)

inductive Event (w : Nat) where
  | call (t : Nat) (op : Op w)
  /-- The one moment where the operation reads or changes the value for good. -/
  | effect (t : Nat) (op : Op w) (r : Res w)
  | ret (t : Nat) (r : Res w)
  deriving DecidableEq

def State.at {w : Nat} (s : State w) (t : Nat) (p : Pc w) : State w := { s with pc := fun u => if u = t then p else s.pc u }

/-- The value written and the value returned by a round that succeeds: AtomicInteger.java:62-69 `getAndSet`, 71-79
`getAndAdd`, 89-97 `addAndGet`; the other operations have no loop. -/
def round {w : Nat} (op : Op w) (current : BitVec w) : BitVec w × Res w :=
  match op with
  | .getAndSet v => (v, .value current)
  | .getAndAdd d => (current + d, .value current)
  | .addAndGet d => (current + d, .value (current + d))
  | _ => (current, .unit)

/-- One step of a thread; an action that is not possible changes nothing. -/
def step {w : Nat} (s : State w) : Action w → State w × List (Event w)
  | .call t op => if s.pc t = .idle then (s.at t (.called op), [.call t op]) else (s, [])
  | .run t =>
    match s.pc t with
    | .called .get => (s.at t (.done (.value s.value)), [.effect t .get (.value s.value)])
    | .called (.set v) => ({ s.at t (.done .unit) with value := v }, [.effect t (.set v) .unit])
    | .called (.cas e u) =>
      if s.value = e then ({ s.at t (.done (.bool true)) with value := u }, [.effect t (.cas e u) (.bool true)])
      else (s.at t (.done (.bool false)), [.effect t (.cas e u) (.bool false)])
    | .called op => (s.at t (.loaded op s.value), [])
    | .loaded op current =>
      if s.value = current then ({ s.at t (.done (round op current).2) with value := (round op current).1 }, [.effect t op (round op current).2])
      else (s.at t (.called op), [])
    | _ => (s, [])
  | .ret t =>
    match s.pc t with
    | .done r => (s.at t .idle, [.ret t r])
    | _ => (s, [])

/-- An execution: any actions of any threads. -/
def exec {w : Nat} (s : State w) : List (Action w) → State w × List (Event w)
  | [] => (s, [])
  | a :: as => ((exec (step s a).1 as).1, (step s a).2 ++ (exec (step s a).1 as).2)

/-- AtomicInteger.java:38-40: a new object, no thread uses it. -/
def initial {w : Nat} (v : BitVec w) : State w := ⟨v, fun _ => .idle⟩

end Avian.Atomics
