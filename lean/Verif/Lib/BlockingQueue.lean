/-
A bounded queue with waiting (classpath/java/util/concurrent/LinkedBlockingQueue.java).

All operations are synchronized on one object, so a thread's stay in the monitor, from entering it (or
coming back from a wait) to leaving it (or beginning a wait), is one step.  The monitor itself is the
subject of other properties.  The storage is a list (see `Lib/LinkedList`); elements are not null; the
number of elements and the capacity are below 2^31.

A timed operation compares the clock; here the answer, whether its time is over, is an arbitrary
`Bool` of each step.  An operation without a limit waits for 2^63 ms, taken as for ever.
-/
namespace Avian.BlockingQueue

abbrev Tid := Nat

/-- The operations.  `timed` is `false` for the operations without a limit (and for the limit
`Long.MAX_VALUE`, which the code treats the same). -/
inductive Op (V : Type) where
  /-- LinkedBlockingQueue.java:98-111 -/
  | offer (v : V)
  /-- LinkedBlockingQueue.java:113-122 -/
  | offerWait (v : V) (timed : Bool)
  /-- LinkedBlockingQueue.java:124-133 -/
  | put (v : V)
  /-- LinkedBlockingQueue.java:135-150 -/
  | addAll (vs : List V)
  /-- LinkedBlockingQueue.java:152-161 -/
  | peek
  /-- LinkedBlockingQueue.java:171-180 -/
  | poll
  /-- LinkedBlockingQueue.java:182-191 -/
  | pollWait (timed : Bool)
  /-- LinkedBlockingQueue.java:193-201 -/
  | take
  /-- LinkedBlockingQueue.java:208-223 -/
  | drainTo (max : Int)
  /-- LinkedBlockingQueue.java:225-230 -/
  | remainingCapacity
  /-- LinkedBlockingQueue.java:232-237 -/
  | size
  /-- LinkedBlockingQueue.java:253-263 -/
  | remove (v : V)
  /-- LinkedBlockingQueue.java:265-275 -/
  | removeAll (vs : List V)
  /-- LinkedBlockingQueue.java:277-282 -/
  | clear
  deriving DecidableEq

inductive Res (V : Type) where
  | unit
  | bool (b : Bool)
  | elem (v : Option V)
  | elems (vs : List V)
  | int (i : Int)
  /-- IllegalStateException -/
  | noSpace
  /-- NoSuchElementException -/
  | noSuchElement
  deriving DecidableEq

/-- How a stay in the monitor ends: with a wait, or with a result, the new content and whether
`notifyAll` was called. -/
inductive Stay (V : Type) where
  | wait
  | done (r : Res V) (q : List V) (notify : Bool)
  deriving DecidableEq

variable {V : Type}

/-- LinkedBlockingQueue.java:50-69 `blockTillNotFull`: does the thread go on, or wait (again)?  `timed`
and `over` as above; a time limit of zero or less is over at once. -/
def passNotFull (capacity : Nat) (q : List V) (timed over : Bool) : Bool :=
  if capacity > q.length then true else timed && over

/-- LinkedBlockingQueue.java:77-96 `blockTillNotEmpty`. -/
def passNotEmpty (q : List V) (timed over : Bool) : Bool :=
  if q.isEmpty then timed && over else true

/-- LinkedBlockingQueue.java:99-111 `offer`. -/
def offer (capacity : Nat) (q : List V) (v : V) : Stay V :=
  if capacity > q.length then .done (.bool true) (q ++ [v]) true else .done (.bool false) q false

/-- LinkedBlockingQueue.java:164-169 `removeFirst`; for an empty list `storage.removeFirst()` throws. -/
def removeFirst : List V → Stay V
  | [] => .done .noSuchElement [] false
  | v :: q => .done (.elem (some v)) q true

/-- LinkedBlockingQueue.java:172-180 `poll`. -/
def poll (q : List V) : Stay V := if q.isEmpty then .done (.elem none) q false else removeFirst q

/-- LinkedBlockingQueue.java:209-223 `drainTo`: the loop delivers the first `max` elements. -/
def drain : Nat → List V → List V × List V
  | 0, q => ([], q)
  | _, [] => ([], [])
  | n + 1, v :: q => (v :: (drain n q).1, (drain n q).2)

/-- AbstractCollection.java:78-91 `removeAll`, with `remove(Object)` of the list. -/
def removeAll [DecidableEq V] : List V → List V → Bool × List V
  | [], q => (false, q)
  | v :: vs, q => (decide (v ∈ q) || (removeAll vs (q.erase v)).1, (removeAll vs (q.erase v)).2)

variable [DecidableEq V]

/-- One stay in the monitor. -/
def stay (capacity : Nat) (q : List V) (over : Bool) : Op V → Stay V
  | .offer v => offer capacity q v
  | .offerWait v timed => if passNotFull capacity q timed over then offer capacity q v else .wait
  | .put v => if passNotFull capacity q false over then .done .unit (q ++ [v]) true else .wait
  | .addAll vs =>
    if q.length + vs.length > capacity then .done .noSpace q false
    else if vs.isEmpty then .done (.bool false) q false
    else .done (.bool true) (q ++ vs) false
  | .peek => .done (.elem q.head?) q false
  | .poll => poll q
  | .pollWait timed => if passNotEmpty q timed over then poll q else .wait
  | .take => if passNotEmpty q false over then removeFirst q else .wait
  | .drainTo max => .done (.elems (drain max.toNat q).1) (drain max.toNat q).2 (!(drain max.toNat q).1.isEmpty)
  | .remainingCapacity => .done (.int (capacity - q.length)) q false
  | .size => .done (.int q.length) q false
  | .remove v => if v ∈ q then .done (.bool true) (q.erase v) true else .done (.bool false) q false
  | .removeAll vs => .done (.bool (removeAll vs q).1) (removeAll vs q).2 (removeAll vs q).1
  | .clear => .done .unit [] false

/-- Where a thread is. -/
inductive Pc (V : Type) where
  | idle
  /-- wants the monitor: it has called the operation, or was notified or timed out during a wait -/
  | ready (op : Op V)
  /-- in the wait set -/
  | waiting (op : Op V)
  deriving DecidableEq

structure Sys (V : Type) where
  q : List V
  pc : Tid → Pc V

inductive Label (V : Type) where
  | call (op : Op V)
  | ret (op : Op V) (r : Res V)
  /-- an InterruptedException ends the operation -/
  | interrupted (op : Op V)
  | wait (op : Op V)
  | timeout (op : Op V)
  deriving DecidableEq

def set {A : Type} (f : Tid → A) (t : Tid) (a : A) : Tid → A := fun u => if u = t then a else f u

/-- `notifyAll`: every waiting thread wants the monitor again. -/
def wake (pc : Tid → Pc V) : Tid → Pc V := fun t =>
  match pc t with
  | .waiting op => .ready op
  | p => p

/-- Whether the wait of an operation has a limit. -/
def Op.limited : Op V → Bool
  | .offerWait _ timed => timed
  | .pollWait timed => timed
  | _ => false

/-- LinkedBlockingQueue.java:28-32. -/
def init : Sys V := ⟨[], fun _ => .idle⟩

/-- The executions: any thread may call an operation if it is in none; a thread that wants the monitor
stays in it; a waiting thread may be interrupted, or time out if its wait has a limit. -/
inductive Exec (capacity : Nat) : List (Tid × Label V) → Sys V → Prop where
  | init : Exec capacity [] init
  | call {ls s} (t : Tid) (op : Op V) : Exec capacity ls s → s.pc t = .idle →
      Exec capacity (ls ++ [(t, .call op)]) ⟨s.q, set s.pc t (.ready op)⟩
  | wait {ls s} (t : Tid) (op : Op V) (over : Bool) : Exec capacity ls s → s.pc t = .ready op →
      stay capacity s.q over op = .wait →
      Exec capacity (ls ++ [(t, .wait op)]) ⟨s.q, set s.pc t (.waiting op)⟩
  | ret {ls s} (t : Tid) (op : Op V) (over : Bool) (r : Res V) (q : List V) (notify : Bool) :
      Exec capacity ls s → s.pc t = .ready op → stay capacity s.q over op = .done r q notify →
      Exec capacity (ls ++ [(t, .ret op r)])
        ⟨q, set (if notify then wake s.pc else s.pc) t .idle⟩
  | interrupt {ls s} (t : Tid) (op : Op V) : Exec capacity ls s → s.pc t = .waiting op →
      Exec capacity (ls ++ [(t, .interrupted op)]) ⟨s.q, set s.pc t .idle⟩
  | timeout {ls s} (t : Tid) (op : Op V) : Exec capacity ls s → s.pc t = .waiting op → op.limited = true →
      Exec capacity (ls ++ [(t, .timeout op)]) ⟨s.q, set s.pc t (.ready op)⟩

end Avian.BlockingQueue
