/-!
Object monitors (src/avian/machine.h:2776-3066) as a transition system: one monitor, any number of
threads, one shared-memory access per step, sequential consistency.

* The queue of acquiring threads is the linked list of `GcMonitorNode`s with the monitor's
  `acquireHead` and `acquireTail` (Michael and Scott queue).  Nodes are names; a node is allocated
  with a fresh name, because the collector does not reuse a node that some thread still refers to.
* `t->lock` of every thread is a lock with one waiter, its thread.  Its semantics (waiting gives up
  the lock in the same step, notifying ends the wait) is the one proved for the platform monitors.
  A wait may also end for no reason, which covers time-outs, interrupts and notifications that come
  from other monitors.
* `depth` and the wait list are accessed only by the owner of the monitor (proved below), so each of
  `monitorAppendWait`, `monitorRemoveWait`, `monitorFindWait`, `monitorPollWait` is one step.
  `depth` is a natural number instead of 32 bits.
* `acquireSystem` (machine.h:2739) always succeeds for a running thread and is left out, as are the
  changes of the thread state, which are modelled in `Verif.Conc.Enter`.

The fields under "history" are not in the code; no step reads them, except that the fuel of the walks
over the wait list must exceed the number of waiting threads.
-/

namespace Avian.Monitor

abbrev Tid := Nat
abbrev Node := Nat

/-- Who called `monitorAcquire`: `acquire` (machine.h:3088) or `monitorWait` (machine.h:3009), which
has saved the depth and brings a node. -/
inductive AK where
  | user
  | wait (depth : Nat) (node : Node)
  deriving DecidableEq, Repr

/-- Who called `monitorAtomicPollAcquire` (machine.h:2812): `monitorTryAcquire` (2850), the loop of
`monitorAcquire` (2878), its removal (2888), or `monitorRelease` (2906, called by `release` or by
`monitorWait`). -/
inductive Ctx where
  | try (k : AK)
  | loop (k : AK)
  | rem (k : AK)
  | rel (k : AK)
  deriving DecidableEq, Repr

/-- Program counters. `out`: outside the monitor operations. `threw`: about to throw
IllegalMonitorStateException. `refused`: `monitorRelease` by a thread that is not the owner (`expect`
aborts). `abort`: any other failed `expect`, `abort` or null dereference.
`a…` `monitorTryAcquire` (2847-2861), `s…` `monitorAcquire` (2863-2894), `q…`
`monitorAtomicAppendAcquire` (2780-2810), `p…` `monitorAtomicPollAcquire` (2812-2845),
`r…` `monitorRelease` (2896-2918), `w…` `wait`/`monitorWait` (2980-3022, 3117-3156),
`n…` `notify`/`notifyAll` (3044-3066, 3158-3195). -/
inductive Pc where
  | out | threw | refused | abort
  | a0 (k : AK) | a1 (k : AK) | a2 (k : AK) | a3 (k : AK)
  | s0 (k : AK) | s1 (k : AK) | s2 (k : AK) | s3 (k : AK) | s4 (k : AK) | s5 (k : AK) | s6 (k : AK)
  | q0 (k : AK) (nd : Node) | q1 (k : AK) (nd tl : Node) | q2 (k : AK) (nd tl : Node) (n : Option Node)
  | q3 (k : AK) (nd tl n : Node) | q4 (k : AK) (nd tl : Node) | q5 (k : AK) (nd tl : Node)
  | p0 (c : Ctx) | p1 (c : Ctx) (h : Node) | p2 (c : Ctx) (h tl : Node)
  | p3 (c : Ctx) (h tl : Node) (n : Option Node) | p4 (c : Ctx) (tl n : Node)
  | p5 (c : Ctx) (h n : Node) | p6 (c : Ctx) (h n : Node) (v : Option Tid)
  | r0 (k : AK) | r1 (k : AK) | r2 (k : AK) | r3 (k : AK) (u : Tid) | r4 (k : AK) (u : Tid)
  | r5 (k : AK) (u : Tid)
  | w0 | w1 | w2 (nd : Node) | w3 (nd : Node) | w4 (nd : Node) | w5 (d : Nat) (nd : Node)
  | w6 (d : Nat) (nd : Node) | w7 (d : Nat) (nd : Node) | w8 (d : Nat) | w9
  | n0 (all : Bool) | n1 (all : Bool) | n2 (all : Bool) (u : Tid) | n3 (all : Bool) (u : Tid)
  | n4 (all : Bool) (u : Tid)
  deriving DecidableEq, Repr

/-- Memory: the monitor (src/types.def:148-154), its nodes (156-158), `t->lock`, `t->waitNext` and
`Thread::WaitingFlag` of the threads. -/
structure Shared where
  owner : Option Tid
  depth : Nat
  head : Node
  tail : Node
  next : Node → Option Node
  value : Node → Option Tid
  fresh : Node
  lock : Tid → Option Tid
  asleep : Tid → Bool
  waitHead : Option Tid
  waitTail : Option Tid
  waitNext : Tid → Option Tid
  flag : Tid → Bool
  -- history
  chain : List Node
  hi : Nat
  ti : Nat
  joined : List Tid
  served : List Tid
  waits : List Tid
  held : Tid → Nat

/-- function update -/
def set {α : Type} (f : Nat → α) (i : Nat) (v : α) : Nat → α := fun j => if j = i then v else f j

/-- end of `monitorAcquire` -/
def acqDone : AK → Pc
  | .user => .out
  | .wait d _ => .w8 d

/-- history: one more entry of `t`, unless it re-enters after `wait` -/
def enterHeld (s : Shared) (t : Tid) : AK → Shared
  | .user => { s with held := set s.held t (s.held t + 1) }
  | .wait _ _ => s

/-- history: one exit of `t`, unless it leaves for `wait` -/
def leaveHeld (s : Shared) (t : Tid) : AK → Shared
  | .user => { s with held := set s.held t (s.held t - 1) }
  | .wait _ _ => s

/-- end of `monitorRelease` -/
def relDone : AK → Pc
  | .user => .out
  | .wait d nd => .w5 d nd

/-- what the callers do with the result of `monitorAtomicPollAcquire` -/
def ret (t : Tid) (v : Option Tid) : Ctx → Pc
  | .try k => match v with | none => .a2 k | some _ => .s0 k
  | .loop k => if v = some t then .s2 k else .s3 k
  | .rem k => if v = some t then .s5 k else .abort
  | .rel k => match v with | none => relDone k | some u => .r3 k u

def isRem : Ctx → Bool
  | .rem _ => true
  | _ => false

/-- machine.h:2920-2936 `monitorAppendWait`. -/
def appendWait (s : Shared) (t : Tid) : Option Shared :=
  if s.flag t then none
  else if s.waitNext t ≠ none then none
  else
    let s := { s with flag := set s.flag t true }
    let s := match s.waitTail with
      | some l => { s with waitNext := set s.waitNext l (some t) }
      | none => { s with waitHead := some t }
    some { s with waitTail := some t, waits := s.waits ++ [t] }

/-- the loop of `monitorRemoveWait` and `monitorFindWait`: walk from `current` and look for `t`;
`fuel` bounds the walk (the list is finite, so any fuel above its length gives the same). The result
is the predecessor. -/
def findWait (next : Tid → Option Tid) (t : Tid) :
    Nat → Option Tid → Option Tid → Option (Option Tid)
  | 0, _, _ => none
  | _ + 1, _, none => none
  | f + 1, prev, some c => if t = c then some prev else findWait next t f (some c) (next c)

/-- machine.h:2938-2966 `monitorRemoveWait`; `none` is `abort`. -/
def removeWait (fuel : Nat) (s : Shared) (t : Tid) : Option Shared :=
  match findWait s.waitNext t fuel none s.waitHead with
  | none => none
  | some prev =>
    let s := if s.waitHead = some t then { s with waitHead := s.waitNext t }
      else match prev with
        | some p => { s with waitNext := set s.waitNext p (s.waitNext t) }
        | none => s
    let s := if s.waitTail = some t then { s with waitTail := prev } else s
    some { s with waitNext := set s.waitNext t none, flag := set s.flag t false,
                  waits := s.waits.erase t }

/-- machine.h:3024-3042 `monitorPollWait`. -/
def pollWait (s : Shared) : Option Tid × Shared :=
  match s.waitHead with
  | none => (none, s)
  | some u =>
    let s := { s with waitHead := s.waitNext u }
    let s := { s with flag := set s.flag u false }
    let s := { s with waitNext := set s.waitNext u none }
    let s := if s.waitTail = some u then { s with waitTail := none } else s
    (some u, { s with waits := s.waits.tail })

/-- One step of thread `t`. Line numbers refer to src/avian/machine.h. -/
inductive Local (t : Tid) (s : Shared) : Pc → Shared → Pc → Prop where
  -- calls: acquire, release, wait, notify, notifyAll (3076-3195)
  | callAcquire : Local t s .out s (.a0 .user)
  | callRelease : Local t s .out s (.r0 .user)
  | callWait : Local t s .out s .w0
  | callNotify (all) : Local t s .out s (.n0 all)
  | threw : Local t s .threw s .out
  -- monitorTryAcquire 2849-2860
  | a0own (k) : s.owner = some t → Local t s (.a0 k) s (.a1 k)
  | a0not (k) : s.owner ≠ some t → Local t s (.a0 k) s (.p0 (.try k))
  | a1 (k) : Local t s (.a1 k) (enterHeld { s with depth := s.depth + 1 } t k) (acqDone k)
  | a2ok (k) : s.owner = none → Local t s (.a2 k) { s with owner := some t } (.a3 k)
  | a2fail (k) : s.owner ≠ none → Local t s (.a2 k) s (.s0 k)
  | a3 (k) : Local t s (.a3 k) (enterHeld { s with depth := s.depth + 1 } t k) (acqDone k)
  -- monitorAcquire 2871: lock t->lock; 2873 allocate the node (2784-2788)
  | s0 (k) : s.lock t = none → Local t s (.s0 k) { s with lock := set s.lock t (some t) } (.s1 k)
  | s1user : Local t s (.s1 .user)
      { s with fresh := s.fresh + 1, value := set s.value s.fresh (some t),
               next := set s.next s.fresh none } (.q0 .user s.fresh)
  | s1wait (d nd) : Local t s (.s1 (.wait d nd)) s (.q0 (.wait d nd) nd)
  -- monitorAtomicAppendAcquire 2790-2809
  | q0 (k nd) : Local t s (.q0 k nd) s (.q1 k nd s.tail)
  | q1 (k nd tl) : Local t s (.q1 k nd tl) s (.q2 k nd tl (s.next tl))
  | q2retry (k nd tl n) : s.tail ≠ tl → Local t s (.q2 k nd tl n) s (.q0 k nd)
  | q2help (k nd tl n) : s.tail = tl → Local t s (.q2 k nd tl (some n)) s (.q3 k nd tl n)
  | q2link (k nd tl) : s.tail = tl → Local t s (.q2 k nd tl none) s (.q4 k nd tl)
  | q3ok (k nd tl n) : s.tail = tl →
      Local t s (.q3 k nd tl n) { s with tail := n, ti := s.ti + 1 } (.q0 k nd)
  | q3fail (k nd tl n) : s.tail ≠ tl → Local t s (.q3 k nd tl n) s (.q0 k nd)
  | q4ok (k nd tl) : s.next tl = none →
      Local t s (.q4 k nd tl)
        { s with next := set s.next tl (some nd), chain := s.chain ++ [nd], joined := s.joined ++ [t] }
        (.q5 k nd tl)
  | q4fail (k nd tl) : s.next tl ≠ none → Local t s (.q4 k nd tl) s (.q0 k nd)
  | q5ok (k nd tl) : s.tail = tl →
      Local t s (.q5 k nd tl) { s with tail := nd, ti := s.ti + 1 } (.p0 (.loop k))
  | q5fail (k nd tl) : s.tail ≠ tl → Local t s (.q5 k nd tl) s (.p0 (.loop k))
  -- monitorAtomicPollAcquire 2816-2844
  | p0 (c) : Local t s (.p0 c) s (.p1 c s.head)
  | p1 (c h) : Local t s (.p1 c h) s (.p2 c h s.tail)
  | p2 (c h tl) : Local t s (.p2 c h tl) s (.p3 c h tl (s.next h))
  | p3retry (c h tl n) : s.head ≠ h → Local t s (.p3 c h tl n) s (.p0 c)
  | p3help (c h tl n) : s.head = h → h = tl → Local t s (.p3 c h tl (some n)) s (.p4 c tl n)
  | p3empty (c h tl) : s.head = h → h = tl → Local t s (.p3 c h tl none) s (ret t none c)
  | p3some (c h tl n) : s.head = h → h ≠ tl → Local t s (.p3 c h tl (some n)) s (.p5 c h n)
  | p3null (c h tl) : s.head = h → h ≠ tl → Local t s (.p3 c h tl none) s .abort
  | p4ok (c tl n) : s.tail = tl →
      Local t s (.p4 c tl n) { s with tail := n, ti := s.ti + 1 } (.p0 c)
  | p4fail (c tl n) : s.tail ≠ tl → Local t s (.p4 c tl n) s (.p0 c)
  | p5keep (c h n) : isRem c = false → Local t s (.p5 c h n) s (ret t (s.value n) c)
  | p5rem (c h n) : isRem c = true → Local t s (.p5 c h n) s (.p6 c h n (s.value n))
  | p6ok (c h n v) : s.head = h →
      Local t s (.p6 c h n v) { s with head := n, hi := s.hi + 1, served := s.served ++ [t] } (ret t v c)
  | p6fail (c h n v) : s.head ≠ h → Local t s (.p6 c h n v) s (.p0 c)
  -- monitorAcquire 2879-2890
  | s2ok (k) : s.owner = none → Local t s (.s2 k) { s with owner := some t } (.p0 (.rem k))
  | s2fail (k) : s.owner ≠ none → Local t s (.s2 k) s (.s3 k)
  | s3 (k) : Local t s (.s3 k)
      { s with lock := set s.lock t none, asleep := set s.asleep t true } (.s4 k)
  | s4 (k) : s.lock t = none → Local t s (.s4 k)
      { s with lock := set s.lock t (some t), asleep := set s.asleep t false } (.p0 (.loop k))
  | s5 (k) : Local t s (.s5 k) { s with depth := s.depth + 1 } (.s6 k)
  | s6 (k) : Local t s (.s6 k) (enterHeld { s with lock := set s.lock t none } t k) (acqDone k)
  -- monitorRelease 2898-2916
  | r0ok (k) : s.owner = some t → Local t s (.r0 k) s (.r1 k)
  | r0fail : s.owner ≠ some t → Local t s (.r0 .user) s .refused
  | r0bug (d nd) : s.owner ≠ some t → Local t s (.r0 (.wait d nd)) s .abort
  | r1last (k) : s.depth = 1 →
      Local t s (.r1 k) (leaveHeld { s with depth := s.depth - 1 } t k) (.r2 k)
  | r1more (k) : s.depth ≠ 1 →
      Local t s (.r1 k) (leaveHeld { s with depth := s.depth - 1 } t k) (relDone k)
  | r2 (k) : Local t s (.r2 k) { s with owner := none } (.p0 (.rel k))
  | r3 (k u) : s.lock u = none → Local t s (.r3 k u) { s with lock := set s.lock u (some t) } (.r4 k u)
  | r4 (k u) : Local t s (.r4 k u) { s with asleep := set s.asleep u false } (.r5 k u)
  | r5 (k u) : Local t s (.r5 k u) { s with lock := set s.lock u none } (relDone k)
  -- wait 3133, monitorWait 2982-3019
  | w0ok : s.owner = some t → Local t s .w0 s .w1
  | w0fail : s.owner ≠ some t → Local t s .w0 s .threw
  | w1 : Local t s .w1
      { s with fresh := s.fresh + 1, value := set s.value s.fresh (some t),
               next := set s.next s.fresh none } (.w2 s.fresh)
  | w2 (nd) : s.lock t = none → Local t s (.w2 nd) { s with lock := set s.lock t (some t) } (.w3 nd)
  | w3ok (nd s') : appendWait s t = some s' → Local t s (.w3 nd) s' (.w4 nd)
  | w3bug (nd) : appendWait s t = none → Local t s (.w3 nd) s .abort
  | w4 (nd) : Local t s (.w4 nd) { s with depth := 1 } (.r0 (.wait s.depth nd))
  | w5 (d nd) : Local t s (.w5 d nd)
      { s with lock := set s.lock t none, asleep := set s.asleep t true } (.w6 d nd)
  -- waitAndClearInterrupted returns at once if the thread was interrupted
  | w5now (d nd) : Local t s (.w5 d nd) s (.w7 d nd)
  | w6 (d nd) : s.lock t = none → Local t s (.w6 d nd)
      { s with lock := set s.lock t (some t), asleep := set s.asleep t false } (.w7 d nd)
  | w7 (d nd) : Local t s (.w7 d nd) { s with lock := set s.lock t none } (.a0 (.wait d nd))
  | w8 (d) : Local t s (.w8 d) { s with depth := d } .w9
  | w9still (fuel s') : s.waits.length < fuel → s.flag t = true → removeWait fuel s t = some s' →
      Local t s .w9 s' .out
  | w9bug (fuel) : s.waits.length < fuel → s.flag t = true → removeWait fuel s t = none →
      Local t s .w9 s .abort
  | w9gone (fuel) : s.waits.length < fuel → s.flag t = false →
      findWait s.waitNext t fuel none s.waitHead = none → Local t s .w9 s .out
  | w9bug2 (fuel) : s.waits.length < fuel → s.flag t = false →
      findWait s.waitNext t fuel none s.waitHead ≠ none → Local t s .w9 s .abort
  -- notify 3173, notifyAll 3190, monitorNotify 3044-3058, monitorNotifyAll 3060-3066
  | n0ok (all) : s.owner = some t → Local t s (.n0 all) s (.n1 all)
  | n0fail (all) : s.owner ≠ some t → Local t s (.n0 all) s .threw
  | n1none (all) : (pollWait s).1 = none → Local t s (.n1 all) (pollWait s).2 .out
  | n1some (all u) : (pollWait s).1 = some u → Local t s (.n1 all) (pollWait s).2 (.n2 all u)
  | n2 (all u) : s.lock u = none →
      Local t s (.n2 all u) { s with lock := set s.lock u (some t) } (.n3 all u)
  | n3 (all u) : Local t s (.n3 all u) { s with asleep := set s.asleep u false } (.n4 all u)
  | n4 (all u) : Local t s (.n4 all u) { s with lock := set s.lock u none }
      (if all then .n0 true else .out)

/-- The monitor and its threads. -/
structure Sys where
  sh : Shared
  pc : Tid → Pc

/-- One step of one thread. -/
inductive Step (s : Sys) : Sys → Prop where
  | mk (t : Tid) (sh' : Shared) (p' : Pc) : Local t s.sh (s.pc t) sh' p' →
      Step s ⟨sh', set s.pc t p'⟩

/-- A new monitor: src/machine.cpp:5471-5472 `makeMonitor(t, 0, 0, 0, head, head, 0)`. Node 0 is the
first head. -/
def init : Sys :=
  ⟨{ owner := none, depth := 0, head := 0, tail := 0, next := fun _ => none, value := fun _ => none,
     fresh := 1, lock := fun _ => none, asleep := fun _ => false, waitHead := none, waitTail := none,
     waitNext := fun _ => none, flag := fun _ => false,
     chain := [0], hi := 0, ti := 0, joined := [], served := [], waits := [], held := fun _ => 0 },
   fun _ => .out⟩

/-- Reachable states. -/
inductive Reachable : Sys → Prop where
  | init : Reachable init
  | step {s s'} : Reachable s → Step s s' → Reachable s'

end Avian.Monitor
