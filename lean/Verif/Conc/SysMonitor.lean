/-!
The monitor of the platform layer (src/system/posix.cpp:133-470) as a transition system: one monitor,
any number of threads, sequential consistency.

* A pthread mutex is the identity of its holder.  A thread sleeping on its condition variable gives up
  its mutex in the step in which it falls asleep; a signal ends the sleep of the thread, if it is
  asleep; a sleep may also end for no reason, which covers time-outs, EINTR and spurious wake-ups.
* `owner_` is read without a lock, so every access to it is a step of its own.  `depth`, `first`, `last`
  and the `next` field of the threads are accessed only by the holder of the monitor's mutex, and `flags`
  and the interrupt flag only by the holder of the thread's mutex (both visible below), so several such
  accesses make one step.
* Thread 0 is the null pointer.  `depth` is a natural number instead of 32 bits.
* `abort` is `sysAbort` by a thread that is not the owner, `broken` is any failed `expect` (including
  those of a build with assertions, posix.cpp:274-278, 314-318, 392-396).

The log of events is not in the code; no step reads it, except that the fuel of the walks over the list
must exceed its length.
-/

namespace Avian.SysMonitor

/-- What a caller can observe, in the order of the steps. -/
inductive Ev where
  /-- `acquire` or `tryAcquire` has succeeded -/
  | acquired (t : Nat)
  /-- `tryAcquire` has failed -/
  | refused (t : Nat)
  /-- one level has been left with `release` -/
  | released (t : Nat)
  /-- `wait` has put the thread on the list and given up the monitor -/
  | joined (t : Nat)
  /-- a notification has been given to thread `u` -/
  | told (u : Nat)
  /-- `notify` found nobody waiting -/
  | nobody (t : Nat)
  /-- `notifyAll` is done -/
  | toldAll (t : Nat)
  /-- a waiting thread has locked the monitor again and left the list if it was still on it; `notified`
  is what it has read from its flag -/
  | left (t : Nat) (notified : Bool)
  /-- `wait` returns -/
  | resumed (t : Nat) (interrupted : Bool)
  /-- a thread that is not the owner has called `release`, `wait`, `notify` or `notifyAll` -/
  | aborted (t : Nat)
  deriving DecidableEq, Repr

/-- The locals of `wait` (posix.cpp:331-339): argument `clearInterrupted`, `interrupted`, `notified`,
`depth`. -/
structure W where
  clear : Bool
  intr : Bool := false
  notified : Bool := false
  depth : Nat := 0
  deriving DecidableEq, Repr

/-- Program counters. `y…` `tryAcquire` (224-245), `a…` `acquire` (247-256), `r…` `release` (258-270),
`w…` `wait` (331-408), `n…` `notify` (410-437), `g…` `notifyAll` (439-451), `i…` `interrupt` (142-155),
`c…` `getAndClearInterrupted` (157-166). -/
inductive Pc where
  | idle | abort | broken
  | y0 | y1
  | a0 | a1 | a2 | a3
  | r0 | r1 | r2 | r3
  | w0 (w : W) | w1 (w : W) | w2 (w : W) | w3 (w : W) | w5 (w : W) | w6 (w : W) | w7 (w : W) | w8 (w : W)
  | w8b (w : W) | w9 (w : W) | w10 (w : W) | w11 (w : W) | w12 (w : W) | w13 (w : W) | w14 (w : W)
  | w15 (w : W) | w16 (w : W) | w17 (w : W) | w18 (w : W)
  | n0 | n1 | n2 (u : Nat) | n3 (u : Nat) | n4 (u : Nat) | n5 (u : Nat)
  | g0 | g1 (u : Nat) | g2 (u : Nat) | g3 (u : Nat) | g4 (u : Nat) | g5 (u : Nat) | g6
  | i0 (u : Nat) | i1 (u : Nat) | i2 (u : Nat) | i3 (u : Nat)
  | c0 | c1 | c2
  deriving DecidableEq, Repr

/-- The fields of the monitor (465-470) and of the threads (181-187). -/
structure Shared where
  /-- holder of the monitor's pthread mutex -/
  mutex : Option Nat := none
  owner : Nat := 0
  depth : Nat := 0
  first : Nat := 0
  last : Nat := 0
  next : Nat → Nat := fun _ => 0
  /-- `flags & Notified` -/
  flag : Nat → Bool := fun _ => false
  /-- holder of the thread's pthread mutex -/
  tm : Nat → Option Nat := fun _ => none
  /-- sleeping on its condition variable -/
  asleep : Nat → Bool := fun _ => false
  /-- `r->interrupted()` -/
  intr : Nat → Bool := fun _ => false
  log : List Ev := []

def upd {α : Type} (f : Nat → α) (i : Nat) (v : α) : Nat → α := fun j => if j = i then v else f j

def emit (s : Shared) (e : Ev) : Shared := { s with log := s.log ++ [e] }

/-- The checks of a build with assertions that `t` is not on the list (274-278, 314-318, 392-396):
`none` if it is or if the list does not end. -/
def absent (next : Nat → Nat) (t : Nat) : Nat → Nat → Bool
  | _, 0 => true
  | 0, _ => false
  | fuel + 1, x => if t = x then false else absent next t fuel (next x)

/-- `append` (posix.cpp:272-287); `none` when an expectation fails. -/
def append (s : Shared) (t : Nat) : Option Shared :=
  if absent s.next t (s.log.length + 1) s.first then
    if s.last ≠ 0 then
      if t = s.last then none else some { s with next := upd s.next s.last t, last := t }
    else some { s with first := t, last := t }
  else none

/-- The loop of `remove` (posix.cpp:291-312) at `current`, with `previous`. -/
def removeLoop (t : Nat) : Nat → Shared → Nat → Nat → Option Shared
  | _, s, _, 0 => some s
  | 0, _, _, _ => none
  | fuel + 1, s, previous, current =>
    if t = current then
      let s1 : Option Shared :=
        if current = s.first then some { s with first := s.next t }
        else if previous = s.next t then none
        else some { s with next := upd s.next previous (s.next t) }
      s1.map fun s1 =>
        let s2 : Shared := if current = s1.last then { s1 with last := previous } else s1
        { s2 with next := upd s2.next t 0 }
    else removeLoop t fuel s current (s.next current)

/-- `remove` (posix.cpp:289-319) -/
def remove (s : Shared) (t : Nat) : Option Shared :=
  (removeLoop t (s.log.length + 1) s 0 s.first).bind fun s' =>
    if absent s'.next t (s.log.length + 1) s'.first then some s' else none

/-- The calls. -/
inductive Op where
  | acquire | tryAcquire | release | wait (clearInterrupted : Bool) | notify | notifyAll
  | interrupt (u : Nat) | getAndClearInterrupted
  deriving DecidableEq, Repr

/-- What decides about the next step of a thread besides the shared state: its next call, or that a
sleep ends for no reason. -/
inductive Choice where
  | call (o : Op) | go | timeout
  deriving DecidableEq, Repr

def start : Op → Pc
  | .acquire => .a0
  | .tryAcquire => .y0
  | .release => .r0
  | .wait c => .w0 { clear := c }
  | .notify => .n0
  | .notifyAll => .g0
  | .interrupt u => .i0 u
  | .getAndClearInterrupted => .c0

/-- lock the mutex of thread `u` -/
def lockT (s : Shared) (t u : Nat) (p : Pc) : Option (Shared × Pc) :=
  if s.tm u = none then some ({ s with tm := upd s.tm u (some t) }, p) else none

def unlockT (s : Shared) (u : Nat) : Shared := { s with tm := upd s.tm u none }

/-- lock the mutex of the monitor -/
def lockM (s : Shared) (t : Nat) (p : Pc) : Option (Shared × Pc) :=
  if s.mutex = none then some ({ s with mutex := some t }, p) else none

/-- One step of thread `t` at `p`; `none` when it has to wait or has nothing to do. -/
def localStep (s : Shared) (t : Nat) (p : Pc) (ch : Choice) : Option (Shared × Pc) :=
  match p with
  | .idle => match ch with
    | .call o => if t = 0 then none else some (s, start o)
    | _ => none
  | .abort | .broken => none
  -- posix.cpp:228
  | .y0 => some (s, if s.owner = t then .a3 else .y1)
  -- posix.cpp:232-236
  | .y1 => if s.mutex = none then some ({ s with mutex := some t }, .a2) else some (emit s (.refused t), .idle)
  -- posix.cpp:251
  | .a0 => some (s, if s.owner = t then .a3 else .a1)
  -- posix.cpp:252
  | .a1 => lockM s t .a2
  -- posix.cpp:253, 237
  | .a2 => some ({ s with owner := t }, .a3)
  -- posix.cpp:255, 238, 229
  | .a3 => some (emit { s with depth := s.depth + 1 } (.acquired t), .idle)
  -- posix.cpp:262
  | .r0 => some (if s.owner = t then (s, .r1) else (emit s (.aborted t), .abort))
  -- posix.cpp:263
  | .r1 => some (emit { s with depth := s.depth - 1 } (.released t), if s.depth - 1 = 0 then .r2 else .idle)
  -- posix.cpp:264
  | .r2 => some ({ s with owner := 0 }, .r3)
  -- posix.cpp:265
  | .r3 => some ({ s with mutex := none }, .idle)
  -- posix.cpp:335
  | .w0 w => some (if s.owner = t then (s, .w1 w) else (emit s (.aborted t), .abort))
  -- posix.cpp:342
  | .w1 w => lockT s t t (.w2 w)
  -- posix.cpp:344-349
  | .w2 w =>
    if s.flag t then some (s, .broken)
    else some ({ s with intr := upd s.intr t (s.intr t && !w.clear) }, .w3 { w with intr := s.intr t })
  -- posix.cpp:351-354
  | .w3 w => match append s t with
    | some s' => some (emit { s' with depth := 0 } (.joined t), .w5 { w with depth := s'.depth })
    | none => some (s, .broken)
  -- posix.cpp:355
  | .w5 w => some ({ s with owner := 0 }, .w6 w)
  -- posix.cpp:356, 358
  | .w6 w => some ({ s with mutex := none }, if w.intr then .w9 w else .w7 w)
  -- posix.cpp:366, 369
  | .w7 w => some (unlockT { s with asleep := upd s.asleep t true } t, .w8 w)
  | .w8 w =>
    if (s.asleep t = false ∨ ch = .timeout) ∧ s.tm t = none then
      some ({ s with asleep := upd s.asleep t false, tm := upd s.tm t (some t) }, .w8b w)
    else none
  -- posix.cpp:373-376
  | .w8b w => some ({ s with intr := upd s.intr t (s.intr t && !w.clear) }, .w9 { w with intr := s.intr t })
  -- posix.cpp:379
  | .w9 w => some (s, .w10 { w with notified := s.flag t })
  -- posix.cpp:380
  | .w10 w => some (unlockT s t, .w11 w)
  -- posix.cpp:382
  | .w11 w => lockM s t (.w12 w)
  -- posix.cpp:385
  | .w12 w => lockT s t t (.w13 w)
  -- posix.cpp:386
  | .w13 w => some ({ s with flag := upd s.flag t false }, .w14 w)
  -- posix.cpp:387
  | .w14 w => some (unlockT s t, .w15 w)
  -- posix.cpp:389-397
  | .w15 w =>
    if w.notified then
      if absent s.next t (s.log.length + 1) s.first then some (emit s (.left t true), .w16 w)
      else some (s, .broken)
    else match remove s t with
      | some s' => some (emit s' (.left t false), .w16 w)
      | none => some (s, .broken)
  -- posix.cpp:399
  | .w16 w => some ({ s with next := upd s.next t 0 }, .w17 w)
  -- posix.cpp:401
  | .w17 w => some ({ s with owner := t }, .w18 w)
  -- posix.cpp:402-404
  | .w18 w => some (emit { s with depth := w.depth } (.resumed t w.intr), .idle)
  -- posix.cpp:423
  | .n0 => some (if s.owner = t then (s, .n1) else (emit s (.aborted t), .abort))
  -- posix.cpp:424-430
  | .n1 =>
    if s.first = 0 then some (emit s (.nobody t), .idle)
    else
      let u := s.first
      let s := { s with first := s.next u }
      if u = s.last then if s.first = 0 then some ({ s with last := 0 }, .n2 u) else some (s, .broken)
      else some (s, .n2 u)
  -- posix.cpp:412
  | .n2 u => lockT s t u (.n3 u)
  -- posix.cpp:414
  | .n3 u => some (emit { s with flag := upd s.flag u true } (.told u), .n4 u)
  -- posix.cpp:415
  | .n4 u => some ({ s with asleep := upd s.asleep u false }, .n5 u)
  -- posix.cpp:417
  | .n5 u => some (unlockT s u, .idle)
  -- posix.cpp:443-444
  | .g0 => some (if s.owner = t then (s, .g1 s.first) else (emit s (.aborted t), .abort))
  -- posix.cpp:444, 412
  | .g1 u => if u = 0 then some (s, .g6) else lockT s t u (.g2 u)
  -- posix.cpp:414
  | .g2 u => some (emit { s with flag := upd s.flag u true } (.told u), .g3 u)
  -- posix.cpp:415
  | .g3 u => some ({ s with asleep := upd s.asleep u false }, .g4 u)
  -- posix.cpp:417
  | .g4 u => some (unlockT s u, .g5 u)
  -- posix.cpp:444
  | .g5 u => some (s, .g1 (s.next u))
  -- posix.cpp:447
  | .g6 => some (emit { s with first := 0, last := 0 } (.toldAll t), .idle)
  -- posix.cpp:144
  | .i0 u => lockT s t u (.i1 u)
  -- posix.cpp:146
  | .i1 u => some ({ s with intr := upd s.intr u true }, .i2 u)
  -- posix.cpp:148-153
  | .i2 u => some ({ s with asleep := upd s.asleep u false }, .i3 u)
  -- posix.cpp:155
  | .i3 u => some (unlockT s u, .idle)
  -- posix.cpp:159
  | .c0 => lockT s t t .c1
  -- posix.cpp:161-163
  | .c1 => some ({ s with intr := upd s.intr t false }, .c2)
  -- posix.cpp:166
  | .c2 => some (unlockT s t, .idle)

structure St where
  sh : Shared := {}
  pc : Nat → Pc := fun _ => .idle

def step (s : St) (t : Nat) (ch : Choice) : Option St :=
  (localStep s.sh t (s.pc t) ch).map fun r => { sh := r.1, pc := upd s.pc t r.2 }

/-- The states that any threads can bring about by any calls in any order. -/
inductive Reachable : St → Prop where
  | init : Reachable {}
  | step {s s' t ch} : Reachable s → step s t ch = some s' → Reachable s'

/-- run a schedule -/
def exec : St → List (Nat × Choice) → Option St
  | s, [] => some s
  | s, (t, ch) :: l => (step s t ch).bind fun s' => exec s' l

end Avian.SysMonitor
