import Verif.Conc.SysMonitorRun

/-!
Properties of the platform monitor (C31), for any number of threads and every schedule.

The specification is stated on the log of events: `entries t log` counts what thread `t` has acquired
and not released (a waiting thread holds nothing), `waiters log` is the queue of the threads that wait
for a notification, first come first, and `EvOk` says when each event may happen.
-/

namespace Avian.SysMonitor

theorem never_broken {s : St} (h : Reachable s) : ∀ t, s.pc t ≠ .broken := by
  induction h with
  | init => intro t; simp
  | step hr hs ih =>
    rename_i s s' t ch
    intro u
    by_cases e : u = t
    · rw [e]; exact (step_inv (reachable_inv hr) hs).2
    · simp only [step, Option.map_eq_some_iff] at hs
      obtain ⟨⟨sh', p'⟩, hl, rfl⟩ := hs
      show upd s.pc t p' u ≠ _
      rw [upd_ne e]; exact ih u

/-- every event meets its specification: whoever enters is alone, notifications go to the first thread
of the queue, `notify` does nothing only if nobody waits, after `notifyAll` nobody waits, a thread that
returns from `wait` is off the queue and alone, `abort` and refusals hit only threads that hold nothing -/
theorem events_ok {s : St} (h : Reachable s) : ∀ pre e post, s.sh.log = pre ++ e :: post → EvOk pre e :=
  log_ok h

/-- two threads never hold the monitor at the same time -/
theorem mutual_exclusion {s : St} (h : Reachable s) {t u} (ht : 0 < (entries t s.sh.log).1) (hu : 0 < (entries u s.sh.log).1) :
    t = u := by
  refine Classical.byContradiction fun hne => ?_
  have hi := reachable_inv h
  have : s.sh.mutex = some t := by
    have h1 := (hi.own.thr t).mtx
    have h2 := (hi.own.thr t).reg
    rw [h1]
    cases hp : s.pc t <;> rw [hp] at h2 <;> simp only [holds, RegOk] at h2 ⊢ <;> omega
  have := others_zero hi (Or.inl this) (u := u) (fun e => hne e.symm)
  omega

/-- a thread between two calls is the owner exactly if it holds entries, and `depth` is their number -/
theorem depth_exact {s : St} (h : Reachable s) {t} (ht : t ≠ 0) (hp : s.pc t = .idle) :
    (s.sh.owner = t ↔ 0 < (entries t s.sh.log).1) ∧ (s.sh.owner = t → s.sh.depth = (entries t s.sh.log).1) := by
  have hi := (reachable_inv h).own.thr t
  have h1 := hi.own ht
  have h2 := hi.mtx
  rw [hp] at h1 h2
  exact ⟨h1, fun e => hi.dep (h2.2 (h1.1 e))⟩

theorem saved_between {t : Nat} {b : List Ev} {a : Nat × Nat} (hb : ∀ e ∈ b, e ≠ .joined t ∧ ∀ i, e ≠ .resumed t i) :
    (b.foldl (tally t) a).2 = a.2 := by
  induction b generalizing a with
  | nil => rfl
  | cons e b ih =>
    rw [List.foldl_cons, ih (fun x hx => hb x (by simp [hx]))]
    have := hb e (by simp)
    cases e <;> simp only [tally] <;> (try split) <;> (try rfl) <;> simp_all

/-- returning from `wait` gives back the entries held before; with `depth_exact` this is the value of
`depth` -/
theorem depth_restored {t : Nat} {a b : List Ev} {i} (hb : ∀ e ∈ b, e ≠ .joined t ∧ ∀ i, e ≠ .resumed t i) :
    (entries t (a ++ [.joined t] ++ b ++ [.resumed t i])).1 = (entries t a).1 := by
  rw [entries_snoc]
  simp only [tally, if_true]
  simp only [entries, List.foldl_append]
  rw [saved_between hb]
  simp [tally]

/-- when no thread holds the monitor, the linked list is the queue of the events -/
theorem queue_exact {s : St} (h : Reachable s) (hm : s.sh.mutex = none) :
    Chain s.sh.next s.sh.first (waiters s.sh.log) ∧ s.sh.last = lastOf (waiters s.sh.log) ∧ (waiters s.sh.log).Nodup := by
  have hi := (reachable_inv h).q
  have := hi.rep
  simp only [Rep, hm] at this
  exact ⟨this.1, this.2, hi.nodup⟩

/-- a thread outside `wait` is not in the queue: whoever has timed out or has been interrupted has left it -/
theorem timed_out_leaves {s : St} (h : Reachable s) {t} (hp : s.pc t = .idle) : t ∉ waiters s.sh.log := fun hm => by
  have := ((reachable_inv h).q.mem t hm).1
  rw [hp] at this; simp [inWait] at this

/-- a thread that has been given a notification does not go on sleeping: the signal is already on its
way, and the notifying thread does not have to wait for anything to send it -/
theorem no_lost_wakeup {s : St} (h : Reachable s) {u} (ht : toldSince u s.sh.log = true) (ha : s.sh.asleep u = true) :
    ∃ v s', step s v .go = some s' ∧ s'.sh.asleep u = false := by
  have hi := reachable_inv h
  have hf : s.sh.flag u = true := by
    rcases hi.told.lst u ht with hf | ⟨w, hw⟩
    · exact hf
    · obtain ⟨w', e⟩ := hi.q.slp u ha
      rw [e] at hw; rcases hw with hw | hw <;> cases hw
  obtain ⟨v, hv⟩ := hi.q.wak u ha hf
  rcases hv with hv | hv
  · exact ⟨v, _, by simp only [step, hv, localStep, Option.map_some]; rfl, upd_same _ _ _⟩
  · exact ⟨v, _, by simp only [step, hv, localStep, Option.map_some]; rfl, upd_same _ _ _⟩

/-- a thread inside a call that is not asleep waits at most for a thread that can move, or for the owner
between two of its calls -/
theorem no_deadlock {s : St} (h : Reachable s) {t} (hb : busy s t) :
    (∃ u, s.pc u ≠ .idle ∧ (step s u .go).isSome = true) ∨
    (∃ u, s.sh.mutex = some u ∧ s.pc u = .idle ∧ 0 < (entries u s.sh.log).1) :=
  progress h (never_broken h) hb

/-! ### Runs -/

def go (t n : Nat) : List (Nat × Choice) := List.replicate n (t, .go)
def call (t : Nat) (o : Op) (n : Nat) : List (Nat × Choice) := (t, .call o) :: go t n

theorem exec_reachable {s s' : St} {l} (hr : Reachable s) (h : exec s l = some s') : Reachable s' := by
  induction l generalizing s with
  | nil => cases h; exact hr
  | cons a l ih =>
    obtain ⟨t, ch⟩ := a
    simp only [exec, Option.bind_eq_some_iff] at h
    obtain ⟨s1, h1, h2⟩ := h
    exact ih (.step hr h1) h2

/-- Threads 1 (two levels deep) and 2 wait; thread 3 notifies while thread 1 has already timed out and
is on its way back: the notification goes to thread 1 all the same, which returns with both levels. -/
def raceRun : List (Nat × Choice) :=
  call 1 .acquire 4 ++ call 1 .acquire 2 ++ call 1 (.wait false) 7 ++
  call 2 .acquire 4 ++ call 2 (.wait false) 7 ++
  [(1, .timeout)] ++ go 1 3 ++
  call 3 .acquire 4 ++ call 3 .notify 6 ++ call 3 .release 4 ++ go 1 8

def raceLog : List Ev :=
  [.acquired 1, .acquired 1, .joined 1, .acquired 2, .joined 2, .acquired 3, .told 1, .released 3, .left 1 false,
    .resumed 1 false]

example : (exec {} raceRun).map (fun s => (s.sh.log, s.sh.depth, s.sh.owner, waiters s.sh.log)) =
    some (raceLog, 2, 1, [2]) := by decide +kernel

/-- Both threads wait, thread 3 wakes both; thread 2 is told but still waits for the monitor. -/
example : (exec {} (call 1 .acquire 4 ++ call 1 (.wait false) 7 ++ call 2 .acquire 4 ++ call 2 (.wait false) 7 ++
      call 3 .acquire 4 ++ call 3 .notifyAll 13 ++ call 3 .release 4 ++ go 2 4 ++ go 1 12)).map
      (fun s => (s.sh.log, toldSince 2 s.sh.log, s.sh.owner)) =
    some ([.acquired 1, .joined 1, .acquired 2, .joined 2, .acquired 3, .told 1, .told 2, .toldAll 3, .released 3,
      .left 1 true, .resumed 1 false], true, 1) := by decide +kernel

/-- the moment between setting the flag of a sleeping thread and signalling it is reachable -/
example : (exec {} (call 1 .acquire 4 ++ call 1 (.wait false) 7 ++ call 3 .acquire 4 ++ call 3 .notify 4)).map
      (fun s => (toldSince 1 s.sh.log, s.sh.asleep 1)) = some (true, true) := by decide +kernel

/-- a thread that is not the owner is stopped -/
example : (exec {} (call 1 .acquire 4 ++ call 2 .notify 1)).map (fun s => (s.sh.log, s.pc 2)) =
    some ([.acquired 1, .aborted 2], .abort) := by decide +kernel

end Avian.SysMonitor
