import Verif.Conc.Parking

/-
C114: parking and interrupting.
-/
namespace Avian.Parking

/-! ## Specification: what the events so far say -/

/-- There is a permit: the thread was unparked since its last park returned. -/
def permit : Bool → List Event → Bool
  | b, [] => b
  | _, .unpark :: es => permit true es
  | _, .parkReturns :: es => permit false es
  | b, _ :: es => permit b es

/-- An interrupt is pending: neither `Thread.interrupted` nor an exception told of it. -/
def pending : Bool → List Event → Bool
  | b, [] => b
  | _, .interrupt :: es => pending true es
  | _, .asked _ :: es => pending false es
  | _, .waited _ :: es => pending false es
  | b, _ :: es => pending b es

theorem permit_append (b : Bool) (x y : List Event) : permit b (x ++ y) = permit (permit b x) y := by
  induction x generalizing b with
  | nil => rfl
  | cons e x ih => cases e <;> exact ih _

theorem pending_append (b : Bool) (x y : List Event) : pending b (x ++ y) = pending (pending b x) y := by
  induction x generalizing b with
  | nil => rfl
  | cons e x ih => cases e <;> exact ih _

/-! ## Permits -/

theorem step_permit (s : State) (a : Action) : (step s a).1.unparked = permit s.unparked (step s a).2 := by
  cases a <;> simp only [step, loop, leave] <;> (repeat' split) <;> simp_all [permit]

theorem exec_permit (as : List Action) (s : State) : (exec s as).1.unparked = permit s.unparked (exec s as).2 := by
  induction as generalizing s with
  | nil => rfl
  | cons a as ih => rw [exec, permit_append, ih, step_permit]

/-- A park does not wait if and only if there is a permit or an interrupt. -/
theorem park_waits (as : List Action) (time : Int) (ht : 0 ≤ time) (ho : (exec initial as).1.pc = .out) (hh : (exec initial as).1.held = false) :
    (step (exec initial as).1 (.park time)).2 = (if permit false (exec initial as).2 || (exec initial as).1.flag then [.parkReturns] else []) ∧
    ((step (exec initial as).1 (.park time)).1.pc = .out ↔ (permit false (exec initial as).2 || (exec initial as).1.flag) = true) := by
  have h := exec_permit as initial
  rw [show initial.unparked = false from rfl] at h
  rw [← h]
  generalize (exec initial as).1 = s at *
  simp only [step, ho, hh, and_self, if_true, loop, leave, ht, true_and]
  cases hu : s.unparked <;> cases hf : s.flag <;> simp

/-! ## No wake-up is lost -/

/-- A thread that is parked though it was unparked or interrupted was told to wake. -/
def Told (s : State) : Prop := ∀ time, s.pc = .parked time → (s.unparked || s.flag) = true → s.signaled = true

/-- While an interrupt is under way and the thread is parked, it was told. -/
def HeldTold (s : State) : Prop := ∀ time, s.pc = .parked time → s.held = true → s.signaled = true

theorem step_told (s : State) (h1 : Told s) (h2 : HeldTold s) (a : Action) : Told (step s a).1 ∧ HeldTold (step s a).1 := by
  unfold Told HeldTold at *
  cases a <;> simp only [step, loop, leave] <;> (repeat' split) <;> simp_all

theorem exec_told (as : List Action) (s : State) (h1 : Told s) (h2 : HeldTold s) : Told (exec s as).1 ∧ HeldTold (exec s as).1 := by
  induction as generalizing s with
  | nil => exact ⟨h1, h2⟩
  | cons a as ih =>
    obtain ⟨g1, g2⟩ := step_told s h1 h2 a
    exact ih _ g1 g2

/-- No wake-up is lost: at any moment of any execution, if a parked thread has a permit or is interrupted, it was told to wake. -/
theorem no_lost_wakeup (as : List Action) (time : Int) (hp : (exec initial as).1.pc = .parked time)
    (h : (permit false (exec initial as).2 || (exec initial as).1.flag) = true) : (exec initial as).1.signaled = true := by
  have hu := exec_permit as initial
  rw [show initial.unparked = false from rfl] at hu
  rw [← hu] at h
  exact (exec_told as initial (by intro t ht; cases ht) (by intro t ht; cases ht)).1 time hp h

/-- And once awake, it returns as soon as no interrupt is under way. -/
theorem told_returns (s : State) (time : Int) (hp : s.pc = .parked time) (h : (s.unparked || s.flag) = true) (hh : s.held = false) (elapsed : Nat) :
    ((step (step s .sleepEnds).1 (.reacquire elapsed)).1).pc = .out ∧ (step (step s .sleepEnds).1 (.reacquire elapsed)).2 = [.parkReturns] := by
  simp only [step, hp, hh, loop, leave]
  cases hf : s.flag <;> cases hu : s.unparked <;> simp_all

/-- A park without a limit that is woken returns, for whatever reason it was woken. -/
theorem unlimited_returns (s : State) (hp : s.pc = .parked 0) (hh : s.held = false) (elapsed : Nat) :
    ((step (step s .sleepEnds).1 (.reacquire elapsed)).1).pc = .out := by
  simp only [step, hp, hh, loop, leave]
  cases hf : s.flag
  · by_cases he : elapsed = 0
    · simp [he]
    · have h1 : ¬((0 : Int) - elapsed = 0) := by omega
      have h2 : ¬((0 : Int) - elapsed ≥ 0) := by omega
      simp only [Bool.false_eq_true, if_false, h1, h2, false_and]
  · simp

/-- A park with a limit that is woken for no reason goes on with the time that is left, and returns if none is left. -/
theorem limited_goes_on (s : State) (time : Int) (hp : s.pc = .parked time) (hn : (s.unparked || s.flag) = false) (hh : s.held = false) (elapsed : Nat) :
    ((step (step s .sleepEnds).1 (.reacquire elapsed)).1).pc = (if time ≤ elapsed then .out else .parked (time - elapsed)) := by
  obtain ⟨hu, hf⟩ := Bool.or_eq_false_iff.mp hn
  simp only [step, hp, hh, loop, leave, hu, hf]
  by_cases h1 : time - elapsed = 0
  · rw [if_pos (show time ≤ elapsed by omega)]
    simp [h1]
  · by_cases h2 : time ≤ elapsed
    · have h3 : ¬((elapsed : Int) ≤ time) := by omega
      simp [h1, h2, h3]
    · have h3 : (elapsed : Int) ≤ time := by omega
      simp [h1, h2, h3]

/-! ## Interrupts -/

/-- What the thread knows of an interrupt. -/
def known (s : State) : Bool :=
  s.flag || (match s.pc with | .back _ i => i | _ => false)

/-- No `Object.wait` ends in the middle of an interrupt. -/
def Calm (s : State) : List Action → Prop
  | [] => True
  | a :: as => (a = .wakes → s.held = false) ∧ Calm (step s a).1 as

/-- In the middle of an interrupt it is known. -/
def HeldKnown (s : State) : Prop := s.held = true → known s = true

theorem step_known (s : State) (hk : HeldKnown s) (a : Action) (hc : a = .wakes → s.held = false) :
    known (step s a).1 = pending (known s) (step s a).2 ∧ HeldKnown (step s a).1 := by
  unfold HeldKnown known at *
  obtain ⟨u, f, pc, sg, he⟩ := s
  cases a <;> rcases pc with _ | t | ⟨t, i⟩ | _ <;> cases he <;> cases f <;> cases u <;> (try cases i) <;>
    first
      | (have := hk rfl; contradiction)
      | (have := hc rfl; contradiction)
      | exact ⟨rfl, fun _ => rfl⟩
      | (refine ⟨rfl, ?_⟩; intro h; cases h; done)
      | (simp only [step, loop, leave]; (repeat' split) <;> simp_all [pending])

theorem exec_known (as : List Action) (s : State) (hk : HeldKnown s) (hc : Calm s as) :
    known (exec s as).1 = pending (known s) (exec s as).2 := by
  induction as generalizing s with
  | nil => rfl
  | cons a as ih =>
    obtain ⟨h1, h2⟩ := step_known s hk a hc.1
    rw [exec, pending_append, ← h1]
    exact ih _ h2 hc.2

/-- Each interrupt is told once: outside of `park` and `Object.wait` the flag says that one is pending, if no `Object.wait` ends in the middle of an interrupt. -/
theorem interrupt_once_partial (as : List Action) (hc : Calm initial as) (ho : (exec initial as).1.pc = .out) :
    (exec initial as).1.flag = pending false (exec initial as).2 := by
  have := exec_known as initial (by intro h; cases h) hc
  rw [known, ho, Bool.or_false] at this
  exact this

/-- `Thread.interrupted` and `Object.wait` tell of an interrupt just if one is pending. -/
def Truthful : Bool → List Event → Prop
  | _, [] => True
  | b, .asked answer :: es => answer = b ∧ Truthful false es
  | b, .waited exception :: es => exception = b ∧ Truthful false es
  | _, .interrupt :: es => Truthful true es
  | b, _ :: es => Truthful b es

theorem truthful_append (b : Bool) (x y : List Event) (hx : Truthful b x) (hy : Truthful (pending b x) y) : Truthful b (x ++ y) := by
  induction x generalizing b with
  | nil => exact hy
  | cons e x ih =>
    cases e with
    | asked a => exact ⟨hx.1, ih _ hx.2 hy⟩
    | waited a => exact ⟨hx.1, ih _ hx.2 hy⟩
    | _ => exact ih _ hx hy

theorem step_truthful (s : State) (a : Action) : Truthful (known s) (step s a).2 := by
  unfold known
  cases a <;> simp only [step, loop, leave] <;> (repeat' split) <;> simp_all [Truthful]

theorem exec_truthful (as : List Action) (s : State) (hk : HeldKnown s) (hc : Calm s as) : Truthful (known s) (exec s as).2 := by
  induction as generalizing s with
  | nil => trivial
  | cons a as ih =>
    obtain ⟨h1, h2⟩ := step_known s hk a hc.1
    rw [exec]
    refine truthful_append _ _ _ (step_truthful s a) ?_
    rw [← h1]
    exact ih _ h2 hc.2

/-- The answers are right, under the same condition. -/
theorem answers_partial (as : List Action) (hc : Calm initial as) : Truthful false (exec initial as).2 :=
  exec_truthful as initial (by intro h; cases h) hc

/-- `Object.wait` that ends in the middle of an interrupt: it throws InterruptedException, and `Thread.interrupted` is true all the same. -/
theorem interrupt_twice : (exec initial [.wait, .interruptBegin, .wakes, .interruptEnd, .interrupted]).2 = [.interrupt, .waited true, .asked true] := by
  decide

/-- Or the flag is set while the thread waits again, and nothing tells it to wake. -/
theorem interrupt_unseen : let s := (exec initial [.wait, .interruptBegin, .wakes, .wait, .interruptEnd]).1
    s.pc = .waiting ∧ s.flag = true ∧ s.signaled = false := by decide

/-! ## Times -/

/-- A time in nanoseconds is rounded up, and never to "no limit". -/
theorem parkNanos_ok (nanos now : Int) (h : 0 < nanos) : ∃ ms, parkNanos nanos now = some ms ∧ 0 < ms ∧ nanos < ms * 1000000 ∧ ms * 1000000 ≤ nanos + 1000000 := by
  refine ⟨nanos.tdiv 1000000 + 1, ?_, ?_⟩
  · unfold parkNanos parkTime
    rw [if_neg (by omega), if_neg (by decide), if_pos (by omega)]
  · rw [Int.tdiv_eq_ediv_of_nonneg (by omega)]
    omega

/-- A deadline that is past does not wait, one to come waits until it. -/
theorem parkUntil_ok (deadline now : Int) : parkTime true deadline now = (if deadline ≤ now then none else some (deadline - now)) := by
  unfold parkTime
  by_cases h : deadline ≤ now
  · rw [if_pos rfl, if_pos (by omega), if_pos h]
  · rw [if_pos rfl, if_neg (by omega), if_neg h]

/-! ## Examples -/

/-- Unparked before it parks, then parked until it is interrupted. -/
example : (exec initial [.unpark, .unpark, .park 0, .park 0, .interruptBegin, .sleepEnds, .interruptEnd, .reacquire 3, .interrupted]).2 =
    [.unpark, .unpark, .parkReturns, .interrupt, .parkReturns, .asked true] := by decide

/-- The second park waits: two permits are one. -/
example : (exec initial [.unpark, .unpark, .park 0, .park 0]).1.pc = .parked 0 := by decide

example : let s := (exec initial [.park 100, .sleepEnds, .reacquire 30, .unpark]).1
    s.pc = .parked 70 ∧ s.signaled = true := by decide

example : Calm initial [.wait, .interruptBegin, .interruptEnd, .wakes, .interrupted] ∧
    (exec initial [.wait, .interruptBegin, .interruptEnd, .wakes, .interrupted]).2 = [.interrupt, .waited true, .asked false] := by
  refine ⟨?_, by decide⟩
  simp only [Calm]
  decide

end Avian.Parking
