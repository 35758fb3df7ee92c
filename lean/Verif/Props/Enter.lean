import Verif.Conc.EnterInv

/-!
C26, C27: the thread state protocol of `enter`.

Specification side: a thread outside `enter` rests in one of the states of `TState`
(`restState`).  "Running" means resting in the active state.  The theorems speak about every state
that `n` threads can reach from the start of the machine by any interleaving of single memory
accesses.
-/

namespace Avian.Enter

/-! ### C26 -/

/-- C26. While a thread is exclusive, no other thread is active and no other thread is exclusive. -/
theorem exclusive_excludes {n : Nat} {s : Sys} (h : Reachable n s) {e t : Tid} (hne : t ≠ e)
    (he : restState (s.pc e) = some .exclusive) :
    restState (s.pc t) ≠ some .active ∧ restState (s.pc t) ≠ some .exclusive := by
  have hi := inv_reachable h
  have he' : s.pc e = .exclusive := by
    cases hp : s.pc e <;> simp_all [restState]
  have hx := hi.excl e t hne (by rw [he']; rfl)
  constructor <;> intro hr
  · have : s.pc t = .active := by cases hp : s.pc t <;> simp_all [restState]
    have := hx (by rw [this]; rfl)
    simp_all [transient]
  · have : s.pc t = .exclusive := by cases hp : s.pc t <;> simp_all [restState]
    have := hx (by rw [this]; rfl)
    simp_all [transient]

/-- C26, no entry meanwhile: as long as a thread is exclusive, no step of another thread ends in the
active or exclusive state. -/
theorem nobody_enters_while_exclusive {n : Nat} {s s' : Sys} (h : Reachable n s) (hs : Step n s s')
    {e t : Tid} (hne : t ≠ e) (he' : restState (s'.pc e) = some .exclusive) :
    restState (s'.pc t) ≠ some .active ∧ restState (s'.pc t) ≠ some .exclusive :=
  exclusive_excludes (.step h hs) hne he'

/-- C26, accounting: when no thread is inside `enter`, `activeCount` is the number of threads that
are active or exclusive, and `exclusive` names the exclusive thread if there is one. -/
theorem count_exact {n : Nat} {s : Sys} (h : Reachable n s)
    (hq : ∀ t, t < n → (restState (s.pc t)).isSome = true) :
    s.sh.count = (((List.range n).filter fun t =>
      restState (s.pc t) = some .active ∨ restState (s.pc t) = some .exclusive).length : Int) ∧
    (∀ t, s.sh.excl = some t ↔ restState (s.pc t) = some .exclusive) ∧ s.sh.lock = none := by
  have hi := inv_reachable h
  have hall : ∀ t, (restState (s.pc t)).isSome = true := by
    intro t
    by_cases ht : t < n
    · exact hq t ht
    · rw [hi.out t (Nat.le_of_not_lt ht)]; rfl
  refine ⟨?_, ?_, ?_⟩
  · rw [hi.cnt, total]
    generalize List.range n = l
    induction l with
    | nil => rfl
    | cons a l ih =>
      have ha := hall a
      simp only [List.map_cons, List.sum_cons, ih, List.filter_cons]
      cases hp : s.pc a <;> simp_all [restState, counted] <;> omega
  · intro t
    rw [← hi.own t]
    have ha := hall t
    cases hp : s.pc t <;> simp_all [restState, owns]
  · cases hl : s.sh.lock with
    | none => rfl
    | some t =>
      have := (hi.lock t).2 hl
      have ha := hall t
      cases hp : s.pc t <;> simp_all [restState, holds]

/-- C26, assertions: `activeCount` is positive whenever it is decremented
(src/machine.cpp:4101,4136), and a thread that leaves the exclusive state is the one named by
`exclusive` (src/machine.cpp:4123,4176). -/
theorem assertions_hold {n : Nat} {s : Sys} (h : Reachable n s) {t : Tid} {sh' : Shared} {p' : Pc}
    (hl : Local t s.sh (s.pc t) sh' p') :
    (sh'.count < s.sh.count → s.sh.count > 0) ∧
    (s.sh.excl ≠ none → sh'.excl = none → s.sh.excl = some t) ∧
    (s.sh.excl ≠ sh'.excl → s.sh.lock = some t) := by
  have hi := inv_reachable h
  have hc := local_count hl
  obtain ⟨-, o2⟩ := local_own hl (hi.own t) (hi.none_ t)
  refine ⟨?_, ?_, ?_⟩
  · intro hlt
    have h1 := counted_01 (s.pc t)
    have h2 := counted_01 p'
    have h3 : counted (s.pc t) = 1 := by omega
    have htn : t < n := by
      apply Nat.lt_of_not_le; intro hge
      rw [hi.out t hge] at h3; simp [counted] at h3
    have := sum_ge_one (List.range n) s.pc t (List.mem_range.2 htn)
    have hcn := hi.cnt
    rw [total] at hcn
    omega
  · intro hn hs
    rcases o2 with h' | ⟨h1, _, _⟩ | ⟨h1, _, _⟩
    · rw [h'] at hs; exact absurd hs hn
    · exact absurd h1 hn
    · exact h1
  · intro hd
    rcases o2 with h' | ⟨_, _, h3⟩ | ⟨_, _, h3⟩
    · exact absurd h'.symm hd
    · exact (hi.lock t).1 h3
    · exact (hi.lock t).1 h3

/-! ### C27 -/

/-- The thread waits on the state lock and has not been notified. -/
def Asleep (s : Sys) (t : Tid) : Prop :=
  s.sh.waiting t = true ∧ (s.pc t = .x8w ∨ s.pc t = .x4w ∨ ∃ b, s.pc t = .x3w b ∨ s.pc t = .a9w b)

/-- A thread that is outside `enter`, or asleep in it. -/
def Settled (s : Sys) (t : Tid) : Prop := (restState (s.pc t)).isSome = true ∨ Asleep s t

theorem settled_notify {s : Sys} {t : Tid} (h : Settled s t) :
    willNotify (s.pc t) = false ∧ willNotifyAll (s.pc t) = false := by
  rcases h with h | ⟨_, h | h | ⟨b, h | h⟩⟩
  · cases hp : s.pc t <;> simp_all [restState, willNotify, willNotifyAll]
  all_goals rw [h]; exact ⟨rfl, rfl⟩

/-- C27. A thread that asked for the exclusive state and sleeps because others were active: if every
other thread has come to rest or sleeps too, then one of them is still active. So the last thread to
leave the active state cannot have left without waking the sleeper. -/
theorem no_lost_wakeup {n : Nat} {s : Sys} (h : Reachable n s) {e : Tid} (he : s.pc e = .x8w)
    (hw : s.sh.waiting e = true) (hs : ∀ t, t ≠ e → Settled s t) :
    ∃ t, t ≠ e ∧ restState (s.pc t) = some .active := by
  have hi := inv_reachable h
  rcases hi.wake e (.inr ⟨he, hw⟩) with hc | ⟨t, ht⟩
  · have hce : counted (s.pc e) = 1 := by rw [he]; rfl
    have hcn := hi.cnt
    rw [total] at hcn
    obtain ⟨t, _, hte, htc⟩ := sum_two_exists (List.range n) s.pc e (by omega) List.nodup_range
    refine ⟨t, hte, ?_⟩
    have hown : owns (s.pc t) = false := by
      cases ho : owns (s.pc t) with
      | false => rfl
      | true =>
        have h1 := (hi.own t).1 ho
        have h2 := (hi.own e).1 (by rw [he]; rfl)
        rw [h1] at h2; exact absurd (Option.some.inj h2) hte
    rcases hs t hte with hr | ⟨_, hr | hr | ⟨b, hr | hr⟩⟩
    · cases hp : s.pc t <;> simp_all [restState, counted, owns]
    all_goals rw [hr] at htc hown; simp [counted, owns] at htc hown
  · by_cases hte : t = e
    · subst hte; rw [he] at ht; simp [willNotify] at ht
    · have := (settled_notify (hs t hte)).1
      rw [ht] at this; exact absurd this (by simp)

/-- C27, the other waits: a thread that sleeps until the exclusive state is free, while every other
thread has come to rest or sleeps, has reason to: some thread is exclusive, or waits for others to
leave the active state and one of them is still active. -/
theorem no_lost_wakeup_free {n : Nat} {s : Sys} (h : Reachable n s) {u : Tid} (hu : Asleep s u)
    (hs : ∀ t, t ≠ u → Settled s t) :
    (∃ t, t ≠ u ∧ restState (s.pc t) = some .exclusive) ∨
    (∃ t, t ≠ u ∧ restState (s.pc t) = some .active) := by
  have hi := inv_reachable h
  have hall : ∀ t, Settled s t := by
    intro t; by_cases htu : t = u
    · subst htu; exact .inr hu
    · exact hs t htu
  have x8case : ∀ e, s.pc e = .x8w → s.sh.waiting e = true →
      ∃ t, t ≠ e ∧ restState (s.pc t) = some .active :=
    fun e he hw => no_lost_wakeup h he hw (fun t _ => hall t)
  have notu : ∀ t st, restState (s.pc t) = some st → t ≠ u := by
    rintro t st ht rfl
    obtain ⟨_, hr | hr | ⟨b, hr | hr⟩⟩ := hu <;> rw [hr] at ht <;> simp [restState] at ht
  have key : waitsFree (s.pc u) = true ∨ s.pc u = .x8w := by
    obtain ⟨_, hr | hr | ⟨b, hr | hr⟩⟩ := hu
    · exact .inr hr
    all_goals left; rw [hr]; rfl
  rcases key with hf | hx
  · rcases hi.wakeFree u hf hu.1 with hex | ⟨t, ht⟩
    · cases hexe : s.sh.excl with
      | none => exact absurd hexe hex
      | some e =>
        have ho := (hi.own e).2 hexe
        rcases hall e with hr | ⟨hw, hr | hr | ⟨b, hr | hr⟩⟩
        · left
          have : restState (s.pc e) = some .exclusive := by
            cases hp : s.pc e <;> simp_all [restState, owns]
          exact ⟨e, notu e _ this, this⟩
        · right
          obtain ⟨t, _, ht⟩ := x8case e hr hw
          exact ⟨t, notu t _ ht, ht⟩
        all_goals rw [hr] at ho; simp [owns] at ho
    · have := (settled_notify (hall t)).2
      rw [ht] at this; exact absurd this (by simp)
  · right
    exact x8case u hx hu.1

/-- A thread inside `enter` can take a step that is not a spurious wake-up. -/
def CanMove (s : Sys) (t : Tid) : Prop :=
  restState (s.pc t) = none ∧ ¬ Asleep s t ∧ ∃ sh' p', Local t s.sh (s.pc t) sh' p'

theorem holder_moves {t : Tid} {sh : Shared} {p : Pc} (h : holds p = true) : ∃ sh' p', Local t sh p sh' p' := by
  cases p
  case x1 b =>
    by_cases hc : sh.excl = none
    · exact ⟨_, _, .x1free b hc⟩
    · cases b
      · exact ⟨_, _, .x1busyI hc⟩
      · exact ⟨_, _, .x1busyA hc⟩
  case x2c =>
    by_cases hc : sh.excl = none
    · exact ⟨_, _, .x2cNone hc⟩
    · exact ⟨_, _, .x2cSome hc⟩
  case x4 =>
    by_cases hc : sh.excl = none
    · exact ⟨_, _, .x4free hc⟩
    · exact ⟨_, _, .x4busy hc⟩
  case x4h =>
    by_cases hc : sh.excl = none
    · exact ⟨_, _, .x4hfree hc⟩
    · exact ⟨_, _, .x4hbusy hc⟩
  case x4k =>
    by_cases hc : sh.excl = none
    · exact ⟨_, _, .x4kNone hc⟩
    · exact ⟨_, _, .x4kSome hc⟩
  case x4s =>
    by_cases hc : sh.excl = none
    · exact ⟨_, _, .x4sfree hc⟩
    · exact ⟨_, _, .x4sbusy hc⟩
  case x5 b =>
    cases b
    · exact ⟨_, _, .x5I⟩
    · exact ⟨_, _, .x5A⟩
  case x8 =>
    by_cases hc : sh.count > 1
    · exact ⟨_, _, .x8busy hc⟩
    · exact ⟨_, _, .x8ok hc⟩
  case a9 b =>
    by_cases hc : sh.excl = none
    · exact ⟨_, _, .a9free b hc⟩
    · exact ⟨_, _, .a9busy b hc⟩
  case z1 b z =>
    cases b
    · exact ⟨_, _, .z1A z⟩
    · exact ⟨_, _, .z1X z⟩
  case x2 => exact ⟨_, _, .x2⟩
  case x2b => exact ⟨_, _, .x2b⟩
  case x2n => exact ⟨_, _, .x2n⟩
  case x4f => exact ⟨_, _, .x4f⟩
  case x4g => exact ⟨_, _, .x4g⟩
  case x4i => exact ⟨_, _, .x4i⟩
  case x4j => exact ⟨_, _, .x4j⟩
  case x4n => exact ⟨_, _, .x4n⟩
  case x4d => exact ⟨_, _, .x4d⟩
  case x4t => exact ⟨_, _, .x4t⟩
  case x4u => exact ⟨_, _, .x4u⟩
  case x7 => exact ⟨_, _, .x7⟩
  case x8d => exact ⟨_, _, .x8d⟩
  case x9 => exact ⟨_, _, .x9⟩
  case i5 => exact ⟨_, _, .i5⟩
  case i6 => exact ⟨_, _, .i6⟩
  case a7n => exact ⟨_, _, .a7n⟩
  case a7r => exact ⟨_, _, .a7r⟩
  case a12 => exact ⟨_, _, .a12⟩
  case e1 => exact ⟨_, _, .e1⟩
  case e2 => exact ⟨_, _, .e2⟩
  case e3 => exact ⟨_, _, .e3⟩
  case e4 => exact ⟨_, _, .e4⟩
  case x3 b => exact ⟨_, _, .x3 b⟩
  case x6 b => exact ⟨_, _, .x6 b⟩
  case z2 b => exact ⟨_, _, .z2 b⟩
  case z3 b => exact ⟨_, _, .z3 b⟩
  case z4 b => exact ⟨_, _, .z4 b⟩
  case z5 b => exact ⟨_, _, .z5 b⟩
  case a9d b => exact ⟨_, _, .a9d b⟩
  case a10 b => exact ⟨_, _, .a10 b⟩
  case a11 b => exact ⟨_, _, .a11 b⟩
  all_goals simp [holds] at h

theorem free_moves {t : Tid} {sh : Shared} {p : Pc} (h : holds p = false) (hl : sh.lock = none)
    (hr : restState p = none) : ∃ sh' p', Local t sh p sh' p' := by
  cases p
  case i1 => exact ⟨_, _, .i1⟩
  case i2 => exact ⟨_, _, .i2⟩
  case a2 => exact ⟨_, _, .a2⟩
  case a3 => exact ⟨_, _, .a3⟩
  case a5 => exact ⟨_, _, .a5⟩
  case a6 => exact ⟨_, _, .a6⟩
  case x4w => exact ⟨_, _, .x4w hl⟩
  case x8w => exact ⟨_, _, .x8w hl⟩
  case i4 => exact ⟨_, _, .i4 hl⟩
  case a7l => exact ⟨_, _, .a7l hl⟩
  case e0 => exact ⟨_, _, .e0 hl⟩
  case x0 b => exact ⟨_, _, .x0 b hl⟩
  case a8 b => exact ⟨_, _, .a8 b hl⟩
  case a9w b => exact ⟨_, _, .a9w b hl⟩
  case z0 b z => exact ⟨_, _, .z0 b z hl⟩
  case x3w b =>
    cases b
    · exact ⟨_, _, .x3wI hl⟩
    · exact ⟨_, _, .x3wA hl⟩
  case i3 =>
    by_cases hc : sh.excl = none
    · exact ⟨_, _, .i3none hc⟩
    · exact ⟨_, _, .i3some hc⟩
  case a1 =>
    by_cases hc : sh.excl = none
    · exact ⟨_, _, .a1free hc⟩
    · exact ⟨_, _, .a1busy hc⟩
  case a4 =>
    by_cases hc : sh.excl = none
    · exact ⟨_, _, .a4free hc⟩
    · exact ⟨_, _, .a4busy hc⟩
  case a7 =>
    by_cases hc : sh.excl = none
    · exact ⟨_, _, .a7none hc⟩
    · exact ⟨_, _, .a7some hc⟩
  all_goals first
    | (simp [holds] at h; done)
    | (simp [restState] at hr; done)

/-- C27, no deadlock: if a thread is inside `enter` and no thread rests in the active or exclusive
state, then some thread inside `enter` can go on without a spurious wake-up. -/
theorem enter_progress {n : Nat} {s : Sys} (h : Reachable n s) {u : Tid}
    (hu : restState (s.pc u) = none)
    (hq : ∀ t, restState (s.pc t) ≠ some .active ∧ restState (s.pc t) ≠ some .exclusive) :
    ∃ t, CanMove s t := by
  have hi := inv_reachable h
  cases hl : s.sh.lock with
  | some t =>
    have hh := (hi.lock t).2 hl
    refine ⟨t, ?_, ?_, holder_moves hh⟩
    · cases hp : s.pc t <;> simp_all [restState, holds]
    · rintro ⟨_, hr | hr | ⟨b, hr | hr⟩⟩ <;> rw [hr] at hh <;> simp [holds] at hh
  | none =>
    have hno : ∀ t, holds (s.pc t) = false := by
      intro t
      cases hh : holds (s.pc t) with
      | false => rfl
      | true => have := (hi.lock t).1 hh; rw [hl] at this; exact absurd this (by simp)
    by_cases hex : ∃ t, restState (s.pc t) = none ∧ ¬ Asleep s t
    · obtain ⟨t, h1, h2⟩ := hex
      exact ⟨t, h1, h2, free_moves (hno t) hl h1⟩
    · exfalso
      have hall : ∀ t, Settled s t := by
        intro t
        by_cases hr : restState (s.pc t) = none
        · exact .inr (Classical.byContradiction fun hA => hex ⟨t, hr, hA⟩)
        · left; cases hp : restState (s.pc t) with
          | none => exact absurd hp hr
          | some x => rfl
      have hA : Asleep s u := by
        rcases hall u with h' | h'
        · rw [hu] at h'; exact absurd h' (by simp)
        · exact h'
      rcases no_lost_wakeup_free h hA (fun t _ => hall t) with ⟨t, _, ht⟩ | ⟨t, _, ht⟩
      · exact (hq t).2 ht
      · exact (hq t).1 ht

/-! ### Concrete runs -/

theorem Reachable.go {n : Nat} {s : Sys} (h : Reachable n s) (t : Tid) {sh' : Shared} {p' : Pc}
    (ht : t < n) (hl : Local t s.sh (s.pc t) sh' p') : Reachable n ⟨sh', upd s.pc t p'⟩ :=
  .step h (.mk t sh' p' ht hl)

/-- two threads become active -/
theorem run_two_active : ∃ s, Reachable 2 s ∧ s.pc 0 = .active ∧ s.pc 1 = .active ∧
    s.sh.count = 2 ∧ s.sh.excl = none ∧ s.sh.lock = none ∧ s.sh.waiting = fun _ => false := by
  have h := Reachable.init (n := 2)
  have h := h.go 0 (by decide) .callActiveN
  have h := h.go 0 (by decide) (.a8 _ rfl)
  have h := h.go 0 (by decide) (.a9free _ rfl)
  have h := h.go 0 (by decide) (.a10 _)
  have h := h.go 0 (by decide) (.a11 _)
  have h := h.go 0 (by decide) .a12
  have h := h.go 1 (by decide) .callActiveN
  have h := h.go 1 (by decide) (.a8 _ rfl)
  have h := h.go 1 (by decide) (.a9free _ rfl)
  have h := h.go 1 (by decide) (.a10 _)
  have h := h.go 1 (by decide) (.a11 _)
  have h := h.go 1 (by decide) .a12
  exact ⟨_, h, rfl, rfl, rfl, rfl, rfl, rfl⟩

/-- thread 0 asks for the exclusive state and sleeps, thread 1 is still active: the hypotheses of
`no_lost_wakeup` -/
theorem run_sleeping : ∃ s, Reachable 2 s ∧ s.pc 0 = .x8w ∧ s.sh.waiting 0 = true ∧
    s.pc 1 = .active ∧ s.sh.count = 2 ∧ s.sh.excl = some 0 ∧ s.sh.lock = none := by
  have h := Reachable.init (n := 2)
  have h := h.go 0 (by decide) .callActiveN
  have h := h.go 0 (by decide) (.a8 _ rfl)
  have h := h.go 0 (by decide) (.a9free _ rfl)
  have h := h.go 0 (by decide) (.a10 _)
  have h := h.go 0 (by decide) (.a11 _)
  have h := h.go 0 (by decide) .a12
  have h := h.go 1 (by decide) .callActiveN
  have h := h.go 1 (by decide) (.a8 _ rfl)
  have h := h.go 1 (by decide) (.a9free _ rfl)
  have h := h.go 1 (by decide) (.a10 _)
  have h := h.go 1 (by decide) (.a11 _)
  have h := h.go 1 (by decide) .a12
  have h := h.go 0 (by decide) .callExclA
  have h := h.go 0 (by decide) (.x0 _ rfl)
  have h := h.go 0 (by decide) (.x1free _ rfl)
  have h := h.go 0 (by decide) .x5A
  have h := h.go 0 (by decide) (.x6 _)
  have h := h.go 0 (by decide) .x7
  have h := h.go 0 (by decide) (.x8busy (by decide))
  have h := h.go 0 (by decide) .x8d
  exact ⟨_, h, rfl, rfl, rfl, rfl, rfl, rfl⟩

/-- the run goes on: thread 1 goes idle, wakes thread 0, and thread 0 becomes exclusive: the
hypotheses of `exclusive_excludes`, `count_exact` -/
theorem run_exclusive : ∃ s, Reachable 2 s ∧ restState (s.pc 0) = some .exclusive ∧
    restState (s.pc 1) = some .idle := by
  have h := Reachable.init (n := 2)
  have h := h.go 0 (by decide) .callActiveN
  have h := h.go 0 (by decide) (.a8 _ rfl)
  have h := h.go 0 (by decide) (.a9free _ rfl)
  have h := h.go 0 (by decide) (.a10 _)
  have h := h.go 0 (by decide) (.a11 _)
  have h := h.go 0 (by decide) .a12
  have h := h.go 1 (by decide) .callActiveN
  have h := h.go 1 (by decide) (.a8 _ rfl)
  have h := h.go 1 (by decide) (.a9free _ rfl)
  have h := h.go 1 (by decide) (.a10 _)
  have h := h.go 1 (by decide) (.a11 _)
  have h := h.go 1 (by decide) .a12
  have h := h.go 0 (by decide) .callExclA
  have h := h.go 0 (by decide) (.x0 _ rfl)
  have h := h.go 0 (by decide) (.x1free _ rfl)
  have h := h.go 0 (by decide) .x5A
  have h := h.go 0 (by decide) (.x6 _)
  have h := h.go 0 (by decide) .x7
  have h := h.go 0 (by decide) (.x8busy (by decide))
  have h := h.go 0 (by decide) .x8d
  have h := h.go 1 (by decide) .callIdleA
  have h := h.go 1 (by decide) .i1
  have h := h.go 1 (by decide) .i2
  have h := h.go 1 (by decide) (.i3some (by decide))
  have h := h.go 1 (by decide) (.i4 rfl)
  have h := h.go 1 (by decide) .i5
  have h := h.go 1 (by decide) .i6
  have h := h.go 0 (by decide) (.x8w rfl)
  have h := h.go 0 (by decide) (.x8ok (by decide))
  have h := h.go 0 (by decide) .x9
  exact ⟨_, h, rfl, rfl⟩

/-- `no_lost_wakeup` and `exclusive_excludes` apply to these runs. -/
example : ∃ s : Sys, Reachable 2 s ∧ (∃ t, t ≠ 0 ∧ restState (s.pc t) = some .active) := by
  obtain ⟨s, h, h0, hw, h1, -⟩ := run_sleeping
  refine ⟨s, h, no_lost_wakeup h h0 hw ?_⟩
  intro t ht
  by_cases h1t : t = 1
  · subst h1t; left; rw [h1]; rfl
  · left
    have : 2 ≤ t := by
      have : ∀ a : Nat, a ≠ 0 → a ≠ 1 → 2 ≤ a := by omega
      exact this t ht h1t
    rw [(inv_reachable h).out t this]; rfl

example : ∃ s : Sys, Reachable 2 s ∧ restState (s.pc 1) ≠ some .active := by
  obtain ⟨s, h, h0, -⟩ := run_exclusive
  exact ⟨s, h, (exclusive_excludes h (by decide) h0).1⟩

end Avian.Enter
