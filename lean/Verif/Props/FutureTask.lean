import Verif.Props.FutureTaskCore

/-
A task is run at most once and everybody sees the same outcome.
-/
namespace Avian.FutureTask

variable {V E : Type}

theorem asked_step {tr : Hist V E} {s s' : State V E} {t : Tid} {a : Act V E}
    {evs : List (Ev V E)} (hi : Inv tr s) (h : step s t a = some (s', evs)) :
    s'.st = .canceling ∨ s'.st = .canceled ∨ canceller (s'.pc t) = true →
      Asked (evs.map (fun e => (t, e)) ++ tr) := by
  have mono : Asked tr → Asked (evs.map (fun e => (t, e)) ++ tr) := by
    rintro ⟨u, m, h1⟩
    exact ⟨u, m, List.mem_append_right _ h1⟩
  have ha := hi.asked
  have hpc : canceller (s.pc t) = true → Asked tr := fun h1 => ha (.inr (.inr ⟨t, h1⟩))
  have h1 : s.st = .canceling → Asked tr := fun h1 => ha (.inl h1)
  have h2 : s.st = .canceled → Asked tr := fun h1 => ha (.inr (.inl h1))
  clear ha
  unfold step at h
  repeat' split at h
  all_goals first
    | (simp at h; done)
    | (simp only [Option.some.injEq, Prod.mk.injEq] at h
       obtain ⟨rfl, rfl⟩ := h
       try rw [‹s.pc t = _›] at hpc
       first
         | (intro _; exact mono (hpc rfl))
         | (rintro (hx | hx | hx)
            · first | exact mono (h1 hx) | cases hx
            · first | exact mono (h2 hx) | cases hx
            · first
                | exact mono (hpc hx)
                | (simp [goto, set, canceller] at hx; done))
         | skip)
  · rename_i op _
    rintro (hx | hx | hx)
    · exact mono (h1 hx)
    · exact mono (h2 hx)
    · cases op <;> simp [goto, set, start, canceller] at hx
      exact ⟨t, _, List.mem_cons_self ..⟩
  · rintro (hx | hx | hx)
    · exact mono (h1 hx)
    · exact mono (h2 hx)
    · simp only [‹s.pc t = _›] at hx
      cases hx

theorem inv_step {tr : Hist V E} {s s' : State V E} {t : Tid} {a : Act V E} {evs : List (Ev V E)}
    (hi : Inv tr s) (h : step s t a = some (s', evs)) :
    Inv (evs.map (fun e => (t, e)) ++ tr) s' := by
  have hab := abs_step (tr := tr) h
  have hst := core_stable hi.core hab
  have hnv := never_step hi.core hab
  have hpc := pc_step h
  refine ⟨core_step hi.core hab, ?_, ?_, ?_, ?_, ?_⟩
  · intro u
    by_cases hu : u = t
    · rw [hu]
      exact seen_self h (hi.seen t)
    · have := seen_other (s' := s') (hi.seen u) (fun hf => ⟨(hst hf).1, fun hd => ((hst hf).2 hd).2.2⟩)
      rcases hpc u hu with h1 | h1
      · rw [h1]; exact this.1
      · rw [h1]; exact this.2
  · intro u e he
    rcases List.mem_append.1 he with h1 | h1
    · obtain ⟨e', h2, h3⟩ := List.mem_map.1 h1
      cases h3
      exact ev_new hi h hnv e h2
    · exact ev_old (hi.evs u e h1) (fun hf => ⟨(hst hf).1, fun hd => ((hst hf).2 hd).1⟩) hnv
        (fun x hx => List.mem_append_right _ hx)
  · have ha := asked_step hi h
    rintro (h1 | h1 | ⟨u, h1⟩)
    · exact ha (.inl h1)
    · exact ha (.inr (.inl h1))
    · by_cases hu : u = t
      · rw [hu] at h1
        exact ha (.inr (.inr h1))
      · have : canceller (s.pc u) = true := by
          rcases hpc u hu with h2 | h2
          · rw [← h2]; exact h1
          · rw [h2] at h1
            revert h1
            cases s.pc u <;> simp [awake, canceller]
        obtain ⟨v, m, h2⟩ := hi.asked (.inr (.inr ⟨u, this⟩))
        exact ⟨v, m, List.mem_append_right _ h2⟩
  · intro u m h1
    by_cases hu : u = t
    · subst hu
      by_cases h2 : s.pc u = .cNotify m
      · exact hnv (hi.won u m h2)
      · have hnew : s.st = .new ∧ s'.st = .canceled ∧ evs = [] ∧ ∃ m, s.pc u = .cCas m := by
          unfold step at h
          repeat' split at h
          all_goals first
            | (simp at h; done)
            | (simp only [Option.some.injEq, Prod.mk.injEq] at h
               obtain ⟨rfl, rfl⟩ := h
               first
                 | (simp [goto, set] at h1; done)
                 | (rename_i op _; cases op <;> simp [goto, set, start] at h1; done)
                 | (exact ⟨‹_›, rfl, rfl, _, ‹_›⟩)
                 | (simp_all; done))
        obtain ⟨h3, h4, h5, m', h6⟩ := hnew
        obtain ⟨k1, k2, k3⟩ := hi.core.new h3
        subst h5
        refine ⟨h4, k2, fun v hv => ?_⟩
        have hv1 : cls (s'.pc v) = .out := by
          by_cases hvu : v = u
          · rw [hvu, h1]; rfl
          · have := k1 v
            simp only [abs] at this
            rcases hpc v hvu with h7 | h7
            · rw [h7]; exact this
            · rw [h7, cls_awake]; exact this
        exact hv.1 hv1
    · rcases hpc u hu with h2 | h2
      · exact hnv (hi.won u m (h2 ▸ h1))
      · refine hnv (hi.won u m ?_)
        rw [h2] at h1
        revert h1
        cases s.pc u <;> simp [awake]
  · intro u h1
    by_cases hu : u = t
    · subst hu
      unfold step at h
      repeat' split at h
      all_goals first
        | (simp at h; done)
        | (simp only [Option.some.injEq, Prod.mk.injEq] at h
           obtain ⟨rfl, rfl⟩ := h
           first
             | (simp [goto, set] at h1; done)
             | (rename_i op _; cases op <;> simp [goto, set, start] at h1; done)
             | (exact ⟨u, _, List.mem_cons_self ..⟩)
             | (obtain ⟨v, r, h2⟩ := hi.sent u h1
                exact ⟨v, r, List.mem_append_right _ h2⟩))
    · have : s.pc u = .cSet true := by
        rcases hpc u hu with h2 | h2
        · rw [← h2]; exact h1
        · rw [h2] at h1
          revert h1
          cases s.pc u <;> simp [awake]
      obtain ⟨v, r, h2⟩ := hi.sent u this
      exact ⟨v, r, List.mem_append_right _ h2⟩

theorem inv_steps {tr : Hist V E} {s : State V E} (h : Steps (init V E) tr s) : Inv tr s := by
  induction h with
  | refl => exact inv_init
  | step _ h ih => exact inv_step ih h

theorem outs_mem {tr : Hist V E} {o : Out V E} (h : o ∈ outs tr) :
    ∃ u, (u, Ev.callEnd o) ∈ tr := by
  fun_induction outs tr with
  | case1 => cases h
  | case2 t o' tr ih =>
    rcases List.mem_cons.1 h with h | h
    · exact ⟨t, by rw [h]; exact List.mem_cons_self ..⟩
    · obtain ⟨u, hu⟩ := ih h
      exact ⟨u, List.mem_cons_of_mem _ hu⟩
  | case3 e tr _ ih =>
    obtain ⟨u, hu⟩ := ih h
    exact ⟨u, List.mem_cons_of_mem _ hu⟩

/-! ## The outcome -/

/-- The callable is called at most once. -/
theorem called_once {tr : Hist V E} {s : State V E} (h : Steps (init V E) tr s) :
    starts tr ≤ 1 := by
  have := (inv_steps h).core.le
  simp only [abs] at this
  omega

/-- `get` returns what the callable returned, throws what it threw, says that the task is cancelled
only if somebody called `cancel`, and times out only if it has a limit. -/
theorem get_honest {tr : Hist V E} {s : State V E} (h : Steps (init V E) tr s) {t : Tid}
    {timed : Bool} {r : Res V E} (hr : (t, Ev.got timed r) ∈ tr) :
    match r with
    | .value v => ∃ u, (u, Ev.callEnd (.value v)) ∈ tr
    | .failed e => ∃ u, (u, Ev.callEnd (.thrown e)) ∈ tr
    | .cancelled => Asked tr
    | .timeout => timed = true
    | .interrupted => True := by
  have hi := inv_steps h
  have := hi.evs _ _ hr
  match r with
  | .value v => exact outs_mem (by rw [this.2]; exact List.mem_singleton_self _)
  | .failed e => exact outs_mem (by rw [this.2]; exact List.mem_singleton_self _)
  | .cancelled => exact hi.asked (.inr (.inl this))
  | .timeout => exact this
  | .interrupted => trivial

/-- All the `get`s that learn the outcome learn the same. -/
theorem gets_agree {tr : Hist V E} {s : State V E} (h : Steps (init V E) tr s) {t1 t2 : Tid}
    {b1 b2 : Bool} {r1 r2 : Res V E} (h1 : (t1, Ev.got b1 r1) ∈ tr) (h2 : (t2, Ev.got b2 r2) ∈ tr)
    (n1 : r1 ≠ .timeout ∧ r1 ≠ .interrupted) (n2 : r2 ≠ .timeout ∧ r2 ≠ .interrupted) :
    r1 = r2 := by
  have hi := inv_steps h
  have e1 := hi.evs _ _ h1
  have e2 := hi.evs _ _ h2
  cases r1 <;> cases r2 <;> simp_all [EvOk]

/-- If `cancel(false)` returns true the callable is not called, neither before nor after; if
`cancel(true)` does, it is not called or its thread is interrupted. -/
theorem cancel_stops {tr : Hist V E} {s : State V E} (h : Steps (init V E) tr s) {t : Tid} {m : Bool}
    (hr : (t, Ev.cancel m true) ∈ tr) :
    starts tr = 0 ∨ (m = true ∧ ∃ u r, (u, Ev.interrupts r) ∈ tr) := by
  have := (inv_steps h).evs _ _ hr
  cases m
  · exact .inl this.2.1
  · rcases this.2 with h1 | h1
    · exact .inl h1.2.1
    · exact .inr ⟨rfl, h1⟩

/-- After a successful `cancel`, or after `get` has thrown CancellationException, the task says that
it is cancelled, and `get` never returns a value. -/
theorem cancelled_stays {tr : Hist V E} {s s' : State V E} (h : Steps (init V E) tr s) {t u : Tid}
    {a : Act V E} {evs : List (Ev V E)} (hs : step s t a = some (s', evs))
    (hr : (∃ m, (u, Ev.cancel m true) ∈ tr) ∨ (∃ b, (u, Ev.got b .cancelled) ∈ tr) ∨
      (u, Ev.isCancelled true) ∈ tr) :
    Ev.isCancelled false ∉ evs ∧ (∀ b v, Ev.got b (.value v) ∉ evs) ∧
      (∀ b e, Ev.got b (.failed e) ∉ evs) := by
  have hi := inv_steps h
  have hst : s.st = .canceled := by
    rcases hr with ⟨m, h1⟩ | ⟨b, h1⟩ | h1
    · have := hi.evs _ _ h1
      cases m
      · exact this.1
      · exact this.1
    · exact hi.evs _ _ h1
    · exact hi.evs _ _ h1
  have hseen := hi.seen t
  unfold step at hs
  repeat' split at hs
  all_goals first
    | (simp at hs; done)
    | (simp only [Option.some.injEq, Prod.mk.injEq] at hs
       obtain ⟨rfl, rfl⟩ := hs
       first
         | (simp [hst]; done)
         | (rw [‹s.pc t = _›] at hseen
            simp [Seen, hst] at hseen))

/-- Once the task is done a thread that asks later is told so, and `get` does not wait. -/
theorem done_stays {tr tr' : Hist V E} {s s' : State V E} (h : Steps (init V E) tr s) {t u : Tid}
    (hr : (u, Ev.isDone true) ∈ tr) (ht : s.pc t = .idle) (hs : Steps s tr' s') :
    (t, Ev.isDone false) ∉ tr' ∧ ∀ timed, s'.pc t ≠ .gWait timed := by
  have hf : s.st = .done ∨ s.st = .canceled := (inv_steps h).evs _ _ hr
  suffices H : Inv (tr' ++ tr) s' ∧ (s'.st = .done ∨ s'.st = .canceled) ∧
      (t, Ev.isDone false) ∉ tr' ∧ (∀ timed, s'.pc t ≠ .gWait timed) ∧
      (s'.st = .done → s'.pc t ≠ .dRead2 ∧ ∀ a b, s'.pc t ≠ .gRead2 a b) from ⟨H.2.2.1, H.2.2.2.1⟩
  clear hr
  induction hs with
  | refl => exact ⟨inv_steps h, hf, by simp, by simp [ht], by simp [ht]⟩
  | @step tr1 s1 s2 v a evs _ h1 ih =>
    obtain ⟨hi, hf1, i1, i2, i3⟩ := ih
    have hi2 := inv_step hi h1
    have hst := (core_stable hi.core (abs_step (tr := tr1 ++ tr) h1) hf1).1
    simp only [abs] at hst
    refine ⟨by rw [List.append_assoc]; exact hi2, by rw [hst]; exact hf1, ?_⟩
    have key : (∀ e, e ∈ evs → v = t → e ≠ .isDone false) ∧ (∀ timed, s2.pc t ≠ .gWait timed) ∧
        (s1.st = .done → s2.pc t ≠ .dRead2 ∧ ∀ a b, s2.pc t ≠ .gRead2 a b) := by
      by_cases hv : t = v
      · subst hv
        clear hi hi2
        unfold step at h1
        repeat' split at h1
        all_goals first
          | (simp at h1; done)
          | (simp only [Option.some.injEq, Prod.mk.injEq] at h1
             obtain ⟨rfl, rfl⟩ := h1
             first
               | (simp_all [goto, set]; done)
               | (rename_i op _; cases op <;> simp_all [goto, set, start]; done)
               | (rcases hf1 with hf1 | hf1 <;> simp_all [goto, set]; done))
      · refine ⟨fun e _ hx => absurd hx.symm hv, ?_⟩
        rcases pc_step h1 t hv with h2 | h2
        · rw [h2]; exact ⟨i2, i3⟩
        · rw [h2]
          revert i2 i3
          cases s1.pc t <;> simp [awake]
    refine ⟨?_, key.2.1, by rw [hst]; exact key.2.2⟩
    intro hm
    rcases List.mem_append.1 hm with hm | hm
    · obtain ⟨e, he, hx⟩ := List.mem_map.1 hm
      cases hx
      exact key.1 _ he rfl rfl
    · exact i1 hm

/-! ## Waking up -/

/-- Places on the way to a notification. -/
def owes : Pc → Bool
  | .rSetThread | .rCall | .rCalling | .rFinish | .rLook | .rSleep | .rClear | .rNotify
  | .cNotify _ => true
  | _ => false

/-- Places in a `cancel(true)`. -/
def interrupting : Pc → Bool
  | .cCas m => m
  | .cNotify m => m
  | .cCas2 | .cRead | .cInterrupt _ | .cSet _ => true
  | _ => false

/-- A thread that waits, or is about to, although the task is finished. -/
def asleep (st : St) : Pc → Prop
  | .gWait _ => st = .done ∨ st = .canceled
  | .gRead2 _ _ => st = .done
  | _ => False

structure Waking (s : State V E) : Prop where
  noInt : ∀ t, interrupting (s.pc t) = false
  noCanceling : s.st ≠ .canceling
  running : ∀ t, cls (s.pc t) = .before ∨ cls (s.pc t) = .calling ∨ cls (s.pc t) = .fin →
    s.st = .running
  noLook : ∀ t, cls (s.pc t) ≠ .look
  locked : ∀ t a b, s.pc t = .gRead1 a b ∨ s.pc t = .gRead2 a b → s.lock = some t
  owed : ∀ t, asleep s.st (s.pc t) → ∃ u, owes (s.pc u) = true

theorem waking_init : Waking (init V E) := by
  constructor <;> simp [init, interrupting, cls, asleep]


theorem asleep_set {s : State V E} {v : Tid} {p : Pc} (h : asleep s.st p → asleep s.st (s.pc v)) :
    ∀ t, asleep s.st (set s.pc v p t) → asleep s.st (s.pc t) := by
  intro t ht
  unfold set at ht
  split at ht
  · rename_i e
    rw [e]; exact h ht
  · exact ht

theorem owes_set {s : State V E} {v : Tid} {p : Pc} (h : owes (s.pc v) = true → owes p = true) :
    ∀ t, owes (s.pc t) = true → owes (set s.pc v p t) = true := by
  intro t ht
  unfold set
  split
  · rename_i e
    rw [e] at ht; exact h ht
  · exact ht

theorem asleep_awake {s : State V E} (hw : Waking s) (hl : s.lock = none) {v : Tid} {p : Pc}
    (hp : ¬ asleep s.st p) :
    ∀ t, ¬ asleep s.st (set (fun u => awake (s.pc u)) v p t) := by
  intro t ht
  unfold set at ht
  split at ht
  · exact hp ht
  · have := hw.locked t
    rw [hl] at this
    replace ht : asleep s.st (awake (s.pc t)) := ht
    revert ht this
    cases s.pc t <;> simp [awake, asleep]

theorem owed_step {s s' : State V E} {v : Tid} {a : Act V E} {evs : List (Ev V E)}
    (hw : Waking s) (h : step s v a = some (s', evs)) :
    (∀ t, ¬ asleep s'.st (s'.pc t)) ∨ owes (s'.pc v) = true ∨
      ((∀ t, asleep s'.st (s'.pc t) → asleep s.st (s.pc t)) ∧
        (∀ u, owes (s.pc u) = true → owes (s'.pc u) = true)) := by
  have hni := hw.noInt v
  unfold step at h
  repeat' split at h
  all_goals first
    | (simp at h; done)
    | (simp only [Option.some.injEq, Prod.mk.injEq] at h
       obtain ⟨rfl, rfl⟩ := h
       first
         | (rw [‹s.pc v = _›] at hni
            simp [interrupting] at hni; done)
         | (refine .inr (.inl ?_); simp [goto, set, owes]; done)
         | (exact .inr (.inr ⟨fun _ h => h, fun _ h => h⟩))
         | (refine .inr (.inr ⟨asleep_set ?_, owes_set ?_⟩) <;>
              simp_all [asleep, owes]; done)
         | (exact .inl (asleep_awake hw ‹_› (by simp [asleep])))
         | skip)
  · rename_i op _
    refine .inr (.inr ⟨asleep_set ?_, owes_set ?_⟩)
    · cases op <;> simp [start, asleep]
    · simp_all [owes]

theorem self_waking {s s' : State V E} {v : Tid} {a : Act V E} {evs : List (Ev V E)}
    (hw : Waking s) (h : step s v a = some (s', evs)) (hn : Ev.call (.cancel true) ∉ evs) :
    interrupting (s'.pc v) = false ∧ s'.st ≠ .canceling ∧
    (s.st = .running → s'.st = .running ∨ cls (s.pc v) = .fin) ∧
    (cls (s'.pc v) = .before ∨ cls (s'.pc v) = .calling ∨ cls (s'.pc v) = .fin →
      s'.st = .running) ∧ cls (s'.pc v) ≠ .look ∧
    (∀ a b, s'.pc v = .gRead1 a b ∨ s'.pc v = .gRead2 a b → s'.lock = some v) ∧
    (∀ u, u ≠ v → s.lock = some u → s'.lock = some u) := by
  have hni := hw.noInt v
  have hl := hw.locked v
  have hr := hw.running v
  have hk := hw.noLook v
  have hc := hw.noCanceling
  clear hw
  unfold step at h
  repeat' split at h
  all_goals first
    | (simp at h; done)
    | (simp only [Option.some.injEq, Prod.mk.injEq] at h
       obtain ⟨rfl, rfl⟩ := h
       first
         | (simp_all [goto, set, interrupting, cls]; done)
         | (rename_i op _
            cases op <;> simp_all [goto, set, interrupting, cls, start]; done)
         | skip)
  all_goals
    rename_i heq _
    have hlk := hl _ _ (by first | exact .inl heq | exact .inr heq)
    refine ⟨by simp [goto, set, interrupting], hc, fun h1 => .inl h1, ?_, by simp [goto, set, cls],
      by simp [goto, set], fun u hu he => ?_⟩
    · intro h1
      simp [goto, set, cls] at h1
    · rw [hlk] at he
      cases he
      exact absurd rfl hu

theorem waking_step {tr : Hist V E} {s s' : State V E} {v : Tid} {a : Act V E}
    {evs : List (Ev V E)} (hi : Inv tr s) (hw : Waking s) (h : step s v a = some (s', evs))
    (hn : Ev.call (.cancel true) ∉ evs) : Waking s' := by
  obtain ⟨s1, s2, s3, s4, s5, s6, s7⟩ := self_waking hw h hn
  have hpc := pc_step h
  have hcls : ∀ u, u ≠ v → cls (s'.pc u) = cls (s.pc u) := by
    intro u hu
    rcases hpc u hu with h1 | h1 <;> rw [h1]
    exact cls_awake _
  refine ⟨?_, s2, ?_, ?_, ?_, ?_⟩
  · intro t
    by_cases ht : t = v
    · rw [ht]; exact s1
    · have := hw.noInt t
      rcases hpc t ht with h1 | h1 <;> rw [h1]
      · exact this
      · revert this
        cases s.pc t <;> simp [awake, interrupting]
  · intro t
    by_cases ht : t = v
    · rw [ht]; exact s4
    · rw [hcls t ht]
      intro h1
      rcases s3 (hw.running t h1) with h2 | h2
      · exact h2
      · refine absurd (hi.core.uniq t v ?_ ?_) ht
        · simp only [abs, inRun]
          rcases h1 with h1 | h1 | h1 <;> simp [h1]
        · simp only [abs, inRun]
          simp [h2]
  · intro t
    by_cases ht : t = v
    · rw [ht]; exact s5
    · rw [hcls t ht]; exact hw.noLook t
  · intro t x y h1
    by_cases ht : t = v
    · rw [ht] at h1 ⊢
      exact s6 x y h1
    · refine s7 t ht (hw.locked t x y ?_)
      rcases hpc t ht with h2 | h2 <;> rw [h2] at h1
      · exact h1
      · revert h1
        cases s.pc t <;> simp [awake]
  · intro t ht
    rcases owed_step hw h with h1 | h1 | ⟨h1, h2⟩
    · exact absurd ht (h1 t)
    · exact ⟨v, h1⟩
    · obtain ⟨u, hu⟩ := hw.owed t (h1 t ht)
      exact ⟨u, h2 u hu⟩

theorem waking_steps {tr : Hist V E} {s : State V E} (h : Steps (init V E) tr s)
    (hn : ∀ u, (u, Ev.call (.cancel true)) ∉ tr) : Waking s := by
  induction h with
  | refl => exact waking_init
  | @step tr1 s1 s2 t a evs h0 h1 ih =>
    refine waking_step (inv_steps h0) (ih fun u hu => hn u (List.mem_append_right _ hu)) h1 ?_
    intro he
    exact hn t (List.mem_append_left _ (List.mem_map.2 ⟨_, he, rfl⟩))

/-- If nobody has called `cancel(true)`, a thread waits in `get` for a finished task only while
another one is on its way to wake it; that one is in `run`, but not asleep, or in `cancel`.
(Missing: `cancel(true)`, see `runner_sleeps_for_ever` and `getter_sleeps_for_ever`.) -/
theorem getters_awake_partial {tr : Hist V E} {s : State V E} (h : Steps (init V E) tr s)
    (hn : ∀ u, (u, Ev.call (.cancel true)) ∉ tr) {t u : Tid} {timed : Bool}
    (hw : s.pc t = .gWait timed) (hd : (u, Ev.isDone true) ∈ tr) :
    ∃ v, s.pc v = .rClear ∨ s.pc v = .rNotify ∨ s.pc v = .cNotify false := by
  have hk := waking_steps h hn
  have hf : s.st = .done ∨ s.st = .canceled := (inv_steps h).evs _ _ hd
  obtain ⟨v, hv⟩ := hk.owed t (by rw [hw]; exact hf)
  have h1 := hk.running v
  have h2 := hk.noLook v
  have h3 := hk.noInt v
  refine ⟨v, ?_⟩
  revert hv h1 h2 h3
  rcases hf with hf | hf <;> rw [hf] <;> cases s.pc v <;> simp [owes, cls, interrupting]

/-- … and a thread on its way to wake others goes on as soon as the lock is free; the lock is
only held by a thread that goes on. -/
theorem waker_moves {s : State V E} {v : Tid}
    (hv : s.pc v = .rClear ∨ s.pc v = .rNotify ∨ s.pc v = .cNotify false) (hl : s.lock = none) :
    ∃ s' evs, step s v .go = some (s', evs) ∧
      (s.pc v ≠ .rClear → ∀ t timed, s'.pc t ≠ .gWait timed) := by
  rcases hv with hv | hv | hv <;> simp only [step, hv, hl, if_true, Option.some.injEq, Prod.mk.injEq]
  · exact ⟨_, _, ⟨rfl, rfl⟩, fun h => absurd rfl h⟩
  all_goals
    refine ⟨_, _, ⟨rfl, rfl⟩, fun _ t timed => ?_⟩
    simp only [goto, set]
    split
    · simp
    · cases s.pc t <;> simp [awake]

theorem holder_moves {tr : Hist V E} {s : State V E} (h : Steps (init V E) tr s) {t : Tid}
    (hl : s.lock = some t) : ∃ s' evs, step s t .go = some (s', evs) := by
  have : ∃ a b, s.pc t = .gRead1 a b ∨ s.pc t = .gRead2 a b := by
    induction h with
    | refl => cases hl
    | @step tr1 s1 s2 v a evs h0 h1 ih =>
      by_cases hv : t = v
      · subst hv
        clear h0
        unfold step at h1
        repeat' split at h1
        all_goals first
          | (simp at h1; done)
          | (simp only [Option.some.injEq, Prod.mk.injEq] at h1
             obtain ⟨rfl, rfl⟩ := h1
             first
               | (simp [goto] at hl; done)
               | (simp [goto, set]; done)
               | (obtain ⟨x, y, h3⟩ := ih hl
                  simp_all; done))
      · have hl1 : s1.lock = some t := by
          unfold step at h1
          repeat' split at h1
          all_goals first
            | (simp at h1; done)
            | (simp only [Option.some.injEq, Prod.mk.injEq] at h1
               obtain ⟨rfl, rfl⟩ := h1
               first
                 | exact hl
                 | (simp [goto] at hl; done)
                 | (simp [goto] at hl
                    exact absurd hl.symm hv))
        obtain ⟨x, y, h3⟩ := ih hl1
        refine ⟨x, y, ?_⟩
        rcases pc_step h1 t hv with h4 | h4 <;> rw [h4]
        · exact h3
        · rcases h3 with h3 | h3 <;> rw [h3] <;> simp [awake]
  obtain ⟨x, y, h1 | h1⟩ := this
  · by_cases hd : s.st = .done
    · exact ⟨_, _, by simp only [step, h1, hd, if_true]; rfl⟩
    · exact ⟨_, _, by simp only [step, h1, hd, if_false]; rfl⟩
  · by_cases hd : s.st = .canceled ∨ y = true
    · exact ⟨_, _, by simp only [step, h1, hd, if_true]; rfl⟩
    · exact ⟨_, _, by simp only [step, h1, hd, if_false]; rfl⟩

/-! ## Interrupts -/

def active (c : Cls) : Prop := c = .before ∨ c = .calling ∨ c = .fin ∨ c = .look

structure Sent (s : State V E) : Prop where
  running : s.st = .running → ∃ r, active (cls (s.pc r))
  flags : s.st ≠ .canceled → (∀ t b, s.pc t ≠ .cSet b) → ∀ u, s.intr u = false
  target : ∀ r, s.runningThread = some r → inRun (cls (s.pc r))
  reading : ∀ t, s.pc t = .cRead → ∃ r, active (cls (s.pc r))
  aimed : ∀ t r, s.pc t = .cInterrupt r → active (cls (s.pc r))
  clean : ∀ t, s.pc t = .rNotify ∨ s.pc t = .rUnset → s.intr t = false

theorem sent_init : Sent (init V E) := by
  constructor <;> simp [init]

theorem sent_gen {s s' : State V E} {v : Tid} (hw : Sent s)
    (hpc : ∀ u, u ≠ v → s'.pc u = s.pc u ∨ s'.pc u = awake (s.pc u))
    (hrun : s'.st = .running → s.st = .running ∨ active (cls (s'.pc v)))
    (hfl : s'.st ≠ .canceled → (∀ b, s'.pc v ≠ .cSet b) → s.st ≠ .canceled ∧
      (∀ b, s.pc v ≠ .cSet b) ∧ ∀ u, s'.intr u = true → s.intr u = true)
    (htg : ∀ r, s'.runningThread = some r → (r = v ∨ s.runningThread = some r) ∧
      (r = v → inRun (cls (s'.pc v))))
    (hac : active (cls (s.pc v)) → active (cls (s'.pc v)) ∨
      (s'.st ≠ .running ∧ ∀ t, t ≠ v → s.pc t ≠ .cRead ∧ ∀ r, s.pc t ≠ .cInterrupt r))
    (hrd : s'.pc v = .cRead → ∃ r, r ≠ v ∧ active (cls (s.pc r)))
    (haim : ∀ r, s'.pc v = .cInterrupt r → r ≠ v ∧ active (cls (s.pc r)))
    (hcl : s'.pc v = .rNotify ∨ s'.pc v = .rUnset → s'.intr v = false)
    (hin : ∀ u, u ≠ v → s'.intr u = true → s.intr u = true ∨ active (cls (s.pc u))) :
    Sent s' := by
  have hcls : ∀ u, u ≠ v → cls (s'.pc u) = cls (s.pc u) := by
    intro u hu
    rcases hpc u hu with h1 | h1 <;> rw [h1]
    exact cls_awake _
  have hback : ∀ u p, u ≠ v → s'.pc u = p → (∀ a b, p ≠ .gEnter a b) → s.pc u = p := by
    intro u p hu h1 h2
    rcases hpc u hu with h3 | h3
    · rw [← h3]; exact h1
    · rw [h1] at h3
      revert h3
      cases s.pc u <;> simp only [awake] <;> intro h3 <;> first | exact h3.symm | exact absurd h3 (h2 _ _)
  obtain ⟨w1, w2, w3, w4, w5, w6⟩ := hw
  refine ⟨?_, ?_, ?_, ?_, ?_, ?_⟩
  · intro h1
    rcases hrun h1 with h2 | h2
    · obtain ⟨r, hr⟩ := w1 h2
      by_cases hv : r = v
      · rw [hv] at hr
        rcases hac hr with h3 | h3
        · exact ⟨v, h3⟩
        · exact absurd h1 h3.1
      · exact ⟨r, by rw [hcls r hv]; exact hr⟩
    · exact ⟨v, h2⟩
  · intro h1 h2 u
    obtain ⟨k1, k2, k3⟩ := hfl h1 (h2 v)
    have hall : ∀ t b, s.pc t ≠ .cSet b := by
      intro t b
      by_cases ht : t = v
      · rw [ht]; exact k2 b
      · intro hx
        have := h2 t b
        rcases hpc t ht with h3 | h3
        · rw [h3] at this; exact this hx
        · rw [h3, hx] at this; exact this rfl
    have := w2 k1 hall u
    cases hb : s'.intr u
    · rfl
    · rw [k3 u hb] at this
      cases this
  · intro r hr
    obtain ⟨h1, h2⟩ := htg r hr
    by_cases hv : r = v
    · rw [hv] at h2 ⊢; exact h2 rfl
    · rcases h1 with h1 | h1
      · exact absurd h1 hv
      · rw [hcls r hv]; exact w3 r h1
  · intro t ht
    by_cases hv : t = v
    · rw [hv] at ht
      obtain ⟨r, h1, h2⟩ := hrd ht
      exact ⟨r, by rw [hcls r h1]; exact h2⟩
    · have h0 := hback t _ hv ht (by simp)
      obtain ⟨r, hr⟩ := w4 t h0
      by_cases hrv : r = v
      · rw [hrv] at hr
        rcases hac hr with h3 | h3
        · exact ⟨v, h3⟩
        · exact absurd h0 (h3.2 t hv).1
      · exact ⟨r, by rw [hcls r hrv]; exact hr⟩
  · intro t r ht
    by_cases hv : t = v
    · rw [hv] at ht
      obtain ⟨h1, h2⟩ := haim r ht
      rw [hcls r h1]; exact h2
    · have h0 := hback t _ hv ht (by simp)
      have hr := w5 t r h0
      by_cases hrv : r = v
      · rw [hrv] at hr ⊢
        rcases hac hr with h3 | h3
        · exact h3
        · exact absurd h0 ((h3.2 t hv).2 r)
      · rw [hcls r hrv]; exact hr
  · intro t ht
    by_cases hv : t = v
    · rw [hv] at ht ⊢; exact hcl ht
    · have h0 : s.pc t = .rNotify ∨ s.pc t = .rUnset := by
        rcases ht with ht | ht
        · exact .inl (hback t _ hv ht (by simp))
        · exact .inr (hback t _ hv ht (by simp))
      have := w6 t h0
      cases hb : s'.intr t
      · rfl
      · rcases hin t hv hb with h1 | h1
        · rw [this] at h1; cases h1
        · exfalso
          rcases h0 with h0 | h0 <;> rw [h0] at h1 <;> simp [active, cls] at h1

theorem sent1 {s s' : State V E} {v : Tid} {a : Act V E} {evs : List (Ev V E)}
    (h : step s v a = some (s', evs)) (hn : Ev.outside ∉ evs) :
    s'.st = .running → s.st = .running ∨ active (cls (s'.pc v)) := by
  unfold step at h
  repeat' split at h
  all_goals first
    | (simp at h; done)
    | (simp only [Option.some.injEq, Prod.mk.injEq] at h
       obtain ⟨rfl, rfl⟩ := h
       first
         | (simp at hn; done)
         | (have hp := ‹s.pc v = _›
            simp [hp, goto, set, active, cls]; done)
         | (have hp := ‹s.pc v = _›
            simp_all [goto, set, active, cls]; done)
         | (rename_i op _
            cases op <;> simp_all [goto, set, start, active, cls]; done))

theorem sent2 {s s' : State V E} {v : Tid} {a : Act V E} {evs : List (Ev V E)}
    (h : step s v a = some (s', evs)) (hn : Ev.outside ∉ evs) :
    (∀ b, s'.pc v ≠ .cSet b) →
      (∀ b, s.pc v = .cSet b → s'.st = .canceled) ∧ ∀ u, s'.intr u = true → s.intr u = true := by
  unfold step at h
  repeat' split at h
  all_goals first
    | (simp at h; done)
    | (simp only [Option.some.injEq, Prod.mk.injEq] at h
       obtain ⟨rfl, rfl⟩ := h
       first
         | (simp at hn; done)
         | (have hp := ‹s.pc v = _›
            simp [hp, goto, set]; done)
         | (have hp := ‹s.pc v = _›
            simp_all [goto, set]; done)
         | (rename_i op _
            cases op <;> simp_all [goto, set, start]; done))

theorem sent3 {s s' : State V E} {v : Tid} {a : Act V E} {evs : List (Ev V E)}
    (h : step s v a = some (s', evs)) (hn : Ev.outside ∉ evs) :
    (s'.runningThread = s.runningThread ∧ (inRun (cls (s.pc v)) → inRun (cls (s'.pc v)))) ∨
      s'.runningThread = none ∨ (s'.runningThread = some v ∧ inRun (cls (s'.pc v))) := by
  unfold step at h
  repeat' split at h
  all_goals first
    | (simp at h; done)
    | (simp only [Option.some.injEq, Prod.mk.injEq] at h
       obtain ⟨rfl, rfl⟩ := h
       first
         | (simp at hn; done)
         | (have hp := ‹s.pc v = _›
            simp [hp, goto, set, inRun, cls]; done)
         | (have hp := ‹s.pc v = _›
            simp_all [goto, set, inRun, cls]; done)
         | (rename_i op _
            cases op <;> simp_all [goto, set, start, inRun, cls]; done))

theorem sent4 {s s' : State V E} {v : Tid} {a : Act V E} {evs : List (Ev V E)}
    (h : step s v a = some (s', evs)) (hn : Ev.outside ∉ evs) :
    active (cls (s.pc v)) → active (cls (s'.pc v)) ∨
      (s'.st = .done ∧ s.st = .running) ∨ (s.st = .canceled ∧ s'.st = .canceled) ∨
      (s.pc v = .rSleep ∧ s'.st = s.st ∧ s.intr v = true) := by
  unfold step at h
  repeat' split at h
  all_goals first
    | (simp at h; done)
    | (simp only [Option.some.injEq, Prod.mk.injEq] at h
       obtain ⟨rfl, rfl⟩ := h
       first
         | (simp at hn; done)
         | (have hp := ‹s.pc v = _›
            simp [hp, goto, set, active, cls]; done)
         | (have hp := ‹s.pc v = _›
            simp_all [goto, set, active, cls]; done)
         | (rename_i op _
            cases op <;> simp_all [goto, set, start, active, cls]; done))

theorem sent5 {s s' : State V E} {v : Tid} {a : Act V E} {evs : List (Ev V E)}
    (h : step s v a = some (s', evs)) (hn : Ev.outside ∉ evs) :
    (s'.pc v = .cRead → s.pc v = .cCas2 ∧ s.st = .running) ∧
      (∀ r, s'.pc v = .cInterrupt r → s.pc v = .cRead ∧ s.runningThread = some r) := by
  unfold step at h
  repeat' split at h
  all_goals first
    | (simp at h; done)
    | (simp only [Option.some.injEq, Prod.mk.injEq] at h
       obtain ⟨rfl, rfl⟩ := h
       first
         | (simp at hn; done)
         | (have hp := ‹s.pc v = _›
            simp [hp, goto, set]; done)
         | (have hp := ‹s.pc v = _›
            simp_all [goto, set]; done)
         | (rename_i op _
            cases op <;> simp_all [goto, set, start]; done))

theorem sent6 {s s' : State V E} {v : Tid} {a : Act V E} {evs : List (Ev V E)}
    (h : step s v a = some (s', evs)) (hn : Ev.outside ∉ evs) :
    (s'.pc v = .rNotify → s'.intr v = false) ∧
      (s'.pc v = .rUnset → s.pc v = .rNotify ∧ s'.intr v = s.intr v) := by
  unfold step at h
  repeat' split at h
  all_goals first
    | (simp at h; done)
    | (simp only [Option.some.injEq, Prod.mk.injEq] at h
       obtain ⟨rfl, rfl⟩ := h
       first
         | (simp at hn; done)
         | (have hp := ‹s.pc v = _›
            simp [hp, goto, set]; done)
         | (have hp := ‹s.pc v = _›
            simp_all [goto, set]; done)
         | (rename_i op _
            cases op <;> simp_all [goto, set, start]; done))

theorem sent7 {s s' : State V E} {v : Tid} {a : Act V E} {evs : List (Ev V E)}
    (h : step s v a = some (s', evs)) (hn : Ev.outside ∉ evs) :
    ∀ u, u ≠ v → s'.intr u = true → s.intr u = true ∨ s.pc v = .cInterrupt u := by
  unfold step at h
  repeat' split at h
  all_goals first
    | (simp at h; done)
    | (simp only [Option.some.injEq, Prod.mk.injEq] at h
       obtain ⟨rfl, rfl⟩ := h
       first
         | (simp at hn; done)
         | (have hp := ‹s.pc v = _›
            simp [hp, goto, set]; done)
         | (have hp := ‹s.pc v = _›
            simp_all [goto, set]; done)
         | (have hp := ‹s.pc v = _›
            simp only [goto, set, hp]
            grind))

theorem sent_step {tr : Hist V E} {s s' : State V E} {v : Tid} {a : Act V E}
    {evs : List (Ev V E)} (hi : Inv tr s) (hw : Sent s) (h : step s v a = some (s', evs))
    (hn : Ev.outside ∉ evs) : Sent s' := by
  have hpc := pc_step h
  have hcc := hi.core.cuniq
  have hcg := hi.core.cancelling
  simp only [abs] at hcc hcg
  have hcr : s.st ≠ .canceling → ∀ t, s.pc t ≠ .cRead ∧ ∀ r, s.pc t ≠ .cInterrupt r := by
    intro h1 t
    refine ⟨fun h2 => h1 (hcg t (by rw [h2]; rfl)), fun r h2 => h1 (hcg t (by rw [h2]; rfl))⟩
  have hset : s.st ≠ .canceled → s.intr v = true →
      ∀ t, s.pc t ≠ .cRead ∧ ∀ r, s.pc t ≠ .cInterrupt r := by
    intro h1 h2 t
    by_cases hx : ∀ t b, s.pc t ≠ .cSet b
    · have := hw.flags h1 hx v
      rw [h2] at this; cases this
    · have ⟨c, hc⟩ := Classical.not_forall.1 hx
      have ⟨b, hb⟩ := Classical.not_forall.1 hc
      have hb := Classical.not_not.1 hb
      refine ⟨fun h3 => ?_, fun r h3 => ?_⟩
      · have := hcc t c (by rw [h3]; rfl) (by rw [hb]; rfl)
        rw [this, hb] at h3; cases h3
      · have := hcc t c (by rw [h3]; rfl) (by rw [hb]; rfl)
        rw [this, hb] at h3; cases h3
  have hst := core_stable hi.core (abs_step (tr := tr) h)
  simp only [abs] at hst
  refine sent_gen hw hpc (sent1 h hn) ?_ ?_ ?_ ?_ ?_ ?_ ?_
  · intro h1 h2
    obtain ⟨k1, k2⟩ := sent2 h hn h2
    refine ⟨fun hx => h1 ?_, fun b hb => h1 (k1 b hb), k2⟩
    rw [(hst (.inr hx)).1, hx]
  · intro r hr
    rcases sent3 h hn with ⟨h1, h2⟩ | h1 | ⟨h1, h2⟩
    · rw [h1] at hr
      exact ⟨.inr hr, fun hv => h2 (hv ▸ hw.target r hr)⟩
    · rw [h1] at hr; cases hr
    · rw [h1] at hr; cases hr
      exact ⟨.inl rfl, fun _ => h2⟩
  · intro h1
    rcases sent4 h hn h1 with h2 | ⟨h2, h3⟩ | ⟨h2, h3⟩ | ⟨h2, h3, h4⟩
    · exact .inl h2
    · exact .inr ⟨by rw [h2]; simp, fun t _ => hcr (by rw [h3]; simp) t⟩
    · exact .inr ⟨by rw [h3]; simp, fun t _ => hcr (by rw [h2]; simp) t⟩
    · have hl := hi.core.look v (by simp only [abs]; rw [h2]; rfl)
      simp only [abs] at hl
      refine .inr ⟨by rw [h3]; rcases hl with hl | hl <;> rw [hl] <;> simp, fun t _ => ?_⟩
      rcases hl with hl | hl
      · exact hset (by rw [hl]; simp) h4 t
      · exact hcr (by rw [hl]; simp) t
  · intro h1
    obtain ⟨h2, h3⟩ := (sent5 h hn).1 h1
    obtain ⟨r, hr⟩ := hw.running h3
    refine ⟨r, fun hv => ?_, hr⟩
    rw [hv, h2] at hr
    simp [active, cls] at hr
  · intro r h1
    obtain ⟨h2, h3⟩ := (sent5 h hn).2 r h1
    obtain ⟨r', hr'⟩ := hw.reading v h2
    have hrr : r = r' := hi.core.uniq r r' (hw.target r h3) (by
      simp only [abs, inRun]
      rcases hr' with hx | hx | hx | hx <;> simp [hx])
    subst hrr
    refine ⟨fun hv => ?_, hr'⟩
    rw [hv, h2] at hr'
    simp [active, cls] at hr'
  · intro h1
    rcases h1 with h1 | h1
    · exact (sent6 h hn).1 h1
    · obtain ⟨h2, h3⟩ := (sent6 h hn).2 h1
      rw [h3]
      exact hw.clean v (.inl h2)
  · intro u hu h1
    rcases sent7 h hn u hu h1 with h2 | h2
    · exact .inl h2
    · exact .inr (hw.aimed v u h2)

theorem sent_steps {tr : Hist V E} {s : State V E} (h : Steps (init V E) tr s)
    (hn : ∀ u, (u, Ev.outside) ∉ tr) : Sent s := by
  induction h with
  | refl => exact sent_init
  | @step tr1 s1 s2 t a evs h0 h1 ih =>
    refine sent_step (inv_steps h0) (ih fun u hu => hn u (List.mem_append_right _ hu)) h1 ?_
    intro he
    exact hn t (List.mem_append_left _ (List.mem_map.2 ⟨_, he, rfl⟩))

/-- If nobody else interrupts threads, `cancel` interrupts only a thread inside `run`, before its
last steps, and `run` does not leave its thread interrupted when it returns. -/
theorem interrupt_stays_inside {tr : Hist V E} {s s' : State V E} (h : Steps (init V E) tr s)
    (hn : ∀ u, (u, Ev.outside) ∉ tr) {t : Tid} {a : Act V E} {evs : List (Ev V E)}
    (hs : step s t a = some (s', evs)) :
    (∀ r, Ev.interrupts r ∈ evs →
      s.pc r = .rSetThread ∨ s.pc r = .rCall ∨ s.pc r = .rCalling ∨ s.pc r = .rFinish ∨
      s.pc r = .rLook ∨ s.pc r = .rSleep) ∧
    (Ev.ranOut ∈ evs → s.pc t = .rUnset → s'.intr t = false) := by
  have hk := sent_steps h hn
  constructor
  · intro r hr
    have hp : s.pc t = .cInterrupt r := by
      clear hk hn h
      unfold step at hs
      repeat' split at hs
      all_goals first
        | (simp at hs; done)
        | (simp only [Option.some.injEq, Prod.mk.injEq] at hs
           obtain ⟨rfl, rfl⟩ := hs
           first
             | (simp at hr; done)
             | (simp at hr; subst hr; assumption))
    have := hk.aimed t r hp
    revert this
    cases s.pc r <;> simp [active, cls]
  · intro h1 h2
    have := hk.clean t (.inr h2)
    cases a <;> simp only [step, h2] at hs
    all_goals first
      | (simp at hs; done)
      | (simp only [Option.some.injEq, Prod.mk.injEq] at hs
         obtain ⟨rfl, rfl⟩ := hs
         first | exact this | (simp at h1))

/-! ## Sleeping for ever -/

/-- The thread `g` waits in `get` although the task is cancelled, and nobody is going to wake it. -/
structure Stuck (g : Tid) (s : State V E) : Prop where
  st : s.st = .canceled
  waits : s.pc g = .gWait false
  calm : s.intr g = false
  others : ∀ t, (inRun (cls (s.pc t)) → s.pc t = .rSleep ∧ s.intr t = false) ∧
    cls (s.pc t) ≠ .cancel ∧ ∀ m, s.pc t ≠ .cNotify m

theorem stuck_self {g : Tid} {s s' : State V E} {v : Tid} {a : Act V E} {evs : List (Ev V E)}
    (hs : Stuck g s) (h : step s v a = some (s', evs)) (hn : Ev.outside ∉ evs)
    (hg : v = g → Ev.woke ∉ evs) :
    v ≠ g ∧ s'.st = .canceled ∧ (∀ u, u ≠ v → s'.pc u = s.pc u ∧ s'.intr u = s.intr u) ∧
    ¬ inRun (cls (s'.pc v)) ∧ s.pc v ≠ .rSleep ∧
    cls (s'.pc v) ≠ .cancel ∧ ∀ m, s'.pc v ≠ .cNotify m := by
  obtain ⟨h1, h2, h3, h4⟩ := hs
  obtain ⟨h5, h6, h7⟩ := h4 v
  have hvg : v ≠ g := by
    intro hx
    subst hx
    have := hg rfl
    cases a <;> simp only [step, h2, h3] at h <;> simp at h
    all_goals
      obtain ⟨rfl, rfl⟩ := h
      simp at hn this
  refine ⟨hvg, ?_⟩
  clear h2 h3 h4 hg
  unfold step at h
  repeat' split at h
  all_goals first
    | (simp at h; done)
    | (simp only [Option.some.injEq, Prod.mk.injEq] at h
       obtain ⟨rfl, rfl⟩ := h
       first
         | (simp at hn; done)
         | (have hp := ‹s.pc v = _›
            rw [hp] at h5 h6 h7
            simp [inRun, cls] at h5; done)
         | (have hp := ‹s.pc v = _›
            rw [hp] at h5 h6 h7
            simp [cls] at h6; done)
         | (have hp := ‹s.pc v = _›
            rw [hp] at h5 h6 h7
            simp at h7; done)
         | (have hp := ‹s.pc v = _›
            simp_all [goto, set, cls, inRun]; done)
         | (rename_i op _
            cases op <;> simp_all [goto, set, start, cls, inRun]; done))

theorem stuck_stays {g : Tid} {tr : Hist V E} {s s' : State V E} (hs : Stuck g s)
    (h : Steps s tr s') (hn : ∀ u, (u, Ev.outside) ∉ tr) (hg : (g, Ev.woke) ∉ tr) :
    Stuck g s' ∧ ∀ t, s.pc t = .rSleep → s'.pc t = .rSleep := by
  induction h with
  | refl => exact ⟨hs, fun t ht => ht⟩
  | @step tr1 s1 s2 v a evs h0 h1 ih =>
    obtain ⟨i1, i2⟩ := ih (fun u hu => hn u (List.mem_append_right _ hu))
      (fun hu => hg (List.mem_append_right _ hu))
    obtain ⟨k1, k2, k3, k4, k5, k6, k7⟩ := stuck_self i1 h1
      (fun he => hn v (List.mem_append_left _ (List.mem_map.2 ⟨_, he, rfl⟩)))
      (fun hv he => hg (List.mem_append_left _ (List.mem_map.2 ⟨_, he, by rw [hv]⟩)))
    refine ⟨⟨k2, ?_, ?_, ?_⟩, ?_⟩
    · rw [(k3 g (Ne.symm k1)).1]; exact i1.waits
    · rw [(k3 g (Ne.symm k1)).2]; exact i1.calm
    · intro t
      by_cases ht : t = v
      · rw [ht]
        exact ⟨fun hx => absurd hx k4, k6, k7⟩
      · rw [(k3 t ht).1, (k3 t ht).2]
        exact i1.others t
    · intro t ht
      have h2 := i2 t ht
      by_cases hv : t = v
      · rw [hv] at h2
        exact absurd h2 k5
      · rw [(k3 t hv).1]; exact h2

theorem runActs_steps {s0 s s' : State V E} {tr tr' : Hist V E} {acts : List (Tid × Act V E)}
    (h0 : Steps s0 tr s) (h : runActs s tr acts = some (s', tr')) : Steps s0 tr' s' := by
  induction acts generalizing s tr with
  | nil =>
    simp only [runActs, Option.some.injEq, Prod.mk.injEq] at h
    obtain ⟨rfl, rfl⟩ := h
    exact h0
  | cons x rest ih =>
    obtain ⟨t, a⟩ := x
    simp only [runActs] at h
    split at h
    · rename_i s1 evs h1
      exact ih (.step h0 h1) h
    · cases h

/-- The canceller looks before the runner has entered its name. -/
def tooEarly : List (Tid × Act Nat Nat) :=
  [(2, .call (.get false false)), (2, .go), (2, .go), (2, .go),
   (0, .call .run), (0, .go),
   (1, .call (.cancel true)), (1, .go), (1, .go), (1, .go),
   (0, .go), (0, .go), (0, .answer (.value (some 7))), (0, .go), (0, .go),
   (1, .go), (3, .call .isCancelled), (3, .go)]

/-- The callable notices the interrupt, as it should, and returns before the state is set. -/
def noticed : List (Tid × Act Nat Nat) :=
  [(2, .call (.get false false)), (2, .go), (2, .go), (2, .go),
   (0, .call .run), (0, .go), (0, .go), (0, .go),
   (1, .call (.cancel true)), (1, .go), (1, .go), (1, .go), (1, .go),
   (0, .clear), (0, .answer (.thrown 1)), (0, .go), (0, .go),
   (1, .go)]

/-- The runner notifies before the state is set. -/
def notYet : List (Tid × Act Nat Nat) :=
  [(2, .call (.get false false)), (2, .go), (2, .go), (2, .go),
   (0, .call .run), (0, .go), (0, .go), (0, .go),
   (1, .call (.cancel true)), (1, .go), (1, .go), (1, .go), (1, .go),
   (0, .answer (.value none)), (0, .go), (0, .go), (0, .go), (0, .go), (0, .go),
   (2, .go), (2, .go), (2, .go),
   (0, .go), (1, .go)]

theorem runActs_idle {s s' : State V E} {tr tr' : Hist V E} {acts : List (Tid × Act V E)} {u : Tid}
    (h : runActs s tr acts = some (s', tr')) (hu : ∀ x ∈ acts, u ≠ x.1) (hi : s.pc u = .idle) :
    s'.pc u = .idle := by
  induction acts generalizing s tr with
  | nil =>
    simp only [runActs, Option.some.injEq, Prod.mk.injEq] at h
    obtain ⟨rfl, rfl⟩ := h
    exact hi
  | cons x rest ih =>
    obtain ⟨t, a⟩ := x
    simp only [runActs] at h
    split at h
    · rename_i s1 evs h1
      refine ih h (fun y hy => hu y (List.mem_cons_of_mem _ hy)) ?_
      rcases pc_step h1 u (hu _ (List.mem_cons_self ..)) with h2 | h2 <;> rw [h2, hi]
      rfl
    · cases h

theorem nat_lt_four (n : Nat) (h : n < 4) : n = 0 ∨ n = 1 ∨ n = 2 ∨ n = 3 := by
  omega

theorem small_or (t : Tid) (acts : List (Tid × Act V E)) (h : acts.all (fun x => decide (x.1 < 4))) :
    t = 0 ∨ t = 1 ∨ t = 2 ∨ t = 3 ∨ ∀ x ∈ acts, t ≠ x.1 := by
  by_cases ht : t < 4
  · have h2 := nat_lt_four t ht
    rcases h2 with h2 | h2 | h2 | h2
    · exact .inl h2
    · exact .inr (.inl h2)
    · exact .inr (.inr (.inl h2))
    · exact .inr (.inr (.inr (.inl h2)))
  · refine .inr (.inr (.inr (.inr fun x hx he => ht ?_)))
    rw [he]
    exact of_decide_eq_true (List.all_eq_true.1 h x hx)

/-- Concrete executions are evaluated by the kernel. -/
theorem runActs_test {acts : List (Tid × Act Nat Nat)} {P : State Nat Nat → Hist Nat Nat → Bool}
    (h : (match runActs (init Nat Nat) [] acts with
      | some (s, tr) => P s tr
      | none => false) = true) :
    ∃ s tr, runActs (init Nat Nat) [] acts = some (s, tr) ∧ P s tr = true := by
  split at h
  · rename_i s tr h1
    exact ⟨s, tr, h1, h⟩
  · cases h

def quietPc : Pc → Bool
  | .cNotify _ => false
  | p => decide (cls p = .out)

theorem quietPc_spec {p : Pc} (h : quietPc p = true) :
    cls p = .out ∧ ∀ m, p ≠ .cNotify m := by
  unfold quietPc at h
  split at h
  · cases h
  · rename_i hx
    exact ⟨of_decide_eq_true h, hx⟩

def stuckTest (s : State Nat Nat) : Bool :=
  decide (s.st = .canceled ∧ s.pc 2 = .gWait false ∧ s.intr 2 = false ∧
    ((s.pc 0 = .rSleep ∧ s.intr 0 = false) ∨ quietPc (s.pc 0) = true) ∧ quietPc (s.pc 1) = true ∧
    quietPc (s.pc 3) = true)

theorem stuckTest_spec {acts : List (Tid × Act Nat Nat)} {s : State Nat Nat} {tr : Hist Nat Nat}
    (ha : acts.all (fun x => decide (x.1 < 4)) = true)
    (h : runActs (init Nat Nat) [] acts = some (s, tr)) (ht : stuckTest s = true) : Stuck 2 s := by
  obtain ⟨h1, h2, h3, h4, h5, h6⟩ := of_decide_eq_true ht
  refine ⟨h1, h2, h3, fun t => ?_⟩
  have q : ∀ {p : Pc} {b : Bool}, quietPc p = true → (inRun (cls p) → p = .rSleep ∧ b = false) ∧
      cls p ≠ .cancel ∧ ∀ m, p ≠ .cNotify m := by
    intro p b hp
    obtain ⟨k1, k2⟩ := quietPc_spec hp
    rw [k1]
    exact ⟨fun h => absurd rfl h.1, by simp, k2⟩
  rcases small_or t acts ha with h | h | h | h | h
  · subst h
    rcases h4 with h4 | h4
    · refine ⟨fun _ => h4, ?_⟩
      rw [h4.1]
      simp [cls]
    · exact q h4
  · subst h; exact q h5
  · subst h; rw [h2]; exact q rfl
  · subst h; exact q h6
  · rw [runActs_idle (by assumption) h rfl]
    exact q rfl

theorem tooEarly_stuck : ∃ s tr, runActs (init Nat Nat) [] tooEarly = some (s, tr) ∧ Stuck 2 s ∧
    s.pc 0 = .rSleep ∧ (1, .cancel true false) ∈ tr ∧ (3, .isCancelled true) ∈ tr := by
  obtain ⟨s, tr, h, hp⟩ := runActs_test (acts := tooEarly) (P := fun s tr => stuckTest s &&
    decide (s.pc 0 = .rSleep ∧ (1, .cancel true false) ∈ tr ∧ (3, .isCancelled true) ∈ tr))
    (by decide +kernel)
  simp only [Bool.and_eq_true, decide_eq_true_eq] at hp
  exact ⟨s, tr, h, stuckTest_spec (by decide) h hp.1, hp.2⟩

theorem noticed_stuck : ∃ s tr, runActs (init Nat Nat) [] noticed = some (s, tr) ∧ Stuck 2 s ∧
    s.pc 0 = .rSleep ∧ (1, .cancel true true) ∈ tr ∧ (0, .callEnd (.thrown 1)) ∈ tr := by
  obtain ⟨s, tr, h, hp⟩ := runActs_test (acts := noticed) (P := fun s tr => stuckTest s &&
    decide (s.pc 0 = .rSleep ∧ (1, .cancel true true) ∈ tr ∧ (0, .callEnd (.thrown 1)) ∈ tr))
    (by decide +kernel)
  simp only [Bool.and_eq_true, decide_eq_true_eq] at hp
  exact ⟨s, tr, h, stuckTest_spec (by decide) h hp.1, hp.2⟩

theorem notYet_stuck : ∃ s tr, runActs (init Nat Nat) [] notYet = some (s, tr) ∧ Stuck 2 s ∧
    s.pc 0 = .idle ∧ (1, .cancel true true) ∈ tr ∧ (0, .ranOut) ∈ tr := by
  obtain ⟨s, tr, h, hp⟩ := runActs_test (acts := notYet) (P := fun s tr => stuckTest s &&
    decide (s.pc 0 = .idle ∧ (1, .cancel true true) ∈ tr ∧ (0, .ranOut) ∈ tr))
    (by decide +kernel)
  simp only [Bool.and_eq_true, decide_eq_true_eq] at hp
  exact ⟨s, tr, h, stuckTest_spec (by decide) h hp.1, hp.2⟩

/-- After `cancel(true)` the thread in `run`, and the threads waiting in `get`, may sleep for ever:
`cancel` has returned, nobody interrupts them, and no wait ends for no reason.  Either `cancel` read
`runningThread` before it was set (and returned false although the task is cancelled), or the callable
noticed the interrupt and returned before the state was set. -/
theorem runner_sleeps_for_ever (acts : List (Tid × Act Nat Nat)) (ha : acts = tooEarly ∨ acts = noticed) :
    ∃ s tr, runActs (init Nat Nat) [] acts = some (s, tr) ∧ s.pc 0 = .rSleep ∧ s.pc 2 = .gWait false ∧
      (∃ b, (1, .cancel true b) ∈ tr) ∧
      ∀ tr' s', Steps s tr' s' → (∀ u, (u, Ev.outside) ∉ tr') → (2, Ev.woke) ∉ tr' →
        s'.pc 0 = .rSleep ∧ s'.pc 2 = .gWait false := by
  rcases ha with rfl | rfl
  · obtain ⟨s, tr, h1, h2, h3, h4, _⟩ := tooEarly_stuck
    refine ⟨s, tr, h1, h3, h2.waits, ⟨_, h4⟩, fun tr' s' h5 h6 h7 => ?_⟩
    have := stuck_stays h2 h5 h6 h7
    exact ⟨this.2 0 h3, this.1.waits⟩
  · obtain ⟨s, tr, h1, h2, h3, h4, _⟩ := noticed_stuck
    refine ⟨s, tr, h1, h3, h2.waits, ⟨_, h4⟩, fun tr' s' h5 h6 h7 => ?_⟩
    have := stuck_stays h2 h5 h6 h7
    exact ⟨this.2 0 h3, this.1.waits⟩

/-- After `cancel(true)` a thread in `get` may wait for ever although `run` and `cancel` have returned:
`run` notified before `cancel` had set the state, and `cancel` does not notify. -/
theorem getter_sleeps_for_ever :
    ∃ s tr, runActs (init Nat Nat) [] notYet = some (s, tr) ∧ s.pc 0 = .idle ∧ s.pc 2 = .gWait false ∧
      (1, .cancel true true) ∈ tr ∧ (0, .ranOut) ∈ tr ∧
      ∀ tr' s', Steps s tr' s' → (∀ u, (u, Ev.outside) ∉ tr') → (2, Ev.woke) ∉ tr' →
        s'.pc 2 = .gWait false := by
  obtain ⟨s, tr, h1, h2, h3, h4, h5⟩ := notYet_stuck
  exact ⟨s, tr, h1, h3, h2.waits, h4, h5, fun tr' s' h6 h7 h8 => (stuck_stays h2 h6 h7 h8).1.waits⟩

/-- `get` with no time left throws TimeoutException although the task is done. -/
theorem get_zero_refuses : ∃ s tr, runActs (init Nat Nat) []
    [(0, .call .run), (0, .go), (0, .go), (0, .go), (0, .answer (.value (some 7))), (0, .go), (0, .go),
     (0, .go), (0, .go), (1, .call (.get true true)), (1, .go), (1, .go), (1, .go)] = some (s, tr) ∧
    s.st = .done ∧ (1, .got true .timeout) ∈ tr := by
  obtain ⟨s, tr, h, hp⟩ := runActs_test (acts := [(0, .call .run), (0, .go), (0, .go), (0, .go),
    (0, .answer (.value (some 7))), (0, .go), (0, .go), (0, .go), (0, .go),
    (1, .call (.get true true)), (1, .go), (1, .go), (1, .go)]) (P := fun s tr =>
    decide (s.st = .done ∧ (1, .got true .timeout) ∈ tr)) (by decide +kernel)
  exact ⟨s, tr, h, of_decide_eq_true hp⟩

/-- One thread runs the task, two wait for it, one of them with a limit; `cancel` comes too late. -/
example : ∃ s tr, Steps (init Nat Nat) tr s ∧ starts tr = 1 ∧
    (1, .got false (.value (some 7))) ∈ tr ∧ (2, .got true (.value (some 7))) ∈ tr ∧
    (3, .cancel true false) ∈ tr ∧ (3, .isDone true) ∈ tr ∧ ∀ x ∈ tr, x.2 ≠ Ev.outside := by
  obtain ⟨s, tr, h, hp⟩ := runActs_test (acts := [(1, .call (.get false false)), (1, .go), (1, .go),
     (1, .go), (0, .call .run), (0, .go), (0, .go), (0, .go), (0, .answer (.value (some 7))), (0, .go),
     (3, .call (.cancel true)), (3, .go), (3, .go), (3, .call .isDone), (3, .go),
     (2, .call (.get true false)), (2, .go), (2, .go), (2, .go), (2, .go), (2, .go),
     (0, .go), (0, .go), (0, .go), (1, .go), (1, .go), (1, .go), (1, .go), (1, .go)])
    (P := fun _ tr => decide (starts tr = 1 ∧
    (1, .got false (.value (some 7))) ∈ tr ∧ (2, .got true (.value (some 7))) ∈ tr ∧
    (3, .cancel true false) ∈ tr ∧ (3, .isDone true) ∈ tr ∧ ∀ x ∈ tr, x.2 ≠ Ev.outside))
    (by decide +kernel)
  exact ⟨s, tr, runActs_steps .refl h, of_decide_eq_true hp⟩

/-- `cancel(false)` comes first: the task is not run, and `get` says so, to the one who waited too. -/
example : ∃ s tr, Steps (init Nat Nat) tr s ∧ (1, .cancel false true) ∈ tr ∧ (0, .ranOut) ∈ tr ∧
    (2, .got false .cancelled) ∈ tr ∧ starts tr = 0 ∧ ∀ x ∈ tr, x.2 ≠ .call (.cancel true) := by
  obtain ⟨s, tr, h, hp⟩ := runActs_test (acts := [(2, .call (.get false false)), (2, .go), (2, .go),
     (2, .go), (1, .call (.cancel false)), (1, .go), (1, .go), (0, .call .run), (0, .go),
     (2, .go), (2, .go), (2, .go), (2, .go)])
    (P := fun _ tr => decide ((1, .cancel false true) ∈ tr ∧ (0, .ranOut) ∈ tr ∧
    (2, .got false .cancelled) ∈ tr ∧ starts tr = 0 ∧ ∀ x ∈ tr, x.2 ≠ .call (.cancel true)))
    (by decide +kernel)
  exact ⟨s, tr, runActs_steps .refl h, of_decide_eq_true hp⟩

/-- A thread waits, the task is done, and the runner is about to notify. -/
example : ∃ s tr, Steps (init Nat Nat) tr s ∧ (3, .isDone true) ∈ tr ∧ s.pc 1 = .gWait false ∧
    s.pc 0 = .rNotify ∧ ∀ x ∈ tr, x.2 ≠ .call (.cancel true) := by
  obtain ⟨s, tr, h, hp⟩ := runActs_test (acts := [(1, .call (.get false false)), (1, .go), (1, .go),
     (1, .go), (0, .call .run), (0, .go), (0, .go), (0, .go), (0, .answer (.value (some 7))), (0, .go),
     (0, .go), (3, .call .isDone), (3, .go)])
    (P := fun s tr => decide ((3, .isDone true) ∈ tr ∧ s.pc 1 = .gWait false ∧
    s.pc 0 = .rNotify ∧ ∀ x ∈ tr, x.2 ≠ .call (.cancel true)))
    (by decide +kernel)
  exact ⟨s, tr, runActs_steps .refl h, of_decide_eq_true hp⟩

/-- `cancel(true)` while the task runs: its thread is interrupted and `run` returns with the flag
clear. -/
example : ∃ s tr, Steps (init Nat Nat) tr s ∧ (1, .interrupts 0) ∈ tr ∧ (1, .cancel true true) ∈ tr ∧
    (0, .ranOut) ∈ tr ∧ s.intr 0 = false ∧ starts tr = 1 := by
  obtain ⟨s, tr, h, hp⟩ := runActs_test (acts := [(0, .call .run), (0, .go), (0, .go), (0, .go),
     (1, .call (.cancel true)), (1, .go), (1, .go), (1, .go), (1, .go), (1, .go),
     (0, .answer (.thrown 1)), (0, .go), (0, .go), (0, .go), (0, .go), (0, .go)])
    (P := fun s tr => decide ((1, .interrupts 0) ∈ tr ∧ (1, .cancel true true) ∈ tr ∧
    (0, .ranOut) ∈ tr ∧ s.intr 0 = false ∧ starts tr = 1)) (by decide +kernel)
  exact ⟨s, tr, runActs_steps .refl h, of_decide_eq_true hp⟩

end Avian.FutureTask
