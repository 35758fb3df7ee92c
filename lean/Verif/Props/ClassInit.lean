import Verif.Conc.ClassInitSteps

/-
C24 and C25: initialization of classes.

The theorems speak about the log of events only: `started` and `finished` are the initializer,
`called`, `returned` and `threw` are the requests.  `Above P c d`: `d` is a superclass of `c`.
-/
namespace Avian.ClassInit

variable {P : Prog}

/-! ### C24 -/

/-- **C24.** Whatever the schedule, an initializer is started at most once. -/
theorem started_once {s : St} (h : Reachable P s) {i j t u c : Nat}
    (hi : s.sh.log[i]? = some (.started t c)) (hj : s.sh.log[j]? = some (.started u c)) : i = j ∧ t = u := by
  have hl := (reachable_inv h).shared.log
  have main : ∀ i j t u : Nat, s.sh.log[i]? = some (Ev.started t c) → s.sh.log[j]? = some (Ev.started u c) → ¬ i < j := by
    intro i j t u hi hj hij
    refine (hl j _ hj).1 t ?_
    refine List.mem_of_getElem? (i := i) ?_
    rw [List.getElem?_take_of_lt hij]; exact hi
  have h1 := main i j t u hi hj
  have h2 := main j i u t hj hi
  have : i = j := by omega
  subst this
  rw [hi] at hj
  simp at hj
  exact ⟨rfl, hj⟩

/-- Only classes that have an initializer run one, and it ends at most once, in the same thread. -/
theorem finished_once {s : St} (h : Reachable P s) {j u c : Nat} {k : Kind}
    (hj : s.sh.log[j]? = some (.finished u c k)) :
    (∃ i, i < j ∧ s.sh.log[i]? = some (.started u c)) ∧
    ∀ i v k', s.sh.log[i]? = some (.finished v c k') → i = j := by
  have hl := (reachable_inv h).shared.log
  have main : ∀ (i j t u : Nat) (k k' : Kind), s.sh.log[i]? = some (Ev.finished t c k) → s.sh.log[j]? = some (Ev.finished u c k') → ¬ i < j := by
    intro i j t u k k' hi hj hij
    refine (hl j _ hj).2 t k ?_
    refine List.mem_of_getElem? (i := i) ?_
    rw [List.getElem?_take_of_lt hij]; exact hi
  refine ⟨?_, ?_⟩
  · obtain ⟨i, hi⟩ := List.mem_iff_getElem?.1 (hl j _ hj).1
    rw [List.getElem?_take] at hi
    split at hi
    · exact ⟨i, by assumption, hi⟩
    · simp at hi
  · intro i v k' hi
    have h1 := main i j _ _ _ _ hi hj
    have h2 := main j i _ _ _ _ hj hi
    omega

theorem settled_events {t d n : Nat} {log : List Ev} (h : Settled P t d (log.take n)) (hd : P.hasInit d = true) :
    (∃ j u k, j < n ∧ log[j]? = some (.finished u d k)) ∨ (∃ j, j < n ∧ log[j]? = some (.started t d)) := by
  have get : ∀ e, e ∈ log.take n → ∃ j, j < n ∧ log[j]? = some e := by
    intro e he
    obtain ⟨j, hj⟩ := List.mem_iff_getElem?.1 he
    rw [List.getElem?_take] at hj
    split at hj
    · exact ⟨j, by assumption, hj⟩
    · simp at hj
  rcases h with (h | ⟨u, k, h⟩) | h
  · rw [hd] at h; simp at h
  · obtain ⟨j, h1, h2⟩ := get _ h
    exact .inl ⟨j, u, k, h1, h2⟩
  · obtain ⟨j, h1, h2⟩ := get _ h
    exact .inr ⟨j, h1, h2⟩

/-- **C24 (partial).** When an initializer starts, those of all superclasses are over, except ones
that the same thread is running.  Missing: that they ended normally, which is false
(`subclass_starts_after_failed_superclass`). -/
theorem superclass_first_partial {s : St} (h : Reachable P s) {i t c d : Nat}
    (hi : s.sh.log[i]? = some (.started t c)) (hd : Above P c d) (hn : P.hasInit d = true) :
    (∃ j u k, j < i ∧ s.sh.log[j]? = some (.finished u d k)) ∨ (∃ j, j < i ∧ s.sh.log[j]? = some (.started t d)) :=
  settled_events (((reachable_inv h).shared.log i _ hi).2.2 d hd) hn

/-- **C24.** A request for a class returns only when the initializers of the class and of all
superclasses are over, except ones that the same thread is running. -/
theorem returns_after_initializer {s : St} (h : Reachable P s) {i t c id d : Nat}
    (hi : s.sh.log[i]? = some (.returned t c id)) (hd : d = c ∨ Above P c d) (hn : P.hasInit d = true) :
    (∃ j u k, j < i ∧ s.sh.log[j]? = some (.finished u d k)) ∨ (∃ j, j < i ∧ s.sh.log[j]? = some (.started t d)) :=
  settled_events (((reachable_inv h).shared.log i _ hi).2 d hd).1 hn

/-! ### C25 -/

/-- **C25 (partial).** A request made after a class has been marked as failed, or for a subclass of
it, does not return normally.  Missing: requests that were already waiting
(`waiting_request_returns_after_failure`) and initializers ended by a throwable that is no
`Exception` (`error_leaves_class_initialized`). -/
theorem failed_class_refused_partial {s : St} (h : Reachable P s) {i t c id d j : Nat}
    (hi : s.sh.log[i]? = some (.returned t c id)) (hd : d = c ∨ Above P c d) (hj : s.sh.log[j]? = some (.failed d)) :
    s.sh.log[id]? = some (.called t c) ∧ id < j ∧ id < i := by
  have hl := (reachable_inv h).shared.log i _ hi
  have hid : id < i ∧ s.sh.log[id]? = some (.called t c) := by
    have := hl.1
    rw [List.getElem?_take] at this
    split at this
    · exact ⟨by assumption, this⟩
    · simp at this
  refine ⟨hid.2, ?_, hid.1⟩
  by_cases hlt : id < j
  · exact hlt
  · exfalso
    have hne : id ≠ j := fun e => by
      have h2 := hid.2
      rw [e, hj] at h2; simp at h2
    refine (hl.2 d hd).2 ?_
    rw [List.take_take]
    refine List.mem_of_getElem? (i := j) ?_
    rw [List.getElem?_take_of_lt (by omega)]; exact hj

/-- A request throws only if the initializer of the class or of a superclass has ended abruptly. -/
theorem throws_only_after_failure {s : St} (h : Reachable P s) {i t c id : Nat}
    (hi : s.sh.log[i]? = some (.threw t c id)) :
    ∃ d, (d = c ∨ Above P c d) ∧ ∃ j u k, j < i ∧ k ≠ .ok ∧ s.sh.log[j]? = some (.finished u d k) := by
  obtain ⟨d, h1, u, k, h2, h3⟩ := ((reachable_inv h).shared.log i _ hi).2
  obtain ⟨j, hj⟩ := List.mem_iff_getElem?.1 h3
  rw [List.getElem?_take] at hj
  split at hj
  · exact ⟨d, h1, j, u, k, by assumption, h2, hj⟩
  · simp at hj

/-- A sleeping request has something to wait for: a thread that will wake it, or it has been left
behind by a failure. -/
def Awaited (s : St) : Prop := ∀ t f rest, s.stack t = f :: rest → f.pc = .asleep →
  s.sh.init f.cls = true ∨ Ev.failed f.cls ∈ s.sh.log ∨
    ∃ u g r k, s.stack u = g :: r ∧ g.cls = f.cls ∧ g.pc = .postNotify k

theorem ret_top {sh : Shared} {t : Nat} {f : Frame} {rest : List Frame}
    (hs : ∀ g ∈ rest, g.pc = .super ∨ g.pc = .body) : ∀ g r, (ret sh t f rest).2 = g :: r → g.pc ≠ .asleep := by
  cases rest with
  | nil => intro g r e; simp [ret] at e
  | cons x rest =>
    intro g r e
    simp only [ret, List.cons.injEq] at e
    rw [← e.1]
    rcases hs x (List.mem_cons_self ..) with h | h <;> simp [h]

theorem throw_top {sh : Shared} {t : Nat} {f : Frame} {rest : List Frame}
    (hs : ∀ g ∈ rest, g.pc = .super ∨ g.pc = .body) : ∀ g r, (throw sh t f rest).2 = g :: r → g.pc ≠ .asleep := by
  cases rest with
  | nil => intro g r e; simp [throw] at e
  | cons x rest =>
    intro g r e
    simp only [throw, List.cons.injEq] at e
    rw [← e.1]
    rcases hs x (List.mem_cons_self ..) with h | h <;> simp [h]

theorem ret_shared (sh : Shared) (t : Nat) (f : Frame) (rest : List Frame) :
    (ret sh t f rest).1 = emit sh (.returned t f.cls f.born) := by cases rest <;> rfl
theorem throw_shared (sh : Shared) (t : Nat) (f : Frame) (rest : List Frame) :
    (throw sh t f rest).1 = emit sh (.threw t f.cls f.born) := by cases rest <;> rfl

/-- What a step does to sleepers. -/
theorem local_effect {sh : Shared} {t : Nat} {stk : List Frame} {ch : Choice} {r : Shared × List Frame}
    (hshape : Shape stk) (hr : localStep P sh t stk ch = some r) :
    (∀ e ∈ sh.log, e ∈ r.1.log) ∧
    (∀ g rest, r.2 = g :: rest → g.pc = .asleep → r.1.init g.cls = true) ∧
    (∀ c, sh.init c = true → r.1.init c = true ∨ Ev.failed c ∈ r.1.log ∨
      ∃ g rest k, r.2 = g :: rest ∧ g.cls = c ∧ g.pc = .postNotify k) := by
  have quiet : ∀ (sh' : Shared) (stk' : List Frame) (m : List Ev), sh'.init = sh.init → sh'.log = sh.log ++ m →
      (∀ g rest, stk' = g :: rest → g.pc ≠ .asleep) →
      (∀ e ∈ sh.log, e ∈ sh'.log) ∧
      (∀ g rest, stk' = g :: rest → g.pc = .asleep → sh'.init g.cls = true) ∧
      (∀ c, sh.init c = true → sh'.init c = true ∨ Ev.failed c ∈ sh'.log ∨
        ∃ g rest k, stk' = g :: rest ∧ g.cls = c ∧ g.pc = .postNotify k) := by
    intro sh' stk' m h1 h2 h3
    refine ⟨fun e he => by rw [h2]; exact List.mem_append_left _ he, fun g rest e e' => absurd e' (h3 g rest e),
      fun c hc => .inl (by rw [h1]; exact hc)⟩
  cases stk with
  | nil =>
    cases ch <;> simp only [localStep, Option.some.injEq, reduceCtorEq] at hr
    subst hr
    exact quiet _ _ [_] rfl rfl (fun g r e => by simp only [enter, List.cons.injEq] at e; rw [← e.1]; simp)
  | cons f rest =>
    have top : ∀ (pc : Pc), pc ≠ .asleep → ∀ g r, ({ f with pc := pc } :: rest : List Frame) = g :: r → g.pc ≠ .asleep := by
      intro pc hp g r e
      simp only [List.cons.injEq] at e
      rw [← e.1]; exact hp
    have r1 : ∀ hd, (∀ e ∈ sh.log, e ∈ (ret { sh with holder := hd } t f rest).1.log) ∧ _ ∧ _ := fun hd =>
      quiet (ret { sh with holder := hd } t f rest).1 (ret { sh with holder := hd } t f rest).2 [.returned t f.cls f.born]
        (by rw [ret_shared]; rfl) (by rw [ret_shared]; rfl) (ret_top hshape.2)
    have r2 : ∀ hd, (∀ e ∈ sh.log, e ∈ (throw { sh with holder := hd } t f rest).1.log) ∧ _ ∧ _ := fun hd =>
      quiet (throw { sh with holder := hd } t f rest).1 (throw { sh with holder := hd } t f rest).2 [.threw t f.cls f.born]
        (by rw [throw_shared]; rfl) (by rw [throw_shared]; rfl) (throw_top hshape.2)
    cases hpc : f.pc with
    | start =>
      simp only [localStep, hpc] at hr
      split at hr <;> simp only [Option.some.injEq] at hr <;> subst hr
      · exact quiet _ _ [_] rfl rfl (fun g r e => by simp only [enter, List.cons.injEq] at e; rw [← e.1]; simp)
      · exact quiet _ _ [] rfl (by simp) (top _ (by simp))
    | super => simp [localStep, hpc] at hr
    | check =>
      simp only [localStep, hpc] at hr
      split at hr <;> simp only [Option.some.injEq] at hr <;> subst hr
      · exact quiet _ _ [] rfl (by simp) (top _ (by simp))
      · exact r1 sh.holder
    | lock =>
      simp only [localStep, hpc] at hr
      split at hr <;> simp only [Option.some.injEq, reduceCtorEq] at hr
      subst hr
      exact quiet _ _ [] rfl (by simp) (top _ (by simp))
    | decide =>
      simp only [localStep, hpc] at hr
      split at hr
      · split at hr
        · rename_i hi
          split at hr <;> simp only [Option.some.injEq] at hr <;> subst hr
          · exact r1 none
          · refine ⟨fun e he => he, fun g r e _ => ?_, fun c hc => .inl hc⟩
            simp only [List.cons.injEq] at e
            rw [← e.1]; exact hi
        · split at hr <;> simp only [Option.some.injEq] at hr <;> subst hr
          · exact r2 none
          · refine ⟨fun e he => he, fun g r e e' => absurd e' (top .run (by simp) g r e), fun c hc => .inl ?_⟩
            show upd sh.init f.cls true c = true
            by_cases e : c = f.cls
            · subst e; exact upd_eq
            · rw [upd_ne e]; exact hc
      · simp only [Option.some.injEq] at hr
        subst hr
        exact r1 none
    | asleep =>
      simp only [localStep, hpc] at hr
      cases ch <;> simp only [Option.some.injEq, reduceCtorEq] at hr
      subst hr
      exact quiet _ _ [] rfl (by simp) (top _ (by simp))
    | woken =>
      simp only [localStep, hpc] at hr
      split at hr <;> simp only [Option.some.injEq, reduceCtorEq] at hr
      subst hr
      exact quiet _ _ [] rfl (by simp) (top _ (by simp))
    | test =>
      simp only [localStep, hpc] at hr
      split at hr
      · rename_i hi
        simp only [Option.some.injEq] at hr
        subst hr
        refine ⟨fun e he => he, fun g r e _ => ?_, fun c hc => .inl hc⟩
        simp only [List.cons.injEq] at e
        rw [← e.1]; exact hi
      · simp only [Option.some.injEq] at hr
        subst hr
        exact r1 none
    | run =>
      simp only [localStep, hpc] at hr
      split at hr <;> simp only [Option.some.injEq] at hr <;> subst hr
      · exact quiet _ _ [_] rfl rfl (top _ (by simp))
      · exact quiet _ _ [] rfl (by simp) (top _ (by simp))
    | body =>
      simp only [localStep, hpc] at hr
      cases ch <;> simp only [Option.some.injEq, reduceCtorEq] at hr
      · subst hr
        exact quiet _ _ [_] rfl rfl (fun g r e => by simp only [enter, List.cons.injEq] at e; rw [← e.1]; simp)
      · subst hr
        exact quiet _ _ [_] rfl rfl (top _ (by simp))
    | post k =>
      simp only [localStep, hpc] at hr
      split at hr <;> simp only [Option.some.injEq, reduceCtorEq] at hr
      subst hr
      exact quiet _ _ [] rfl (by simp) (top _ (by simp))
    | postLocked k =>
      simp only [localStep, hpc] at hr
      split at hr <;> simp only [Option.some.injEq] at hr <;> subst hr
      · exact quiet _ _ [] rfl (by simp) (top _ (by simp))
      · refine ⟨fun e he => he, fun g r e e' => absurd e' (top (.postNotify k) (by simp) g r e), fun c hc => ?_⟩
        by_cases e : c = f.cls
        · exact .inr (.inr ⟨_, _, k, rfl, e.symm, rfl⟩)
        · exact .inl ((upd_ne e).trans hc)
    | postError =>
      simp only [localStep, hpc, Option.some.injEq] at hr
      subst hr
      refine ⟨fun e he => List.mem_append_left _ he, fun g r e e' => absurd e' (top .postThrow (by simp) g r e), fun c hc => ?_⟩
      by_cases e : c = f.cls
      · exact .inr (.inl (by rw [e]; simp [emit]))
      · exact .inl ((upd_ne e).trans hc)
    | postThrow =>
      simp only [localStep, hpc, Option.some.injEq] at hr
      subst hr
      exact r2 none
    | postNotify k =>
      simp only [localStep, hpc, Option.some.injEq] at hr
      subst hr
      exact quiet _ _ [] rfl (by simp) (top _ (by simp))
    | postRelease k =>
      simp only [localStep, hpc] at hr
      split at hr <;> simp only [Option.some.injEq] at hr <;> subst hr
      · exact r1 none
      · exact r2 none
    | fail =>
      simp only [localStep, hpc, Option.some.injEq] at hr
      subst hr
      exact r2 sh.holder

theorem awaited_step {s s' : St} {t : Nat} {ch : Choice} (hi : Inv P s) (h : Awaited s) (hs : step P s t ch = some s') :
    Awaited s' := by
  unfold step at hs
  cases hr : localStep P s.sh t (s.stack t) ch with
  | none => rw [hr] at hs; simp at hs
  | some r =>
    rw [hr] at hs
    simp only [Option.map_some, Option.some.injEq] at hs
    subst hs
    obtain ⟨e1, e2, e3⟩ := local_effect (hi.shape t) hr
    intro u f rest hst hpc
    by_cases hu : u = t
    · subst hu
      have hst : r.2 = f :: rest := by
        simpa [upd] using hst
      exact .inl (e2 f rest hst hpc)
    · by_cases hn : notifies (s.stack t) = true
      · -- everybody has been woken
        exfalso
        have hst : wakeTop (s.stack u) = f :: rest := by
          simpa [upd, hu, hn] using hst
        cases hsu : s.stack u with
        | nil => rw [hsu] at hst; simp [wakeTop] at hst
        | cons g r' =>
          rw [hsu] at hst
          simp only [wakeTop, List.cons.injEq] at hst
          rw [← hst.1] at hpc
          by_cases e : g.pc = .asleep
          · simp [e] at hpc
          · simp [e] at hpc
      · have hst : s.stack u = f :: rest := by
          simpa [upd, hu, hn] using hst
        rcases h u f rest hst hpc with x | x | ⟨v, g, r', k, h1, h2, h3⟩
        · rcases e3 _ x with y | y | ⟨g, r', k, y1, y2, y3⟩
          · exact .inl y
          · exact .inr (.inl y)
          · exact .inr (.inr ⟨t, g, r', k, by simpa [upd] using y1, y2, y3⟩)
        · exact .inr (.inl (e1 _ x))
        · refine .inr (.inr ⟨v, g, r', k, ?_, h2, h3⟩)
          by_cases hv : v = t
          · subst hv
            exfalso
            rw [h1] at hn
            obtain ⟨a, b, c⟩ := g
            simp at h3; subst h3
            simp [notifies] at hn
          · simpa [upd, hv, hn] using h1

/-- **C25 (partial).** While a request sleeps, the class is being initialized by a thread that will
wake it, unless the class has been marked as failed.  Missing: that case, in which nobody wakes it
(`waiter_stranded`). -/
theorem no_lost_wakeup_partial {s : St} (h : Reachable P s) {t : Nat} {f : Frame} {rest : List Frame}
    (hs : s.stack t = f :: rest) (hf : f.pc = .asleep) :
    (∃ u, s.sh.owner f.cls = some u ∧ ∃ g ∈ s.stack u, g.cls = f.cls ∧ g.pc.owning = true) ∨
    Ev.failed f.cls ∈ s.sh.log ∨ ∃ u g r k, s.stack u = g :: r ∧ g.cls = f.cls ∧ g.pc = .postNotify k := by
  have hi := reachable_inv h
  have : Awaited s := by
    clear hs hf
    induction h with
    | initial => intro t f rest hs _; simp [initial] at hs
    | step t ch hr hs ih => exact awaited_step (reachable_inv hr) (ih (reachable_inv hr)) hs
  rcases this t f rest hs hf with x | x | x
  · left
    rw [hi.shared.owner] at x
    obtain ⟨u, hu⟩ := Option.isSome_iff_exists.1 x
    refine ⟨u, hu, ?_⟩
    have := hi.count u f.cls
    rw [hu, if_pos rfl] at this
    obtain ⟨g, h1, h2⟩ := List.countP_pos_iff.1 (show 0 < (s.stack u).countP (ownsB f.cls) by omega)
    simp [ownsB] at h2
    exact ⟨g, h1, h2.1, h2.2⟩
  · exact .inr (.inl x)
  · exact .inr (.inr x)

/-- A thread in a request that is neither asleep nor running an initializer can go on, or the holder
of the class lock can. -/
theorem requests_progress {s : St} (h : Reachable P s) {t : Nat} {f : Frame} {rest : List Frame}
    (hs : s.stack t = f :: rest) (h1 : f.pc ≠ .asleep) (h2 : f.pc ≠ .body) :
    (∃ s', step P s t .go = some s') ∨ ∃ u s', s.sh.holder = some u ∧ step P s u .go = some s' := by
  have hi := reachable_inv h
  have holder : ∀ u, s.sh.holder = some u → ∃ s', step P s u .go = some s' := by
    intro u hu
    obtain ⟨g, r, e1, e2⟩ := (hi.holder u).1 hu
    have : ∃ x, localStep P s.sh u (s.stack u) .go = some x := by
      rw [e1]
      cases hpc : g.pc <;> simp only [hpc, Pc.locked, reduceCtorEq] at e2 <;> simp only [localStep, hpc]
      all_goals first
        | exact ⟨_, rfl⟩
        | (repeat' split) <;> exact ⟨_, rfl⟩
    obtain ⟨x, hx⟩ := this
    exact ⟨_, by unfold step; rw [hx]; rfl⟩
  cases hh : s.sh.holder with
  | some u => obtain ⟨s', e⟩ := holder u hh; exact .inr ⟨u, s', rfl, e⟩
  | none =>
    left
    have hsh := hi.shape t
    rw [hs] at hsh
    have : ∃ x, localStep P s.sh t (s.stack t) .go = some x := by
      rw [hs]
      cases hpc : f.pc <;> simp only [localStep, hpc, hh, if_true]
      case super => exact absurd hpc hsh.1
      case asleep => exact absurd hpc h1
      case body => exact absurd hpc h2
      all_goals first
        | exact ⟨_, rfl⟩
        | (repeat' split) <;> exact ⟨_, rfl⟩
    obtain ⟨x, hx⟩ := this
    exact ⟨_, by unfold step; rw [hx]; rfl⟩

/-! ### Where it goes wrong, and concrete runs -/

theorem exec_reachable : ∀ (l : List (Nat × Choice)) (s s' : St), Reachable P s → exec P s l = some s' → Reachable P s'
  | [], s, s', h, e => by simp [exec] at e; subst e; exact h
  | (t, ch) :: l, s, s', h, e => by
    simp only [exec] at e
    cases hs : step P s t ch with
    | none => rw [hs] at e; simp at e
    | some s1 => rw [hs] at e; exact exec_reachable l s1 s' (.step t ch h hs) e

/-- Classes 0 and 1 are unrelated, 2 extends 1; all have initializers. -/
def prog : Prog := { super := fun c => if c = 2 then some 1 else none, hasInit := fun c => c < 3, marked := fun _ => false }

def goes (t n : Nat) : List (Nat × Choice) := List.replicate n (t, .go)

/-- Thread 1 starts the initializer of class 1, thread 2 waits for it, and it ends with an exception. -/
def failing : List (Nat × Choice) :=
  [(1, .call 1)] ++ goes 1 5 ++ [(2, .call 1)] ++ goes 2 4 ++ [(1, .finish .exc)] ++ goes 1 4

def after (l : List (Nat × Choice)) : St := (exec prog (initial prog) l).getD (initial prog)

theorem after_reachable {l : List (Nat × Choice)} (h : (exec prog (initial prog) l).isSome = true) :
    Reachable prog (after l) := by
  obtain ⟨s, hs⟩ := Option.isSome_iff_exists.1 h
  have : after l = s := by unfold after; rw [hs]; rfl
  rw [this]
  exact exec_reachable l _ _ .initial hs

/-- **C25 fails: a waiting thread is left asleep.** The initializer has failed and nobody is left in
any request but thread 2, which sleeps and cannot go on by itself. -/
theorem waiter_stranded : ∃ s, Reachable prog s ∧ s.stack 2 = [{ cls := 1, pc := .asleep, born := 2 }] ∧
    s.stack 1 = [] ∧ s.sh.holder = none ∧ s.sh.init 1 = false ∧ s.sh.err 1 = true ∧ (step prog s 2 .go).isNone = true ∧
    Ev.finished 1 1 .exc ∈ s.sh.log ∧ Ev.threw 1 1 0 ∈ s.sh.log :=
  ⟨after failing, after_reachable (by decide +kernel), by decide +kernel⟩

/-- **C25 fails: a waiting request returns normally.** When something else wakes thread 2 (here the
end of another class's initialization) it goes on as if the class had been initialized. -/
theorem waiting_request_returns_after_failure : ∃ s, Reachable prog s ∧
    s.sh.log.getLast? = some (.returned 2 1 2) ∧ Ev.finished 1 1 .exc ∈ s.sh.log ∧ s.sh.need 1 = true ∧ s.sh.err 1 = true :=
  ⟨after (failing ++ [(1, .call 0)] ++ goes 1 5 ++ [(1, .finish .ok)] ++ goes 1 4 ++ goes 2 2),
    after_reachable (by decide +kernel), by decide +kernel⟩

/-- **C25 fails for errors.** If the initializer ends with a throwable that is no `Exception`, the
class counts as initialized: the next request returns. -/
theorem error_leaves_class_initialized : ∃ s, Reachable prog s ∧
    s.sh.log = [.called 1 1, .started 1 1, .finished 1 1 .err, .threw 1 1 0, .called 2 1, .returned 2 1 4] :=
  ⟨after ([(1, .call 1)] ++ goes 1 5 ++ [(1, .finish .err)] ++ goes 1 4 ++ [(2, .call 1)] ++ goes 2 2),
    after_reachable (by decide +kernel), by decide +kernel⟩

/-- **C24 fails after a failure.** Thread 2 wants class 2, whose superclass 1 fails meanwhile: the
initializer of class 2 is started all the same. -/
theorem subclass_starts_after_failed_superclass : ∃ s, Reachable prog s ∧
    s.sh.log.getLast? = some (.started 2 2) ∧ Ev.failed 1 ∈ s.sh.log ∧ Above prog 2 1 :=
  ⟨after ([(1, .call 1)] ++ goes 1 5 ++ [(2, .call 2)] ++ goes 2 5 ++ [(1, .finish .exc)] ++ goes 1 4 ++
      [(2, .wake)] ++ goes 2 6),
    after_reachable (by decide +kernel), by decide +kernel, by decide +kernel, .one rfl⟩

/-- A run in which two threads race for class 2: one waits, both return. -/
example : ∃ s, Reachable prog s ∧ s.sh.log =
    [.called 1 2, .called 1 1, .started 1 1, .called 2 2, .called 2 1, .finished 1 1 .ok, .returned 1 1 1, .started 1 2,
      .finished 1 2 .ok, .returned 1 2 0, .returned 2 1 4, .returned 2 2 3] ∧ s.stack 1 = [] ∧ s.stack 2 = [] :=
  ⟨after ([(1, .call 2)] ++ goes 1 6 ++ [(2, .call 2)] ++ goes 2 5 ++ [(1, .finish .ok)] ++ goes 1 8 ++ [(1, .finish .ok)] ++
      goes 1 4 ++ goes 2 3),
    after_reachable (by decide +kernel), by decide +kernel⟩

/-- A recursive request of the initializing thread returns at once. -/
example : ∃ s, Reachable prog s ∧ s.sh.log = [.called 1 1, .started 1 1, .called 1 2, .called 1 1, .returned 1 1 3, .started 1 2] :=
  ⟨after ([(1, .call 1)] ++ goes 1 5 ++ [(1, .call 2)] ++ goes 1 9), after_reachable (by decide +kernel), by decide +kernel⟩

end Avian.ClassInit
