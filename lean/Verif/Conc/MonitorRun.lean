import Verif.Conc.MonitorWake

/-!
An executable version of the steps of `Verif.Conc.Monitor`, used to build concrete executions and to
show which program counters can move; and the proof that the threads inside the monitor operations
never block each other for ever.
-/

namespace Avian.Monitor

/-- one step of thread `t`; `none` if it must wait for a lock (or is not inside an operation) -/
def next (t : Tid) (s : Shared) : Pc → Option (Shared × Pc)
  | .out | .refused | .abort => none
  | .threw => some (s, .out)
  | .a0 k => if s.owner = some t then some (s, .a1 k) else some (s, .p0 (.try k))
  | .a1 k => some (enterHeld { s with depth := s.depth + 1 } t k, acqDone k)
  | .a2 k => if s.owner = none then some ({ s with owner := some t }, .a3 k) else some (s, .s0 k)
  | .a3 k => some (enterHeld { s with depth := s.depth + 1 } t k, acqDone k)
  | .s0 k => if s.lock t = none then some ({ s with lock := set s.lock t (some t) }, .s1 k) else none
  | .s1 .user => some ({ s with fresh := s.fresh + 1, value := set s.value s.fresh (some t),
                                next := set s.next s.fresh none }, .q0 .user s.fresh)
  | .s1 (.wait d nd) => some (s, .q0 (.wait d nd) nd)
  | .q0 k nd => some (s, .q1 k nd s.tail)
  | .q1 k nd tl => some (s, .q2 k nd tl (s.next tl))
  | .q2 k nd tl n =>
    if s.tail ≠ tl then some (s, .q0 k nd)
    else match n with
      | some n => some (s, .q3 k nd tl n)
      | none => some (s, .q4 k nd tl)
  | .q3 k nd tl n =>
    if s.tail = tl then some ({ s with tail := n, ti := s.ti + 1 }, .q0 k nd) else some (s, .q0 k nd)
  | .q4 k nd tl =>
    if s.next tl = none then
      some ({ s with next := set s.next tl (some nd), chain := s.chain ++ [nd],
                     joined := s.joined ++ [t] }, .q5 k nd tl)
    else some (s, .q0 k nd)
  | .q5 k nd tl =>
    if s.tail = tl then some ({ s with tail := nd, ti := s.ti + 1 }, .p0 (.loop k))
    else some (s, .p0 (.loop k))
  | .p0 c => some (s, .p1 c s.head)
  | .p1 c h => some (s, .p2 c h s.tail)
  | .p2 c h tl => some (s, .p3 c h tl (s.next h))
  | .p3 c h tl n =>
    if s.head ≠ h then some (s, .p0 c)
    else if h = tl then match n with
      | some n => some (s, .p4 c tl n)
      | none => some (s, ret t none c)
    else match n with
      | some n => some (s, .p5 c h n)
      | none => some (s, .abort)
  | .p4 c tl n =>
    if s.tail = tl then some ({ s with tail := n, ti := s.ti + 1 }, .p0 c) else some (s, .p0 c)
  | .p5 c h n =>
    if isRem c = true then some (s, .p6 c h n (s.value n)) else some (s, ret t (s.value n) c)
  | .p6 c h n v =>
    if s.head = h then some ({ s with head := n, hi := s.hi + 1, served := s.served ++ [t] }, ret t v c)
    else some (s, .p0 c)
  | .s2 k => if s.owner = none then some ({ s with owner := some t }, .p0 (.rem k)) else some (s, .s3 k)
  | .s3 k => some ({ s with lock := set s.lock t none, asleep := set s.asleep t true }, .s4 k)
  | .s4 k =>
    if s.lock t = none then
      some ({ s with lock := set s.lock t (some t), asleep := set s.asleep t false }, .p0 (.loop k))
    else none
  | .s5 k => some ({ s with depth := s.depth + 1 }, .s6 k)
  | .s6 k => some (enterHeld { s with lock := set s.lock t none } t k, acqDone k)
  | .r0 k =>
    if s.owner = some t then some (s, .r1 k)
    else match k with
      | .user => some (s, .refused)
      | .wait _ _ => some (s, .abort)
  | .r1 k =>
    if s.depth = 1 then some (leaveHeld { s with depth := s.depth - 1 } t k, .r2 k)
    else some (leaveHeld { s with depth := s.depth - 1 } t k, relDone k)
  | .r2 k => some ({ s with owner := none }, .p0 (.rel k))
  | .r3 k u => if s.lock u = none then some ({ s with lock := set s.lock u (some t) }, .r4 k u) else none
  | .r4 k u => some ({ s with asleep := set s.asleep u false }, .r5 k u)
  | .r5 k u => some ({ s with lock := set s.lock u none }, relDone k)
  | .w0 => if s.owner = some t then some (s, .w1) else some (s, .threw)
  | .w1 => some ({ s with fresh := s.fresh + 1, value := set s.value s.fresh (some t),
                          next := set s.next s.fresh none }, .w2 s.fresh)
  | .w2 nd => if s.lock t = none then some ({ s with lock := set s.lock t (some t) }, .w3 nd) else none
  | .w3 nd =>
    match appendWait s t with
    | some s' => some (s', .w4 nd)
    | none => some (s, .abort)
  | .w4 nd => some ({ s with depth := 1 }, .r0 (.wait s.depth nd))
  | .w5 d nd => some ({ s with lock := set s.lock t none, asleep := set s.asleep t true }, .w6 d nd)
  | .w6 d nd =>
    if s.lock t = none then
      some ({ s with lock := set s.lock t (some t), asleep := set s.asleep t false }, .w7 d nd)
    else none
  | .w7 d nd => some ({ s with lock := set s.lock t none }, .a0 (.wait d nd))
  | .w8 d => some ({ s with depth := d }, .w9)
  | .w9 =>
    if s.flag t = true then
      match removeWait (s.waits.length + 1) s t with
      | some s' => some (s', .out)
      | none => some (s, .abort)
    else if findWait s.waitNext t (s.waits.length + 1) none s.waitHead = none then some (s, .out)
    else some (s, .abort)
  | .n0 all => if s.owner = some t then some (s, .n1 all) else some (s, .threw)
  | .n1 all =>
    match (pollWait s).1 with
    | some u => some ((pollWait s).2, .n2 all u)
    | none => some ((pollWait s).2, .out)
  | .n2 all u =>
    if s.lock u = none then some ({ s with lock := set s.lock u (some t) }, .n3 all u) else none
  | .n3 all u => some ({ s with asleep := set s.asleep u false }, .n4 all u)
  | .n4 all u => some ({ s with lock := set s.lock u none }, if all then .n0 true else .out)

set_option maxHeartbeats 1000000 in
theorem next_local {t s p s' p'} (h : next t s p = some (s', p')) : Local t s p s' p' := by
  cases p <;> simp only [next] at h <;> try (first | (cases h; done) | (cases h; constructor; done))
  case a0 k => split at h <;> cases h <;> first | (apply Local.a0own; assumption) | (apply Local.a0not; assumption)
  case a2 k => split at h <;> cases h <;> first | (apply Local.a2ok; assumption) | (apply Local.a2fail; assumption)
  case s0 => split at h <;> cases h; apply Local.s0; assumption
  case s1 k => cases k <;> simp only [Option.some.injEq, Prod.mk.injEq] at h <;> obtain ⟨rfl, rfl⟩ := h <;> constructor
  case q2 k nd tl n =>
    split at h
    · cases h; apply Local.q2retry; assumption
    · rename_i hne
      have : s.tail = tl := Classical.byContradiction hne
      cases n <;> cases h
      · exact .q2link _ _ _ this
      · exact .q2help _ _ _ _ this
  case q3 => split at h <;> cases h <;> first | (apply Local.q3ok; assumption) | (apply Local.q3fail; assumption)
  case q4 => split at h <;> cases h <;> first | (apply Local.q4ok; assumption) | (apply Local.q4fail; assumption)
  case q5 => split at h <;> cases h <;> first | (apply Local.q5ok; assumption) | (apply Local.q5fail; assumption)
  case p3 c h' tl n =>
    split at h
    · cases h; apply Local.p3retry; assumption
    · rename_i hne
      have : s.head = h' := Classical.byContradiction hne
      split at h
      · cases n <;> cases h
        · exact .p3empty _ _ _ this (by assumption)
        · exact .p3help _ _ _ _ this (by assumption)
      · cases n <;> cases h
        · exact .p3null _ _ _ this (by assumption)
        · exact .p3some _ _ _ _ this (by assumption)
  case p4 => split at h <;> cases h <;> first | (apply Local.p4ok; assumption) | (apply Local.p4fail; assumption)
  case p5 c _ _ =>
    split at h <;> cases h
    · apply Local.p5rem; assumption
    · apply Local.p5keep; cases hc : isRem c <;> simp_all
  case p6 => split at h <;> cases h <;> first | (apply Local.p6ok; assumption) | (apply Local.p6fail; assumption)
  case s2 => split at h <;> cases h <;> first | (apply Local.s2ok; assumption) | (apply Local.s2fail; assumption)
  case s4 => split at h <;> cases h; apply Local.s4; assumption
  case r0 k =>
    split at h
    · cases h; apply Local.r0ok; assumption
    · cases k <;> cases h
      · apply Local.r0fail; assumption
      · apply Local.r0bug; assumption
  case r1 => split at h <;> cases h <;> first | (apply Local.r1last; assumption) | (apply Local.r1more; assumption)
  case r3 => split at h <;> cases h; apply Local.r3; assumption
  case w0 => split at h <;> cases h <;> first | (apply Local.w0ok; assumption) | (apply Local.w0fail; assumption)
  case w2 => split at h <;> cases h; apply Local.w2; assumption
  case w3 => split at h <;> cases h <;> first | (apply Local.w3ok; assumption) | (apply Local.w3bug; assumption)
  case w6 => split at h <;> cases h; apply Local.w6; assumption
  case w9 =>
    have hf : s.waits.length < s.waits.length + 1 := Nat.lt_succ_self _
    split at h
    · split at h <;> cases h
      · apply Local.w9still _ _ hf <;> assumption
      · apply Local.w9bug _ hf <;> assumption
    · rename_i hfl
      have hfl' : s.flag t = false := by cases hc : s.flag t <;> simp_all
      split at h <;> cases h
      · apply Local.w9gone _ hf <;> assumption
      · apply Local.w9bug2 _ hf <;> assumption
  case n0 => split at h <;> cases h <;> first | (apply Local.n0ok; assumption) | (apply Local.n0fail; assumption)
  case n1 => split at h <;> cases h <;> first | (apply Local.n1some; assumption) | (apply Local.n1none; assumption)
  case n2 => split at h <;> cases h; apply Local.n2; assumption

/-- the native lock that the next step of thread `t` takes -/
def wants (t : Tid) : Pc → Option Tid
  | .s0 _ | .s4 _ | .w2 _ | .w6 _ _ => some t
  | .r3 _ u | .n2 _ u => some u
  | _ => none

/-- a thread inside an operation can move unless it wants a lock that is taken -/
theorem next_some {t s p} (h1 : p ≠ .out) (h2 : p ≠ .refused) (h3 : p ≠ .abort)
    (hw : ∀ u, wants t p = some u → s.lock u = none) : ∃ s' p', next t s p = some (s', p') := by
  cases p <;> try contradiction
  case s1 k => cases k <;> exact ⟨_, _, rfl⟩
  case s0 => exact ⟨_, _, by simp only [next]; rw [if_pos (hw t rfl)]⟩
  case s4 => exact ⟨_, _, by simp only [next]; rw [if_pos (hw t rfl)]⟩
  case w2 => exact ⟨_, _, by simp only [next]; rw [if_pos (hw t rfl)]⟩
  case w6 => exact ⟨_, _, by simp only [next]; rw [if_pos (hw t rfl)]⟩
  case r3 _ u => exact ⟨_, _, by simp only [next]; rw [if_pos (hw u rfl)]⟩
  case n2 _ u => exact ⟨_, _, by simp only [next]; rw [if_pos (hw u rfl)]⟩
  all_goals simp only [next]
  all_goals first
    | exact ⟨_, _, rfl⟩
    | (split <;> first | exact ⟨_, _, rfl⟩ | (split <;> first | exact ⟨_, _, rfl⟩ | (split <;> exact ⟨_, _, rfl⟩)))

/-! ### Order of the notifications that releasing threads are about to make -/

/-- the thread has given up the monitor and is looking for a thread to notify -/
def inRel : Pc → Bool
  | .p0 c | .p1 c _ | .p2 c _ _ | .p3 c _ _ _ | .p4 c _ _ | .p5 c _ _ | .p6 c _ _ _ =>
    match c with
    | .rel _ => true
    | _ => false
  | .r3 _ _ | .r4 _ _ | .r5 _ _ => true
  | _ => false

/-- the thread that it is going to notify -/
def relTarget (s : Shared) : Pc → Option Tid
  | .p5 (.rel _) _ n => s.value n
  | .r3 _ u | .r4 _ u | .r5 _ u => some u
  | _ => none

/-- the releasing threads can be ordered such that each is going to notify a later one, or a thread
that is not releasing -/
def Ranked (s : Sys) : Prop := ∃ (rank : Tid → Nat) (b : Nat), (∀ t, rank t ≤ b) ∧
  ∀ t u, relTarget s.sh (s.pc t) = some u → inRel (s.pc u) = true → rank t < rank u

theorem inRel_local {t s p s' p'} (h : Local t s p s' p') (hn : inRel p' = true) :
    inRel p = true ∨ ∃ k, p = .r2 k := by
  cases h <;> try (exact .inl rfl) <;> try (simp [inRel] at hn; done)
  case r2 k => exact .inr ⟨k, rfl⟩
  case a1 k => cases k <;> simp [inRel, acqDone] at hn
  case a3 k => cases k <;> simp [inRel, acqDone] at hn
  case s6 k => cases k <;> simp [inRel, acqDone] at hn
  case r1more k _ => cases k <;> simp [inRel, relDone] at hn
  case n4 all _ => cases all <;> simp [inRel] at hn
  case p3empty =>
    rename_i c _ _ _ _
    cases c <;> simp only [ret] at hn <;> first | exact .inl rfl | (split at hn <;> simp [inRel] at hn) | simp [inRel] at hn
  case p5keep =>
    rename_i c _ _ _
    cases c <;> simp only [ret] at hn <;> first | exact .inl rfl | (split at hn <;> simp [inRel] at hn)
  case p6ok =>
    rename_i c _ _ _ _
    cases c <;> simp only [ret] at hn <;> first | exact .inl rfl | (split at hn <;> simp [inRel] at hn)
  all_goals (left; simpa [inRel] using hn)

theorem relTarget_local {t s p s' p' u} (h : Local t s p s' p') (hg : Glob s.q) (ho : QOK t s.q p)
    (hq : QStep t s.q s'.q) (hn : relTarget s' p' = some u) :
    relTarget s p = some u ∨ s.joined[s.hi]? = some u := by
  have qv := (q_old hg hq).1
  have hr := ho.regs
  cases h <;> try (simp [relTarget] at hn; done)
  case a1 k => cases k <;> simp [relTarget, acqDone] at hn
  case a3 k => cases k <;> simp [relTarget, acqDone] at hn
  case s6 k => cases k <;> simp [relTarget, acqDone] at hn
  case r1more k _ => cases k <;> simp [relTarget, relDone] at hn
  case r5 k _ => cases k <;> simp [relTarget, relDone] at hn
  case n4 all _ => cases all <;> simp [relTarget] at hn
  case r3 k v _ => exact .inl hn
  case r4 k v => exact .inl hn
  case p3some =>
    rename_i c h tl n hh ht
    cases c <;> simp only [relTarget] at hn <;> try (cases hn; done)
    right
    obtain ⟨i, j, h1, h2, h3, h4, h5, h6, h7, h8⟩ := hr
    have hi' : i = s.q.hi := nodup_idx hg.nodup h4 (by rw [← hh]; exact hg.head)
    have := hg.val i n (h7 n rfl)
    subst hi'
    rw [← show s.q.joined = s.joined from rfl, ← show s.q.hi = s.hi from rfl, ← this]; exact hn
  case p3empty =>
    rename_i c _ _ _ _
    exfalso
    cases c <;> simp only [ret] at hn
    · simp [relTarget] at hn
    · split at hn <;> simp [relTarget] at hn
    · split at hn <;> simp [relTarget] at hn
    · rename_i k; cases k <;> simp [relTarget, relDone] at hn
  case p5keep =>
    rename_i c h n hrem
    cases c <;> simp only [ret] at hn
    · split at hn <;> simp [relTarget] at hn
    · split at hn <;> simp [relTarget] at hn
    · split at hn <;> simp [relTarget] at hn
    · rename_i k
      cases hv : s.value n <;> rw [hv] at hn
      · cases k <;> simp [relTarget, relDone] at hn
      · left; simp only [relTarget] at hn ⊢; rw [hv]; exact hn
  case p6ok =>
    rename_i c h n v hh
    obtain ⟨i, h1, h2, h3, h4, h5, h6, h7⟩ := hr
    cases c <;> simp [isRem] at h7
    simp only [ret] at hn
    split at hn <;> simp [relTarget] at hn
  all_goals (rename_i c _ _ _; cases c <;> simp [relTarget] at hn)

theorem ranked_step {s s' : Sys} (hi : Inv s) (hr : Ranked s) (hs : Step s s') : Ranked s' := by
  obtain ⟨t, sh', p', hl⟩ := hs
  obtain ⟨rank, b, hb, hlt⟩ := hr
  obtain ⟨hq, hqt, hqb⟩ := qok_local hl hi.glob (hi.qok t) (hi.own.ok t)
  have qv := (q_old hi.glob hq).1
  -- targets come from before, or are queued
  have htgt : ∀ x u, relTarget sh' (set s.pc t p' x) = some u →
      relTarget s.sh (s.pc x) = some u ∨ inRel (s.pc u) = false ∧ ¬ ∃ k, s.pc u = .r2 k := by
    intro x u hx
    by_cases hxt : x = t
    · subst hxt
      rw [set_self] at hx
      rcases relTarget_local hl hi.glob (hi.qok x) hq hx with h | h
      · exact .inl h
      · right
        have hm : u ∈ s.sh.q.joined.drop s.sh.q.hi := by
          have : (s.sh.q.joined.drop s.sh.q.hi)[0]? = some u := by
            rw [List.getElem?_drop, Nat.add_zero]; exact h
          exact List.mem_of_getElem? this
        have hin := (hi.qok u).inq.2 hm
        constructor
        · cases hp : s.pc u <;> rw [hp] at hin <;> try (simp [inQ] at hin; done) <;> try rfl
          all_goals first
            | rfl
            | (rename_i c; cases c <;> simp_all [inQ, inRel]; done)
            | (rename_i c _; cases c <;> simp_all [inQ, inRel]; done)
            | (rename_i c _ _; cases c <;> simp_all [inQ, inRel]; done)
            | (rename_i c _ _ _; cases c <;> simp_all [inQ, inRel]; done)
        · rintro ⟨k, hk⟩; rw [hk] at hin; cases hin
    · rw [set_ne _ _ _ _ hxt] at hx
      left
      have hreg := (hi.qok x).regs
      cases hpc : s.pc x <;> rw [hpc] at hx hreg <;> try exact hx
      rename_i c h n
      cases c <;> try exact hx
      obtain ⟨i, h1, h2, h3, h4, h5⟩ := hreg
      have hfr := hi.glob.fresh n (List.mem_of_getElem? h4)
      have : sh'.value n = s.sh.value n := qv n hfr
      simp only [relTarget] at hx ⊢
      rw [← this]; exact hx
  by_cases h2 : ∃ k, s.pc t = .r2 k
  · -- `t` starts looking: it becomes the last one
    obtain ⟨k, hk⟩ := h2
    refine ⟨set rank t (b + 1), b + 1, ?_, ?_⟩
    · intro x
      by_cases hxt : x = t
      · subst hxt; rw [set_self]; exact Nat.le_refl _
      · rw [set_ne _ _ _ _ hxt]; exact Nat.le_succ_of_le (hb x)
    · intro x u hx hu
      have hxt : x ≠ t := by
        rintro rfl
        rw [hk] at hl; cases hl
        simp only [set_self, relTarget] at hx; cases hx
      rw [set_ne _ _ _ _ hxt]
      by_cases hut : u = t
      · subst hut; rw [set_self]; exact Nat.lt_succ_of_le (hb x)
      · rw [set_ne _ _ _ _ hut]
        simp only [set_ne _ _ _ _ hut] at hu
        rcases htgt x u hx with h | ⟨h, _⟩
        · exact hlt x u h hu
        · rw [h] at hu; cases hu
  · refine ⟨rank, b, hb, ?_⟩
    intro x u hx hu
    have hu0 : inRel (s.pc u) = true := by
      by_cases hut : u = t
      · subst hut
        simp only [set_self] at hu
        exact (inRel_local hl hu).resolve_right h2
      · simpa only [set_ne _ _ _ _ hut] using hu
    rcases htgt x u hx with h | ⟨h, _⟩
    · exact hlt x u h hu0
    · rw [h] at hu0; cases hu0

theorem ranked_reachable {s : Sys} (h : Reachable s) : Ranked s := by
  induction h with
  | init => exact ⟨fun _ => 0, 0, fun _ => Nat.le_refl _, fun t u h _ => by simp [init, relTarget] at h⟩
  | step hr hs ih => exact ranked_step (inv_reachable hr) ih hs

/-- the thread is asleep, waiting to be notified -/
def sleeping (s : Sys) (t : Tid) : Prop :=
  ((∃ k, s.pc t = .s4 k) ∨ ∃ d nd, s.pc t = .w6 d nd) ∧ s.sh.asleep t = true

/-- the thread can make a step of an operation that it has called, without waking up for no reason -/
def CanMove (s : Sys) (t : Tid) : Prop := ¬ sleeping s t ∧ ∃ s' p', next t s.sh (s.pc t) = some (s', p')

theorem canMove_other {s : Sys} {t u} (h : otherLock (s.pc t) = some u) : CanMove s t := by
  have hns : ¬ sleeping s t := by
    rintro ⟨⟨k, h'⟩ | ⟨d, nd, h'⟩, _⟩ <;> rw [h'] at h <;> cases h
  refine ⟨hns, ?_⟩
  cases hp : s.pc t <;> rw [hp] at h <;> simp [otherLock] at h <;> exact ⟨_, _, rfl⟩

theorem canMove_holder {s : Sys} (hi : Inv s) (hr : Ranked s) (t : Tid) (h : ownLock (s.pc t) = true) :
    ∃ x, CanMove s x := by
  obtain ⟨rank, b, hb, hlt⟩ := hr
  generalize hm : b - rank t = m
  induction m using Nat.strongRecOn generalizing t with
  | ind m ih =>
    have hns : ¬ sleeping s t := by
      rintro ⟨⟨k, h'⟩ | ⟨d, nd, h'⟩, _⟩ <;> rw [h'] at h <;> cases h
    have hbad : s.pc t ≠ .abort := by
      intro hu; have := hi.own.ok t; rw [hu] at this; exact this
    by_cases hw : ∀ u, wants t (s.pc t) = some u → s.sh.lock u = none
    · obtain ⟨s', p', hn⟩ := next_some (t := t) (s := s.sh) (p := s.pc t)
        (by intro e; rw [e] at h; cases h) (by intro e; rw [e] at h; cases h) hbad hw
      exact ⟨t, hns, s', p', hn⟩
    · simp only [Classical.not_forall] at hw
      obtain ⟨u, hwu, hlu⟩ := hw
      have : ∃ k, s.pc t = .r3 k u := by
        cases hp : s.pc t <;> rw [hp] at hwu h <;> simp [wants, ownLock] at hwu h
        exact ⟨_, by rw [hwu]⟩
      obtain ⟨k, hp⟩ := this
      cases hlk : s.sh.lock u with
      | none => exact absurd hlk hlu
      | some y =>
        rcases (hi.lok y u).1 hlk with ⟨e, ho⟩ | ho
        · subst e
          by_cases hru : inRel (s.pc u) = true
          · have hlt' := hlt t u (by rw [hp]; rfl) hru
            have := hb u
            exact ih (b - rank u) (by omega) u ho rfl
          · -- a thread with its own lock that is not releasing can move
            have hns : ¬ sleeping s u := by
              rintro ⟨⟨k, h'⟩ | ⟨d, nd, h'⟩, _⟩ <;> rw [h'] at ho <;> cases ho
            have hbad : s.pc u ≠ .abort := by
              intro hu; have := hi.own.ok u; rw [hu] at this; exact this
            obtain ⟨s', p', hn⟩ := next_some (t := u) (s := s.sh) (p := s.pc u)
              (by intro e; rw [e] at ho; cases ho) (by intro e; rw [e] at ho; cases ho) hbad (by
                intro v hv
                cases hp : s.pc u <;> rw [hp] at hv ho hru <;> simp [wants, ownLock, inRel] at hv ho hru)
            exact ⟨u, hns, s', p', hn⟩
        · exact ⟨y, canMove_other ho⟩

/-- as long as a thread is inside an operation and not asleep, some thread can move -/
theorem progress {s : Sys} (hi : Inv s) (hr : Ranked s) (t : Tid) (h1 : s.pc t ≠ .out)
    (h2 : s.pc t ≠ .refused) (h3 : ¬ sleeping s t) : ∃ x, CanMove s x := by
  have hbad : s.pc t ≠ .abort := by
    intro hu; have := hi.own.ok t; rw [hu] at this; exact this
  by_cases hw : ∀ u, wants t (s.pc t) = some u → s.sh.lock u = none
  · obtain ⟨s', p', hn⟩ := next_some (t := t) (s := s.sh) (p := s.pc t) h1 h2 hbad hw
    exact ⟨t, h3, s', p', hn⟩
  · simp only [Classical.not_forall] at hw
    obtain ⟨u, hwu, hlu⟩ := hw
    cases hlk : s.sh.lock u with
    | none => exact absurd hlk hlu
    | some y =>
      rcases (hi.lok y u).1 hlk with ⟨e, ho⟩ | ho
      · subst e; exact canMove_holder hi hr u ho
      · exact ⟨y, canMove_other ho⟩

end Avian.Monitor
