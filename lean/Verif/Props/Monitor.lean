import Verif.Conc.MonitorRun

/-!
Properties of object monitors (C28, C29, C30), for any number of threads and every schedule.

`held t` is the number of times that thread `t` has returned from `acquire` minus the number of times
it has left with `release`; a thread in `wait` keeps its count.
-/

namespace Avian.Monitor

/-! ### Specification -/

/-- the thread is in `wait` and has given up the monitor (or is about to, or is coming back) -/
def gone : Pc → Bool
  | .w5 _ _ | .w6 _ _ | .w7 _ _ | .w8 _ => true
  | .a0 k | .a1 k | .a2 k | .a3 k | .s0 k | .s1 k | .s2 k | .s3 k | .s4 k | .s5 k | .s6 k
  | .q0 k _ | .q1 k _ _ | .q2 k _ _ _ | .q3 k _ _ _ | .q4 k _ _ | .q5 k _ _
  | .r0 k | .r1 k | .r2 k | .r3 k _ | .r4 k _ | .r5 k _ => decide (k ≠ .user)
  | .p0 c | .p1 c _ | .p2 c _ _ | .p3 c _ _ _ | .p4 c _ _ | .p5 c _ _ | .p6 c _ _ _ => decide (c.k ≠ .user)
  | _ => false

/-- the thread has entered the monitor and not left it -/
def Inside (s : Sys) (t : Tid) : Prop := 0 < s.sh.held t ∧ gone (s.pc t) = false

/-- the thread has joined the queue and not been served -/
def queued (p : Pc) : Bool := inQ p

/-- the linked list from node `h` holds the threads `l` -/
inductive Holds (next : Node → Option Node) (value : Node → Option Tid) : Node → List Tid → Prop where
  | nil {h} : next h = none → Holds next value h []
  | cons {h n t l} : next h = some n → value n = some t → Holds next value n l → Holds next value h (t :: l)

/-- the list of threads linked by `waitNext` is `l` -/
inductive Linked (next : Tid → Option Tid) : Option Tid → List Tid → Prop where
  | nil : Linked next none []
  | cons {t l} : Linked next (next t) l → Linked next (some t) (t :: l)

/-- nobody can move before a new call, except by waking up for no reason -/
def Quiet (s : Sys) : Prop := ∀ t, s.pc t = .out ∨ s.pc t = .refused ∨ sleeping s t

/-! ### C28 mutual exclusion -/

theorem inside_owner {s : Sys} (hi : Inv s) {t} (h : Inside s t) : s.sh.owner = some t := by
  obtain ⟨h1, h2⟩ := h
  have ho := hi.own.ok t
  have away : ∀ k, OkPh t s.sh (.away k) → k = .user → False := by
    rintro k ⟨_, h⟩ rfl; simp only [transitHeld] at h; omega
  cases hp : s.pc t <;> rw [hp] at ho h2 <;> simp only [phase] at ho
  all_goals first
    | exact ho.1
    | exact ho.1.2 h1
    | (simp [gone] at h2; done)
    | (exact absurd (of_decide_eq_false h2) (fun e => e (fun e' => away _ ho e')))
    | (exfalso; simp only [OkPh] at ho; done)
    | skip
  all_goals first
    | (rename_i k; cases k <;> simp_all [phase, OkPh, gone, Ctx.k, transitHeld]; done)
    | (rename_i c _; cases c <;> simp_all [phaseP, isRem, OkPh, gone, Ctx.k, transitHeld]; done)
    | (rename_i c _ _; cases c <;> simp_all [phaseP, isRem, OkPh, gone, Ctx.k, transitHeld]; done)
    | (rename_i c _ _ _; cases c <;> simp_all [phaseP, isRem, OkPh, gone, Ctx.k, transitHeld]; done)
    | (rename_i c; cases c <;> simp_all [phaseP, isRem, OkPh, gone, Ctx.k, transitHeld]; done)

/-- Two threads are never inside the monitor together. -/
theorem mutual_exclusion {s : Sys} (h : Reachable s) {t u} (ht : Inside s t) (hu : Inside s u) : t = u := by
  have h1 := inside_owner (inv_reachable h) ht
  have h2 := inside_owner (inv_reachable h) hu
  rw [h1] at h2; exact Option.some.inj h2

/-- Between operations, a thread owns the monitor exactly if it has entered it more often than left
it, and the depth is the number of entries. -/
theorem owner_iff_entered {s : Sys} (h : Reachable s) {t} (ht : s.pc t = .out) :
    (s.sh.owner = some t ↔ 0 < s.sh.held t) ∧ (s.sh.owner = some t → s.sh.depth = s.sh.held t) := by
  have := (inv_reachable h).own.ok t
  rw [ht] at this; exact this

/-- The owner loses the monitor only by its last exit or by `wait`. -/
theorem freed_only_after_last_exit {s s' : Sys} (h : Reachable s) (hs : Step s s') {t}
    (h1 : s.sh.owner = some t) (h2 : s'.sh.owner ≠ some t) :
    s'.sh.held t = 0 ∨ gone (s'.pc t) = true := by
  have hi' := (inv_step (inv_reachable h) hs).1
  rcases Nat.eq_zero_or_pos (s'.sh.held t) with h0 | h0
  · exact .inl h0
  · right
    cases hg : gone (s'.pc t) with
    | true => rfl
    | false => exact absurd (inside_owner hi' ⟨h0, hg⟩) h2

/-- `release` by a thread that is not inside is refused and changes nothing; nothing follows. -/
theorem exit_without_entry_refused {s : Sys} (h : Reachable s) {t sh' p'} (ht : s.pc t = .r0 .user)
    (h0 : s.sh.held t = 0) (hl : Local t s.sh (s.pc t) sh' p') : sh' = s.sh ∧ p' = .refused := by
  have ho := (inv_reachable h).own.ok t
  rw [ht] at ho hl
  have : s.sh.owner ≠ some t := by
    intro e; have := ho.1.1 e; omega
  cases hl with
  | r0ok _ e => exact absurd e this
  | r0fail => exact ⟨rfl, rfl⟩

theorem refused_stays {t s s' p'} : ¬ Local t s .refused s' p' := by
  intro h; cases h

/-- No `expect` fails, no `abort` is reached and no null pointer is followed, other than by `release`
without entry. -/
theorem no_abort {s : Sys} (h : Reachable s) (t) : s.pc t ≠ .abort := by
  intro hu
  have := (inv_reachable h).own.ok t
  rw [hu] at this; exact this

/-! ### C29 queue -/

theorem holds_aux {q : QS} (g : Glob q) : ∀ (m i : Nat) (a : Node), q.joined.length - i = m →
    q.chain[i]? = some a → Holds q.next q.value a (q.joined.drop i) := by
  intro m
  induction m with
  | zero =>
    intro i a hm ha
    rw [List.drop_eq_nil_of_le (by omega)]
    refine .nil ?_
    rw [g.link i a ha, List.getElem?_eq_none (by have := g.len; omega)]
  | succ m ih =>
    intro i a hm ha
    have hlt : i < q.joined.length := by omega
    have hc : i + 1 < q.chain.length := by have := g.len; omega
    rw [List.drop_eq_getElem_cons hlt]
    have hn : q.chain[i + 1]? = some q.chain[i + 1] := List.getElem?_eq_getElem hc
    refine .cons (n := q.chain[i + 1]) ?_ ?_ (ih (i + 1) _ (by omega) hn)
    · rw [g.link i a ha, hn]
    · rw [g.val i _ hn, List.getElem?_eq_getElem hlt]

theorem linked_aux {next : Tid → Option Tid} : ∀ (w : List Tid),
    (∀ i a, w[i]? = some a → next a = w[i + 1]?) → Linked next w.head? w := by
  intro w
  induction w with
  | nil => intro _; exact .nil
  | cons a w ih =>
    intro h
    refine .cons ?_
    have h0 := h 0 a rfl
    have e : next a = w.head? := by rw [h0]; cases w <;> rfl
    rw [e]
    exact ih (fun i b hb => h (i + 1) b hb)

/-- The threads are served in the order in which they joined; nobody is skipped or served twice; the
linked list holds exactly the threads that have joined and have not been served. -/
theorem queue_first_come_first_served {s : Sys} (h : Reachable s) :
    ∃ rest, s.sh.joined = s.sh.served ++ rest ∧ rest.Nodup ∧
      (∀ t, queued (s.pc t) = true ↔ t ∈ rest) ∧ Holds s.sh.next s.sh.value s.sh.head rest := by
  have hi := inv_reachable h
  refine ⟨s.sh.joined.drop s.sh.hi, ?_, hi.glob.qnodup, fun t => (hi.qok t).inq, ?_⟩
  · have : s.sh.served = s.sh.joined.take s.sh.hi := hi.glob.served
    rw [this, List.take_append_drop]
  · exact holds_aux (q := s.sh.q) hi.glob _ _ _ rfl hi.glob.head

/-- Whoever is served is the first in the queue and owns the monitor. -/
theorem served_in_turn {s s' : Sys} (h : Reachable s) (hs : Step s s') (hne : s'.sh.served ≠ s.sh.served) :
    ∃ t l, s.sh.joined = s.sh.served ++ t :: l ∧ s'.sh.served = s.sh.served ++ [t] ∧
      s.sh.owner = some t ∧ s'.sh.owner = some t := by
  have hi := inv_reachable h
  obtain ⟨t, sh', p', hl⟩ := hs
  have hq := (qok_local hl hi.glob (hi.qok t) (hi.own.ok t)).1
  have hfirst : s.sh.joined[s.sh.hi]? = some t → s.sh.joined = s.sh.served ++ t :: s.sh.joined.drop (s.sh.hi + 1) := by
    intro hf
    have hlt := lt_of_getElem? hf
    have : s.sh.served = s.sh.joined.take s.sh.hi := hi.glob.served
    have hget : s.sh.joined[s.sh.hi] = t := by
      rw [List.getElem?_eq_getElem hlt] at hf; exact Option.some.inj hf
    rw [this, ← hget, ← List.drop_eq_getElem_cons hlt, List.take_append_drop]
  have ho := hi.own.ok t
  have hreg := (hi.qok t).regs
  generalize hq' : sh'.q = q' at hq
  have hsv : sh'.q.served = sh'.served := rfl
  cases hq with
  | same => rw [hq'] at hsv; exact absurd hsv.symm hne
  | alloc => rw [hq'] at hsv; exact absurd hsv.symm hne
  | adv => rw [hq'] at hsv; exact absurd hsv.symm hne
  | link => rw [hq'] at hsv; exact absurd hsv.symm hne
  | rem n h1 h2 h3 =>
    rw [hq'] at hsv
    refine ⟨t, _, hfirst h3, hsv.symm, ?_⟩
    rcases rem_owner hl hi.glob (hi.qok t) (hi.own.ok t) with ⟨e, _⟩ | e
    · have : sh'.q.hi = s.sh.q.hi := e
      rw [hq'] at this; exact absurd this (by simp)
    · refine ⟨e, ?_⟩
      rcases (own_frame hl (hi.own.ok t) hi.own.zero).1 with e' | ⟨e1, _⟩ | ⟨_, e2⟩
      · rw [← e]; exact e'
      · rw [e] at e1; cases e1
      · exfalso
        obtain ⟨k, hk⟩ := owner_left hl e e2
        rcases inRel_local hl (by rw [hk]; rfl) with h' | ⟨k', h'⟩
        · cases hpc : s.pc t <;> rw [hpc] at h' ho <;> try (simp [inRel] at h'; done)
          all_goals first
            | exact ho.1 e
            | (rename_i c; cases c <;> first | (simp [inRel] at h'; done) | exact ho.1 e)
            | (rename_i c _; cases c <;> first | (simp [inRel] at h'; done) | exact ho.1 e)
            | (rename_i c _ _; cases c <;> first | (simp [inRel] at h'; done) | exact ho.1 e)
            | (rename_i c _ _ _; cases c <;> first | (simp [inRel] at h'; done) | exact ho.1 e)
        · rw [h'] at hl
          cases hl
          have := congrArg QS.hi hq'
          exact absurd this (by simp [Shared.q])

/-- If nobody can move and a thread sleeps in the queue, then the monitor is owned by a thread that is
outside the monitor operations: no release has forgotten to wake the queue. -/
theorem no_lost_wakeup {s : Sys} (h : Reachable s) (hq : Quiet s) {u k} (hu : s.pc u = .s4 k) :
    ∃ v, s.sh.owner = some v ∧ (s.pc v = .out ∨ s.pc v = .refused) ∧ 0 < s.sh.held v := by
  have hi := inv_reachable h
  cases ho : s.sh.owner with
  | some v =>
    have hok := hi.own.ok v
    refine ⟨v, rfl, ?_⟩
    rcases hq v with hv | hv | hv
    · rw [hv] at hok; exact ⟨.inl hv, hok.1.1 ho⟩
    · rw [hv] at hok; exact ⟨.inr hv, hok.1.1 ho⟩
    · exfalso
      rcases hv.1 with ⟨k, e⟩ | ⟨d, nd, e⟩ <;> rw [e] at hok <;> exact hok.1 ho
  | none =>
    exfalso
    have hm := (hi.qok u).inq.1 (by rw [hu]; rfl)
    cases hd : s.sh.q.joined.drop s.sh.q.hi with
    | nil => rw [hd] at hm; cases hm
    | cons v l =>
      have hv : queued (s.pc v) = true := (hi.qok v).inq.2 (by rw [hd]; exact List.mem_cons_self)
      have hf : s.sh.joined[s.sh.hi]? = some v := by
        have : (s.sh.q.joined.drop s.sh.q.hi)[0]? = some v := by rw [hd]; rfl
        rw [List.getElem?_drop, Nat.add_zero] at this; exact this
      have hc : committed s.sh v (s.pc v) := by
        rcases hq v with e | e | ⟨⟨k, e⟩ | ⟨d, nd, e⟩, ha⟩
        · rw [e] at hv; cases hv
        · rw [e] at hv; cases hv
        · rw [e]; exact ha
        · rw [e] at hv; cases hv
      obtain ⟨r, hr⟩ := hi.wake v hc ho hf
      rcases hq r with e | e | ⟨⟨k, e⟩ | ⟨d, nd, e⟩, ha⟩ <;> rw [e] at hr <;> exact hr

/-- Whatever the state: if the monitor is free and the first thread of the queue sleeps, then some
thread is in `release` on its way to wake it. -/
theorem release_wakes_first {s : Sys} (h : Reachable s) {u l} (hf : s.sh.joined = s.sh.served ++ u :: l)
    (hs : sleeping s u) (ho : s.sh.owner = none) : ∃ r, pending s.sh u (s.pc r) := by
  have hi := inv_reachable h
  have hsv : s.sh.served = s.sh.joined.take s.sh.hi := hi.glob.served
  have hlen : s.sh.served.length = s.sh.hi := by
    have hle : s.sh.hi ≤ s.sh.joined.length := by
      have h1 := lt_of_getElem? hi.glob.head
      have h2 := hi.glob.len
      have : s.sh.q.hi < s.sh.q.joined.length + 1 := by omega
      exact Nat.le_of_lt_succ this
    rw [hsv, List.length_take]; omega
  have hf' : s.sh.joined[s.sh.hi]? = some u := by
    rw [hf, ← hlen, List.getElem?_append_right (Nat.le_refl _)]; simp
  have hm : u ∈ s.sh.q.joined.drop s.sh.q.hi := by
    have : (s.sh.q.joined.drop s.sh.q.hi)[0]? = some u := by
      rw [List.getElem?_drop, Nat.add_zero]; exact hf'
    exact List.mem_of_getElem? this
  have hin := (hi.qok u).inq.2 hm
  refine hi.wake u ?_ ho hf'
  rcases hs with ⟨⟨k, e⟩ | ⟨d, nd, e⟩, ha⟩
  · rw [e]; exact ha
  · rw [e] at hin; cases hin

/-- The operations never deadlock among themselves: while a thread is inside an operation and not
asleep, some thread can make a step (other than waking up for no reason). -/
theorem operations_progress {s : Sys} (h : Reachable s) {t} (h1 : s.pc t ≠ .out) (h2 : s.pc t ≠ .refused)
    (h3 : ¬ sleeping s t) : ∃ x sh' p', ¬ sleeping s x ∧ s.pc x ≠ .out ∧ Local x s.sh (s.pc x) sh' p' := by
  obtain ⟨x, hx, sh', p', hn⟩ := progress (inv_reachable h) (ranked_reachable h) t h1 h2 h3
  refine ⟨x, sh', p', hx, ?_, next_local hn⟩
  intro e; rw [e] at hn; cases hn

/-! ### C30 wait and notify -/

/-- `wait`, `notify` and `notifyAll` by a thread that is not inside throw and change nothing. -/
theorem wait_notify_refused {s : Sys} (h : Reachable s) {t sh' p'}
    (ht : s.pc t = .w0 ∨ ∃ all, s.pc t = .n0 all) (h0 : s.sh.held t = 0)
    (hl : Local t s.sh (s.pc t) sh' p') : sh' = s.sh ∧ p' = .threw := by
  have ho := (inv_reachable h).own.ok t
  rcases ht with ht | ⟨all, ht⟩ <;> rw [ht] at ho hl
  · have : s.sh.owner ≠ some t := by intro e; have := ho.1.1 e; omega
    cases hl with
    | w0ok e => exact absurd e this
    | w0fail => exact ⟨rfl, rfl⟩
  · have : s.sh.owner ≠ some t := by intro e; have := ho.1.1 e; omega
    cases hl with
    | n0ok _ e => exact absurd e this
    | n0fail => exact ⟨rfl, rfl⟩

/-- While a thread sleeps in `wait` it does not own the monitor, however often it had entered it. -/
theorem wait_gives_up_monitor {s : Sys} (h : Reachable s) {t d nd} (ht : s.pc t = .w6 d nd) :
    s.sh.owner ≠ some t ∧ 0 < s.sh.held t := by
  have ho := (inv_reachable h).own.ok t
  rw [ht] at ho
  exact ⟨ho.1, by obtain ⟨_, e, h⟩ := ho; omega⟩

def inWaitCall (p : Pc) : Bool :=
  gone p || match p with
    | .w0 | .w1 | .w2 _ | .w3 _ | .w4 _ | .w9 => true
    | _ => false

/-- A call of `wait` does not change the number of entries of its thread, whatever the threads do in
the meantime. -/
theorem wait_keeps_entries {s s' : Sys} (hs : Step s s') {t} (ht : inWaitCall (s.pc t) = true) :
    s'.sh.held t = s.sh.held t := by
  obtain ⟨x, sh', p', hl⟩ := hs
  show sh'.held t = s.sh.held t
  by_cases hx : x = t
  · subst hx
    generalize s.pc x = p at hl ht
    cases hl <;> try rfl
    case a1 k => cases k <;> first | rfl | simp [inWaitCall, gone] at ht
    case a3 k => cases k <;> first | rfl | simp [inWaitCall, gone] at ht
    case s6 k => cases k <;> first | rfl | simp [inWaitCall, gone] at ht
    case r1last k _ => cases k <;> first | rfl | simp [inWaitCall, gone] at ht
    case r1more k _ => cases k <;> first | rfl | simp [inWaitCall, gone] at ht
    case w3ok hw => rw [(appendWait_frame hw).2.2]
    case w9still hw => rw [(removeWait_frame hw).2.2]
    case n1none hw => rw [(pollWait_frame _).2.2]
    case n1some hw => rw [(pollWait_frame _).2.2]
  · generalize s.pc x = p at hl
    have hne : t ≠ x := fun e => hx e.symm
    cases hl <;> try rfl
    case a1 k => cases k <;> first | rfl | exact set_ne _ _ _ _ hne
    case a3 k => cases k <;> first | rfl | exact set_ne _ _ _ _ hne
    case s6 k => cases k <;> first | rfl | exact set_ne _ _ _ _ hne
    case r1last k _ => cases k <;> first | rfl | exact set_ne _ _ _ _ hne
    case r1more k _ => cases k <;> first | rfl | exact set_ne _ _ _ _ hne
    case w3ok hw => rw [(appendWait_frame hw).2.2]
    case w9still hw => rw [(removeWait_frame hw).2.2]
    case n1none hw => rw [(pollWait_frame _).2.2]
    case n1some hw => rw [(pollWait_frame _).2.2]

theorem wait_ends_w9 {t s p s' p'} (hl : Local t s p s' p') (ht : inWaitCall p = true) (hp : p' = .out) :
    p = .w9 := by
  cases hl <;> first | rfl | (cases hp; done) | (simp [inWaitCall, gone] at ht; done) | skip
  case a1 k => cases k <;> first | (cases hp; done) | (simp [inWaitCall, gone] at ht; done)
  case a3 k => cases k <;> first | (cases hp; done) | (simp [inWaitCall, gone] at ht; done)
  case s6 k => cases k <;> first | (cases hp; done) | (simp [inWaitCall, gone] at ht; done)
  case r1more k _ => cases k <;> first | (cases hp; done) | (simp [inWaitCall, gone] at ht; done)
  case r5 k _ => cases k <;> first | (cases hp; done) | (simp [inWaitCall, gone] at ht; done)
  case p3empty =>
    rename_i c _ _ _ _
    cases c <;> rename_i k <;> cases k <;>
      first | (simp [inWaitCall, gone, Ctx.k] at ht; done) | (simp [ret, relDone] at hp; done)
  case p5keep =>
    rename_i c _ n _
    cases c <;> rename_i k _
    all_goals simp only [ret] at hp; split at hp <;> try (cases hp; done)
    cases k
    · simp [inWaitCall, gone, Ctx.k] at ht
    · cases hp
  case p6ok =>
    rename_i c _ n v _
    cases c <;> rename_i k <;> cases k <;>
      first | (simp [inWaitCall, gone, Ctx.k] at ht; done) | skip
    all_goals simp only [ret] at hp; split at hp <;> simp [relDone] at hp

/-- When `wait` returns, its thread owns the monitor with its old number of entries, and is in no wait
list. -/
theorem wait_returns_with_monitor {s s' : Sys} (h : Reachable s) (hs : Step s s') {t}
    (ht : inWaitCall (s.pc t) = true) (ht' : s'.pc t = .out) :
    s'.sh.owner = some t ∧ s'.sh.depth = s.sh.held t ∧ s'.sh.held t = s.sh.held t ∧ t ∉ s'.sh.waits := by
  have hk := wait_keeps_entries hs ht
  have hi := inv_reachable h
  have hi' := (inv_step hi hs).1
  have hok' := hi'.own.ok t
  rw [ht'] at hok'
  have hpos : 0 < s.sh.held t := by
    have hok := hi.own.ok t
    obtain ⟨x, sh', p', hl⟩ := hs
    by_cases hx : x = t
    · subst hx
      have hp : p' = .out := by rw [← ht']; exact (set_self _ _ _).symm
      subst hp
      rw [wait_ends_w9 hl ht rfl] at hok
      exact hok.2.1
    · have : s.pc t = .out := by rw [← ht']; exact (set_ne _ _ _ _ (fun e => hx e.symm)).symm
      rw [this] at ht; cases ht
  have ho : s'.sh.owner = some t := hok'.1.2 (by rw [hk]; exact hpos)
  refine ⟨ho, by rw [hok'.2 ho, hk], hk, ?_⟩
  intro hm
  have := (hi'.wok t).mem hm
  rw [ht'] at this; cases this

/-- The wait list is a proper list without repetition: the pointers, the tail and the flags agree. -/
theorem wait_list_exact {s : Sys} (h : Reachable s) :
    Linked s.sh.waitNext s.sh.waitHead s.sh.waits ∧ s.sh.waits.Nodup ∧
      s.sh.waitTail = s.sh.waits.getLast? ∧ ∀ t, s.sh.flag t = true ↔ t ∈ s.sh.waits := by
  have hr := (inv_reachable h).rep
  refine ⟨?_, hr.nodup, hr.tail, hr.flag⟩
  rw [hr.head]; exact linked_aux _ hr.next

/-- `wait` adds its thread at the end of the wait list. -/
theorem wait_joins_last {s : Sys} (h : Reachable s) {t nd sh' p'} (ht : s.pc t = .w3 nd)
    (hl : Local t s.sh (s.pc t) sh' p') : sh'.waits = s.sh.waits ++ [t] ∧ p' = .w4 nd := by
  have hi := inv_reachable h
  have hn : t ∉ s.sh.waits := by
    intro hm; have := (hi.wok t).mem hm; rw [ht] at this; cases this
  obtain ⟨s2, e1, e2, e3, _⟩ := appendWait_rep hi.rep hn
  rw [ht] at hl
  cases hl with
  | w3ok _ _ e => rw [e1] at e; cases e; exact ⟨e3, rfl⟩
  | w3bug _ e => rw [e1] at e; cases e

/-- `notify` removes exactly the thread that has waited longest and goes on to wake it; with no waiter
it returns. -/
theorem notify_takes_longest {s : Sys} (h : Reachable s) {t all sh' p'} (ht : s.pc t = .n1 all)
    (hl : Local t s.sh (s.pc t) sh' p') :
    sh'.waits = s.sh.waits.tail ∧
      p' = match s.sh.waits with | [] => .out | u :: _ => .n2 all u := by
  have hi := inv_reachable h
  rw [ht] at hl
  cases hw : s.sh.waits with
  | nil =>
    have e := pollWait_nil (hw ▸ hi.rep)
    cases hl with
    | n1none => rw [e]; exact ⟨hw, rfl⟩
    | n1some _ u h' => rw [e] at h'; cases h'
  | cons u w =>
    obtain ⟨e1, e2, e3, e4⟩ := pollWait_cons (hw ▸ hi.rep)
    cases hl with
    | n1none _ h' => rw [e1] at h'; cases h'
    | n1some _ u' h' =>
      rw [e1] at h'; cases h'
      refine ⟨?_, rfl⟩
      rw [e3, hw]

/-- `notifyAll` returns only when no thread waits any more. -/
theorem notifyAll_takes_all {s s' : Sys} (h : Reachable s) (hs : Step s s') {t}
    (ht : (∃ u, s.pc t = .n4 true u) ∨ s.pc t = .n1 true) (ht' : s'.pc t = .out) :
    s.sh.waits = [] ∧ s'.sh.waits = [] := by
  obtain ⟨x, sh', p', hl⟩ := hs
  have hx : x = t := by
    apply Classical.byContradiction
    intro hne
    have : s.pc t = .out := by rw [← ht']; exact (set_ne _ _ _ _ (fun e => hne e.symm)).symm
    rcases ht with ⟨u, e⟩ | e <;> rw [this] at e <;> cases e
  subst hx
  have hp : p' = .out := by rw [← ht']; exact (set_self _ _ _).symm
  subst hp
  rcases ht with ⟨u, e⟩ | e
  · rw [e] at hl
    generalize hpo : Pc.out = po at hl
    cases hl; cases hpo
  · obtain ⟨h1, h2⟩ := notify_takes_longest h e hl
    show s.sh.waits = [] ∧ sh'.waits = []
    cases hw : s.sh.waits with
    | nil => rw [hw] at h1; exact ⟨rfl, h1⟩
    | cons u w => rw [hw] at h2; cases h2

/-- The wait list changes in no other way: a waiting thread appends itself, a notifying thread takes
the first, a thread that ends its wait removes itself. -/
theorem wait_list_steps {s s' : Sys} (h : Reachable s) (hs : Step s s') :
    s'.sh.waits = s.sh.waits ∨
    (∃ t nd, s.pc t = .w3 nd ∧ s'.sh.waits = s.sh.waits ++ [t]) ∨
    (∃ t all, s.pc t = .n1 all ∧ s'.sh.waits = s.sh.waits.tail) ∨
    (∃ t, s.pc t = .w9 ∧ s'.pc t = .out ∧ s'.sh.waits = s.sh.waits.erase t) := by
  have hi := inv_reachable h
  obtain ⟨t, sh', p', hl⟩ := hs
  obtain ⟨hq, hqt, hqb⟩ := qok_local hl hi.glob (hi.qok t) (hi.own.ok t)
  obtain ⟨hrep, hwt, hws, hna⟩ := wait_local hl hi.rep (hi.wok t) hqb
  have hout : s.pc t = .w9 → p' = .out := by
    intro e
    rw [e] at hl
    cases hl <;> first | rfl | exact absurd rfl hna
  show sh'.waits = s.sh.waits ∨ _ ∨ _ ∨ _
  generalize hgw : sh'.waits = w' at hws
  cases hws with
  | same => exact .inl rfl
  | app nd hp => exact .inr (.inl ⟨t, nd, hp, rfl⟩)
  | pop all hp => exact .inr (.inr (.inl ⟨t, all, hp, rfl⟩))
  | rem hp => exact .inr (.inr (.inr ⟨t, hp, by show set s.pc t p' t = .out; rw [set_self]; exact hout hp, rfl⟩))

/-- A thread outside the monitor operations is in no wait list. -/
theorem outside_not_waiting {s : Sys} (h : Reachable s) {t} (ht : s.pc t = .out) : t ∉ s.sh.waits := by
  intro hm
  have := ((inv_reachable h).wok t).mem hm
  rw [ht] at this; cases this

/-- No notification is lost: when nobody can move, every thread that sleeps in `wait` is still in the
wait list; a thread that `notify` has taken from it has been woken. -/
theorem notified_thread_wakes {s : Sys} (h : Reachable s) (hq : Quiet s) {u d nd} (hu : s.pc u = .w6 d nd) :
    u ∈ s.sh.waits := by
  have hi := inv_reachable h
  have hs : sleeping s u := by
    rcases hq u with e | e | e
    · rw [hu] at e; cases e
    · rw [hu] at e; cases e
    · exact e
  rcases hi.rouse u (by rw [hu]; exact hs.2) with h' | ⟨r, hr⟩
  · exact h'
  · exfalso
    rcases hq r with e | e | ⟨⟨k, e⟩ | ⟨d, nd, e⟩, ha⟩ <;> rw [e] at hr <;> exact hr

/-! ### Concrete executions -/

inductive Act where
  | acquire (t : Tid) | release (t : Tid) | wait (t : Tid) | notify (t : Tid) (all : Bool)
  | go (t : Tid)

def act (s : Sys) : Act → Option Sys
  | .acquire t => if s.pc t = .out then some ⟨s.sh, set s.pc t (.a0 .user)⟩ else none
  | .release t => if s.pc t = .out then some ⟨s.sh, set s.pc t (.r0 .user)⟩ else none
  | .wait t => if s.pc t = .out then some ⟨s.sh, set s.pc t .w0⟩ else none
  | .notify t all => if s.pc t = .out then some ⟨s.sh, set s.pc t (.n0 all)⟩ else none
  | .go t => (next t s.sh (s.pc t)).map (fun (sh', p') => ⟨sh', set s.pc t p'⟩)

def acts (s : Sys) : List Act → Option Sys
  | [] => some s
  | a :: l => (act s a).bind (fun s => acts s l)

theorem act_step {s s' a} (h : act s a = some s') : Step s s' := by
  cases a <;> simp only [act] at h
  case go t =>
    cases hn : next t s.sh (s.pc t) with
    | none => rw [hn] at h; cases h
    | some r => rw [hn] at h; cases h; exact ⟨t, _, _, next_local hn⟩
  case notify t all =>
    split at h
    · rename_i e; cases h; refine ⟨t, _, _, ?_⟩; rw [e]; constructor
    · cases h
  all_goals
    rename_i t
    split at h
    · rename_i e; cases h; refine ⟨t, _, _, ?_⟩; rw [e]; constructor
    · cases h

theorem acts_reachable {s s' l} (hr : Reachable s) (h : acts s l = some s') : Reachable s' := by
  induction l generalizing s with
  | nil => cases h; exact hr
  | cons a l ih =>
    simp only [acts] at h
    cases ha : act s a with
    | none => rw [ha] at h; cases h
    | some s2 => rw [ha] at h; exact ih (hr.step (act_step ha)) h

def gos (t : Tid) (n : Nat) : List Act := List.replicate n (.go t)

def Act.tid : Act → Tid
  | .acquire t | .release t | .wait t | .notify t _ | .go t => t

theorem acts_other {s s' l} (h : acts s l = some s') {t} (ht : ∀ a ∈ l, a.tid ≠ t) : s'.pc t = s.pc t := by
  induction l generalizing s with
  | nil => cases h; rfl
  | cons a l ih =>
    simp only [acts] at h
    cases ha : act s a with
    | none => rw [ha] at h; cases h
    | some s2 =>
      rw [ha] at h
      rw [ih h (fun b hb => ht b (List.mem_cons_of_mem _ hb))]
      have hne : t ≠ a.tid := fun e => ht a List.mem_cons_self e.symm
      cases a <;> simp only [act] at ha
      case go x =>
        cases hn : next x s.sh (s.pc x) with
        | none => rw [hn] at ha; cases ha
        | some r => rw [hn] at ha; cases ha; exact set_ne _ _ _ _ hne
      all_goals
        split at ha
        · cases ha; exact set_ne _ _ _ _ hne
        · cases ha

/-- thread 1 enters twice -/
def script1 : List Act := [.acquire 1] ++ gos 1 7 ++ [.acquire 1] ++ gos 1 2
/-- then threads 2 and 3 try to enter and go to sleep -/
def script2 : List Act := script1 ++ [.acquire 2] ++ gos 2 20 ++ [.acquire 3] ++ gos 3 19
/-- then thread 1 leaves twice and thread 2 gets in -/
def script3 : List Act := script2 ++ [.release 1] ++ gos 1 2 ++ [.release 1] ++ gos 1 11 ++ gos 2 15
/-- after `script1`, thread 1 waits -/
def script4 : List Act := script1 ++ [.wait 1] ++ gos 1 13
/-- then thread 2 enters and calls `notifyAll` -/
def script5 : List Act := script4 ++ [.acquire 2] ++ gos 2 7 ++ [.notify 2 true] ++ gos 2 7

/-- then thread 2 leaves and thread 1 comes back from `wait` -/
def script6 : List Act := script5 ++ [.release 2] ++ gos 2 7 ++ gos 1 11

structure Look where
  owner : Option Tid
  depth : Nat
  pcs : List Pc
  held : List Nat
  joined : List Tid
  served : List Tid
  waits : List Tid
  asleep : List Bool
  deriving DecidableEq, Repr

def look (s : Sys) : Look :=
  ⟨s.sh.owner, s.sh.depth, [1, 2, 3].map s.pc, [1, 2, 3].map s.sh.held, s.sh.joined, s.sh.served,
   s.sh.waits, [1, 2, 3].map s.sh.asleep⟩

theorem look_reachable {l v} (h : (acts init l).map look = some v) : ∃ s, Reachable s ∧ acts init l = some s ∧ look s = v := by
  cases ha : acts init l with
  | none => rw [ha] at h; cases h
  | some s => rw [ha] at h; exact ⟨s, acts_reachable .init ha, rfl, Option.some.inj h⟩

/-- `mutual_exclusion`, `owner_iff_entered`: thread 1 is inside with depth 2; `no_lost_wakeup` and
`queue_first_come_first_served`: threads 2 and 3 sleep in the queue, and nobody can move. -/
theorem run_contended : ∃ s, Reachable s ∧ Quiet s ∧ Inside s 1 ∧ s.sh.depth = 2 ∧
    s.pc 2 = .s4 .user ∧ s.pc 3 = .s4 .user ∧ s.sh.joined = [2, 3] ∧ s.sh.served = [] := by
  obtain ⟨s, hr, ha, hl⟩ := look_reachable (l := script2)
    (v := ⟨some 1, 2, [.out, .s4 .user, .s4 .user], [2, 0, 0], [2, 3], [], [], [false, true, true]⟩)
    (by decide +kernel)
  simp only [look, Look.mk.injEq, List.map_cons, List.map_nil, List.cons.injEq, and_true] at hl
  obtain ⟨h1, h2, ⟨h3, h4, h5⟩, ⟨h6, h7, h8⟩, h9, h10, h11, h12, h13, h14⟩ := hl
  refine ⟨s, hr, ?_, ⟨by rw [h6]; decide, by rw [h3]; rfl⟩, h2, h4, h5, h9, h10⟩
  intro t
  by_cases e1 : t = 1
  · subst e1; exact .inl h3
  by_cases e2 : t = 2
  · subst e2; exact .inr (.inr ⟨.inl ⟨_, h4⟩, h13⟩)
  by_cases e3 : t = 3
  · subst e3; exact .inr (.inr ⟨.inl ⟨_, h5⟩, h14⟩)
  left
  rw [acts_other ha (t := t) (by
    have : ∀ a ∈ script2, a.tid = 1 ∨ a.tid = 2 ∨ a.tid = 3 := by decide +kernel
    intro a ha' e
    rcases this a ha' with h | h | h <;> rw [e] at h
    · exact e1 h
    · exact e2 h
    · exact e3 h)]
  rfl

/-- `served_in_turn`: thread 2, which joined first, has been served; thread 3 is still queued. -/
example : ∃ s, Reachable s ∧ Inside s 2 ∧ s.pc 3 = .s4 .user ∧ s.sh.joined = [2, 3] ∧ s.sh.served = [2] := by
  obtain ⟨s, hr, ha, hl⟩ := look_reachable (l := script3)
    (v := ⟨some 2, 1, [.out, .out, .s4 .user], [0, 1, 0], [2, 3], [2], [], [false, false, true]⟩)
    (by decide +kernel)
  simp only [look, Look.mk.injEq, List.map_cons, List.map_nil, List.cons.injEq, and_true] at hl
  obtain ⟨h1, h2, ⟨h3, h4, h5⟩, ⟨h6, h7, h8⟩, h9, h10, h11, h12, h13, h14⟩ := hl
  exact ⟨s, hr, ⟨by rw [h7]; decide, by rw [h4]; rfl⟩, h5, h9, h10⟩

/-- `wait_gives_up_monitor`, `notified_thread_wakes`: thread 1 waits with two entries; the monitor is
free. -/
theorem run_waiting : ∃ s, Reachable s ∧ Quiet s ∧ s.pc 1 = .w6 2 1 ∧ s.sh.owner = none ∧
    s.sh.held 1 = 2 ∧ s.sh.waits = [1] := by
  obtain ⟨s, hr, ha, hl⟩ := look_reachable (l := script4)
    (v := ⟨none, 0, [.w6 2 1, .out, .out], [2, 0, 0], [], [], [1], [true, false, false]⟩)
    (by decide +kernel)
  simp only [look, Look.mk.injEq, List.map_cons, List.map_nil, List.cons.injEq, and_true] at hl
  obtain ⟨h1, h2, ⟨h3, h4, h5⟩, ⟨h6, h7, h8⟩, h9, h10, h11, h12, h13, h14⟩ := hl
  refine ⟨s, hr, ?_, h3, h1, h6, h11⟩
  intro t
  by_cases e1 : t = 1
  · subst e1; exact .inr (.inr ⟨.inr ⟨_, _, h3⟩, h12⟩)
  left
  rw [acts_other ha (t := t) (by
    have : ∀ a ∈ script4, a.tid = 1 := by decide +kernel
    intro a ha' e
    have h := this a ha'
    rw [e] at h; exact e1 h)]
  rfl

/-- `notifyAll_takes_all`: the wait list is empty after `notifyAll`, and thread 1 has been woken. -/
example : ∃ s, Reachable s ∧ Inside s 2 ∧ s.pc 1 = .w6 2 1 ∧ s.sh.waits = [] ∧ s.sh.asleep 1 = false := by
  obtain ⟨s, hr, ha, hl⟩ := look_reachable (l := script5)
    (v := ⟨some 2, 1, [.w6 2 1, .out, .out], [2, 1, 0], [], [], [], [false, false, false]⟩)
    (by decide +kernel)
  simp only [look, Look.mk.injEq, List.map_cons, List.map_nil, List.cons.injEq, and_true] at hl
  obtain ⟨h1, h2, ⟨h3, h4, h5⟩, ⟨h6, h7, h8⟩, h9, h10, h11, h12, h13, h14⟩ := hl
  exact ⟨s, hr, ⟨by rw [h7]; decide, by rw [h4]; rfl⟩, h3, h11, h12⟩

/-- `wait_returns_with_monitor`: thread 1 is back with depth 2. -/
example : ∃ s, Reachable s ∧ Inside s 1 ∧ s.sh.depth = 2 ∧ s.sh.waits = [] := by
  obtain ⟨s, hr, ha, hl⟩ := look_reachable (l := script6)
    (v := ⟨some 1, 2, [.out, .out, .out], [2, 0, 0], [], [], [], [false, false, false]⟩)
    (by decide +kernel)
  simp only [look, Look.mk.injEq, List.map_cons, List.map_nil, List.cons.injEq, and_true] at hl
  obtain ⟨h1, h2, ⟨h3, h4, h5⟩, ⟨h6, h7, h8⟩, h9, h10, h11, h12, h13, h14⟩ := hl
  exact ⟨s, hr, ⟨by rw [h6]; decide, by rw [h3]; rfl⟩, h2, h11⟩

/-- `exit_without_entry_refused`, `wait_notify_refused`: thread 2 tries without having entered. -/
example : ∃ s s', Reachable s ∧ s.pc 2 = .r0 .user ∧ s.sh.held 2 = 0 ∧ Reachable s' ∧ s'.pc 2 = .w0 ∧
    s'.sh.held 2 = 0 := by
  refine ⟨⟨init.sh, set init.pc 2 (.r0 .user)⟩, ⟨init.sh, set init.pc 2 .w0⟩, ?_, rfl, rfl, ?_, rfl, rfl⟩
  · exact .step .init ⟨2, _, _, .callRelease⟩
  · exact .step .init ⟨2, _, _, .callWait⟩

end Avian.Monitor
