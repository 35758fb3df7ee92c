import Verif.Conc.MonitorInv

/-! Wake-ups of object monitors, and the complete invariant. -/

namespace Avian.Monitor

/-- the thread will sleep in the queue, unless notified -/
def committed (s : Shared) (u : Tid) : Pc → Prop
  | .s3 _ => True
  | .s4 _ => s.asleep u = true
  | .p5 (.loop _) _ n => s.value n ≠ some u
  | _ => False

/-- the thread has left the monitor and will notify `u` if `u` is first -/
def pending (s : Shared) (u : Tid) : Pc → Prop
  | .p0 (.rel _) | .p1 (.rel _) _ | .p2 (.rel _) _ _ | .p4 (.rel _) _ _ => True
  | .p3 (.rel _) h _ n => s.head = h → n ≠ none
  | .p5 (.rel _) _ n => s.value n = some u
  | .r3 _ v | .r4 _ v => v = u
  | _ => False

/-- the thread will sleep in `wait`, unless notified -/
def drowsy (s : Shared) (u : Tid) : Pc → Prop
  | .w4 _ | .w5 _ _ => True
  | .r0 k | .r1 k | .r2 k | .r3 k _ | .r4 k _ | .r5 k _ => k.isWait = true
  | .p0 c | .p1 c _ | .p2 c _ _ | .p3 c _ _ _ | .p4 c _ _ | .p5 c _ _ | .p6 c _ _ _ =>
    match c with
    | .rel k => k.isWait = true
    | _ => False
  | .w6 _ _ => s.asleep u = true
  | _ => False

/-- the thread will end the wait of `u` -/
def rousing (u : Tid) : Pc → Prop
  | .n2 _ v | .n3 _ v => v = u
  | _ => False

/-- effect of a step of `t` on the sleeping threads -/
theorem asleep_local {t s p s' p'} (h : Local t s p s' p') (u : Tid) (hut : u ≠ t) :
    s'.asleep u = s.asleep u ∨ (s'.asleep u = false ∧
      ((∃ k, p = .r4 k u) ∨ (∃ all, p = .n3 all u))) := by
  cases h
  case w3ok hw => left; rw [(appendWait_lock hw).2]
  case w9still hw => left; rw [(removeWait_lock hw).2]
  case n1none => left; rw [(pollWait_lock s).2]
  case n1some => left; rw [(pollWait_lock s).2]
  case r4 k v =>
    by_cases hv : u = v
    · subst hv; right; exact ⟨set_self _ _ _, .inl ⟨k, rfl⟩⟩
    · left; exact set_ne _ _ _ _ hv
  case n3 all v =>
    by_cases hv : u = v
    · subst hv; right; exact ⟨set_self _ _ _, .inr ⟨all, rfl⟩⟩
    · left; exact set_ne _ _ _ _ hv
  case s3 => left; exact set_ne _ _ _ _ hut
  case s4 => left; exact set_ne _ _ _ _ hut
  case w5 => left; exact set_ne _ _ _ _ hut
  case w6 => left; exact set_ne _ _ _ _ hut
  case a1 k => cases k <;> exact .inl rfl
  case a3 k => cases k <;> exact .inl rfl
  case s6 k => cases k <;> exact .inl rfl
  case r1last k _ => cases k <;> exact .inl rfl
  case r1more k _ => cases k <;> exact .inl rfl
  all_goals exact .inl rfl

theorem rem_owner {t s p s' p'} (h : Local t s p s' p') (g : Glob s.q) (ho : QOK t s.q p)
    (hph : OkPh t s (phase p)) : s'.hi = s.hi ∧ s'.head = s.head ∨ s.owner = some t := by
  cases h
  case p6ok =>
    right
    rename_i c h n v hh
    obtain ⟨i, h1, h2, h3, h4, h5, h6, h7⟩ := ho.regs
    cases c <;> simp [isRem] at h7
    exact hph.1
  case w3ok hw => left; have := appendWait_q hw; exact ⟨congrArg QS.hi this, congrArg QS.head this⟩
  case w9still hw => left; have := removeWait_q hw; exact ⟨congrArg QS.hi this, congrArg QS.head this⟩
  case n1none => left; have := pollWait_q s; exact ⟨congrArg QS.hi this, congrArg QS.head this⟩
  case n1some => left; have := pollWait_q s; exact ⟨congrArg QS.hi this, congrArg QS.head this⟩
  case a1 k => cases k <;> exact .inl ⟨rfl, rfl⟩
  case a3 k => cases k <;> exact .inl ⟨rfl, rfl⟩
  case s6 k => cases k <;> exact .inl ⟨rfl, rfl⟩
  case r1last k _ => cases k <;> exact .inl ⟨rfl, rfl⟩
  case r1more k _ => cases k <;> exact .inl ⟨rfl, rfl⟩
  all_goals exact .inl ⟨rfl, rfl⟩

/-- values of old nodes and the first in the queue do not change unless the owner changes them -/
theorem q_old {t q q'} (g : Glob q) (h : QStep t q q') :
    (∀ n, n < q.fresh → q'.value n = q.value n) ∧
    (q'.hi = q.hi → ∀ u, u ≠ t → q'.joined[q'.hi]? = some u → q.joined[q.hi]? = some u) := by
  cases h with
  | same => exact ⟨fun _ _ => rfl, fun _ _ _ h => h⟩
  | alloc =>
    refine ⟨fun n hn => set_ne _ _ _ _ (Nat.ne_of_lt hn), fun _ _ _ h => h⟩
  | adv => exact ⟨fun _ _ => rfl, fun _ _ _ h => h⟩
  | link nd tl htl =>
    refine ⟨fun _ _ => rfl, fun _ u hu h => ?_⟩
    have h' : (q.joined ++ [t])[q.hi]? = some u := h
    rcases Nat.lt_or_ge q.hi q.joined.length with hl | hl
    · rw [List.getElem?_append_left hl] at h'; exact h'
    · rw [List.getElem?_append_right hl] at h'
      have := lt_of_getElem? h'
      simp at this
      have e : q.hi - q.joined.length = 0 := by omega
      rw [e] at h'; simp at h'; exact absurd h'.symm hu
  | rem => exact ⟨fun _ _ => rfl, fun h => absurd h (by simp)⟩

/-- the pending notifier goes on -/
theorem pending_local {t s p s' p' u} (h : Local t s p s' p') (g : Glob s.q) (ho : QOK t s.q p)
    (hu : s.joined[s.hi]? = some u) (hp : pending s u p) :
    pending s' u p' ∨ (∃ k, p = .r4 k u) := by
  have hr := ho.regs
  have hlen : s.hi + 1 < s.chain.length := by
    have := lt_of_getElem? hu
    have : s.chain.length = s.joined.length + 1 := g.len
    omega
  cases h <;> try (simp only [pending] at hp; done)
  case p0 c => cases c <;> simp_all [pending]
  case p1 c h => cases c <;> simp_all [pending]
  case p2 c h tl =>
    cases c <;> simp only [pending] at hp
    left
    simp only [pending]
    intro hh hn
    obtain ⟨i, j, h1, h2, h3, h4, h5⟩ := hr
    have hi : i = s.q.hi := nodup_idx g.nodup h4 (by rw [← hh]; exact g.head)
    subst hi
    have e : s.next h = s.chain[s.hi + 1]? := g.link _ h h4
    rw [e] at hn
    have := List.getElem?_eq_none_iff.1 hn
    omega
  case p3retry c h tl n hh => cases c <;> simp_all [pending]
  case p3help =>
    rename_i c h tl n hh ht
    cases c <;> simp_all [pending]
  case p3empty =>
    rename_i c h tl hh ht
    cases c <;> simp only [pending] at hp
    exact absurd rfl (hp hh)
  case p3some =>
    rename_i c h tl n hh ht
    cases c <;> simp only [pending] at hp
    left
    simp only [pending]
    obtain ⟨i, j, h1, h2, h3, h4, h5, h6, h7, h8⟩ := hr
    have hi : i = s.q.hi := nodup_idx g.nodup h4 (by rw [← hh]; exact g.head)
    subst hi
    have := g.val s.q.hi n (h7 _ rfl)
    exact this.trans hu
  case p3null =>
    rename_i c h tl hh ht
    cases c <;> simp only [pending] at hp
    exact absurd rfl (hp hh)
  case p4ok c tl n ht => cases c <;> simp_all [pending]
  case p4fail c tl n ht => cases c <;> simp_all [pending]
  case p5keep =>
    rename_i c h n hrem
    cases c <;> simp only [pending] at hp
    left
    simp only [ret, hp, pending]
  case p5rem =>
    rename_i c h n hrem
    cases c <;> simp [isRem] at hrem
    simp only [pending] at hp
  case r3 k v hl => left; exact hp
  case r4 k v => simp only [pending] at hp; subst hp; exact .inr ⟨k, rfl⟩

/-- the whole invariant -/
structure Inv (s : Sys) : Prop where
  own : OwnInv s
  glob : Glob s.sh.q
  qok : ∀ t, QOK t s.sh.q (s.pc t)
  rep : WRep s.sh s.sh.waits
  wok : ∀ t, WOK t s.sh (s.pc t)
  lok : ∀ t, LOK t s.sh.lock (s.pc t)
  wake : ∀ u, committed s.sh u (s.pc u) → s.sh.owner = none → s.sh.joined[s.sh.hi]? = some u →
    ∃ r, pending s.sh u (s.pc r)
  rouse : ∀ u, drowsy s.sh u (s.pc u) → u ∈ s.sh.waits ∨ ∃ r, rousing u (s.pc r)

theorem inv_init : Inv init := by
  refine ⟨own_init, ?_, ?_, ?_, ?_, ?_, ?_, ?_⟩
  · refine ⟨by decide, ?_, rfl, rfl, Nat.le_refl _, rfl, ?_, rfl, ?_, by decide⟩
    · intro i a ha
      show none = ([0] : List Nat)[i + 1]?
      simp
    · intro i a ha
      have ha' : ([0] : List Nat)[i + 1]? = some a := ha
      simp at ha'
    · intro a ha
      have ha' : a ∈ ([0] : List Nat) := ha
      simp at ha'; subst ha'
      exact Nat.one_pos
  · intro t
    refine ⟨?_, ?_, ?_, trivial⟩
    · show false = true ↔ t ∈ ([] : List Tid).drop 0; simp
    · intro h; exact absurd h (by simp [init, isFirst])
    · intro nd h; exact absurd h (by simp [init, ownNode])
  · refine ⟨rfl, rfl, ?_, fun _ _ => rfl, ?_, by decide⟩
    · intro i a ha; exact absurd ha (by simp [init])
    · intro a; simp [init]
  · intro t; exact ⟨by simp [init], by simp [init, nTarget]⟩
  · intro t u; simp [init, ownLock, otherLock]
  · intro u h; exact absurd h (by simp [init, committed])
  · intro u h; exact absurd h (by simp [init, drowsy])

/-- the first thread in the queue, sleeping or about to, is in no own step notified away -/
theorem committed_self {t s p s' p'} (h : Local t s p s' p') (g : Glob s.q) (ho : QOK t s.q p)
    (hc : committed s' t p') (hn : s'.owner = none) (hf : s'.joined[s'.hi]? = some t) :
    committed s t p ∧ s.owner = none ∧ s.joined[s.hi]? = some t ∧ s'.head = s.head ∧
      s'.value = s.value := by
  have hr := ho.regs
  cases h <;> try (simp only [committed] at hc; done)
  case s2fail k hne => exact absurd hn hne
  case s3 k => exact ⟨trivial, hn, hf, rfl, rfl⟩
  case p3some =>
    rename_i c h tl n hh ht
    exfalso
    cases c <;> simp only [committed] at hc
    obtain ⟨i, j, h1, h2, h3, h4, h5, h6, h7, h8⟩ := hr
    have hi : i = s.q.hi := nodup_idx g.nodup h4 (by rw [← hh]; exact g.head)
    subst hi
    exact hc ((g.val s.q.hi n (h7 _ rfl)).trans hf)
  case p3empty =>
    rename_i c h tl hh ht
    exfalso
    obtain ⟨i, j, h1, h2, h3, h4, h5, h6, h7, h8⟩ := hr
    cases c <;> simp only [ret] at hc
    · simp [committed] at hc
    · exact h8 rfl rfl
    · simp [committed] at hc
    · rename_i k; cases k <;> simp [committed, relDone] at hc
  case p5keep =>
    rename_i c h n hrem
    cases c <;> simp only [ret] at hc
    · cases hv : s.value n <;> rw [hv] at hc <;> simp [committed] at hc
    · refine ⟨?_, hn, hf, rfl, rfl⟩
      simp only [committed]
      intro hv
      rw [if_pos hv] at hc; simp [committed] at hc
    · simp [isRem] at hrem
    · rename_i k
      cases hv : s.value n <;> rw [hv] at hc
      · cases k <;> simp [committed, relDone] at hc
      · simp [committed] at hc
  case p6ok =>
    rename_i c h n v hh
    exfalso
    cases c <;> simp only [ret] at hc
    · cases v <;> simp [committed] at hc
    · obtain ⟨i, h1, h2, h3, h4, h5, h6, h7⟩ := hr
      simp [isRem] at h7
    · split at hc <;> simp [committed] at hc
    · rename_i k; cases v
      · cases k <;> simp [committed, relDone] at hc
      · simp [committed] at hc
  case a1 k => cases k <;> simp [committed, acqDone] at hc
  case a3 k => cases k <;> simp [committed, acqDone] at hc
  case s6 k => cases k <;> simp [committed, acqDone] at hc
  case r1more k _ => cases k <;> simp [committed, relDone] at hc
  case r5 k _ => cases k <;> simp [committed, relDone] at hc
  case n4 all _ => cases all <;> simp [committed] at hc
  all_goals simp [committed] at hc

/-- a thread on its way to sleep in `wait` was on its way before, or has just joined the wait list -/
theorem drowsy_self {t s p s' p'} (h : Local t s p s' p') (ho : QOK t s.q p) (hd : drowsy s' t p') :
    drowsy s t p ∨ t ∈ s'.waits := by
  cases h <;> try (simp only [drowsy] at hd; done)
  case w3ok nd hn =>
    right
    simp only [appendWait] at hn
    split at hn
    · exact absurd hn (by simp)
    · split at hn
      · exact absurd hn (by simp)
      · cases hn; simp
  case p3empty =>
    rename_i c h tl hh ht
    left
    cases c <;> simp only [ret] at hd
    · simp [drowsy] at hd
    · split at hd <;> simp [drowsy] at hd
    · split at hd <;> simp [drowsy] at hd
    · rename_i k; cases k <;> simp_all [drowsy, relDone, AK.isWait]
  case p5keep =>
    rename_i c h n hrem
    left
    cases c <;> simp only [ret] at hd
    · cases hv : s.value n <;> rw [hv] at hd <;> simp [drowsy] at hd
    · split at hd <;> simp [drowsy] at hd
    · split at hd <;> simp [drowsy] at hd
    · rename_i k
      cases hv : s.value n <;> rw [hv] at hd
      · cases k <;> simp_all [drowsy, relDone, AK.isWait]
      · simpa [drowsy] using hd
  case p6ok =>
    rename_i c h n v hh
    obtain ⟨i, h1, h2, h3, h4, h5, h6, h7⟩ := ho.regs
    left
    cases c <;> simp only [ret] at hd
    · simp [isRem] at h7
    · simp [isRem] at h7
    · split at hd <;> simp [drowsy] at hd
    · simp [isRem] at h7
  case a1 k => cases k <;> simp [drowsy, acqDone] at hd
  case a3 k => cases k <;> simp [drowsy, acqDone] at hd
  case s6 k => cases k <;> simp [drowsy, acqDone] at hd
  case r1last k _ => cases k <;> simp_all [drowsy]
  case r1more k _ => cases k <;> simp_all [drowsy, relDone, AK.isWait]
  case r5 k _ => cases k <;> simp_all [drowsy, relDone, AK.isWait]
  case n4 all _ => cases all <;> simp [drowsy] at hd
  case callRelease => simp [drowsy, AK.isWait] at hd
  case p1 c h => cases c <;> simp_all [drowsy]
  case p2 c h tl => cases c <;> simp_all [drowsy]
  all_goals simp_all [drowsy]

/-- a thread on its way to sleep in `wait` has its own lock, or is asleep -/
theorem drowsy_lock {s u p} (h : drowsy s u p) : ownLock p = true ∨ s.asleep u = true := by
  cases p <;> try (exfalso; simp [drowsy] at h; done)
  case w6 => exact .inr h
  case w4 => exact .inl rfl
  case w5 => exact .inl rfl
  case p0 c => cases c <;> simp_all [drowsy, ownLock]
  case p1 c _ => cases c <;> simp_all [drowsy, ownLock]
  case p2 c _ _ => cases c <;> simp_all [drowsy, ownLock]
  case p3 c _ _ _ => cases c <;> simp_all [drowsy, ownLock]
  case p4 c _ _ => cases c <;> simp_all [drowsy, ownLock]
  case p5 c _ _ => cases c <;> simp_all [drowsy, ownLock]
  case p6 c _ _ _ => cases c <;> simp_all [drowsy, ownLock]
  all_goals (left; simpa [drowsy, ownLock] using h)

/-- the monitor becomes free only by the first half of a release -/
theorem owner_left {t s p s' p'} (h : Local t s p s' p') (ho : s.owner = some t)
    (hn : s'.owner = none) : ∃ k, p' = .p0 (.rel k) := by
  cases h <;> try (exfalso; simp_all; done)
  case r2 k => exact ⟨k, rfl⟩
  case w3ok hw => have := (appendWait_frame hw).1; rw [ho, hn] at this; cases this
  case w9still hw => have := (removeWait_frame hw).1; rw [ho, hn] at this; cases this
  case n1none hw => have := (pollWait_frame s).1; rw [ho, hn] at this; cases this
  case n1some hw => have := (pollWait_frame s).1; rw [ho, hn] at this; cases this
  case a1 k => cases k <;> simp_all [enterHeld]
  case a3 k => cases k <;> simp_all [enterHeld]
  case s6 k => cases k <;> simp_all [enterHeld]
  case r1last k _ => cases k <;> simp_all [leaveHeld]
  case r1more k _ => cases k <;> simp_all [leaveHeld]

theorem inv_step {s s' : Sys} (hi : Inv s) (hs : Step s s') : Inv s' ∧ ∀ t, s'.pc t ≠ .abort := by
  obtain ⟨t, sh', p', hl⟩ := hs
  have hbad : ∀ u, s.pc u ≠ .abort := by
    intro u hu; have := hi.own.ok u; rw [hu] at this; exact this
  obtain ⟨hq, hqt, hqb⟩ := qok_local hl hi.glob (hi.qok t) (hi.own.ok t)
  obtain ⟨hrep, hwt, hws, hna⟩ := wait_local hl hi.rep (hi.wok t) hqb
  have hr : ∀ u, rTarget (s.pc t) = some u → u ≠ t := by
    intro u hu
    have := (hi.qok t).regs
    cases hp : s.pc t <;> rw [hp] at hu this <;> simp [rTarget] at hu <;> subst hu <;> exact this
  obtain ⟨hls, hlt⟩ := lock_local hl (hi.lok t) hna hr (hi.wok t).tgt
  have hna' : ∀ u, set s.pc t p' u ≠ .abort := by
    intro u
    by_cases hut : u = t
    · subst hut; rw [set_self]; exact hna
    · rw [set_ne _ _ _ _ hut]; exact hbad u
  have hown := own_step hi.own ⟨t, sh', p', hl⟩ hna'
  have hmem : ∀ u, u ≠ t → u ∈ sh'.waits → u ∈ s.sh.waits := by
    intro u hut hm
    generalize hgw : sh'.waits = w' at hws hm
    cases hws with
    | same => exact hm
    | app => simp at hm; exact hm.resolve_right hut
    | pop => exact List.mem_of_mem_tail hm
    | rem => exact List.mem_of_mem_erase hm
  obtain ⟨qv, qf⟩ := q_old hi.glob hq
  refine ⟨⟨hown, glob_step hi.glob hq, ?_, hrep, ?_, ?_, ?_, ?_⟩, hna'⟩
  · intro u
    by_cases hut : u = t
    · subst hut; simp only [set_self]; exact hqt
    · simp only [set_ne _ _ _ _ hut]; exact qok_frame hi.glob hq hut (hi.qok u)
  · intro u
    by_cases hut : u = t
    · subst hut; simp only [set_self]; exact hwt
    · simp only [set_ne _ _ _ _ hut]
      exact ⟨fun hm => (hi.wok u).mem (hmem u hut hm), (hi.wok u).tgt⟩
  · intro u
    by_cases hut : u = t
    · subst hut; simp only [set_self]; exact hlt
    · simp only [set_ne _ _ _ _ hut]; exact lok_frame hls hut (hi.lok u)
  · intro u hc hn hf
    -- a pending notifier other than the thread that moves stays pending
    have keep : ∀ r, r ≠ t → sh'.head = s.sh.head → pending s.sh u (s.pc r) →
        pending sh' u (set s.pc t p' r) := by
      intro r hrt hh hp
      rw [set_ne _ _ _ _ hrt]
      have hreg := (hi.qok r).regs
      cases hpc : s.pc r <;> rw [hpc] at hp hreg <;> try exact hp
      case p0 c => cases c <;> simp_all [pending]
      case p1 c _ => cases c <;> simp_all [pending]
      case p2 c _ _ => cases c <;> simp_all [pending]
      case p4 c _ _ => cases c <;> simp_all [pending]
      case p3 c h tl n => cases c <;> simp_all [pending]
      case p5 c h n =>
        obtain ⟨i, h1, h2, h3, h4, h5⟩ := hreg
        have hfr := hi.glob.fresh n (List.mem_of_getElem? h4)
        have : sh'.value n = s.sh.value n := qv n hfr
        cases c <;> simp_all [pending]
    by_cases hut : u = t
    · subst hut
      simp only [set_self] at hc
      obtain ⟨h1, h2, h3, h4, h5⟩ := committed_self hl hi.glob (hi.qok u) hc hn hf
      obtain ⟨r, hp⟩ := hi.wake u h1 h2 h3
      have hru : r ≠ u := by
        rintro rfl
        cases hpc : s.pc r <;> rw [hpc] at h1 hp <;> try (simp [committed] at h1; done)
        · simp [pending] at hp
        · simp [pending] at hp
        · rename_i c _ _; cases c <;> simp_all [committed, pending]
      exact ⟨r, keep r hru h4 hp⟩
    · simp only [set_ne _ _ _ _ hut] at hc
      rcases (own_frame hl (hi.own.ok t) hi.own.zero).1 with ho | ⟨ho1, ho2⟩ | ⟨ho1, ho2⟩
      · have hn0 : s.sh.owner = none := by rw [← ho]; exact hn
        rcases rem_owner hl hi.glob (hi.qok t) (hi.own.ok t) with ⟨e1, e2⟩ | hown'
        · have hf0 : s.sh.joined[s.sh.hi]? = some u := qf e1 u hut hf
          have hc0 : committed s.sh u (s.pc u) := by
            have hreg := (hi.qok u).regs
            cases hpc : s.pc u <;> rw [hpc] at hc hreg <;> try exact hc
            · rcases asleep_local hl u hut with h | ⟨h, _⟩
              · simp only [committed] at hc ⊢; rw [← h]; exact hc
              · simp only [committed] at hc; rw [h] at hc; cases hc
            · rename_i c h n
              obtain ⟨i, h1, h2, h3, h4, h5⟩ := hreg
              have hfr := hi.glob.fresh n (List.mem_of_getElem? h4)
              have : sh'.value n = s.sh.value n := qv n hfr
              cases c <;> simp_all [committed]
          obtain ⟨r, hp⟩ := hi.wake u hc0 hn0 hf0
          by_cases hrt : r = t
          · subst hrt
            rcases pending_local hl hi.glob (hi.qok r) hf0 hp with h | ⟨k, h⟩
            · exact ⟨r, by simp only [set_self]; exact h⟩
            · exfalso
              -- `u` has just been notified
              have hlk : s.sh.lock u = some r := (hi.lok r u).2 (.inr (by rw [h]; rfl))
              have hnl : s.sh.lock u ≠ some u := by rw [hlk]; simp; exact fun e => hut e.symm
              have hol : ownLock (s.pc u) = false := by
                cases hc' : ownLock (s.pc u) with
                | false => rfl
                | true => exact absurd ((hi.lok u u).2 (.inl ⟨rfl, hc'⟩)) hnl
              have has : sh'.asleep u = false := by
                rw [h] at hl; cases hl; exact set_self _ _ _
              cases hpc : s.pc u <;> rw [hpc] at hc hol <;> try (simp [committed] at hc; done)
              · simp [ownLock] at hol
              · simp only [committed] at hc; rw [has] at hc; cases hc
              · rename_i c _ _; cases c <;> simp_all [committed, ownLock]
          · exact ⟨r, keep r hrt e2 hp⟩
        · rw [hn0] at hown'; cases hown'
      · have hn' : sh'.owner = none := hn
        rw [ho2] at hn'; cases hn'
      · -- the owner has just left
        refine ⟨t, ?_⟩
        simp only [set_self]
        obtain ⟨k, hk⟩ := owner_left hl ho1 ho2
        rw [hk]; trivial
  · intro u hd
    have keepR : ∀ r, r ≠ t → rousing u (s.pc r) → rousing u (set s.pc t p' r) := by
      intro r hrt h; rw [set_ne _ _ _ _ hrt]; exact h
    by_cases hut : u = t
    · subst hut
      simp only [set_self] at hd
      rcases drowsy_self hl (hi.qok u) hd with h | h
      · rcases hi.rouse u h with h' | ⟨r, hr'⟩
        · left
          show u ∈ sh'.waits
          generalize hgw : sh'.waits = w' at hws
          cases hws with
          | same => exact h'
          | app => simp [h']
          | pop all hp => rw [hp] at h; simp [drowsy] at h
          | rem hp => rw [hp] at h; simp [drowsy] at h
        · right
          have hru : r ≠ u := by
            rintro rfl
            cases hpc : s.pc r <;> rw [hpc] at h hr' <;> simp_all [drowsy, rousing]
          exact ⟨r, keepR r hru hr'⟩
      · exact .inl h
    · simp only [set_ne _ _ _ _ hut] at hd
      have hd0 : drowsy s.sh u (s.pc u) := by
        cases hpc : s.pc u <;> rw [hpc] at hd <;> try exact hd
        rcases asleep_local hl u hut with h | ⟨h, _⟩
        · simp only [drowsy] at hd ⊢; rw [← h]; exact hd
        · simp only [drowsy] at hd; rw [h] at hd; cases hd
      rcases hi.rouse u hd0 with h' | ⟨r, hr'⟩
      · generalize hgw : sh'.waits = w' at hws
        cases hws with
        | same => left; exact h'
        | app => left; simp [h']
        | rem =>
          left
          rw [hi.rep.nodup.mem_erase_iff]; exact ⟨hut, h'⟩
        | pop all hp =>
          by_cases hm : u ∈ s.sh.waits.tail
          · left; exact hm
          · right
            refine ⟨t, ?_⟩
            simp only [set_self]
            rw [hp] at hl
            cases hwl : s.sh.waits with
            | nil => rw [hwl] at h'; cases h'
            | cons v w =>
              have hv : u = v := by
                rw [hwl] at h' hm; simp at h' hm
                rcases h' with h' | h'
                · exact h'
                · exact absurd h' hm
              subst hv
              have := (pollWait_cons (hwl ▸ hi.rep)).1
              cases hl with
              | n1none _ hn => rw [this] at hn; cases hn
              | n1some _ v hn => rw [this] at hn; cases hn; rfl
      · by_cases hrt : r = t
        · subst hrt
          cases hpc : s.pc r <;> rw [hpc] at hr' <;> simp only [rousing] at hr'
          · subst hr'
            rw [hpc] at hl
            cases hl with
            | n2 => right; exact ⟨r, by simp only [set_self]; rfl⟩
          · subst hr'
            exfalso
            rename_i all v
            have hlk : s.sh.lock v = some r := (hi.lok r v).2 (.inr (by rw [hpc]; rfl))
            have hnl : s.sh.lock v ≠ some v := by rw [hlk]; simp; exact fun e => hut e.symm
            have hol : ownLock (s.pc v) = false := by
              cases hc' : ownLock (s.pc v) with
              | false => rfl
              | true => exact absurd ((hi.lok v v).2 (.inl ⟨rfl, hc'⟩)) hnl
            have has : sh'.asleep v = false := by
              rw [hpc] at hl; cases hl; exact set_self _ _ _
            rcases drowsy_lock hd with h | h
            · rw [h] at hol; cases hol
            · rw [show sh'.asleep v = false from has] at h; cases h
        · right; exact ⟨r, keepR r hrt hr'⟩

theorem inv_reachable {s : Sys} (h : Reachable s) : Inv s := by
  induction h with
  | init => exact inv_init
  | step _ hs ih => exact (inv_step ih hs).1

end Avian.Monitor
