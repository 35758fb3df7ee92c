import Verif.Conc.MonitorWait

/-! Wait list, locks and wake-ups of object monitors: inductive invariant. -/

namespace Avian.Monitor

def AK.isWait : AK → Bool
  | .user => false
  | .wait _ _ => true

/-- inside `monitorWait`, between joining and leaving the wait list -/
def waitPc : Pc → Bool
  | .a0 k | .a1 k | .a2 k | .a3 k | .s0 k | .s1 k | .s2 k | .s3 k | .s4 k | .s5 k | .s6 k
  | .q0 k _ | .q1 k _ _ | .q2 k _ _ _ | .q3 k _ _ _ | .q4 k _ _ | .q5 k _ _
  | .r0 k | .r1 k | .r2 k | .r3 k _ | .r4 k _ | .r5 k _ => k.isWait
  | .p0 c | .p1 c _ | .p2 c _ _ | .p3 c _ _ _ | .p4 c _ _ | .p5 c _ _ | .p6 c _ _ _ => c.k.isWait
  | .w4 _ | .w5 _ _ | .w6 _ _ | .w7 _ _ | .w8 _ | .w9 => true
  | _ => false

/-- the thread whose native lock a notifier wants or has -/
def nTarget : Pc → Option Tid
  | .n2 _ u | .n3 _ u | .n4 _ u => some u
  | _ => none

/-- the thread holds its own native lock -/
def ownLock : Pc → Bool
  | .s1 _ | .s2 _ | .s3 _ | .s5 _ | .s6 _ | .q0 _ _ | .q1 _ _ _ | .q2 _ _ _ _ | .q3 _ _ _ _
  | .q4 _ _ _ | .q5 _ _ _ | .w3 _ | .w4 _ | .w5 _ _ | .w7 _ _ => true
  | .r0 k | .r1 k | .r2 k | .r3 k _ | .r4 k _ | .r5 k _ => k.isWait
  | .p0 c | .p1 c _ | .p2 c _ _ | .p3 c _ _ _ | .p4 c _ _ | .p5 c _ _ | .p6 c _ _ _ =>
    match c with
    | .try _ => false
    | .loop _ | .rem _ => true
    | .rel k => k.isWait
  | _ => false

/-- the thread holds the native lock of another thread -/
def otherLock : Pc → Option Tid
  | .r4 _ u | .r5 _ u | .n3 _ u | .n4 _ u => some u
  | _ => none

/-- wait-list facts about one thread -/
structure WOK (t : Tid) (s : Shared) (p : Pc) : Prop where
  mem : t ∈ s.waits → waitPc p = true
  tgt : ∀ u, nTarget p = some u → u ≠ t

theorem ret_waitPc {t v c} (h : c.k.isWait = true) : waitPc (ret t v c) = true ∨ ret t v c = .abort := by
  cases c <;> rename_i k <;> simp only [Ctx.k] at h
  · cases v <;> exact .inl h
  · left; simp only [ret]; split <;> exact h
  · simp only [ret]; split
    · exact .inl h
    · exact .inr rfl
  · left
    cases v
    · cases k
      · simp [AK.isWait] at h
      · rfl
    · exact h

theorem ret_nTarget {t v c} : nTarget (ret t v c) = none := by
  cases c <;> rename_i k
  · cases v <;> rfl
  · simp only [ret]; split <;> rfl
  · simp only [ret]; split <;> rfl
  · cases v
    · cases k <;> rfl
    · rfl

theorem WRep.congr {s s' w} (h : WRep s w) (h1 : s'.waitHead = s.waitHead) (h2 : s'.waitTail = s.waitTail)
    (h3 : s'.waitNext = s.waitNext) (h4 : s'.flag = s.flag) : WRep s' w :=
  ⟨h1 ▸ h.head, h2 ▸ h.tail, h3 ▸ h.next, h3 ▸ h.off, h4 ▸ h.flag, h.nodup⟩

/-- what a step does to the wait list: nothing, append, take the first, or remove the thread -/
inductive WStep (t : Tid) (p : Pc) (w : List Tid) : List Tid → Prop where
  | same : WStep t p w w
  | app (nd) : p = .w3 nd → WStep t p w (w ++ [t])
  | pop (all) : p = .n1 all → WStep t p w w.tail
  | rem : p = .w9 → WStep t p w (w.erase t)

set_option maxHeartbeats 1000000 in
theorem wait_local {t s p s' p'} (h : Local t s p s' p') (hw : WRep s s.waits) (ho : WOK t s p)
    (hb : p' = .abort → (∃ nd, p = .w3 nd) ∨ p = .w9) :
    WRep s' s'.waits ∧ WOK t s' p' ∧ WStep t p s.waits s'.waits ∧ p' ≠ .abort := by
  obtain ⟨o1, o2⟩ := ho
  cases h
  case w3ok nd hn =>
    have ht : t ∉ s.waits := fun hm => by have := o1 hm; simp [waitPc] at this
    obtain ⟨s'', e1, e2, e3, -, -⟩ := appendWait_rep hw ht
    rw [e1] at hn; cases hn
    rw [e3]
    exact ⟨e2, ⟨fun _ => rfl, by simp [nTarget]⟩, .app nd rfl, by simp⟩
  case w3bug nd hn =>
    have ht : t ∉ s.waits := fun hm => by have := o1 hm; simp [waitPc] at this
    obtain ⟨s'', e1, -⟩ := appendWait_rep hw ht
    rw [e1] at hn; cases hn
  case w9still fuel hf hfl hn =>
    obtain ⟨s'', e1, e2, e3, -, -⟩ := removeWait_rep hw ((hw.flag t).1 hfl) hf
    rw [e1] at hn; cases hn
    rw [e3]
    refine ⟨e2, ⟨?_, by simp [nTarget]⟩, .rem rfl, by simp⟩
    intro hm
    rw [e3] at hm
    exact absurd hm (by rw [hw.nodup.mem_erase_iff]; simp)
  case w9bug fuel hf hfl hn =>
    obtain ⟨s'', e1, -⟩ := removeWait_rep hw ((hw.flag t).1 hfl) hf
    rw [e1] at hn; cases hn
  case w9gone fuel hf hfl hn =>
    refine ⟨hw, ⟨?_, by simp [nTarget]⟩, .same, by simp⟩
    intro hm; rw [(hw.flag t).2 hm] at hfl; cases hfl
  case w9bug2 fuel hf hfl hn =>
    have ht : t ∉ s.waits := fun hm => by rw [(hw.flag t).2 hm] at hfl; cases hfl
    have := findWait_not_mem (next := s.waitNext) s.waits none fuel hw.next ht
    rw [← hw.head] at this
    exact absurd this hn
  case n1none all hn =>
    cases hws : s.waits with
    | nil =>
      have hw' : WRep s [] := hws ▸ hw
      have e := pollWait_nil hw'
      rw [e, hws]
      exact ⟨hw', ⟨fun hm => (by rw [hws] at hm; exact absurd hm (by simp)), by simp [nTarget]⟩, .same, by simp⟩
    | cons u w =>
      have := (pollWait_cons (hws ▸ hw)).1
      rw [this] at hn; cases hn
  case n1some all u hn =>
    cases hws : s.waits with
    | nil =>
      have hw' : WRep s [] := hws ▸ hw
      have e := pollWait_nil hw'
      rw [e] at hn; cases hn
    | cons v w =>
      obtain ⟨e1, e2, e3, -, -⟩ := pollWait_cons (hws ▸ hw)
      rw [e1] at hn; cases hn
      rw [e3, hws]
      have ht : t ∉ s.waits := fun hm => by have := o1 hm; simp [waitPc] at this
      refine ⟨e2, ⟨?_, ?_⟩, .pop all rfl, by simp⟩
      · intro hm; rw [e3, hws] at hm; exact absurd (by rw [hws]; exact List.mem_cons_of_mem _ hm) ht
      · intro u hu; simp [nTarget] at hu; subst hu; rintro rfl; exact ht (by rw [hws]; simp)
  case p3empty =>
    refine ⟨hw, ⟨?_, by simp [ret_nTarget]⟩, .same, ?_⟩
    · intro hm
      rcases ret_waitPc (t := t) (v := none) (o1 hm) with h | h
      · exact h
      · rcases hb h with ⟨nd, h⟩ | h <;> simp at h
    · intro h; rcases hb h with ⟨nd, h⟩ | h <;> simp at h
  case p5keep c hh n _ =>
    refine ⟨hw, ⟨?_, by simp [ret_nTarget]⟩, .same, ?_⟩
    · intro hm
      rcases ret_waitPc (t := t) (v := s.value n) (o1 hm) with h | h
      · exact h
      · rcases hb h with ⟨nd, h⟩ | h <;> simp at h
    · intro h; rcases hb h with ⟨nd, h⟩ | h <;> simp at h
  case p6ok c n v e =>
    refine ⟨hw.congr rfl rfl rfl rfl, ⟨?_, by simp [ret_nTarget]⟩, .same, ?_⟩
    · intro hm
      rcases ret_waitPc (t := t) (v := v) (o1 hm) with h | h
      · exact h
      · rcases hb h with ⟨nd, h⟩ | h <;> simp at h
    · intro h; rcases hb h with ⟨nd, h⟩ | h <;> simp at h
  case a1 k => cases k <;> exact ⟨hw.congr rfl rfl rfl rfl, ⟨o1, by simp [nTarget, acqDone]⟩, .same, by simp [acqDone]⟩
  case a3 k => cases k <;> exact ⟨hw.congr rfl rfl rfl rfl, ⟨o1, by simp [nTarget, acqDone]⟩, .same, by simp [acqDone]⟩
  case s6 k => cases k <;> exact ⟨hw.congr rfl rfl rfl rfl, ⟨o1, by simp [nTarget, acqDone]⟩, .same, by simp [acqDone]⟩
  case r1last k _ => cases k <;> exact ⟨hw.congr rfl rfl rfl rfl, ⟨o1, by simp [nTarget]⟩, .same, by simp⟩
  case r1more k _ => cases k <;> exact ⟨hw.congr rfl rfl rfl rfl, ⟨o1, by simp [nTarget, relDone]⟩, .same, by simp [relDone]⟩
  case r5 k _ => cases k <;> exact ⟨hw.congr rfl rfl rfl rfl, ⟨o1, by simp [nTarget, relDone]⟩, .same, by simp [relDone]⟩
  case n4 all u => cases all <;> exact ⟨hw.congr rfl rfl rfl rfl, ⟨o1, by simp [nTarget]⟩, .same, by simp⟩
  case n2 => exact ⟨hw.congr rfl rfl rfl rfl, ⟨o1, o2⟩, .same, by simp⟩
  case n3 => exact ⟨hw.congr rfl rfl rfl rfl, ⟨o1, o2⟩, .same, by simp⟩
  case p3null => rcases hb rfl with ⟨nd, h⟩ | h <;> simp at h
  case r0bug => rcases hb rfl with ⟨nd, h⟩ | h <;> simp at h
  all_goals exact ⟨hw.congr rfl rfl rfl rfl, ⟨fun hm => o1 hm, by simp [nTarget]⟩, .same, by simp⟩

/-! ### locks -/

def rTarget : Pc → Option Tid
  | .r3 _ u | .r4 _ u | .r5 _ u => some u
  | _ => none

/-- lock facts about one thread -/
def LOK (t : Tid) (lock : Tid → Option Tid) (p : Pc) : Prop :=
  ∀ u, lock u = some t ↔ (u = t ∧ ownLock p = true) ∨ otherLock p = some u

theorem ret_locks {t v c} (hb : ret t v c ≠ .abort) :
    ownLock (ret t v c) = ownLock (.p0 c) ∧ otherLock (ret t v c) = none := by
  cases c <;> rename_i k
  · cases v <;> exact ⟨rfl, rfl⟩
  · simp only [ret]; split <;> exact ⟨rfl, rfl⟩
  · simp only [ret] at hb ⊢; split
    · exact ⟨rfl, rfl⟩
    · simp_all
  · cases v
    · cases k <;> exact ⟨rfl, rfl⟩
    · exact ⟨rfl, rfl⟩

theorem LOK.take {t lock u p p'} (h : LOK t lock p) (hu : lock u = none)
    (h1 : (u = t ∧ ownLock p' = true ∧ otherLock p = none ∧ otherLock p' = none) ∨
      (u ≠ t ∧ ownLock p' = ownLock p ∧ otherLock p = none ∧ otherLock p' = some u)) :
    LOK t (set lock u (some t)) p' := by
  intro v
  by_cases hvu : v = u
  · subst hvu
    rw [set_self]
    rcases h1 with ⟨rfl, h2, -, -⟩ | ⟨h2, h3, h4, h5⟩
    · simp [h2]
    · simp [h5]
  · rw [set_ne _ _ _ _ hvu, h v]
    rcases h1 with ⟨rfl, h2, h3, h4⟩ | ⟨h2, h3, h4, h5⟩
    · simp [h3, h4, hvu]
    · simp [h3, h4, h5]; exact fun h => absurd h.symm hvu

theorem LOK.drop {t lock u p p'} (h : LOK t lock p)
    (h1 : (u = t ∧ ownLock p' = false ∧ otherLock p = none ∧ otherLock p' = none) ∨
      (u ≠ t ∧ ownLock p' = ownLock p ∧ otherLock p = some u ∧ otherLock p' = none)) :
    LOK t (set lock u none) p' := by
  intro v
  by_cases hvu : v = u
  · subst hvu
    rw [set_self]
    rcases h1 with ⟨rfl, h2, h3, h4⟩ | ⟨h2, h3, h4, h5⟩
    · simp [h2, h4]
    · simp [h5, h2]
  · rw [set_ne _ _ _ _ hvu, h v]
    rcases h1 with ⟨rfl, h2, h3, h4⟩ | ⟨h2, h3, h4, h5⟩
    · simp [h3, h4, hvu]
    · simp [h3, h4, h5]; exact fun h => absurd h.symm hvu

theorem LOK.keep {t lock p p'} (h : LOK t lock p) (h1 : ownLock p' = ownLock p)
    (h2 : otherLock p' = otherLock p) : LOK t lock p' := by
  intro v; rw [h1, h2]; exact h v

/-- effect on the native locks -/
inductive LStep (t : Tid) (lock : Tid → Option Tid) : (Tid → Option Tid) → Prop where
  | same : LStep t lock lock
  | take (u) : lock u = none → LStep t lock (set lock u (some t))
  | drop (u) : lock u = some t → LStep t lock (set lock u none)

theorem appendWait_lock {s s' t} (h : appendWait s t = some s') : s'.lock = s.lock ∧ s'.asleep = s.asleep := by
  simp only [appendWait] at h
  split at h
  · exact absurd h (by simp)
  · split at h
    · exact absurd h (by simp)
    · cases h; cases s.waitTail <;> exact ⟨rfl, rfl⟩

theorem removeWait_lock {f s s' t} (h : removeWait f s t = some s') :
    s'.lock = s.lock ∧ s'.asleep = s.asleep := by
  simp only [removeWait] at h
  split at h
  · exact absurd h (by simp)
  · cases h
    rename_i prev _
    by_cases h1 : s.waitHead = some t <;> cases prev <;> simp only [h1, if_true, if_false] <;>
      split <;> exact ⟨rfl, rfl⟩

theorem pollWait_lock (s) : (pollWait s).2.lock = s.lock ∧ (pollWait s).2.asleep = s.asleep := by
  simp only [pollWait]
  split
  · exact ⟨rfl, rfl⟩
  · simp only; split <;> exact ⟨rfl, rfl⟩

set_option maxHeartbeats 1000000 in
theorem lock_local {t s p s' p'} (h : Local t s p s' p') (ho : LOK t s.lock p) (hb : p' ≠ .abort)
    (hr : ∀ u, rTarget p = some u → u ≠ t) (hn : ∀ u, nTarget p = some u → u ≠ t) :
    LStep t s.lock s'.lock ∧ LOK t s'.lock p' := by
  cases h
  case s0 k hl => exact ⟨.take t hl, ho.take hl (.inl ⟨rfl, rfl, rfl, rfl⟩)⟩
  case s3 k => exact ⟨.drop t ((ho t).2 (.inl ⟨rfl, rfl⟩)), ho.drop (.inl ⟨rfl, rfl, rfl, rfl⟩)⟩
  case s4 k hl => exact ⟨.take t hl, ho.take hl (.inl ⟨rfl, rfl, rfl, rfl⟩)⟩
  case s6 k =>
    cases k <;> exact ⟨.drop t ((ho t).2 (.inl ⟨rfl, rfl⟩)), ho.drop (.inl ⟨rfl, rfl, rfl, rfl⟩)⟩
  case r3 k u hl => exact ⟨.take u hl, ho.take hl (.inr ⟨hr u rfl, rfl, rfl, rfl⟩)⟩
  case r4 k u => exact ⟨.same, ho.keep rfl rfl⟩
  case r5 k u =>
    cases k <;> exact ⟨.drop u ((ho u).2 (.inr rfl)), ho.drop (.inr ⟨hr u rfl, rfl, rfl, rfl⟩)⟩
  case w2 hl => exact ⟨.take t hl, ho.take hl (.inl ⟨rfl, rfl, rfl, rfl⟩)⟩
  case w5 => exact ⟨.drop t ((ho t).2 (.inl ⟨rfl, rfl⟩)), ho.drop (.inl ⟨rfl, rfl, rfl, rfl⟩)⟩
  case w6 hl => exact ⟨.take t hl, ho.take hl (.inl ⟨rfl, rfl, rfl, rfl⟩)⟩
  case w7 => exact ⟨.drop t ((ho t).2 (.inl ⟨rfl, rfl⟩)), ho.drop (.inl ⟨rfl, rfl, rfl, rfl⟩)⟩
  case n2 u hl => exact ⟨.take u hl, ho.take hl (.inr ⟨hn u rfl, rfl, rfl, rfl⟩)⟩
  case n4 all u =>
    cases all <;> exact ⟨.drop u ((ho u).2 (.inr rfl)), ho.drop (.inr ⟨hn u rfl, rfl, rfl, rfl⟩)⟩
  case w3ok hw =>
    rw [(appendWait_lock hw).1]; exact ⟨.same, ho.keep rfl rfl⟩
  case w9still hw =>
    rw [(removeWait_lock hw).1]; exact ⟨.same, ho.keep rfl rfl⟩
  case n1none => rw [(pollWait_lock s).1]; exact ⟨.same, ho.keep rfl rfl⟩
  case n1some => rw [(pollWait_lock s).1]; exact ⟨.same, ho.keep rfl rfl⟩
  case p3empty => exact ⟨.same, ho.keep (ret_locks hb).1 (ret_locks hb).2⟩
  case p5keep => exact ⟨.same, ho.keep (ret_locks hb).1 (ret_locks hb).2⟩
  case p6ok => exact ⟨.same, ho.keep (ret_locks hb).1 (ret_locks hb).2⟩
  case a1 k => cases k <;> exact ⟨.same, ho.keep rfl rfl⟩
  case a3 k => cases k <;> exact ⟨.same, ho.keep rfl rfl⟩
  case r1last k _ => cases k <;> exact ⟨.same, ho.keep rfl rfl⟩
  case r1more k _ => cases k <;> exact ⟨.same, ho.keep rfl rfl⟩
  case p3null => exact absurd rfl hb
  case r0bug => exact absurd rfl hb
  case w3bug => exact absurd rfl hb
  case w9bug => exact absurd rfl hb
  case w9bug2 => exact absurd rfl hb
  all_goals exact ⟨.same, ho.keep rfl rfl⟩

theorem lok_frame {t u lock lock' p} (h : LStep t lock lock') (hut : u ≠ t) (ho : LOK u lock p) :
    LOK u lock' p := by
  cases h with
  | same => exact ho
  | take v hv =>
    intro x
    by_cases hx : x = v
    · subst hx; rw [set_self, ← ho x, hv]; simp; exact fun h => hut h.symm
    · rw [set_ne _ _ _ _ hx]; exact ho x
  | drop v hv =>
    intro x
    by_cases hx : x = v
    · subst hx; rw [set_self, ← ho x, hv]; simp; exact fun h => hut h.symm
    · rw [set_ne _ _ _ _ hx]; exact ho x

end Avian.Monitor
