import Verif.Conc.SysMonitorList

/-!
Invariants of the platform monitor: the mutexes of the threads, the queue of waiting threads, the
notification flags.
-/

namespace Avian.SysMonitor

/-! ### The mutexes of the threads -/

/-- the thread whose mutex thread `t` holds -/
def ownTm (t : Nat) : Pc → Option Nat
  | .w2 _ | .w3 _ | .w5 _ | .w6 _ | .w7 _ | .w8b _ | .w9 _ | .w10 _ | .w13 _ | .w14 _ | .c1 | .c2 => some t
  | .n3 u | .n4 u | .n5 u | .g2 u | .g3 u | .g4 u | .i1 u | .i2 u | .i3 u => some u
  | _ => none

def TmT (t : Nat) (s : Shared) (p : Pc) : Prop := ∀ u, s.tm u = some t ↔ ownTm t p = some u

def TmF (t : Nat) (s s' : Shared) : Prop :=
  ∀ u, s'.tm u = s.tm u ∨ (s.tm u = none ∧ s'.tm u = some t) ∨ (s.tm u = some t ∧ s'.tm u = none)

theorem TmT.take {t s p p' u s'} (h : TmT t s p) (hu : s.tm u = none) (h1 : ownTm t p = none) (h2 : ownTm t p' = some u)
    (hs : s'.tm = upd s.tm u (some t)) : TmT t s' p' ∧ TmF t s s' := by
  refine ⟨fun v => ?_, fun v => ?_⟩
  · rw [hs, h2]
    by_cases e : v = u
    · subst e; simp [upd_same]
    · rw [upd_ne e, h v, h1]; simp; exact fun e' => e e'.symm
  · rw [hs]
    by_cases e : v = u
    · subst e; right; left; exact ⟨hu, upd_same _ _ _⟩
    · left; exact upd_ne e

theorem TmT.drop {t s p p' u s'} (h : TmT t s p) (h1 : ownTm t p = some u) (h2 : ownTm t p' = none)
    (hs : s'.tm = upd s.tm u none) : TmT t s' p' ∧ TmF t s s' := by
  refine ⟨fun v => ?_, fun v => ?_⟩
  · rw [hs, h2]
    by_cases e : v = u
    · subst e; simp [upd_same]
    · rw [upd_ne e, h v, h1]; simp; exact fun e' => e e'.symm
  · rw [hs]
    by_cases e : v = u
    · subst e; right; right; exact ⟨(h v).2 h1, upd_same _ _ _⟩
    · left; exact upd_ne e

theorem TmT.keep {t s p p' s'} (h : TmT t s p) (h1 : ownTm t p' = ownTm t p) (hs : s'.tm = s.tm) :
    TmT t s' p' ∧ TmF t s s' :=
  ⟨fun v => by rw [hs, h1]; exact h v, fun v => Or.inl (by rw [hs])⟩

set_option maxHeartbeats 4000000 in
theorem tm_local {s s' : Shared} {t p p' ch} (h : localStep s t p ch = some (s', p')) (hn : p' ≠ .broken)
    (ho : TmT t s p) : TmT t s' p' ∧ TmF t s s' := by
  cases p
  all_goals simp only [localStep, lockT, lockM, unlockT, emit] at h
  case w3 w =>
    split at h
    · rename_i s1 ha
      obtain ⟨f1, f2, f3, f4, f5, f6, f7, f8⟩ := append_frame ha
      cases h
      exact ho.keep rfl f6
    · cases h; exact absurd rfl hn
  case w15 w =>
    split at h
    · split at h
      · cases h; exact ho.keep rfl rfl
      · cases h; exact absurd rfl hn
    · split at h
      · rename_i s1 ha
        obtain ⟨f1, f2, f3, f4, f5, f6, f7, f8⟩ := remove_frame ha
        cases h
        exact ho.keep rfl f6
      · cases h; exact absurd rfl hn
  case idle =>
    cases ch <;> simp only [reduceCtorEq] at h
    rename_i o
    split at h <;> cases h
    cases o <;> exact ho.keep rfl rfl
  all_goals repeat' split at h
  all_goals cases h
  all_goals first
    | exact ho.keep rfl rfl
    | exact absurd rfl hn
    | exact ho.take (by assumption) rfl rfl rfl
    | exact ho.drop rfl rfl rfl
    | (rename_i hh; exact ho.take hh.2 rfl rfl rfl)

def Tm (s : St) : Prop := ∀ t, TmT t s.sh (s.pc t)

theorem tm_init : Tm {} := fun t u => by simp [ownTm]

theorem tm_step {s s' : St} {t ch} (ho : Tm s) (h : step s t ch = some s') (hn : s'.pc t ≠ .broken) : Tm s' := by
  simp only [step, Option.map_eq_some_iff] at h
  obtain ⟨⟨sh', p'⟩, hl, rfl⟩ := h
  simp only [upd_same] at hn
  obtain ⟨hT, hF⟩ := tm_local hl hn (ho t)
  intro v
  by_cases hv : v = t
  · subst hv; simpa only [upd_same] using hT
  · intro u
    simp only [upd_ne hv]
    rw [← ho v u]
    rcases hF u with e | ⟨e1, e2⟩ | ⟨e1, e2⟩
    · rw [e]
    · rw [e1, e2]; simp; exact fun e => hv e.symm
    · rw [e1, e2]; simp; exact fun e => hv e.symm

/-! ### The queue -/

/-- the threads waiting for a notification, according to the events, first come first -/
def queueStep (q : List Nat) : Ev → List Nat
  | .joined t => q ++ [t]
  | .told u => q.erase u
  | .left t _ => q.erase t
  | _ => q

def waiters (log : List Ev) : List Nat := log.foldl queueStep []

theorem waiters_snoc (log e) : waiters (log ++ [e]) = queueStep (waiters log) e := by
  simp [waiters, List.foldl_append]

/-- between joining the list and leaving it -/
def inWait : Pc → Bool
  | .w5 _ | .w6 _ | .w7 _ | .w8 _ | .w8b _ | .w9 _ | .w10 _ | .w11 _ | .w12 _ | .w13 _ | .w14 _ | .w15 _ => true
  | _ => false

/-- where the flag of the thread can be set -/
def flagPc : Pc → Bool
  | .w8 _ | .w8b _ | .w9 _ | .w10 _ | .w11 _ | .w12 _ | .w13 _ => true
  | _ => false

/-- where the `next` field of the thread can be set -/
def linkPc : Pc → Bool
  | .w5 _ | .w6 _ | .w7 _ | .w8 _ | .w8b _ | .w9 _ | .w10 _ | .w11 _ | .w12 _ | .w13 _ | .w14 _ | .w15 _
  | .w16 _ => true
  | _ => false

/-- what the thread has read from its flag -/
def saw : Pc → Bool
  | .w10 w | .w11 w | .w12 w | .w13 w | .w14 w | .w15 w => w.notified
  | _ => false

/-- the fields against the queue, when the holder of the monitor is at `p` -/
def RepAt (s : Shared) (p : Pc) (l : List Nat) : Prop :=
  match p with
  | .n2 u | .n3 u => ∃ rest, l = u :: rest ∧ Full s rest
  | .g1 c | .g2 c => Chain s.next c l ∧ (p = .g2 c → c ≠ 0)
  | .g3 c | .g4 c | .g5 c => Chain s.next (s.next c) l
  | .g6 => l = []
  | _ => Full s l

def plain : Pc → Bool
  | .n2 _ | .n3 _ | .g1 _ | .g2 _ | .g3 _ | .g4 _ | .g5 _ | .g6 => false
  | _ => true

theorem repAt_plain {s p l} (h : plain p = true) : RepAt s p l ↔ Full s l := by
  cases p <;> simp_all [plain, RepAt]

def Rep (s : St) (l : List Nat) : Prop :=
  match s.sh.mutex with
  | none => Full s.sh l
  | some t => RepAt s.sh (s.pc t) l

structure Q (s : St) : Prop where
  nodup : (waiters s.sh.log).Nodup
  len : (waiters s.sh.log).length ≤ s.sh.log.length
  mem : ∀ t, t ∈ waiters s.sh.log → inWait (s.pc t) = true ∧ s.sh.flag t = false ∧ saw (s.pc t) = false
  flg : ∀ t, s.sh.flag t = true → flagPc (s.pc t) = true
  lnk : ∀ t, linkPc (s.pc t) = false → s.sh.next t = 0
  slp : ∀ t, s.sh.asleep t = true → ∃ w, s.pc t = .w8 w
  wak : ∀ t, s.sh.asleep t = true → s.sh.flag t = true → ∃ u, s.pc u = .n4 t ∨ s.pc u = .g3 t
  rep : Rep s (waiters s.sh.log)

theorem q_init : Q {} :=
  ⟨List.nodup_nil, Nat.le_refl _, by simp [waiters], by simp, by simp, by simp, by simp, rfl, rfl⟩

structure Quiet (s s' : Shared) (t : Nat) (p p' : Pc) : Prop where
  first : s'.first = s.first
  last : s'.last = s.last
  next : s'.next = s.next
  flag : s'.flag = s.flag
  que : waiters s'.log = waiters s.log
  len : s.log.length ≤ s'.log.length
  mem : inWait p = true → saw p = false → s.flag t = false → inWait p' = true ∧ saw p' = false
  flg : flagPc p = true → flagPc p' = true
  lnk : linkPc p = true → linkPc p' = true
  slp : ∀ x, s'.asleep x = true → (x ≠ t ∧ s.asleep x = true) ∨ (x = t ∧ (∃ w, p' = .w8 w) ∧ flagPc p = false)
  sig : ∀ u, (p = .n4 u ∨ p = .g3 u) → s'.asleep u = false
  rep : (s'.mutex = s.mutex ∧ s.mutex ≠ some t) ∨
    (s.mutex = some t ∧ s'.mutex = some t ∧ ∀ l, RepAt s p l → RepAt s p' l) ∨
    (s.mutex = none ∧ s'.mutex = some t ∧ plain p' = true) ∨
    (s.mutex = some t ∧ s'.mutex = none ∧ plain p = true)

theorem Full.congr {s s' : Shared} {l} (h : Full s l) (h1 : s'.first = s.first) (h2 : s'.last = s.last)
    (h3 : s'.next = s.next) : Full s' l := by
  unfold Full; rw [h1, h2, h3]; exact h

theorem RepAt.congr {s s' : Shared} {p l} (h : RepAt s p l) (h1 : s'.first = s.first) (h2 : s'.last = s.last)
    (h3 : s'.next = s.next) : RepAt s' p l := by
  cases p <;> simp only [RepAt, Full] at h ⊢ <;> first | exact h | (simp only [h1, h2, h3]; exact h)

theorem quiet_q {s : St} {t s' p'} (q : Q s) (h : Quiet s.sh s' t (s.pc t) p') : Q { sh := s', pc := upd s.pc t p' } := by
  refine ⟨?_, ?_, ?_, ?_, ?_, ?_, ?_, ?_⟩
  · show (waiters s'.log).Nodup
    rw [h.que]; exact q.nodup
  · show (waiters s'.log).length ≤ s'.log.length
    rw [h.que]; exact Nat.le_trans q.len h.len
  · intro x hx
    have hx : x ∈ waiters s.sh.log := by rw [← h.que]; exact hx
    obtain ⟨h1, h2, h3⟩ := q.mem x hx
    show inWait (upd s.pc t p' x) = true ∧ s'.flag x = false ∧ saw (upd s.pc t p' x) = false
    rw [h.flag]
    by_cases e : x = t
    · subst e; rw [upd_same]
      obtain ⟨a, b⟩ := h.mem h1 h3 h2
      exact ⟨a, h2, b⟩
    · rw [upd_ne e]; exact ⟨h1, h2, h3⟩
  · intro x hx'
    have hx : s.sh.flag x = true := by rw [← h.flag]; exact hx'
    clear hx'
    show flagPc (upd s.pc t p' x) = true
    by_cases e : x = t
    · subst e; rw [upd_same]; exact h.flg (q.flg _ hx)
    · rw [upd_ne e]; exact q.flg _ hx
  · intro x hx
    have hx : linkPc (upd s.pc t p' x) = false := hx
    show s'.next x = 0
    rw [h.next]
    by_cases e : x = t
    · subst e; rw [upd_same] at hx
      refine q.lnk _ (Bool.eq_false_iff.2 fun hl => ?_)
      rw [h.lnk hl] at hx; cases hx
    · rw [upd_ne e] at hx; exact q.lnk _ hx
  · intro x hx
    show ∃ w, upd s.pc t p' x = .w8 w
    rcases h.slp x hx with ⟨h1, h2⟩ | ⟨h1, h2, _⟩
    · rw [upd_ne h1]; exact q.slp _ h2
    · subst h1; rw [upd_same]; exact h2
  · intro x hx hf'
    have hf : s.sh.flag x = true := by rw [← h.flag]; exact hf'
    clear hf'
    have hx : s'.asleep x = true := hx
    show ∃ u, upd s.pc t p' u = .n4 x ∨ upd s.pc t p' u = .g3 x
    rcases h.slp x hx with ⟨h1, h2⟩ | ⟨h1, _, h3⟩
    · obtain ⟨u, hu⟩ := q.wak _ h2 hf
      by_cases e : u = t
      · subst e
        have := h.sig x hu
        rw [this] at hx; cases hx
      · exact ⟨u, by rw [upd_ne e]; exact hu⟩
    · subst h1
      rw [q.flg _ hf] at h3; cases h3
  · show Rep { sh := s', pc := upd s.pc t p' } (waiters s'.log)
    rw [h.que]
    have hr := q.rep
    unfold Rep at hr ⊢
    rcases h.rep with ⟨h1, h2⟩ | ⟨h1, h2, h3⟩ | ⟨h1, h2, h3⟩ | ⟨h1, h2, h3⟩
    · show (match s'.mutex with | none => Full s' _ | some v => RepAt s' (upd s.pc t p' v) _)
      rw [h1]
      cases hm : s.sh.mutex with
      | none => rw [hm] at hr; exact hr.congr h.first h.last h.next
      | some v =>
        rw [hm] at hr h2
        have : v ≠ t := fun e => h2 (by rw [e])
        simp only [upd_ne this]
        exact hr.congr h.first h.last h.next
    · simp only [h1] at hr
      simp only [h2, upd_same]
      exact (h3 _ hr).congr h.first h.last h.next
    · simp only [h1] at hr
      simp only [h2, upd_same]
      exact (repAt_plain h3).2 (hr.congr h.first h.last h.next)
    · simp only [h1] at hr
      simp only [h2]
      exact ((repAt_plain h3).1 hr).congr h.first h.last h.next

theorem sig6 {a : Nat → Bool} {t u : Nat} {p p' : Pc} (hx : ∀ x, a x = true → ¬ x = t) :
    ∀ x, upd a u false x = true → (x ≠ t ∧ a x = true) ∨ (x = t ∧ (∃ w, p' = .w8 w) ∧ flagPc p = false) := by
  intro x h
  have : a x = true := by
    simp only [upd] at h
    split at h
    · cases h
    · exact h
  exact Or.inl ⟨hx x this, this⟩

/-- a waiting thread whose mutex another thread holds, while that thread holds the monitor -/
theorem notified_at {s : St} {t u} (ho : Own s) (hT : Tm s) (hmu : s.sh.mutex = some t) (htm : s.sh.tm u = some t)
    (hne : u ≠ t) (hw : inWait (s.pc u) = true) : flagPc (s.pc u) = true := by
  have h1 := (not_congr (hT u u)).1 (by rw [htm]; exact fun e => hne (Option.some.inj e).symm)
  have h2 := (not_congr (ho.thr u).mtx).1 (by rw [hmu]; exact fun e => hne (Option.some.inj e).symm)
  cases hp : s.pc u <;> rw [hp] at h1 h2 hw <;> simp_all [inWait, ownTm, holds, flagPc]

/-- a notification is given to the first thread of the queue -/
theorem told_q {s : St} {t u rest p'} (ho : Own s) (hT : Tm s) (q : Q s) (hmu : s.sh.mutex = some t) (htm : s.sh.tm u = some t)
    (hW : waiters s.sh.log = u :: rest) (hp1 : inWait (s.pc t) = false)
    (hp2 : linkPc p' = false) (hp3 : p' = .n4 u ∨ p' = .g3 u) (hsig : ∀ x, ¬ (s.pc t = .n4 x ∨ s.pc t = .g3 x))
    (hl : linkPc (s.pc t) = false) (hfl : flagPc (s.pc t) = false)
    (hrep : RepAt s.sh p' rest) :
    Q { sh := { s.sh with flag := upd s.sh.flag u true, log := s.sh.log ++ [.told u] }, pc := upd s.pc t p' } := by
  have hu : u ∈ waiters s.sh.log := by rw [hW]; simp
  have hne : u ≠ t := fun e => by rw [e] at hu; rw [(q.mem t hu).1] at hp1; cases hp1
  have hWs : waiters (s.sh.log ++ [.told u]) = rest := by rw [waiters_snoc, hW]; simp [queueStep]
  have hnd := q.nodup
  rw [hW, List.nodup_cons] at hnd
  have hlen := q.len
  rw [hW] at hlen
  refine ⟨?_, ?_, ?_, ?_, ?_, ?_, ?_, ?_⟩
  · show (waiters (s.sh.log ++ [.told u])).Nodup
    rw [hWs]; exact hnd.2
  · show (waiters (s.sh.log ++ [.told u])).length ≤ (s.sh.log ++ [Ev.told u]).length
    rw [hWs]; simp only [List.length_append, List.length_cons] at hlen ⊢; omega
  · intro x hx
    have hx : x ∈ rest := by rw [← hWs]; exact hx
    have hxu : x ≠ u := fun e => hnd.1 (e ▸ hx)
    obtain ⟨h1, h2, h3⟩ := q.mem x (by rw [hW]; simp [hx])
    have hxt : x ≠ t := fun e => by rw [e, hp1] at h1; cases h1
    show inWait (upd s.pc t p' x) = true ∧ upd s.sh.flag u true x = false ∧ saw (upd s.pc t p' x) = false
    rw [upd_ne hxt, upd_ne hxu]; exact ⟨h1, h2, h3⟩
  · intro x hx
    have hx : upd s.sh.flag u true x = true := hx
    show flagPc (upd s.pc t p' x) = true
    by_cases e : x = u
    · subst e; rw [upd_ne hne]; exact notified_at ho hT hmu htm hne (q.mem x hu).1
    · rw [upd_ne e] at hx
      have hxt : x ≠ t := fun e => by have := q.flg x hx; rw [e, hfl] at this; cases this
      rw [upd_ne hxt]; exact q.flg x hx
  · intro x hx
    have hx : linkPc (upd s.pc t p' x) = false := hx
    show s.sh.next x = 0
    by_cases e : x = t
    · rw [e]; exact q.lnk t hl
    · rw [upd_ne e] at hx; exact q.lnk x hx
  · intro x hx
    obtain ⟨w, hw⟩ := q.slp x hx
    have hxt : x ≠ t := fun e => by rw [← e, hw] at hfl; simp [flagPc] at hfl
    exact ⟨w, by show upd s.pc t p' x = _; rw [upd_ne hxt]; exact hw⟩
  · intro x hx hf
    have hf : upd s.sh.flag u true x = true := hf
    by_cases e : x = u
    · subst e
      exact ⟨t, by show upd s.pc t p' t = _ ∨ upd s.pc t p' t = _; rw [upd_same]; exact hp3⟩
    · rw [upd_ne e] at hf
      obtain ⟨v, hv⟩ := q.wak x hx hf
      have hvt : v ≠ t := fun e => hsig x (e ▸ hv)
      exact ⟨v, by show upd s.pc t p' v = _ ∨ upd s.pc t p' v = _; rw [upd_ne hvt]; exact hv⟩
  · show Rep _ (waiters (s.sh.log ++ [.told u]))
    rw [hWs]
    simp only [Rep, hmu, upd_same]
    exact hrep.congr rfl rfl rfl

set_option maxHeartbeats 8000000 in
theorem q_local {s : St} {s' : Shared} {t p' ch} (h : localStep s.sh t (s.pc t) ch = some (s', p')) (ho : Own s)
    (hT : Tm s) (q : Q s) : p' ≠ .broken ∧ Q { sh := s', pc := upd s.pc t p' } := by
  have hm := (ho.thr t).mtx
  have hr := (ho.thr t).reg
  have hq : ∀ {s1 p1 p2}, s.pc t = p1 → p2 ≠ Pc.broken → Quiet s.sh s1 t p1 p2 → p2 ≠ .broken ∧ Q { sh := s1, pc := upd s.pc t p2 } :=
    fun he hb hq => ⟨hb, quiet_q q (he ▸ hq)⟩
  have hfl := q.flg t
  have hsl : ∀ x, s.sh.asleep x = true → (∀ w, s.pc t ≠ .w8 w) → x ≠ t := by
    rintro x hx hw rfl
    obtain ⟨w, e⟩ := q.slp x hx
    exact hw w e
  generalize hp : s.pc t = p at h hm hr hfl
  cases p
  all_goals simp only [localStep, lockT, lockM, unlockT, emit] at h
  all_goals simp only [holds, RegOk] at hm hr
  case w3 w =>
    have hmu := hm.2 hr
    have hrep := q.rep
    simp only [Rep, hmu, hp, RepAt] at hrep
    have ht : t ∉ waiters s.sh.log := fun hm => by
      have := (q.mem t hm).1; rw [hp] at this; simp [inWait] at this
    have h0 : t ≠ 0 := fun e => by have := ((ho.thr t).null e).1; rw [hp] at this; cases this
    obtain ⟨s1, ha, hF, hnx⟩ := append_full hrep q.nodup ht h0 (q.lnk t (by rw [hp]; rfl)) q.len
    obtain ⟨f1, f2, f3, f4, f5, f6, f7, f8⟩ := append_frame ha
    rw [ha] at h
    simp only [Option.some.injEq, Prod.mk.injEq] at h
    obtain ⟨rfl, rfl⟩ := h
    refine ⟨by simp, ?_⟩
    have hWs : waiters (s1.log ++ [.joined t]) = waiters s.sh.log ++ [t] := by rw [waiters_snoc, f4]; rfl
    refine ⟨?_, ?_, ?_, ?_, ?_, ?_, ?_, ?_⟩
    · show (waiters (s1.log ++ [.joined t])).Nodup
      rw [hWs, List.nodup_append]
      refine ⟨q.nodup, by simp, ?_⟩
      intro a ha b hb e
      simp only [List.mem_singleton] at hb
      exact ht (by rw [← hb, ← e]; exact ha)
    · show (waiters (s1.log ++ [.joined t])).length ≤ (s1.log ++ [Ev.joined t]).length
      rw [hWs, f4]; simp only [List.length_append, List.length_singleton]; have := q.len; omega
    · intro x hx
      have hx : x ∈ waiters s.sh.log ++ [t] := by rw [← hWs]; exact hx
      show inWait (upd s.pc t _ x) = true ∧ s1.flag x = false ∧ saw (upd s.pc t _ x) = false
      rw [f5]
      by_cases e : x = t
      · subst e
        rw [upd_same]
        refine ⟨rfl, Bool.eq_false_iff.2 fun hf => ?_, rfl⟩
        have := hfl hf; simp [flagPc] at this
      · rw [upd_ne e]
        simp only [List.mem_append, List.mem_singleton, e, or_false] at hx
        exact q.mem x hx
    · intro x hx
      have hx : s1.flag x = true := hx
      rw [f5] at hx
      have hxt : x ≠ t := fun e => by
        have := q.flg x hx
        rw [e, hp] at this; simp [flagPc] at this
      show flagPc (upd s.pc t _ x) = true
      rw [upd_ne hxt]; exact q.flg x hx
    · intro x hx
      have hx : linkPc (upd s.pc t _ x) = false := hx
      show s1.next x = 0
      have hxt : x ≠ t := fun e => by rw [e, upd_same] at hx; simp [linkPc] at hx
      rw [upd_ne hxt] at hx
      have hxW : x ∉ waiters s.sh.log := fun hm => by
        have h1 := (q.mem x hm).1
        cases hpx : s.pc x <;> rw [hpx] at hx h1 <;> simp_all [linkPc, inWait]
      rw [hnx x hxW]; exact q.lnk x hx
    · intro x hx
      have hx : s1.asleep x = true := hx
      rw [f7] at hx
      obtain ⟨w', hw⟩ := q.slp x hx
      have hxt : x ≠ t := fun e => by rw [e, hp] at hw; cases hw
      exact ⟨w', by show upd s.pc t _ x = _; rw [upd_ne hxt]; exact hw⟩
    · intro x hx hf
      have hx : s1.asleep x = true := hx
      have hf : s1.flag x = true := hf
      rw [f7] at hx
      rw [f5] at hf
      obtain ⟨v, hv⟩ := q.wak x hx hf
      have hvt : v ≠ t := fun e => by rw [e, hp] at hv; rcases hv with hv | hv <;> cases hv
      exact ⟨v, by show upd s.pc t _ v = _ ∨ upd s.pc t _ v = _; rw [upd_ne hvt]; exact hv⟩
    · show Rep _ (waiters (s1.log ++ [.joined t]))
      rw [hWs]
      simp only [Rep, f1, hmu, upd_same, RepAt]
      exact hF.congr rfl rfl rfl
  case w13 w =>
    cases h
    have hmu := hm.2 trivial
    have hrep := q.rep
    simp only [Rep, hmu, hp, RepAt] at hrep
    refine ⟨by simp, q.nodup, q.len, ?_, ?_, ?_, ?_, ?_, ?_⟩
    · intro x hx
      obtain ⟨h1, h2, h3⟩ := q.mem x hx
      show inWait (upd s.pc t _ x) = true ∧ upd s.sh.flag t false x = false ∧ saw (upd s.pc t _ x) = false
      by_cases e : x = t
      · subst e; rw [upd_same, upd_same]; rw [hp] at h3; exact ⟨rfl, rfl, h3⟩
      · rw [upd_ne e, upd_ne e]; exact ⟨h1, h2, h3⟩
    · intro x hx
      have hx : upd s.sh.flag t false x = true := hx
      have e : x ≠ t := fun e => by rw [e, upd_same] at hx; cases hx
      rw [upd_ne e] at hx
      show flagPc (upd s.pc t _ x) = true
      rw [upd_ne e]; exact q.flg x hx
    · intro x hx
      have hx : linkPc (upd s.pc t _ x) = false := hx
      have e : x ≠ t := fun e => by rw [e, upd_same] at hx; simp [linkPc] at hx
      rw [upd_ne e] at hx; exact q.lnk x hx
    · intro x hx
      obtain ⟨w', hw⟩ := q.slp x hx
      have hxt : x ≠ t := fun e => by rw [e, hp] at hw; cases hw
      exact ⟨w', by show upd s.pc t _ x = _; rw [upd_ne hxt]; exact hw⟩
    · intro x hx hf
      have hf : upd s.sh.flag t false x = true := hf
      have e : x ≠ t := fun e => by rw [e, upd_same] at hf; cases hf
      rw [upd_ne e] at hf
      obtain ⟨v, hv⟩ := q.wak x hx hf
      have hvt : v ≠ t := fun e => by rw [e, hp] at hv; rcases hv with hv | hv <;> cases hv
      exact ⟨v, by show upd s.pc t _ v = _ ∨ upd s.pc t _ v = _; rw [upd_ne hvt]; exact hv⟩
    · simp only [Rep, hmu, upd_same, RepAt]
      exact hrep.congr rfl rfl rfl
  case w15 w =>
    have hmu := hm.2 trivial
    have hrep := q.rep
    simp only [Rep, hmu, hp, RepAt] at hrep
    have key : ∀ {s1 : Shared} {b}, Full s1 ((waiters s.sh.log).erase t) → (∀ x, x ∉ waiters s.sh.log → s1.next x = s.sh.next x) →
        s1.mutex = s.sh.mutex → s1.log = s.sh.log → s1.flag = s.sh.flag → s1.asleep = s.sh.asleep →
        Q { sh := { s1 with log := s1.log ++ [.left t b] }, pc := upd s.pc t (.w16 w) } := by
      intro s1 b hF hnx f1 f4 f5 f7
      have hWs : waiters (s1.log ++ [.left t b]) = (waiters s.sh.log).erase t := by rw [waiters_snoc, f4]; rfl
      refine ⟨?_, ?_, ?_, ?_, ?_, ?_, ?_, ?_⟩
      · show (waiters (s1.log ++ [.left t b])).Nodup
        rw [hWs]; exact q.nodup.sublist List.erase_sublist
      · show (waiters (s1.log ++ [.left t b])).length ≤ (s1.log ++ [Ev.left t b]).length
        rw [hWs, f4]
        have h1 := (List.erase_sublist (a := t) (l := waiters s.sh.log)).length_le
        have := q.len
        simp only [List.length_append, List.length_singleton]; omega
      · intro x hx
        have hx : x ∈ (waiters s.sh.log).erase t := by rw [← hWs]; exact hx
        obtain ⟨e, hx⟩ := (List.Nodup.mem_erase_iff q.nodup).1 hx
        show inWait (upd s.pc t _ x) = true ∧ s1.flag x = false ∧ saw (upd s.pc t _ x) = false
        rw [f5, upd_ne e]; exact q.mem x hx
      · intro x hx
        have hx : s1.flag x = true := hx
        rw [f5] at hx
        have hxt : x ≠ t := fun e => by
          have := q.flg x hx
          rw [e, hp] at this; simp [flagPc] at this
        show flagPc (upd s.pc t _ x) = true
        rw [upd_ne hxt]; exact q.flg x hx
      · intro x hx
        have hx : linkPc (upd s.pc t _ x) = false := hx
        show s1.next x = 0
        have hxt : x ≠ t := fun e => by rw [e, upd_same] at hx; simp [linkPc] at hx
        rw [upd_ne hxt] at hx
        have hxW : x ∉ waiters s.sh.log := fun hm => by
          have h1 := (q.mem x hm).1
          cases hpx : s.pc x <;> rw [hpx] at hx h1 <;> simp_all [linkPc, inWait]
        rw [hnx x hxW]; exact q.lnk x hx
      · intro x hx
        have hx : s1.asleep x = true := hx
        rw [f7] at hx
        obtain ⟨w', hw⟩ := q.slp x hx
        have hxt : x ≠ t := fun e => by rw [e, hp] at hw; cases hw
        exact ⟨w', by show upd s.pc t _ x = _; rw [upd_ne hxt]; exact hw⟩
      · intro x hx hf
        have hx : s1.asleep x = true := hx
        have hf : s1.flag x = true := hf
        rw [f7] at hx
        rw [f5] at hf
        obtain ⟨v, hv⟩ := q.wak x hx hf
        have hvt : v ≠ t := fun e => by rw [e, hp] at hv; rcases hv with hv | hv <;> cases hv
        exact ⟨v, by show upd s.pc t _ v = _ ∨ upd s.pc t _ v = _; rw [upd_ne hvt]; exact hv⟩
      · show Rep _ (waiters (s1.log ++ [.left t b]))
        rw [hWs]
        simp only [Rep, f1, hmu, upd_same, RepAt]
        exact hF.congr rfl rfl rfl
    by_cases hw : w.notified = true
    · have ht : t ∉ waiters s.sh.log := fun hm => by
        have := (q.mem t hm).2.2; rw [hp] at this; simp [saw, hw] at this
      rw [if_pos hw, absent_eq hrep.1 (Nat.le_succ_of_le q.len)] at h
      simp only [ht, not_false_eq_true, decide_true, if_true] at h
      cases h
      refine ⟨by simp, key ?_ (fun _ _ => rfl) rfl rfl rfl rfl⟩
      rw [List.erase_of_not_mem ht]; exact hrep
    · obtain ⟨s1, ha, hF, hnx⟩ := remove_full (t := t) hrep q.nodup q.len
      obtain ⟨f1, f2, f3, f4, f5, f6, f7, f8⟩ := remove_frame ha
      rw [if_neg hw, ha] at h
      simp only [Option.some.injEq, Prod.mk.injEq] at h
      obtain ⟨rfl, rfl⟩ := h
      exact ⟨by simp, key hF hnx f1 f4 f5 f7⟩
  case w16 w =>
    cases h
    have hmu := hm.2 trivial
    have hrep := q.rep
    simp only [Rep, hmu, hp, RepAt] at hrep
    have ht : t ∉ waiters s.sh.log := fun hm => by
      have := (q.mem t hm).1; rw [hp] at this; simp [inWait] at this
    refine ⟨by simp, q.nodup, q.len, ?_, ?_, ?_, ?_, ?_, ?_⟩
    · intro x hx
      have e : x ≠ t := fun e => ht (e ▸ hx)
      show inWait (upd s.pc t _ x) = true ∧ s.sh.flag x = false ∧ saw (upd s.pc t _ x) = false
      rw [upd_ne e]; exact q.mem x hx
    · intro x hx
      have hxt : x ≠ t := fun e => by
        have := q.flg x hx
        rw [e, hp] at this; simp [flagPc] at this
      show flagPc (upd s.pc t _ x) = true
      rw [upd_ne hxt]; exact q.flg x hx
    · intro x hx
      have hx : linkPc (upd s.pc t _ x) = false := hx
      show upd s.sh.next t 0 x = 0
      by_cases e : x = t
      · rw [e, upd_same]
      · rw [upd_ne e] at hx ⊢; exact q.lnk x hx
    · intro x hx
      obtain ⟨w', hw⟩ := q.slp x hx
      have hxt : x ≠ t := fun e => by rw [e, hp] at hw; cases hw
      exact ⟨w', by show upd s.pc t _ x = _; rw [upd_ne hxt]; exact hw⟩
    · intro x hx hf
      obtain ⟨v, hv⟩ := q.wak x hx hf
      have hvt : v ≠ t := fun e => by rw [e, hp] at hv; rcases hv with hv | hv <;> cases hv
      exact ⟨v, by show upd s.pc t _ v = _ ∨ upd s.pc t _ v = _; rw [upd_ne hvt]; exact hv⟩
    · simp only [Rep, hmu, upd_same, RepAt]
      exact ⟨hrep.1.congr (fun x hx => upd_ne (fun e => ht (e ▸ hx))), hrep.2⟩
  case n1 =>
    have hmu := hm.2 hr
    have hrep := q.rep
    simp only [Rep, hmu, hp, RepAt] at hrep
    -- taking the first thread off the list changes nothing but `first` and `last`
    have key : ∀ {s1 : Shared} {u rest}, waiters s.sh.log = u :: rest → Full s1 rest → s1.next = s.sh.next →
        s1.mutex = s.sh.mutex → s1.log = s.sh.log → s1.flag = s.sh.flag → s1.asleep = s.sh.asleep →
        Q { sh := s1, pc := upd s.pc t (.n2 u) } := by
      intro s1 u rest hW hF fn f1 f4 f5 f7
      refine ⟨by rw [f4]; exact q.nodup, by rw [f4]; exact q.len, ?_, ?_, ?_, ?_, ?_, ?_⟩
      · intro x hx
        rw [f4] at hx
        have h1 := q.mem x hx
        have e : x ≠ t := fun e => by rw [e, hp] at h1; simp [inWait] at h1
        show inWait (upd s.pc t _ x) = true ∧ s1.flag x = false ∧ saw (upd s.pc t _ x) = false
        rw [f5, upd_ne e]; exact h1
      · intro x hx
        have hx : s1.flag x = true := hx
        rw [f5] at hx
        have hxt : x ≠ t := fun e => by
          have := q.flg x hx
          rw [e, hp] at this; simp [flagPc] at this
        show flagPc (upd s.pc t _ x) = true
        rw [upd_ne hxt]; exact q.flg x hx
      · intro x hx
        have hx : linkPc (upd s.pc t _ x) = false := hx
        show s1.next x = 0
        rw [fn]
        by_cases e : x = t
        · rw [e]; exact q.lnk t (by rw [hp]; rfl)
        · rw [upd_ne e] at hx; exact q.lnk x hx
      · intro x hx
        have hx : s1.asleep x = true := hx
        rw [f7] at hx
        obtain ⟨w', hw⟩ := q.slp x hx
        have hxt : x ≠ t := fun e => by rw [e, hp] at hw; cases hw
        exact ⟨w', by show upd s.pc t _ x = _; rw [upd_ne hxt]; exact hw⟩
      · intro x hx hf
        have hx : s1.asleep x = true := hx
        have hf : s1.flag x = true := hf
        rw [f7] at hx
        rw [f5] at hf
        obtain ⟨v, hv⟩ := q.wak x hx hf
        have hvt : v ≠ t := fun e => by rw [e, hp] at hv; rcases hv with hv | hv <;> cases hv
        exact ⟨v, by show upd s.pc t _ v = _ ∨ upd s.pc t _ v = _; rw [upd_ne hvt]; exact hv⟩
      · simp only [Rep, f1, hmu, upd_same, RepAt, f4]
        exact ⟨rest, hW, hF⟩
    cases hW : waiters s.sh.log with
    | nil =>
      rw [hW] at hrep
      have h1 : s.sh.first = 0 := hrep.1
      rw [if_pos h1] at h
      cases h
      refine hq hp (by simp) ⟨rfl, rfl, rfl, rfl, by rw [waiters_snoc]; rfl, by simp, by simp [inWait], by simp [flagPc],
        by simp [linkPc], fun x hx => Or.inl ⟨hsl x hx (by simp [hp]), hx⟩, by simp, Or.inr (Or.inl ⟨hmu, hmu, fun l hl => hl⟩)⟩
    | cons u rest =>
      rw [hW] at hrep
      obtain ⟨⟨h1, h2, h3⟩, h4⟩ := hrep
      have hnd := q.nodup
      rw [hW, List.nodup_cons] at hnd
      have hf0 : s.sh.first ≠ 0 := by rw [h1]; exact h2
      rw [if_neg hf0] at h
      simp only [h1] at h
      by_cases hl : u = s.sh.last
      · have hrest : rest = [] := by
          cases rest with
          | nil => rfl
          | cons b rest =>
            exfalso
            rw [h4] at hl
            exact hnd.1 (by rw [hl]; exact lastOf_mem (by simp))
        subst hrest
        have hz : s.sh.next u = 0 := h3
        rw [if_pos hl, if_pos hz] at h
        cases h
        exact ⟨by simp, key hW ⟨hz, rfl⟩ rfl rfl rfl rfl rfl⟩
      · rw [if_neg hl] at h
        cases h
        refine ⟨by simp, key hW ⟨h3, ?_⟩ rfl rfl rfl rfl rfl⟩
        show s.sh.last = lastOf rest
        rw [h4]
        cases rest with
        | nil => exact absurd h4.symm hl
        | cons b rest => rfl
  case n3 u =>
    have hmu := hm.2 hr
    have hrep := q.rep
    simp only [Rep, hmu, hp, RepAt] at hrep
    obtain ⟨rest, hW, hF⟩ := hrep
    cases h
    refine ⟨by simp, told_q ho hT q hmu ((hT t u).2 (by rw [hp]; rfl)) hW (by rw [hp]; rfl) rfl (Or.inl rfl) (by simp [hp])
      (by rw [hp]; rfl) (by rw [hp]; rfl) hF⟩
  case g2 u =>
    have hmu := hm.2 hr
    have hrep := q.rep
    simp only [Rep, hmu, hp, RepAt] at hrep
    obtain ⟨hC, hne⟩ := hrep
    have hne := hne trivial
    cases h
    cases hW : waiters s.sh.log with
    | nil => rw [hW] at hC; exact absurd hC hne
    | cons a rest =>
      rw [hW] at hC
      obtain ⟨rfl, h2, h3⟩ := hC
      exact ⟨by simp, told_q ho hT q hmu ((hT t u).2 (by rw [hp]; rfl)) hW (by rw [hp]; rfl) rfl (Or.inr rfl) (by simp [hp])
        (by rw [hp]; rfl) (by rw [hp]; rfl) h3⟩
  case g6 =>
    have hmu := hm.2 hr
    have hrep := q.rep
    simp only [Rep, hmu, hp, RepAt] at hrep
    cases h
    have hWs : waiters (s.sh.log ++ [.toldAll t]) = [] := by rw [waiters_snoc, hrep]; rfl
    refine ⟨by simp, ?_, ?_, ?_, ?_, ?_, ?_, ?_, ?_⟩
    · show (waiters (s.sh.log ++ [.toldAll t])).Nodup
      rw [hWs]; exact List.nodup_nil
    · show (waiters (s.sh.log ++ [.toldAll t])).length ≤ _
      rw [hWs]; exact Nat.zero_le _
    · intro x hx
      have hx : x ∈ waiters (s.sh.log ++ [.toldAll t]) := hx
      rw [hWs] at hx; cases hx
    · intro x hx
      have hxt : x ≠ t := fun e => by
        have := q.flg x hx
        rw [e, hp] at this; simp [flagPc] at this
      show flagPc (upd s.pc t _ x) = true
      rw [upd_ne hxt]; exact q.flg x hx
    · intro x hx
      have hx : linkPc (upd s.pc t _ x) = false := hx
      show s.sh.next x = 0
      by_cases e : x = t
      · rw [e]; exact q.lnk t (by rw [hp]; rfl)
      · rw [upd_ne e] at hx; exact q.lnk x hx
    · intro x hx
      obtain ⟨w', hw⟩ := q.slp x hx
      have hxt : x ≠ t := fun e => by rw [e, hp] at hw; cases hw
      exact ⟨w', by show upd s.pc t _ x = _; rw [upd_ne hxt]; exact hw⟩
    · intro x hx hf
      obtain ⟨v, hv⟩ := q.wak x hx hf
      have hvt : v ≠ t := fun e => by rw [e, hp] at hv; rcases hv with hv | hv <;> cases hv
      exact ⟨v, by show upd s.pc t _ v = _ ∨ upd s.pc t _ v = _; rw [upd_ne hvt]; exact hv⟩
    · show Rep _ (waiters (s.sh.log ++ [.toldAll t]))
      rw [hWs]
      simp only [Rep, hmu, upd_same, RepAt]
      exact ⟨rfl, rfl⟩
  case idle =>
    cases ch <;> simp only [reduceCtorEq] at h
    rename_i o
    split at h <;> cases h
    refine hq hp (by cases o <;> simp [start]) ?_
    have hx : ∀ x, s.sh.asleep x = true → x ≠ t := fun x hx => hsl x hx (by simp [hp])
    by_cases hmm : s.sh.mutex = some t
    · cases o <;> refine ⟨rfl, rfl, rfl, rfl, rfl, Nat.le_refl _, ?_, ?_, ?_, ?_, ?_, ?_⟩ <;>
      simp_all [start, inWait, flagPc, linkPc, saw, RepAt, plain]
    · cases o <;> refine ⟨rfl, rfl, rfl, rfl, rfl, Nat.le_refl _, ?_, ?_, ?_, ?_, ?_, Or.inl ⟨rfl, hmm⟩⟩ <;>
      simp_all [start, inWait, flagPc, linkPc, saw, RepAt, plain]
  all_goals repeat' split at h
  all_goals cases h
  case w2.isTrue.refl => rename_i hf; exact absurd (hfl hf) (by simp [flagPc])
  all_goals refine hq hp (by simp) ?_
  all_goals have hx : ∀ x, s.sh.asleep x = true → (∀ w, s.pc t ≠ .w8 w) → x ≠ t := hsl
  all_goals simp only [hp, ne_eq, reduceCtorEq, not_false_eq_true, implies_true, forall_const] at hx
  all_goals refine ⟨rfl, rfl, rfl, rfl, ?_, ?_, ?_, ?_, ?_, ?_, ?_, ?_⟩
  all_goals try (simp_all [waiters_snoc, queueStep, inWait, flagPc, linkPc, saw, RepAt, plain]; done)
  all_goals first
    | (by_cases hmm : s.sh.mutex = some t
       · exact Or.inr (Or.inl ⟨hmm, hmm, fun l hl => by
           simp only [RepAt] at hl ⊢; first | exact hl | exact hl.1 | exact ⟨hl.1, fun _ => by assumption⟩⟩)
       · exact Or.inl ⟨rfl, hmm⟩)
    | (intro x hxx
       by_cases e : x = t
       · subst e; simp_all [upd_same, flagPc]; done
       · left; refine ⟨e, ?_⟩
         first | exact hxx | (simpa [upd, e] using hxx))
    | skip
  case n4.refl.refine_6 u => exact sig6 hx
  case g3.refl.refine_6 u => exact sig6 hx
  case i2.refl.refine_6 u => exact sig6 hx
  case n4.refl.refine_7 u =>
    rintro v (e | e) <;> cases e; exact upd_same _ _ _
  case g3.refl.refine_7 u =>
    rintro v (e | e) <;> cases e; exact upd_same _ _ _
  case g0.isTrue.refl.refine_8 =>
    by_cases hmm : s.sh.mutex = some t
    · exact Or.inr (Or.inl ⟨hmm, hmm, fun l hl => ⟨hl.1, by simp⟩⟩)
    · exact Or.inl ⟨rfl, hmm⟩
  case g1.isTrue.refl.refine_8 u h0 =>
    have hmm := hm.2 hr
    refine Or.inr (Or.inl ⟨hmm, hmm, fun l hl => ?_⟩)
    simp only [RepAt] at hl ⊢
    cases l with
    | nil => rfl
    | cons a l => exact absurd (hl.1.1.symm.trans h0) hl.1.2.1

end Avian.SysMonitor
