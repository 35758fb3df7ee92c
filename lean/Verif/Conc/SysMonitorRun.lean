import Verif.Conc.SysMonitorInv

/-!
The platform monitor: the invariants hold in every reachable state, every event meets its specification,
and threads do not block each other for ever.
-/

namespace Avian.SysMonitor

/-- the thread has been given a notification since it began to wait, and has not left the list -/
def toldStep (u : Nat) (b : Bool) : Ev → Bool
  | .joined t => if t = u then false else b
  | .told t => if t = u then true else b
  | .left t _ => if t = u then false else b
  | _ => b

def toldSince (u : Nat) (log : List Ev) : Bool := log.foldl (toldStep u) false

theorem toldSince_snoc (u log e) : toldSince u (log ++ [e]) = toldStep u (toldSince u log) e := by
  simp [toldSince, List.foldl_append]

/-- What the callers may rely on when an event happens after the events `pre`. -/
def EvOk (pre : List Ev) : Ev → Prop
  | .acquired t => ∀ u, u ≠ t → (entries u pre).1 = 0
  | .refused t => (entries t pre).1 = 0
  | .released t => 0 < (entries t pre).1
  | .joined t => 0 < (entries t pre).1 ∧ t ∉ waiters pre
  | .told u => ∃ rest, waiters pre = u :: rest
  | .nobody _ => waiters pre = []
  | .toldAll _ => waiters pre = []
  | .left t n => n = true → toldSince t pre = true
  | .resumed t _ => t ∉ waiters pre ∧ ∀ u, (entries u pre).1 = 0
  | .aborted t => (entries t pre).1 = 0

structure Told (s : St) : Prop where
  flg : ∀ u, s.sh.flag u = true → toldSince u s.sh.log = true
  saw : ∀ u, saw (s.pc u) = true → toldSince u s.sh.log = true
  lst : ∀ u, toldSince u s.sh.log = true → s.sh.flag u = true ∨ ∃ w, s.pc u = .w14 w ∨ s.pc u = .w15 w

structure Inv (s : St) : Prop where
  own : Own s
  tm : Tm s
  q : Q s
  told : Told s

theorem inv_init : Inv {} :=
  ⟨own_init, tm_init, q_init, ⟨by simp, by simp [saw], by simp [toldSince]⟩⟩

theorem told_quiet {s : St} {t s' p'} (h : Told s) (hl : ∀ u, toldSince u s'.log = toldSince u s.sh.log) (hf : s'.flag = s.sh.flag)
    (h1 : saw p' = true → saw (s.pc t) = true ∨ s.sh.flag t = true)
    (h2 : (∃ w, s.pc t = .w14 w ∨ s.pc t = .w15 w) → ∃ w, p' = .w14 w ∨ p' = .w15 w) :
    Told { sh := s', pc := upd s.pc t p' } := by
  refine ⟨fun u hu => ?_, fun u hu => ?_, fun u hu => ?_⟩
  · show toldSince u s'.log = true
    rw [hl]; exact h.flg u (by rw [← hf]; exact hu)
  · show toldSince u s'.log = true
    have hu : SysMonitor.saw (upd s.pc t p' u) = true := hu
    rw [hl]
    by_cases e : u = t
    · subst e; rw [upd_same] at hu
      rcases h1 hu with h1 | h1
      · exact h.saw u h1
      · exact h.flg u h1
    · rw [upd_ne e] at hu; exact h.saw u hu
  · have hu : toldSince u s'.log = true := hu
    rw [hl] at hu
    show s'.flag u = true ∨ ∃ w, upd s.pc t p' u = .w14 w ∨ upd s.pc t p' u = .w15 w
    rw [hf]
    rcases h.lst u hu with h3 | h3
    · exact Or.inl h3
    · right
      by_cases e : u = t
      · subst e; rw [upd_same]; exact h2 h3
      · rw [upd_ne e]; exact h3

set_option maxHeartbeats 4000000 in
theorem told_local {s : St} {s' : Shared} {t p' ch} (h : localStep s.sh t (s.pc t) ch = some (s', p')) (hn : p' ≠ .broken)
    (q : Q s) (hT : Told s) : Told { sh := s', pc := upd s.pc t p' } := by
  have hq : ∀ {s1 p1 p2}, s.pc t = p1 → (∀ u, toldSince u s1.log = toldSince u s.sh.log) → s1.flag = s.sh.flag →
      (saw p2 = true → saw p1 = true ∨ s.sh.flag t = true) → ((∃ w, p1 = .w14 w ∨ p1 = .w15 w) → ∃ w, p2 = .w14 w ∨ p2 = .w15 w) →
      Told { sh := s1, pc := upd s.pc t p2 } :=
    fun he a b c d => told_quiet hT a b (he ▸ c) (he ▸ d)
  have hfl := q.flg t
  generalize hp : s.pc t = p at h hfl
  have left : ∀ {s1 : Shared} {b p2}, s1.log = s.sh.log ++ [.left t b] ∨ s1.log = s.sh.log ++ [.joined t] → s1.flag = s.sh.flag → saw p2 = false →
      flagPc p = false → Told { sh := s1, pc := upd s.pc t p2 } := by
    intro s1 b p2 hl hf hs hfp
    have h1 : toldSince t s1.log = false := by rcases hl with hl | hl <;> rw [hl, toldSince_snoc] <;> simp [toldStep]
    have h2 : ∀ u, u ≠ t → toldSince u s1.log = toldSince u s.sh.log := by
      intro u hu
      have : ¬ t = u := fun e => hu e.symm
      rcases hl with hl | hl <;> rw [hl, toldSince_snoc] <;> simp [toldStep, this]
    refine ⟨fun u hu => ?_, fun u hu => ?_, fun u hu => ?_⟩
    · have hu' : s.sh.flag u = true := by rw [← hf]; exact hu
      by_cases e : u = t
      · rw [e] at hu'; rw [hfl hu'] at hfp; cases hfp
      · show toldSince u s1.log = true
        rw [h2 u e]; exact hT.flg u hu'
    · have hu : SysMonitor.saw (upd s.pc t p2 u) = true := hu
      by_cases e : u = t
      · subst e; rw [upd_same, hs] at hu; cases hu
      · rw [upd_ne e] at hu
        show toldSince u s1.log = true
        rw [h2 u e]; exact hT.saw u hu
    · have hu : toldSince u s1.log = true := hu
      have e : u ≠ t := fun e => by rw [e, h1] at hu; cases hu
      rw [h2 u e] at hu
      show s1.flag u = true ∨ ∃ w, upd s.pc t p2 u = .w14 w ∨ upd s.pc t p2 u = .w15 w
      rw [hf, upd_ne e]; exact hT.lst u hu
  have told : ∀ {u p2}, saw p2 = false → flagPc p = false → (¬ ∃ w, p = .w14 w ∨ p = .w15 w) →
      Told { sh := { s.sh with flag := upd s.sh.flag u true, log := s.sh.log ++ [.told u] }, pc := upd s.pc t p2 } := by
    intro u p2 hs hfp hpp
    have h1 : toldSince u (s.sh.log ++ [.told u]) = true := by rw [toldSince_snoc]; simp [toldStep]
    have h2 : ∀ v, v ≠ u → toldSince v (s.sh.log ++ [.told u]) = toldSince v s.sh.log := by
      intro v hv
      have : ¬ u = v := fun e => hv e.symm
      rw [toldSince_snoc]; simp [toldStep, this]
    have h3 : ∀ v, toldSince v s.sh.log = true → toldSince v (s.sh.log ++ [.told u]) = true := by
      intro v hv
      by_cases e : v = u
      · rw [e]; exact h1
      · rw [h2 v e]; exact hv
    refine ⟨fun v hv => ?_, fun v hv => ?_, fun v hv => ?_⟩
    · have hv : upd s.sh.flag u true v = true := hv
      show toldSince v (s.sh.log ++ [.told u]) = true
      by_cases e : v = u
      · rw [e]; exact h1
      · rw [upd_ne e] at hv; exact h3 v (hT.flg v hv)
    · have hv : SysMonitor.saw (upd s.pc t p2 v) = true := hv
      show toldSince v (s.sh.log ++ [.told u]) = true
      by_cases e : v = t
      · rw [e, upd_same, hs] at hv; cases hv
      · rw [upd_ne e] at hv; exact h3 v (hT.saw v hv)
    · have hv : toldSince v (s.sh.log ++ [.told u]) = true := hv
      show upd s.sh.flag u true v = true ∨ ∃ w, upd s.pc t p2 v = .w14 w ∨ upd s.pc t p2 v = .w15 w
      by_cases e : v = u
      · rw [e, upd_same]; exact Or.inl rfl
      · rw [h2 v e] at hv
        rw [upd_ne e]
        rcases hT.lst v hv with h4 | h4
        · exact Or.inl h4
        · by_cases e' : v = t
          · subst e'; rw [hp] at h4; exact absurd h4 hpp
          · rw [upd_ne e']; exact Or.inr h4
  cases p
  all_goals simp only [localStep, lockT, lockM, unlockT, emit] at h
  case w3 w =>
    split at h
    · rename_i s1 ha
      obtain ⟨f1, f2, f3, f4, f5, f6, f7, f8⟩ := append_frame ha
      cases h
      exact left (b := true) (Or.inr (by rw [← f4])) f5 rfl rfl
    · cases h; exact absurd rfl hn
  case w15 w =>
    split at h
    · split at h
      · cases h; exact left (Or.inl rfl) rfl rfl rfl
      · cases h; exact absurd rfl hn
    · split at h
      · rename_i s1 ha
        obtain ⟨f1, f2, f3, f4, f5, f6, f7, f8⟩ := remove_frame ha
        cases h
        exact left (Or.inl (by rw [← f4])) f5 rfl rfl
      · cases h; exact absurd rfl hn
  case w13 w =>
    cases h
    refine ⟨fun u hu => ?_, fun u hu => ?_, fun u hu => ?_⟩
    · have hu : upd s.sh.flag t false u = true := hu
      have e : u ≠ t := fun e => by rw [e, upd_same] at hu; cases hu
      rw [upd_ne e] at hu; exact hT.flg u hu
    · have hu : SysMonitor.saw (upd s.pc t (.w14 w) u) = true := hu
      by_cases e : u = t
      · subst e; rw [upd_same] at hu; exact hT.saw u (by rw [hp]; exact hu)
      · rw [upd_ne e] at hu; exact hT.saw u hu
    · show upd s.sh.flag t false u = true ∨ ∃ w', upd s.pc t (.w14 w) u = .w14 w' ∨ upd s.pc t (.w14 w) u = .w15 w'
      by_cases e : u = t
      · subst e; right; exact ⟨w, Or.inl (upd_same _ _ _)⟩
      · rw [upd_ne e, upd_ne e]; exact hT.lst u hu
  case n3 u => cases h; exact told rfl rfl (by simp)
  case g2 u => cases h; exact told rfl rfl (by simp)
  case idle =>
    cases ch <;> simp only [reduceCtorEq] at h
    rename_i o
    split at h <;> cases h
    cases o <;> exact hq hp (fun _ => rfl) rfl (by simp [start, saw]) (by simp)
  all_goals repeat' split at h
  all_goals cases h
  all_goals try exact absurd rfl hn
  all_goals refine hq hp ?_ rfl ?_ ?_
  all_goals try (simp [toldSince_snoc, toldStep, saw]; done)
  all_goals exact fun h => Or.inl h

theorem step_inv {s s' : St} {t ch} (hi : Inv s) (h : step s t ch = some s') : Inv s' ∧ s'.pc t ≠ .broken := by
  have h' := h
  simp only [step, Option.map_eq_some_iff] at h
  obtain ⟨⟨sh', p'⟩, hl, rfl⟩ := h
  obtain ⟨hn, hq⟩ := q_local hl hi.own hi.tm hi.q
  have hn' : upd s.pc t p' t ≠ .broken := by rw [upd_same]; exact hn
  exact ⟨⟨own_step hi.own h' hn', tm_step hi.tm h' hn', hq, told_local hl hn hi.q hi.told⟩, hn'⟩

theorem reachable_inv {s : St} (h : Reachable s) : Inv s := by
  induction h with
  | init => exact inv_init
  | step _ h ih => exact (step_inv ih h).1

theorem others_zero {s : St} (hi : Inv s) {t} (hm : s.sh.mutex = some t ∨ s.sh.mutex = none) {u} (hu : u ≠ t) :
    (entries u s.sh.log).1 = 0 := by
  have h1 := (hi.own.thr u).mtx
  have h2 := (hi.own.thr u).reg
  have h3 : ¬ s.sh.mutex = some u := by
    rcases hm with hm | hm <;> rw [hm]
    · exact fun e => hu (Option.some.inj e).symm
    · simp
  rw [h1] at h3
  cases hp : s.pc u <;> rw [hp] at h2 h3 <;> simp only [holds, RegOk, not_true_eq_false] at h2 h3 <;> omega

set_option maxHeartbeats 4000000 in
/-- every step adds at most one event, which meets its specification -/
theorem step_log {s s' : St} {t ch} (hi : Inv s) (h : step s t ch = some s') :
    s'.sh.log = s.sh.log ∨ ∃ e, s'.sh.log = s.sh.log ++ [e] ∧ EvOk s.sh.log e := by
  have hnb := (step_inv hi h).2
  simp only [step, Option.map_eq_some_iff] at h
  obtain ⟨⟨s1, p'⟩, h, rfl⟩ := h
  simp only [upd_same] at hnb
  show s1.log = s.sh.log ∨ ∃ e, s1.log = s.sh.log ++ [e] ∧ EvOk s.sh.log e
  have hm := (hi.own.thr t).mtx
  have hw := (hi.own.thr t).own
  have hr := (hi.own.thr t).reg
  have hrep := hi.q.rep
  have h0 : s.pc t ≠ .idle → t ≠ 0 := fun hp e => hp ((hi.own.thr t).null e).1
  have hW : inWait (s.pc t) = false → t ∉ waiters s.sh.log := fun hp hmm => by
    rw [(hi.q.mem t hmm).1] at hp; cases hp
  have ha : s.sh.owner ≠ t → s.pc t ≠ .idle → owns (s.pc t) = owns .idle → (entries t s.sh.log).1 = 0 := by
    intro ho hp he
    have := (not_congr (hw (h0 hp))).1 ho
    rw [he] at this
    simp only [owns] at this; omega
  generalize hp : s.pc t = p at h hm hr hw h0 hW ha
  cases p
  all_goals simp only [localStep, lockT, lockM, unlockT, emit] at h
  all_goals simp only [holds, RegOk] at hm hr
  case idle =>
    cases ch <;> simp only [reduceCtorEq] at h
    split at h <;> cases h
    exact Or.inl rfl
  case w3 w =>
    split at h
    · rename_i s2 ha
      obtain ⟨f1, f2, f3, f4, f5, f6, f7, f8⟩ := append_frame ha
      cases h
      exact Or.inr ⟨.joined t, by rw [← f4], hr, hW rfl⟩
    · cases h; exact absurd rfl hnb
  case w15 w =>
    split at h
    · rename_i hnn
      split at h
      · cases h; exact Or.inr ⟨_, rfl, fun _ => hi.told.saw t (by rw [hp]; exact hnn)⟩
      · cases h; exact absurd rfl hnb
    · split at h
      · rename_i s2 ha
        obtain ⟨f1, f2, f3, f4, f5, f6, f7, f8⟩ := remove_frame ha
        cases h
        exact Or.inr ⟨.left t false, by rw [← f4], fun e => by cases e⟩
      · cases h; exact absurd rfl hnb
  case n1 =>
    have hmu := hm.2 hr
    simp only [Rep, hmu, hp, RepAt] at hrep
    split at h
    · rename_i hf
      cases h
      refine Or.inr ⟨_, rfl, ?_⟩
      show waiters s.sh.log = []
      cases hW : waiters s.sh.log with
      | nil => rfl
      | cons a l => rw [hW] at hrep; exact absurd (hrep.1.1.symm.trans hf) hrep.1.2.1
    · repeat' split at h
      all_goals cases h
      all_goals exact Or.inl rfl
  case n3 u =>
    have hmu := hm.2 hr
    simp only [Rep, hmu, hp, RepAt] at hrep
    cases h
    obtain ⟨rest, h1, _⟩ := hrep
    exact Or.inr ⟨_, rfl, rest, h1⟩
  case g2 u =>
    have hmu := hm.2 hr
    simp only [Rep, hmu, hp, RepAt] at hrep
    cases h
    refine Or.inr ⟨_, rfl, ?_⟩
    cases hW : waiters s.sh.log with
    | nil => rw [hW] at hrep; exact absurd hrep.1 (hrep.2 trivial)
    | cons a l => rw [hW] at hrep; exact ⟨l, by rw [hW, hrep.1.1]⟩
  case g6 =>
    have hmu := hm.2 hr
    simp only [Rep, hmu, hp, RepAt] at hrep
    cases h
    exact Or.inr ⟨_, rfl, hrep⟩
  case a3 =>
    cases h
    exact Or.inr ⟨_, rfl, fun u hu => others_zero hi (Or.inl (hm.2 trivial)) hu⟩
  case w18 w =>
    cases h
    refine Or.inr ⟨_, rfl, hW rfl, fun u => ?_⟩
    by_cases e : u = t
    · rw [e]; exact hr.1
    · exact others_zero hi (Or.inl (hm.2 trivial)) e
  case y1 =>
    split at h <;> cases h
    · exact Or.inl rfl
    · exact Or.inr ⟨_, rfl, hr⟩
  case r1 =>
    cases h
    exact Or.inr ⟨_, rfl, hr⟩
  case r0 =>
    split at h <;> cases h
    · exact Or.inl rfl
    · exact Or.inr ⟨_, rfl, ha (by assumption) (by simp) rfl⟩
  case w0 =>
    split at h <;> cases h
    · exact Or.inl rfl
    · exact Or.inr ⟨_, rfl, ha (by assumption) (by simp) rfl⟩
  case n0 =>
    split at h <;> cases h
    · exact Or.inl rfl
    · exact Or.inr ⟨_, rfl, ha (by assumption) (by simp) rfl⟩
  case g0 =>
    split at h <;> cases h
    · exact Or.inl rfl
    · exact Or.inr ⟨_, rfl, ha (by assumption) (by simp) rfl⟩
  all_goals repeat' split at h
  all_goals cases h
  all_goals exact Or.inl rfl

theorem log_ok {s : St} (h : Reachable s) : ∀ pre e post, s.sh.log = pre ++ e :: post → EvOk pre e := by
  induction h with
  | init =>
    intro pre e post h
    have : ([] : List Ev) = pre ++ e :: post := h
    simp at this
  | step hr hs ih =>
    intro pre e post h
    rcases step_log (reachable_inv hr) hs with hl | ⟨e', hl, hok⟩
    · exact ih pre e post (hl ▸ h)
    · rw [hl] at h
      rcases List.eq_nil_or_concat post with rfl | ⟨post', z, rfl⟩
      · have := List.append_inj' h (by simp)
        obtain ⟨h1, h2⟩ := this
        cases h2
        rw [← h1]; exact hok
      · have h' := h
        rw [show pre ++ e :: post'.concat z = (pre ++ e :: post') ++ [z] by simp] at h'
        have := List.append_inj' h' (by simp)
        exact ih pre e post' this.1

/-! ### Progress -/

/-- a thread that holds a thread's mutex never has to wait -/
theorem tm_holder_steps {s : Shared} {t p} (h : ownTm t p ≠ none) : (localStep s t p .go).isSome = true := by
  cases p <;> simp only [ownTm, ne_eq, not_true_eq_false, reduceCtorEq, not_false_eq_true] at h <;>
    simp only [localStep] <;> (repeat' split) <;> rfl

/-- the thread whose mutex the next step takes -/
def wantsTm (t : Nat) : Pc → Option Nat
  | .w1 _ | .w8 _ | .w12 _ | .c0 => some t
  | .n2 u | .i0 u => some u
  | .g1 u => if u = 0 then none else some u
  | _ => none

def wantsMutex : Pc → Bool
  | .a1 | .w11 _ => true
  | _ => false

/-- inside a call, not asleep -/
def busy (s : St) (t : Nat) : Prop :=
  s.pc t ≠ .idle ∧ s.pc t ≠ .abort ∧ s.sh.asleep t = false

theorem free_steps {s : Shared} {t p} (h1 : p ≠ .idle) (h2 : p ≠ .abort) (h3 : p ≠ .broken) (h4 : s.asleep t = false)
    (hm : wantsMutex p = true → s.mutex = none) (ht : ∀ u, wantsTm t p = some u → s.tm u = none) :
    (localStep s t p .go).isSome = true := by
  cases p <;> simp only [ne_eq, not_true_eq_false] at h1 h2 h3 <;> simp only [localStep, lockT, lockM]
  all_goals first
    | (rw [if_pos (ht _ rfl)]; rfl)
    | (rw [if_pos (hm rfl)]; rfl)
    | (rw [if_pos (show (s.asleep t = false ∨ Choice.go = .timeout) ∧ s.tm t = none from ⟨Or.inl h4, ht _ rfl⟩)]; rfl)
    | ((repeat' split) <;> rfl)
    | skip
  case g1 u =>
    by_cases h0 : u = 0
    · rw [if_pos h0]; rfl
    · rw [if_neg h0, if_pos (ht u (by simp only [wantsTm]; rw [if_neg h0]))]; rfl

/-- the next step of a busy thread, or of the thread that it waits for -/
theorem progress {s : St} (hr : Reachable s) (hb : ∀ t, s.pc t ≠ .broken) {t} (h : busy s t) :
    (∃ u, s.pc u ≠ .idle ∧ (step s u .go).isSome = true) ∨
    (∃ u, s.sh.mutex = some u ∧ s.pc u = .idle ∧ 0 < (entries u s.sh.log).1) := by
  have hi := reachable_inv hr
  have go : ∀ u, s.pc u ≠ .idle → (localStep s.sh u (s.pc u) .go).isSome = true →
      ∃ u, s.pc u ≠ .idle ∧ (step s u .go).isSome = true := fun u h1 h2 => ⟨u, h1, by simpa [step] using h2⟩
  -- a thread that needs no mutex of the monitor
  have key : ∀ v, busy s v → (wantsMutex (s.pc v) = true → s.sh.mutex = none) →
      ∃ u, s.pc u ≠ .idle ∧ (step s u .go).isSome = true := by
    intro v hv hm
    by_cases hx : ∃ u x, wantsTm v (s.pc v) = some u ∧ s.sh.tm u = some x
    · obtain ⟨u, x, _, hx⟩ := hx
      have := (hi.tm x u).1 hx
      exact go x (fun e => by rw [e] at this; cases this) (tm_holder_steps (by rw [this]; simp))
    · refine go v hv.1 (free_steps hv.1 hv.2.1 (hb v) hv.2.2 hm (fun u hu => ?_))
      cases htm : s.sh.tm u with
      | none => rfl
      | some x => exact absurd ⟨u, x, hu, htm⟩ hx
  by_cases hm : wantsMutex (s.pc t) = true → s.sh.mutex = none
  · exact Or.inl (key t h hm)
  · cases hmu : s.sh.mutex with
    | none => exact absurd (fun _ => hmu) hm
    | some v =>
      have hv := (hi.own.thr v).mtx.1 hmu
      have hreg := (hi.own.thr v).reg
      by_cases hid : s.pc v = .idle
      · right; refine ⟨v, rfl, hid, ?_⟩
        rw [hid] at hv; exact hv
      · left
        refine key v ⟨hid, ?_, ?_⟩ ?_
        · intro e; rw [e] at hv hreg; simp only [holds, RegOk] at hv hreg; omega
        · refine Bool.eq_false_iff.2 fun hs => ?_
          obtain ⟨w, e⟩ := hi.q.slp v hs
          rw [e] at hv; exact hv
        · intro hw
          exfalso
          cases hp : s.pc v <;> rw [hp] at hw hv <;> simp_all [wantsMutex, holds]

end Avian.SysMonitor
