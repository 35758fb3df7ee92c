import Verif.Conc.Monitor

/-! Ownership and depth of object monitors: inductive invariant. -/

namespace Avian.Monitor

def Ctx.k : Ctx → AK
  | .try k | .loop k | .rem k | .rel k => k

/-- What a program counter says about the ownership of the monitor. -/
inductive Ph where
  /-- owner if and only if it has entered more often than left -/
  | neutral
  /-- owner, with the depth being the number of entries -/
  | solid
  /-- not owner, on the way in or out -/
  | away (k : AK)
  /-- owner with a temporary depth, on the way in or out -/
  | mine (k : AK) (d : Nat)
  | bad

def phaseP (c : Ctx) : Ph := if isRem c then .mine c.k 0 else .away c.k

def phase : Pc → Ph
  | .out | .threw | .refused | .a0 .user | .r0 .user | .w0 | .n0 _ => .neutral
  | .abort => .bad
  | .a0 (.wait d nd) => .away (.wait d nd)
  | .a1 .user => .solid
  | .a1 (.wait _ _) => .bad
  | .a2 k | .s0 k | .s1 k | .s2 k | .s3 k | .s4 k => .away k
  | .a3 k | .s5 k => .mine k 0
  | .s6 k => .mine k 1
  | .q0 k _ | .q1 k _ _ | .q2 k _ _ _ | .q3 k _ _ _ | .q4 k _ _ | .q5 k _ _ => .away k
  | .p0 c | .p1 c _ | .p2 c _ _ | .p3 c _ _ _ | .p4 c _ _ | .p5 c _ _ | .p6 c _ _ _ => phaseP c
  | .r0 (.wait d nd) | .r1 (.wait d nd) => .mine (.wait d nd) 1
  | .r1 .user => .solid
  | .r2 k => .mine k 0
  | .r3 k _ | .r4 k _ | .r5 k _ => .away k
  | .w1 | .w2 _ | .w3 _ | .w4 _ | .w9 | .n1 _ | .n2 _ _ | .n3 _ _ | .n4 _ _ => .solid
  | .w5 d nd | .w6 d nd | .w7 d nd => .away (.wait d nd)
  | .w8 d => .mine (.wait d 0) 1

/-- entries of a thread that is on the way in or out -/
def transitHeld : AK → Nat → Prop
  | .user, h => h = 0
  | .wait d _, h => h = d ∧ 0 < d

def OkPh (t : Tid) (s : Shared) : Ph → Prop
  | .neutral => (s.owner = some t ↔ 0 < s.held t) ∧ (s.owner = some t → s.depth = s.held t)
  | .solid => s.owner = some t ∧ 0 < s.held t ∧ s.depth = s.held t
  | .away k => s.owner ≠ some t ∧ transitHeld k (s.held t)
  | .mine k d => s.owner = some t ∧ s.depth = d ∧ transitHeld k (s.held t)
  | .bad => False

theorem appendWait_frame {s s' t} (h : appendWait s t = some s') :
    s'.owner = s.owner ∧ s'.depth = s.depth ∧ s'.held = s.held := by
  simp only [appendWait] at h
  split at h
  · exact absurd h (by simp)
  · split at h
    · exact absurd h (by simp)
    · cases h; cases s.waitTail <;> simp

theorem removeWait_frame {f s s' t} (h : removeWait f s t = some s') :
    s'.owner = s.owner ∧ s'.depth = s.depth ∧ s'.held = s.held := by
  simp only [removeWait] at h
  split at h
  · exact absurd h (by simp)
  · cases h
    rename_i prev _
    by_cases h1 : s.waitHead = some t <;> cases prev <;> simp only [h1, if_true, if_false] <;>
      split <;> simp_all

theorem pollWait_frame (s) :
    (pollWait s).2.owner = s.owner ∧ (pollWait s).2.depth = s.depth ∧ (pollWait s).2.held = s.held := by
  simp only [pollWait]
  split
  · simp
  · simp only; split <;> simp

theorem set_self {α : Type} (f : Nat → α) (i v) : set f i v i = v := by simp [set]
theorem set_ne {α : Type} (f : Nat → α) (i j v) (h : j ≠ i) : set f i v j = f j := by simp [set, h]

/-- the effect of a step on owner, depth and entries of other threads -/
def OwnFrame (t : Tid) (s s' : Shared) : Prop :=
  (s'.owner = s.owner ∨ (s.owner = none ∧ s'.owner = some t) ∨ (s.owner = some t ∧ s'.owner = none)) ∧
  (s.owner ≠ some t → s'.depth = s.depth) ∧
  (s'.owner = none → s'.depth = 0) ∧
  (∀ u, u ≠ t → s'.held u = s.held u)

theorem ret_ok {t s v c} (hi : OkPh t s (phaseP c)) (hp : ret t v c ≠ .abort) :
    OkPh t s (phase (ret t v c)) := by
  cases c <;> rename_i k
  · cases v <;> exact hi
  · simp only [ret]; split <;> exact hi
  · simp only [ret] at hp ⊢; split
    · exact hi
    · simp_all
  · cases v
    · cases k
      · simp_all [ret, relDone, phase, OkPh, phaseP, isRem, Ctx.k, transitHeld]
      · exact hi
    · exact hi

theorem OkPh.congr {t s s' ph} (h : OkPh t s ph) (h1 : s'.owner = s.owner) (h2 : s'.depth = s.depth)
    (h3 : s'.held t = s.held t) : OkPh t s' ph := by
  cases ph <;> simp_all [OkPh]

set_option maxHeartbeats 2000000 in
theorem own_frame {t s p s' p'} (h : Local t s p s' p') (hi : OkPh t s (phase p))
    (h0 : s.owner = none → s.depth = 0) : OwnFrame t s s' := by
  unfold OwnFrame
  cases h
  case w3ok hw => obtain ⟨e1, e2, e3⟩ := appendWait_frame hw; simp_all
  case w9still hw => obtain ⟨e1, e2, e3⟩ := removeWait_frame hw; simp_all
  case n1none hw => obtain ⟨e1, e2, e3⟩ := pollWait_frame s; simp_all
  case n1some hw => obtain ⟨e1, e2, e3⟩ := pollWait_frame s; simp_all
  case a1 k => cases k <;> simp_all [phase, OkPh, enterHeld, set]
  case a3 k => cases k <;> simp_all [phase, OkPh, enterHeld, set]
  case s6 k => cases k <;> simp_all [phase, OkPh, enterHeld, set]
  case r1last k _ => cases k <;> simp_all [phase, OkPh, leaveHeld, set]
  case r1more k _ => cases k <;> simp_all [phase, OkPh, leaveHeld, set]
  case p6ok c h n v e =>
    refine ⟨.inl rfl, fun _ => rfl, h0, fun _ _ => rfl⟩
  all_goals simp_all [phase, OkPh]

set_option maxHeartbeats 2000000 in
theorem own_local {t s p s' p'} (h : Local t s p s' p') (hi : OkPh t s (phase p)) (hp : p' ≠ .abort)
    (h0 : s.owner = none → s.depth = 0) : OkPh t s' (phase p') := by
  cases h
  case w3ok hw => obtain ⟨e1, e2, e3⟩ := appendWait_frame hw; simp_all [phase, OkPh]
  case w9still hw => obtain ⟨e1, e2, e3⟩ := removeWait_frame hw; simp_all [phase, OkPh]
  case n1none hw => obtain ⟨e1, e2, e3⟩ := pollWait_frame s; simp_all [phase, OkPh]
  case n1some hw => obtain ⟨e1, e2, e3⟩ := pollWait_frame s; simp_all [phase, OkPh]
  case a0own k _ => cases k <;> simp_all [phase, OkPh]
  case a0not k _ => cases k <;> simp_all [phase, OkPh, phaseP, isRem, Ctx.k, transitHeld]
  case a1 k => cases k <;> simp_all [phase, OkPh, enterHeld, set, acqDone]
  case a3 k => cases k <;> simp_all [phase, OkPh, enterHeld, set, acqDone, transitHeld]
  case s6 k => cases k <;> simp_all [phase, OkPh, enterHeld, set, acqDone, transitHeld]
  case r0ok k _ => cases k <;> simp_all [phase, OkPh]
  case r1last k _ => cases k <;> simp_all [phase, OkPh, leaveHeld, set, transitHeld]
  case r1more k _ =>
    cases k <;> simp_all [phase, OkPh, leaveHeld, set, relDone, transitHeld] <;> omega
  case r5 k _ => cases k <;> simp_all [phase, OkPh, relDone, transitHeld]
  case s1wait => simp_all [phase, OkPh]
  case n4 all u => cases all <;> simp_all [phase, OkPh]
  case p3empty => exact ret_ok hi hp
  case p5keep => exact ret_ok hi hp
  case p6ok => exact (ret_ok hi hp).congr rfl rfl rfl
  case r2 k => cases k <;> simp_all [phase, phaseP, isRem, Ctx.k, OkPh]
  case w4 => simp_all [phase, OkPh, transitHeld]
  all_goals simp_all [phase, OkPh, phaseP, isRem, Ctx.k, transitHeld]

/-- ownership invariant -/
structure OwnInv (s : Sys) : Prop where
  ok : ∀ t, OkPh t s.sh (phase (s.pc t))
  zero : s.sh.owner = none → s.sh.depth = 0

theorem own_init : OwnInv init := by
  constructor
  · intro t; simp [init, phase, OkPh]
  · intro; rfl

theorem own_step {s s'} (hi : OwnInv s) (hs : Step s s') (hn : ∀ t, s'.pc t ≠ .abort) : OwnInv s' := by
  obtain ⟨t, sh', p', hl⟩ := hs
  obtain ⟨f1, f2, f3, f4⟩ := own_frame hl (hi.ok t) hi.zero
  refine ⟨?_, f3⟩
  intro u
  by_cases hut : u = t
  · subst hut
    have := hn u
    simp only [set_self] at this ⊢
    exact own_local hl (hi.ok u) this hi.zero
  · simp only [set_ne _ _ _ _ hut]
    have hu := hi.ok u
    have hh := f4 u hut
    have ho : (sh'.owner = some u ↔ s.sh.owner = some u) := by
      rcases f1 with h | ⟨h1, h2⟩ | ⟨h1, h2⟩
      · rw [h]
      · rw [h1, h2]; simp; exact fun h => hut h.symm
      · rw [h1, h2]; simp; exact fun h => hut h.symm
    have hd : s.sh.owner = some u → sh'.depth = s.sh.depth := by
      intro h; apply f2; rw [h]; simp; exact fun h => hut h
    revert hu
    cases phase (s.pc u) <;> simp only [OkPh, hh, ho, ne_eq]
    · rintro ⟨h1, h2⟩; exact ⟨h1, fun h => by rw [hd h]; exact h2 h⟩
    · rintro ⟨h1, h2, h3⟩; exact ⟨h1, h2, by rw [hd h1]; exact h3⟩
    · exact id
    · rintro ⟨h1, h2, h3⟩; exact ⟨h1, by rw [hd h1]; exact h2, h3⟩
    · exact id

end Avian.Monitor
