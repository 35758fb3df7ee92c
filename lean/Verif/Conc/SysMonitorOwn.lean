import Verif.Conc.SysMonitor

/-!
Invariants of the platform monitor: ownership and the mutexes of the threads.
-/

namespace Avian.SysMonitor

/-- Entries that thread `t` holds according to the events, and the entries that it held when it began
to wait. -/
def tally (t : Nat) (a : Nat × Nat) : Ev → Nat × Nat
  | .acquired u => if u = t then (a.1 + 1, a.2) else a
  | .released u => if u = t then (a.1 - 1, a.2) else a
  | .joined u => if u = t then (0, a.1) else a
  | .resumed u _ => if u = t then (a.2, 0) else a
  | _ => a

def entries (t : Nat) (log : List Ev) : Nat × Nat := log.foldl (tally t) (0, 0)

theorem entries_snoc (t log e) : entries t (log ++ [e]) = tally t (entries t log) e := by
  simp [entries, List.foldl_append]

/-- does a thread at this program counter hold the mutex of the monitor, given its entries -/
def holds (p : Pc) (n : Nat) : Prop :=
  match p with
  | .a2 | .a3 | .r2 | .r3 | .w5 _ | .w6 _ | .w12 _ | .w13 _ | .w14 _ | .w15 _ | .w16 _ | .w17 _ | .w18 _ => True
  | .a1 | .y1 | .w7 _ | .w8 _ | .w8b _ | .w9 _ | .w10 _ | .w11 _ => False
  | _ => 0 < n

/-- is it the owner -/
def owns (p : Pc) (n : Nat) : Prop :=
  match p with
  | .a3 | .r2 | .w5 _ | .w18 _ => True
  | .a1 | .a2 | .y1 | .r3 | .w6 _ | .w7 _ | .w8 _ | .w8b _ | .w9 _ | .w10 _ | .w11 _ | .w12 _ | .w13 _ | .w14 _
  | .w15 _ | .w16 _ | .w17 _ => False
  | _ => 0 < n

/-- the entries at every program counter -/
def RegOk (p : Pc) (e : Nat × Nat) : Prop :=
  match p with
  | .a1 | .a2 | .y1 | .r2 | .r3 | .abort => e.1 = 0
  | .r1 | .w1 _ | .w2 _ | .w3 _ | .n1 | .n2 _ | .n3 _ | .n4 _ | .n5 _
  | .g1 _ | .g2 _ | .g3 _ | .g4 _ | .g5 _ | .g6 => 0 < e.1
  | .w5 w | .w6 w | .w7 w | .w8 w | .w8b w | .w9 w | .w10 w | .w11 w | .w12 w | .w13 w | .w14 w | .w15 w
  | .w16 w | .w17 w | .w18 w => e.1 = 0 ∧ e.2 = w.depth ∧ 0 < w.depth
  | _ => True

theorem owns_holds {p n} (h : owns p n) : holds p n := by
  cases p <;> simp_all [owns, holds]

structure OwnT (t : Nat) (s : Shared) (p : Pc) : Prop where
  mtx : s.mutex = some t ↔ holds p (entries t s.log).1
  own : t ≠ 0 → (s.owner = t ↔ owns p (entries t s.log).1)
  dep : s.mutex = some t → s.depth = (entries t s.log).1
  reg : RegOk p (entries t s.log)
  null : t = 0 → p = .idle ∧ entries t s.log = (0, 0)

structure OwnF (t : Nat) (s s' : Shared) : Prop where
  ent : ∀ u, u ≠ t → entries u s'.log = entries u s.log
  mtx : s'.mutex = s.mutex ∨ (s.mutex = none ∧ s'.mutex = some t) ∨ (s.mutex = some t ∧ s'.mutex = none)
  own : s'.owner = s.owner ∨ (s.mutex = some t ∧ (s'.owner = t ∨ s'.owner = 0))
  dep : s'.depth = s.depth ∨ s'.mutex = some t
  dep0 : s'.mutex = none → s.mutex = some t → s'.depth = 0

theorem append_frame {s s' t} (h : append s t = some s') :
    s'.mutex = s.mutex ∧ s'.owner = s.owner ∧ s'.depth = s.depth ∧ s'.log = s.log ∧ s'.flag = s.flag ∧
    s'.tm = s.tm ∧ s'.asleep = s.asleep ∧ s'.intr = s.intr := by
  unfold append at h
  split at h
  · split at h
    · split at h
      · cases h
      · cases h; simp
    · cases h; simp
  · cases h

theorem removeLoop_frame {t f s a b s'} (h : removeLoop t f s a b = some s') :
    s'.mutex = s.mutex ∧ s'.owner = s.owner ∧ s'.depth = s.depth ∧ s'.log = s.log ∧ s'.flag = s.flag ∧
    s'.tm = s.tm ∧ s'.asleep = s.asleep ∧ s'.intr = s.intr := by
  induction f generalizing a b with
  | zero =>
    cases b with
    | zero => simp only [removeLoop, Option.some.injEq] at h; subst h; simp
    | succ b => simp [removeLoop] at h
  | succ f ih =>
    cases b with
    | zero => simp only [removeLoop, Option.some.injEq] at h; subst h; simp
    | succ b =>
      simp only [removeLoop] at h
      split at h
      · repeat' split at h
        all_goals simp only [Option.map_some, Option.map_none, Option.some.injEq, reduceCtorEq] at h
        all_goals (subst h; split <;> simp)
      · exact ih h

theorem remove_frame {s s' t} (h : remove s t = some s') :
    s'.mutex = s.mutex ∧ s'.owner = s.owner ∧ s'.depth = s.depth ∧ s'.log = s.log ∧ s'.flag = s.flag ∧
    s'.tm = s.tm ∧ s'.asleep = s.asleep ∧ s'.intr = s.intr := by
  simp only [remove, Option.bind_eq_some_iff] at h
  obtain ⟨s1, h1, h2⟩ := h
  split at h2
  · cases h2; exact removeLoop_frame h1
  · cases h2

theorem entries_other {t u : Nat} (log : List Ev) (hu : u ≠ t) :
    entries u (log ++ [.acquired t]) = entries u log ∧ entries u (log ++ [.released t]) = entries u log ∧
    entries u (log ++ [.joined t]) = entries u log ∧ (∀ b, entries u (log ++ [.resumed t b]) = entries u log) := by
  have : ¬ t = u := fun e => hu e.symm
  simp [entries_snoc, tally, this]

set_option maxHeartbeats 4000000 in
theorem own_local {s s' : Shared} {t p p' ch} (h : localStep s t p ch = some (s', p')) (hn : p' ≠ .broken)
    (ho : OwnT t s p) (hz : s.mutex = none → s.depth = 0) : OwnT t s' p' ∧ OwnF t s s' := by
  have h0 : p ≠ .idle → t ≠ 0 := fun hp e => hp (ho.null e).1
  have hm := ho.mtx
  have hw := ho.own
  have hd := ho.dep
  have hr := ho.reg
  cases p
  all_goals simp only [localStep, lockT, lockM, unlockT, emit] at h
  all_goals try simp only [ne_eq, reduceCtorEq, not_false_eq_true, forall_const] at h0
  all_goals simp only [holds, owns, RegOk] at hm hw hr
  case w3 w =>
    split at h
    · rename_i s1 ha
      obtain ⟨f1, f2, f3, f4, f5, f6, f7, f8⟩ := append_frame ha
      cases h
      refine ⟨⟨?_, ?_, ?_, ?_, ?_⟩, ⟨?_, ?_, ?_, ?_, ?_⟩⟩ <;>
        simp_all [entries_snoc, tally, holds, owns, RegOk]
      intro u a b; exact absurd b.symm a
    · cases h; exact absurd rfl hn
  case w15 w =>
    split at h
    · split at h
      · cases h
        refine ⟨⟨?_, ?_, ?_, ?_, ?_⟩, ⟨?_, ?_, ?_, ?_, ?_⟩⟩ <;>
          simp_all [entries_snoc, tally, holds, owns, RegOk]
      · cases h; exact absurd rfl hn
    · split at h
      · rename_i s1 ha
        obtain ⟨f1, f2, f3, f4, f5, f6, f7, f8⟩ := remove_frame ha
        cases h
        refine ⟨⟨?_, ?_, ?_, ?_, ?_⟩, ⟨?_, ?_, ?_, ?_, ?_⟩⟩ <;>
          simp_all [entries_snoc, tally, holds, owns, RegOk]
      · cases h; exact absurd rfl hn
  case idle =>
    cases ch <;> simp only [reduceCtorEq] at h
    rename_i o
    split at h <;> cases h
    cases o <;> refine ⟨⟨?_, ?_, ?_, ?_, ?_⟩, ⟨?_, ?_, ?_, ?_, ?_⟩⟩ <;>
      simp_all [start, holds, owns, RegOk]
  all_goals repeat' split at h
  all_goals cases h
  all_goals refine ⟨⟨?_, ?_, ?_, ?_, ?_⟩, ⟨?_, ?_, ?_, ?_, ?_⟩⟩
  all_goals try (simp_all [entries_snoc, tally, holds, owns, RegOk]; done)
  all_goals first
    | (intro u a; simp only [entries_snoc, tally]; rw [if_neg (fun e => a e.symm)]; done)
    | (exact fun _ => ⟨fun e => absurd e.symm h0, False.elim⟩)
    | skip
  all_goals have hd := hd (hm.2 hr)
  · simp only [entries_snoc, tally, if_pos, holds]
    rw [hm]; omega
  · intro _
    simp only [entries_snoc, tally, if_pos, owns]
    rw [hw h0]; omega

structure Own (s : St) : Prop where
  thr : ∀ t, OwnT t s.sh (s.pc t)
  dep : s.sh.mutex = none → s.sh.depth = 0

theorem own_init : Own {} := by
  refine ⟨fun t => ⟨?_, ?_, ?_, ?_, ?_⟩, fun _ => rfl⟩ <;> simp [entries, holds, owns, RegOk]
  exact fun h e => h e.symm

theorem upd_same {α : Type} (f : Nat → α) (i v) : upd f i v i = v := by simp [upd]
theorem upd_ne {α : Type} {f : Nat → α} {i j v} (h : j ≠ i) : upd f i v j = f j := by simp [upd, h]

theorem own_step {s s' : St} {t ch} (ho : Own s) (h : step s t ch = some s') (hn : s'.pc t ≠ .broken) : Own s' := by
  simp only [step, Option.map_eq_some_iff] at h
  obtain ⟨⟨sh', p'⟩, hl, rfl⟩ := h
  simp only [upd_same] at hn
  obtain ⟨hT, hF⟩ := own_local hl hn (ho.thr t) ho.dep
  refine ⟨fun u => ?_, fun hm => ?_⟩
  · by_cases hu : u = t
    · subst hu; simpa only [upd_same] using hT
    · have hu' := ho.thr u
      have he := hF.ent u hu
      have hmu : sh'.mutex = some u ↔ s.sh.mutex = some u := by
        rcases hF.mtx with e | ⟨e1, e2⟩ | ⟨e1, e2⟩
        · rw [e]
        · rw [e1, e2]; simp; exact fun e => hu e.symm
        · rw [e1, e2]; simp; exact fun e => hu e.symm
      simp only [upd_ne hu]
      refine ⟨?_, ?_, ?_, ?_, ?_⟩
      · rw [hmu, he]; exact hu'.mtx
      · intro h0
        rw [he]
        rcases hF.own with e | ⟨e1, e2⟩
        · rw [e]; exact hu'.own h0
        · have : ¬ owns (s.pc u) (entries u s.sh.log).1 := fun hw => by
            have := hu'.mtx.2 (owns_holds hw)
            rw [e1] at this
            exact hu (Option.some.inj this).symm
          refine ⟨fun e => ?_, fun hw => absurd hw this⟩
          rcases e2 with e2 | e2
          · exact absurd (e.symm.trans e2) hu
          · exact absurd (e.symm.trans e2) h0
      · intro hm
        rw [he]
        rcases hF.dep with e | e
        · rw [e]; exact hu'.dep (hmu.1 hm)
        · rw [hm] at e; exact absurd (Option.some.inj e) hu
      · rw [he]; exact hu'.reg
      · rw [he]; exact hu'.null
  · rcases hF.mtx with e | ⟨e1, e2⟩ | ⟨e1, e2⟩
    · rcases hF.dep with d | d
      · show sh'.depth = 0
        rw [d]; exact ho.dep (e ▸ hm)
      · exact absurd (d.symm.trans hm) (by simp)
    · exact absurd (e2.symm.trans hm) (by simp)
    · exact hF.dep0 e2 e1

end Avian.SysMonitor
