import Verif.Conc.Enter

/-! Inductive invariants of the thread state protocol. -/

namespace Avian.Enter

/-- contribution of a thread to `activeCount` -/
def counted : Pc → Int
  | .active | .exclusive | .x0 true | .x1 true | .x2 | .x4g | .x4h | .x4i | .x4u | .x5 true | .x6 _
  | .x7 | .x8 | .x8d | .x8w | .x9 | .i1 | .z0 _ _ | .z1 _ _ | .z2 _ | .a3 | .a4 | .a5 | .a11 _ | .a12
  | .e0 | .e1 | .e2 | .e3 | .e4 => 1
  | _ => 0

/-- program counters at which the state lock is held -/
def holds : Pc → Bool
  | .x1 _ | .x2 | .x2b | .x2c | .x2n | .x3 _ | .x4 | .x4f | .x4g | .x4h | .x4i | .x4j | .x4k | .x4n
  | .x4s | .x4d | .x4t | .x4u | .x5 _ | .x6 _ | .x7 | .x8 | .x8d | .x9 | .i5 | .i6 | .z1 _ _ | .z2 _
  | .z3 _ | .z4 _ | .z5 _ | .a7n | .a7r | .a9 _ | .a9d _ | .a10 _ | .a11 _ | .a12 | .e1 | .e2 | .e3
  | .e4 => true
  | _ => false

/-- program counters at which `exclusive` names the thread -/
def owns : Pc → Bool
  | .x8 | .x8d | .x8w | .x9 | .exclusive | .z0 true _ | .z1 true _ | .e0 | .e1 | .e2 => true
  | _ => false

/-- program counters at which `exclusive` is clear because the lock is held since it was tested -/
def needNone : Pc → Bool
  | .x5 _ | .x6 _ | .x7 | .x4f | .x4g | .x4h | .x4t | .x4u | .a10 _ | .a11 _ | .a12 => true
  | _ => false

/-- program counters at which `exclusive` is set because the lock is held since it was tested -/
def needSome : Pc → Bool
  | .x2 | .x2b | .x2c | .x2n | .x3 _ | .x4d | .a9d _ => true
  | _ => false

/-- the thread has achieved the exclusive state and not yet given it up -/
def passed : Pc → Bool
  | .x9 | .exclusive | .z0 true _ | .z1 true _ | .e0 | .e1 | .e2 => true
  | _ => false

/-- counted, but bound to look at `exclusive` before becoming active -/
def transient : Pc → Bool
  | .a3 | .a4 | .a5 => true
  | _ => false

/-- has left the active count and will notify the waiters if `exclusive` is set -/
def willNotify : Pc → Bool
  | .i2 | .i3 | .i4 | .i5 | .a6 | .a7 | .a7l | .a7n | .z3 _ | .z4 _ | .x2b | .x2c | .x2n | .x4j | .x4k
  | .x4n => true
  | _ => false

/-- will notify the waiters unconditionally -/
def willNotifyAll : Pc → Bool
  | .z2 _ | .z3 _ | .z4 _ | .e3 => true
  | _ => false

/-- waits until `exclusive` is clear -/
def waitsFree : Pc → Bool
  | .x3w _ | .x4w | .a9w _ => true
  | _ => false

/-- sum over the threads -/
def total (n : Nat) (f : Tid → Int) : Int := ((List.range n).map f).sum

theorem sum_upd (l : List Nat) (hd : l.Nodup) (f : Tid → Int) (t : Tid) (v : Int) :
    (l.map (fun u => if u = t then v else f u)).sum = (l.map f).sum + (if t ∈ l then v - f t else 0) := by
  induction l with
  | nil => simp
  | cons a l ih =>
    have hd' := List.nodup_cons.1 hd
    simp only [List.map_cons, List.sum_cons, ih hd'.2]
    by_cases h : a = t
    · subst h
      have : a ∉ l := hd'.1
      simp [this]; omega
    · have h' : t ≠ a := fun e => h e.symm
      simp only [h, if_false, List.mem_cons, h', false_or]
      omega

theorem total_upd (n : Nat) (pc : Tid → Pc) (t : Tid) (p : Pc) (ht : t < n) :
    total n (fun u => counted (upd pc t p u)) =
      total n (fun u => counted (pc u)) + (counted p - counted (pc t)) := by
  have := sum_upd (List.range n) List.nodup_range (fun u => counted (pc u)) t (counted p)
  rw [if_pos (List.mem_range.2 ht)] at this
  rw [total, total, ← this]
  congr 2
  funext u
  simp only [upd]
  split <;> rfl

theorem counted_01 (p : Pc) : counted p = 0 ∨ counted p = 1 := by
  unfold counted; split <;> simp

theorem sum_nonneg (l : List Nat) (pc : Tid → Pc) : 0 ≤ (l.map (fun u => counted (pc u))).sum := by
  induction l with
  | nil => simp
  | cons a l ih =>
    simp only [List.map_cons, List.sum_cons]
    have := counted_01 (pc a)
    omega

theorem sum_ge_one (l : List Nat) (pc : Tid → Pc) (t : Tid) (h : t ∈ l) :
    counted (pc t) ≤ (l.map (fun u => counted (pc u))).sum := by
  induction l with
  | nil => simp at h
  | cons a l ih =>
    simp only [List.map_cons, List.sum_cons]
    have h1 := counted_01 (pc a)
    have h2 := sum_nonneg l pc
    rcases List.mem_cons.1 h with h | h
    · subst h; omega
    · have := ih h; omega

theorem sum_ge_two (l : List Nat) (pc : Tid → Pc) (t e : Tid) (hne : t ≠ e) (h : t ∈ l) (he : e ∈ l) :
    counted (pc t) + counted (pc e) ≤ (l.map (fun u => counted (pc u))).sum := by
  induction l with
  | nil => simp at h
  | cons a l ih =>
    simp only [List.map_cons, List.sum_cons]
    have h1 := counted_01 (pc a)
    rcases List.mem_cons.1 h with h' | h'
    · subst h'
      rcases List.mem_cons.1 he with he | he
      · exact absurd he.symm hne
      · have := sum_ge_one l pc e he; omega
    · rcases List.mem_cons.1 he with he | he
      · subst he; have h3 := sum_ge_one l pc t h'; omega
      · have := ih h' he; omega

theorem sum_two_exists (l : List Nat) (pc : Tid → Pc) (e : Tid)
    (h : counted (pc e) < (l.map (fun u => counted (pc u))).sum) (hd : l.Nodup) :
    ∃ t ∈ l, t ≠ e ∧ counted (pc t) = 1 := by
  induction l with
  | nil =>
    simp only [List.map_nil, List.sum_nil] at h
    have := counted_01 (pc e); omega
  | cons a l ih =>
    simp only [List.map_cons, List.sum_cons] at h
    have hd' := List.nodup_cons.1 hd
    by_cases hae : a = e
    · subst hae
      -- some other thread counts
      have hpos : 0 < (l.map (fun u => counted (pc u))).sum := by omega
      clear h ih hd
      obtain ⟨hnot, hdl⟩ := hd'
      induction l with
      | nil => simp at hpos
      | cons b l ih =>
        simp only [List.map_cons, List.sum_cons] at hpos
        rcases counted_01 (pc b) with hb | hb
        · obtain ⟨t, ht, h1, h2⟩ := ih (by omega) (fun h => hnot (by simp [h])) (List.nodup_cons.1 hdl).2
          refine ⟨t, ?_, h1, h2⟩
          simp only [List.mem_cons] at ht ⊢
          rcases ht with ht | ht
          · exact .inl ht
          · exact .inr (.inr ht)
        · exact ⟨b, by simp, fun hba => hnot (by simp [hba]), hb⟩
    · rcases counted_01 (pc a) with ha | ha
      · obtain ⟨t, ht, h1, h2⟩ := ih (by omega) hd'.2
        exact ⟨t, by simp [ht], h1, h2⟩
      · exact ⟨a, by simp, hae, ha⟩

/-- the invariant -/
structure Inv (n : Nat) (s : Sys) : Prop where
  out : ∀ t, n ≤ t → s.pc t = .noState
  cnt : s.sh.count = total n (fun u => counted (s.pc u))
  lock : ∀ t, holds (s.pc t) = true ↔ s.sh.lock = some t
  own : ∀ t, owns (s.pc t) = true ↔ s.sh.excl = some t
  none_ : ∀ t, needNone (s.pc t) = true → s.sh.excl = none
  some_ : ∀ t, needSome (s.pc t) = true → s.sh.excl ≠ none
  excl : ∀ e t, t ≠ e → passed (s.pc e) = true → counted (s.pc t) = 1 → transient (s.pc t) = true
  wake : ∀ e, s.pc e = .x8d ∨ (s.pc e = .x8w ∧ s.sh.waiting e = true) →
    s.sh.count > 1 ∨ ∃ t, willNotify (s.pc t) = true
  wakeFree : ∀ t, waitsFree (s.pc t) = true → s.sh.waiting t = true →
    s.sh.excl ≠ none ∨ ∃ u, willNotifyAll (s.pc u) = true

/-! Facts about single steps. -/

theorem local_count {t s p s' p'} (h : Local t s p s' p') :
    s'.count = s.count + (counted p' - counted p) := by
  cases h <;> (try simp only [Shared.take, Shared.drop, Shared.add, Shared.sleep, Shared.wake,
    Shared.notifyAll])
  case x0 o _ => cases o <;> simp [counted]
  case x1free o _ => cases o <;> simp [counted]
  case z5 zb => cases zb <;> simp [counted]
  all_goals simp [counted]

/-- lock changes of one step -/
theorem local_lock {t s p s' p'} (h : Local t s p s' p') (hi : holds p = true ↔ s.lock = some t) :
    (holds p' = true ↔ s'.lock = some t) ∧
    (s'.lock = s.lock ∨ (s.lock = none ∧ s'.lock = some t) ∨ (s.lock = some t ∧ s'.lock = none)) := by
  cases h
  case z5 zb => cases zb <;> simp_all [holds, Shared.drop]
  all_goals simp_all [holds, Shared.take, Shared.drop, Shared.add, Shared.sleep, Shared.wake,
        Shared.notifyAll]

/-- changes of `exclusive` in one step -/
theorem local_own {t s p s' p'} (h : Local t s p s' p') (hi : owns p = true ↔ s.excl = some t)
    (hn : needNone p = true → s.excl = none) :
    (owns p' = true ↔ s'.excl = some t) ∧
    (s'.excl = s.excl ∨ (s.excl = none ∧ s'.excl = some t ∧ holds p = true) ∨
      (s.excl = some t ∧ s'.excl = none ∧ holds p = true)) := by
  cases h
  case z5 zb => cases zb <;> simp_all [owns, Shared.drop]
  case z0 ex zb _ => cases ex <;> simp_all [owns, Shared.take]
  all_goals simp_all [owns, holds, needNone, Shared.take, Shared.drop, Shared.add, Shared.sleep,
        Shared.wake, Shared.notifyAll]

theorem local_none {t s p s' p'} (h : Local t s p s' p') (hn : needNone p = true → s.excl = none) :
    needNone p' = true → s'.excl = none := by
  cases h
  case z5 zb => cases zb <;> simp_all [needNone, Shared.drop]
  all_goals simp_all [needNone, Shared.take, Shared.drop, Shared.add, Shared.sleep,
        Shared.wake, Shared.notifyAll]

theorem local_some {t s p s' p'} (h : Local t s p s' p') (hn : needSome p = true → s.excl ≠ none) :
    needSome p' = true → s'.excl ≠ none := by
  cases h
  case z5 zb => cases zb <;> simp_all [needSome, Shared.drop]
  all_goals simp_all [needSome, Shared.take, Shared.drop, Shared.add, Shared.sleep,
        Shared.wake, Shared.notifyAll]

theorem needNone_holds {p : Pc} (h : needNone p = true) : holds p = true := by
  cases p <;> simp_all [needNone, holds]

theorem needSome_holds {p : Pc} (h : needSome p = true) : holds p = true := by
  cases p <;> simp_all [needSome, holds]

theorem passed_owns {p : Pc} (h : passed p = true) : owns p = true := by
  cases p
  case z0 ex zb => cases ex <;> simp_all [passed, owns]
  case z1 ex zb => cases ex <;> simp_all [passed, owns]
  all_goals simp_all [passed, owns]

theorem owns_counted {p : Pc} (h : owns p = true) : counted p = 1 := by
  cases p
  case z0 ex zb => cases ex <;> simp_all [owns, counted]
  case z1 ex zb => cases ex <;> simp_all [owns, counted]
  all_goals simp_all [owns, counted]

/-- while another thread owns the exclusive state, a step does not make a thread active -/
theorem local_excl {t s p s' p'} (h : Local t s p s' p') (he : s.excl ≠ none)
    (hn : needNone p = true → s.excl = none) (ho : owns p = false)
    (hc : counted p = 1 → transient p = true) : counted p' = 1 → transient p' = true := by
  cases h
  case z5 zb => cases zb <;> simp_all [counted, transient]
  case z0 ex zb _ => cases ex <;> simp_all [counted, owns, transient]
  case x0 o _ => cases o <;> simp_all [counted, transient]
  case x1free o _ => exact absurd (by assumption) he
  all_goals simp_all [counted, transient, needNone, owns]

theorem local_passed {t s p s' p'} (h : Local t s p s' p') (hp : passed p' = true) :
    passed p = true ∨ (p = .x8 ∧ ¬ s.count > 1) := by
  cases h
  case z5 zb => cases zb <;> simp_all [passed]
  case z0 ex zb _ => cases ex <;> simp_all [passed]
  all_goals simp_all [passed]

theorem local_waiting {t s p s' p'} (h : Local t s p s' p') (e : Tid) (hne : e ≠ t)
    (hw : s'.waiting e = true) : s.waiting e = true := by
  cases h
  all_goals simp_all [Shared.take, Shared.drop, Shared.add, Shared.sleep, Shared.wake,
        Shared.notifyAll]

/-- a step never drops the count without a later notification -/
theorem local_notify {t s p s' p'} (h : Local t s p s' p') (he : s.excl ≠ none) :
    ((∀ u, s'.waiting u = false) ∧ holds p = true) ∨
    ((s'.count ≥ s.count ∨ willNotify p' = true) ∧ (willNotify p = true → willNotify p' = true)) := by
  cases h
  case z5 zb => cases zb <;> simp_all [willNotify, Shared.drop]
  all_goals simp_all [willNotify, holds, Shared.take, Shared.drop, Shared.add, Shared.sleep,
        Shared.wake, Shared.notifyAll]
  all_goals omega

theorem local_notifyAll {t s p s' p'} (h : Local t s p s' p') :
    ((∀ u, s'.waiting u = false) ∧ holds p = true) ∨
    ((s'.excl = none → s.excl = none ∨ willNotifyAll p' = true) ∧
      (willNotifyAll p = true → willNotifyAll p' = true)) := by
  cases h
  case z5 zb => cases zb <;> simp_all [willNotifyAll, Shared.drop]
  all_goals simp_all [willNotifyAll, holds, Shared.take, Shared.drop, Shared.add, Shared.sleep,
        Shared.wake, Shared.notifyAll]

theorem local_x8d {t s p s' p'} (h : Local t s p s' p') (hp : p' = .x8d) : s'.count > 1 := by
  cases h
  case z5 zb => cases zb <;> simp_all
  all_goals simp_all

theorem local_x8w {t s p s' p'} (h : Local t s p s' p') (hp : p' = .x8w) :
    p = .x8d ∧ s'.count = s.count := by
  cases h
  case z5 zb => cases zb <;> simp_all
  all_goals simp_all [Shared.sleep]

theorem local_waitsFree {t s p s' p'} (h : Local t s p s' p') (hp : waitsFree p' = true) :
    needSome p = true ∧ s'.excl = s.excl := by
  cases h
  case z5 zb => cases zb <;> simp_all [waitsFree]
  all_goals simp_all [waitsFree, needSome, Shared.sleep]

theorem upd_self (f : Tid → Pc) (t : Tid) (p : Pc) : upd f t p t = p := by simp [upd]
theorem upd_ne (f : Tid → Pc) (t u : Tid) (p : Pc) (h : u ≠ t) : upd f t p u = f u := by simp [upd, h]

theorem inv_init (n : Nat) : Inv n init := by
  refine ⟨fun _ _ => rfl, ?_, ?_, ?_, ?_, ?_, ?_, ?_, ?_⟩
  · show (0 : Int) = _
    have : ∀ l : List Nat, (l.map (fun _ => counted Pc.noState)).sum = 0 := by
      intro l; induction l with
      | nil => rfl
      | cons a l ih => simp only [List.map_cons, List.sum_cons, ih]; rfl
    exact (this _).symm
  all_goals intros; simp_all [init, holds, owns, needNone, needSome, passed, waitsFree]

theorem inv_step {n : Nat} {s s' : Sys} (hi : Inv n s) (hs : Step n s s') : Inv n s' := by
  obtain ⟨t, sh', p', ht, hl⟩ := hs
  obtain ⟨k1, k2⟩ := local_lock hl (hi.lock t)
  obtain ⟨o1, o2⟩ := local_own hl (hi.own t) (hi.none_ t)
  have hnt := local_none hl (hi.none_ t)
  have hst := local_some hl (hi.some_ t)
  have hcnt : sh'.count = total n (fun u => counted (upd s.pc t p' u)) := by
    rw [total_upd n s.pc t p' ht, ← hi.cnt, local_count hl]
  refine ⟨?_, hcnt, ?_, ?_, ?_, ?_, ?_, ?_, ?_⟩
  · intro u hu
    have : u ≠ t := by rintro rfl; exact absurd ht (Nat.not_lt.2 hu)
    show upd s.pc t p' u = _
    rw [upd_ne _ _ _ _ this]; exact hi.out u hu
  · intro u
    by_cases hut : u = t
    · subst hut; show holds (upd s.pc u p' u) = true ↔ _; rw [upd_self]; exact k1
    · show holds (upd s.pc t p' u) = true ↔ sh'.lock = some u
      rw [upd_ne _ _ _ _ hut, hi.lock u]
      rcases k2 with h | ⟨h1, h2⟩ | ⟨h1, h2⟩
      · rw [h]
      · rw [h1, h2]; simp; exact fun h => hut h.symm
      · rw [h1, h2]; simp; exact fun h => hut h.symm
  · intro u
    by_cases hut : u = t
    · subst hut; show owns (upd s.pc u p' u) = true ↔ _; rw [upd_self]; exact o1
    · show owns (upd s.pc t p' u) = true ↔ sh'.excl = some u
      rw [upd_ne _ _ _ _ hut, hi.own u]
      rcases o2 with h | ⟨h1, h2, _⟩ | ⟨h1, h2, _⟩
      · rw [h]
      · rw [h1, h2]; simp; exact fun h => hut h.symm
      · rw [h1, h2]; simp; exact fun h => hut h.symm
  · intro u hu
    by_cases hut : u = t
    · subst hut; simp only [upd_self] at hu; exact hnt hu
    · simp only [upd_ne _ _ _ _ hut] at hu
      have hex := hi.none_ u hu
      rcases o2 with h | ⟨_, _, h3⟩ | ⟨h1, h2, _⟩
      · show sh'.excl = none; rw [h]; exact hex
      · have e1 := (hi.lock u).1 (needNone_holds hu)
        have e2 := (hi.lock t).1 h3
        rw [e1] at e2; exact absurd (Option.some.inj e2) hut
      · exact h2
  · intro u hu
    by_cases hut : u = t
    · subst hut; simp only [upd_self] at hu; exact hst hu
    · simp only [upd_ne _ _ _ _ hut] at hu
      have hex := hi.some_ u hu
      rcases o2 with h | ⟨_, h2, _⟩ | ⟨_, _, h3⟩
      · show sh'.excl ≠ none; rw [h]; exact hex
      · show sh'.excl ≠ none; rw [h2]; simp
      · have e1 := (hi.lock u).1 (needSome_holds hu)
        have e2 := (hi.lock t).1 h3
        rw [e1] at e2; exact absurd (Option.some.inj e2) hut
  · intro e u hue hp hc
    by_cases het : e = t
    · subst het
      simp only [upd_self, upd_ne _ _ _ _ hue] at hp hc ⊢
      rcases local_passed hl hp with h | ⟨h1, h2⟩
      · exact hi.excl e u hue h hc
      · exfalso
        have hun : u < n := by
          apply Nat.lt_of_not_le; intro hge
          rw [hi.out u hge] at hc; simp [counted] at hc
        have := sum_ge_two (List.range n) s.pc u e hue (List.mem_range.2 hun) (List.mem_range.2 ht)
        have hcn := hi.cnt
        rw [total] at hcn
        rw [h1] at this
        have h1' : counted Pc.x8 = 1 := rfl
        omega
    · simp only [upd_ne _ _ _ _ het] at hp
      have hex := (hi.own e).1 (passed_owns hp)
      by_cases hut : u = t
      · subst hut
        simp only [upd_self] at hc ⊢
        refine local_excl hl (by rw [hex]; simp) (hi.none_ u) ?_ (hi.excl e u hue hp) hc
        cases ho : owns (s.pc u) with
        | false => rfl
        | true =>
          have := (hi.own u).1 ho
          rw [hex] at this; exact absurd (Option.some.inj this).symm hue
      · simp only [upd_ne _ _ _ _ hut] at hc ⊢
        exact hi.excl e u hue hp hc
  · intro e he
    by_cases het : e = t
    · subst het
      simp only [upd_self] at he
      rcases he with he | ⟨he, _⟩
      · exact .inl (local_x8d hl he)
      · obtain ⟨h1, h2⟩ := local_x8w hl he
        rcases hi.wake e (.inl h1) with h | ⟨u, hu⟩
        · left; show sh'.count > 1; omega
        · right
          have hue : u ≠ e := by rintro rfl; rw [h1] at hu; simp [willNotify] at hu
          exact ⟨u, by simp only [upd_ne _ _ _ _ hue]; exact hu⟩
    · simp only [upd_ne _ _ _ _ het] at he
      have hown : owns (s.pc e) = true := by
        rcases he with he | ⟨he, _⟩ <;> rw [he] <;> rfl
      have hex := (hi.own e).1 hown
      have hold : s.sh.count > 1 ∨ ∃ u, willNotify (s.pc u) = true := by
        apply hi.wake e
        rcases he with he | ⟨he, hw⟩
        · exact .inl he
        · exact .inr ⟨he, local_waiting hl e het hw⟩
      rcases local_notify hl (by rw [hex]; simp) with ⟨h1, h2⟩ | ⟨h1, h2⟩
      · exfalso
        rcases he with he | ⟨he, hw⟩
        · have e1 := (hi.lock e).1 (by rw [he]; rfl)
          have e2 := (hi.lock t).1 h2
          rw [e1] at e2; exact absurd (Option.some.inj e2) het
        · simp only [h1] at hw; exact absurd hw (by simp)
      · rcases hold with h | ⟨u, hu⟩
        · rcases h1 with h1 | h1
          · left; show sh'.count > 1; omega
          · exact .inr ⟨t, by simp only [upd_self]; exact h1⟩
        · right
          by_cases hut : u = t
          · subst hut; exact ⟨u, by simp only [upd_self]; exact h2 hu⟩
          · exact ⟨u, by simp only [upd_ne _ _ _ _ hut]; exact hu⟩
  · intro u hu hw
    by_cases hut : u = t
    · subst hut
      simp only [upd_self] at hu
      obtain ⟨h1, h2⟩ := local_waitsFree hl hu
      left; show sh'.excl ≠ none
      rw [h2]; exact hi.some_ u h1
    · simp only [upd_ne _ _ _ _ hut] at hu
      have hold := hi.wakeFree u hu (local_waiting hl u hut hw)
      rcases local_notifyAll hl with ⟨h1, _⟩ | ⟨h1, h2⟩
      · simp only [h1] at hw; exact absurd hw (by simp)
      · rcases hold with h | ⟨v, hv⟩
        · by_cases hex : sh'.excl = none
          · rcases h1 hex with h' | h'
            · exact absurd h' h
            · exact .inr ⟨t, by simp only [upd_self]; exact h'⟩
          · exact .inl hex
        · right
          by_cases hvt : v = t
          · subst hvt; exact ⟨v, by simp only [upd_self]; exact h2 hv⟩
          · exact ⟨v, by simp only [upd_ne _ _ _ _ hvt]; exact hv⟩

theorem inv_reachable {n : Nat} {s : Sys} (h : Reachable n s) : Inv n s := by
  induction h with
  | init => exact inv_init n
  | step _ hs ih => exact inv_step ih hs

end Avian.Enter
