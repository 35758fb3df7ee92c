import Verif.Heap.RefFinal

/-
Property C39: what a collection does to weak references, reference queues and finalizers.

The state `s` is the one at the end of marking: `s.live` holds what the program can still reach.
`postVisit` is what the machine does then; `(postVisit major ten s).live` is what survives.
-/
namespace Avian.Refs

/-! ### Specification -/

/-- The objects waiting for their finalizer to run. -/
def scheduled (s : St) : List Nat := s.finalizeQueue ++ s.toFinalize

/-- The finalizers of objects that have not been found unreachable so far. -/
def waiting (s : St) : List Nat := s.finalizers ++ s.tenuredFinalizers

/-- A machine's life as far as finalizers are concerned: `made` are the finalizers registered so far,
`ran` those that have run.  Between the steps named here the program may change everything else. -/
inductive Life : List Nat → List Nat → St → Prop where
  | start {s : St} : waiting s = [] → scheduled s = [] → Life [] [] s
  | program {made ran : List Nat} {s s' : St} : Life made ran s → s'.finalizers = s.finalizers →
      s'.tenuredFinalizers = s.tenuredFinalizers → s'.finalizeQueue = s.finalizeQueue →
      s'.toFinalize = s.toFinalize → Life made ran s'
  | register {made ran : List Nat} {s : St} {f : Nat} : Life made ran s → f ∉ made →
      Life (f :: made) ran { s with finalizers := f :: s.finalizers }
  | collect {made ran : List Nat} {s : St} {c : Nat → List Nat} (major : Bool) (ten : Nat → Bool) :
      Life made ran s → Ready s c → Life made ran (postVisit major ten s)
  | runNative {made ran : List Nat} {s : St} {f : Nat} {l : List Nat} : Life made ran s →
      s.finalizeQueue = f :: l → Life made (f :: ran) { s with finalizeQueue := l }
  | runJava {made ran : List Nat} {s : St} {f : Nat} {l : List Nat} : Life made ran s →
      s.toFinalize = f :: l → Life made (f :: ran) { s with toFinalize := l }

/-- ReferenceQueue.java 16-26 `poll` -/
def poll (s : St) (q : Nat) : Nat × St :=
  let r := s.front q
  if r = 0 then (0, s)
  else if s.front q = s.jNext r then (r, { s with front := upd s.front q 0 })
  else (r, { s with front := upd s.front q (s.jNext r) })

/-- Poll `n` times. -/
def pollMany (q : Nat) : Nat → St → List Nat
  | 0, _ => []
  | n + 1, s => (poll s q).1 :: pollMany q n (poll s q).2

/-! ### Finalizers -/

/-- No finalizer is lost, run twice or made up: at any time the registered finalizers are those that
have run, those scheduled and those waiting, each in one place only. -/
theorem finalizers_accounted {made ran : List Nat} {s : St} (h : Life made ran s) :
    (ran ++ (scheduled s ++ waiting s)).Perm made ∧ made.Nodup := by
  induction h with
  | start h1 h2 => rw [h1, h2]; exact ⟨.refl _, .nil⟩
  | program _ h1 h2 h3 h4 ih =>
    unfold scheduled waiting at ih ⊢
    rw [h1, h2, h3, h4]; exact ih
  | register _ hf ih =>
    refine ⟨?_, List.nodup_cons.2 ⟨hf, ih.2⟩⟩
    have := ih.1
    rw [List.perm_iff_count] at this ⊢
    intro x
    have := this x
    simp only [scheduled, waiting, List.count_append, List.count_cons] at this ⊢
    omega
  | collect major ten _ hr ih =>
    refine ⟨?_, ih.2⟩
    obtain ⟨n, j, e1, e2, hp, _⟩ := (postVisit_spec major ten hr).fin
    refine List.Perm.trans ?_ ih.1
    rw [List.perm_iff_count] at hp ⊢
    intro x
    have := hp x
    simp only [scheduled, waiting, e1, e2, List.count_append] at this ⊢
    omega
  | runNative _ he ih =>
    refine ⟨?_, ih.2⟩
    refine List.Perm.trans ?_ ih.1
    rw [List.perm_iff_count]
    intro x
    simp only [scheduled, waiting, he, List.count_append, List.count_cons]
    omega
  | runJava _ he ih =>
    refine ⟨?_, ih.2⟩
    refine List.Perm.trans ?_ ih.1
    rw [List.perm_iff_count]
    intro x
    simp only [scheduled, waiting, he, List.count_append, List.count_cons]
    omega

/-- A finalizer never runs twice, and never without having been registered. -/
theorem finalizer_runs_once {made ran : List Nat} {s : St} (h : Life made ran s) :
    ran.Nodup ∧ ∀ f ∈ ran, f ∈ made := by
  obtain ⟨hp, hn⟩ := finalizers_accounted h
  exact ⟨(List.nodup_append.1 (hp.nodup_iff.2 hn)).1, fun f hf => hp.subset (List.mem_append_left _ hf)⟩

/-- A finalizer is scheduled by a collection only if its object was unreachable, and then the object
is kept for it, with everything reachable from it. -/
theorem scheduled_was_unreachable (major : Bool) (ten : Nat → Bool) {s : St} {c : Nat → List Nat}
    (h : Ready s c) {f : Nat} (hn : f ∉ scheduled s) (hf : f ∈ scheduled (postVisit major ten s)) :
    s.ftarget f ≠ 0 ∧ s.ftarget f ∉ s.live ∧ s.ftarget f ∈ (postVisit major ten s).live ∧ f ∈ waiting s ∧
      ∀ x, Reach (succ (postVisit major ten s)) (s.ftarget f) x → x ∈ (postVisit major ten s).live := by
  have ho := postVisit_spec major ten h
  have hg := ho.ext.good h.good
  obtain ⟨n, j, e1, e2, hp, _, _, hd⟩ := ho.fin
  have hfn : f ∈ n ++ j := by
    simp only [scheduled, e1, e2, List.mem_append] at hf hn ⊢
    rcases hf with (hf | hf) | (hf | hf)
    · exact Or.inl hf
    · exact absurd (Or.inl hf) hn
    · exact Or.inr hf
    · exact absurd (Or.inr hf) hn
  obtain ⟨h1, h2⟩ := hd f hfn
  obtain ⟨h3, h4⟩ := is_dead.1 h1
  refine ⟨h3, h4, h2, hp.subset (List.mem_append_left _ hfn), ?_⟩
  intro x hx
  induction hx with
  | refl _ => exact h2
  | step _ hy hz ih => exact (hg.closed _ ih _ hy).resolve_left hz

/-- The object of a finalizer that the collection looked at survives, whether the finalizer is scheduled
or not: nothing is finalized after it has been freed. -/
theorem finalizer_target_survives (major : Bool) (ten : Nat → Bool) {s : St} {c : Nat → List Nat}
    (h : Ready s c) {f : Nat} (hf : f ∈ s.finalizers ∨ (major = true ∧ f ∈ s.tenuredFinalizers)) :
    f ∈ (postVisit major ten s).live ∧
      (s.ftarget f = 0 ∨ s.ftarget f ∈ (postVisit major ten s).live) := by
  have ho := postVisit_spec major ten h
  refine ⟨ho.finLive f hf, ?_⟩
  obtain ⟨n, j, e1, e2, hp, _, _, hd⟩ := ho.fin
  have hin : f ∈ s.finalizers ++ s.tenuredFinalizers := by
    rcases hf with hf | hf
    · exact List.mem_append_left _ hf
    · exact List.mem_append_right _ hf.2
  rcases List.mem_append.1 (hp.symm.subset hin) with e | e
  · exact Or.inr (hd f e).2
  · exact ho.finKept f hf e

theorem young_kept (ten : Nat → Bool) {s : St} (hs : Good s) (hl : ∀ f ∈ s.finalizers, f ∈ s.objs)
    (hz : ∀ f ∈ s.finalizers, ∀ x ∈ succ s f, x = 0) (ht : ∀ f ∈ s.finalizers, ∀ g, s.ftarget g ≠ f)
    {f : Nat} (hf : f ∈ (phaseFinalizers ten s).2 ++ (phaseFinalizers ten s).1.finalizers) :
    dead s (s.ftarget f) = false := by
  cases h1 : splitFinalizers s.finalizers [] s with
  | mk s1 r1 =>
    obtain ⟨kept, un⟩ := r1
    cases h2 : keepFinalizers ten kept [] s1 with
    | mk s2 r2 =>
      obtain ⟨kept2, moved⟩ := r2
      have hsp := split_spec s.finalizers [] s s1 kept un hs hl h1
      obtain ⟨c1, new, c2, c3, _⟩ := keep_spec ten kept [] s1 s2 kept2 moved
        (by rw [hsp.1.ftarget]; exact hsp.2.2.2.2.2) h2
      rw [List.append_nil] at c2
      subst c1 c2
      have heq : phaseFinalizers ten s = (scheduleAll un { s2 with finalizers := kept2 }, moved) := by
        unfold phaseFinalizers; simp only [h1, h2]
      have g3 := (core_ext (s := s2) (s' := { s2 with finalizers := kept2 }) rfl rfl rfl rfl rfl rfl rfl rfl rfl rfl rfl).good
        (hsp.1.good hs)
      have hlists := (schedule_spec un { s2 with finalizers := kept2 } g3).2.1
      rw [heq] at hf
      simp only [hlists.2.2.1] at hf
      have hk := hsp.2.2.2.2.2 f (c3.subset hf)
      rcases not_dead.1 hk with e | e
      · exact not_dead.2 (Or.inl e)
      · rcases split_live s.finalizers [] s s2 kept un hs hl hz h1 _ e with e | e
        · exact not_dead.2 (Or.inr e)
        · exact absurd rfl (ht _ e f)

theorem refLoop_lists (ten : Nat → Bool) : ∀ (l moved : List Nat) (s : St),
    SameLists s (refLoop ten l moved s).1 ∧ (refLoop ten l moved s).1.finalizeQueue = s.finalizeQueue ∧
      (refLoop ten l moved s).1.toFinalize = s.toFinalize
  | [], moved, s => ⟨.refl s, rfl, rfl⟩
  | r :: l, moved, s => by
    simp only [refLoop]
    split
    · obtain ⟨i1, i2, i3⟩ := refLoop_lists ten l moved (referenceUnreachable s r)
      exact ⟨(ru_lists s r).trans i1, i2.trans (ru_same s r).1, i3.trans (ru_same s r).2⟩
    · split
      · obtain ⟨i1, i2, i3⟩ := refLoop_lists ten l moved (referenceTargetUnreachable s r)
        exact ⟨(rtu_lists s r).trans i1, i2.trans (rtu_same s r).1, i3.trans (rtu_same s r).2⟩
      · split
        · obtain ⟨i1, i2, i3⟩ := refLoop_lists ten l (r :: moved) (referenceTargetReachable s r)
          exact ⟨(rtr_lists s r).trans i1, i2.trans (rtr_same s r).1, i3.trans (rtr_same s r).2⟩
        · obtain ⟨i1, i2, i3⟩ := refLoop_lists ten l moved (referenceTargetReachable s r)
          exact ⟨(rtr_lists s r).trans i1, i2.trans (rtr_same s r).1, i3.trans (rtr_same s r).2⟩

/-- The finalizer of a young object is scheduled by a collection exactly if the object was unreachable
(also if other unreachable objects with finalizers refer to it). -/
theorem finalizer_scheduled_iff (major : Bool) (ten : Nat → Bool) {s : St} {c : Nat → List Nat}
    (h : Ready s c) (hin : Internal s) (ht : ∀ f ∈ waiting s, ∀ g, s.ftarget g ≠ f)
    {f : Nat} (hf : f ∈ s.finalizers) (hn : f ∉ scheduled s) :
    f ∈ scheduled (postVisit major ten s) ↔ s.ftarget f ≠ 0 ∧ s.ftarget f ∉ s.live := by
  constructor
  · intro hs
    obtain ⟨h1, h2, _⟩ := scheduled_was_unreachable major ten h hn hs
    exact ⟨h1, h2⟩
  · intro hd
    have hd' := is_dead.2 hd
    obtain ⟨a1, a2, a3, a4, a5, a6, a7, a8, a9, a10, a11, afl, a12, a13⟩ := phaseClear_spec major s
    have key : postVisit major ten s = joinLists (phaseFinalizers ten (phaseClear major s)).2
        (phaseRefs ten (phaseFinalizers ten (phaseClear major s)).1).2
        (if major then phaseTenuredRefs (phaseTenuredFinalizers (phaseRefs ten (phaseFinalizers ten (phaseClear major s)).1).1)
          else (phaseRefs ten (phaseFinalizers ten (phaseClear major s)).1).1) := rfl
    have hfst := first_spec major ten h
    rw [key]
    clear key
    generalize phaseClear major s = s1 at *
    have g1 := a1.good h.good
    have hl1 : ∀ f ∈ s1.finalizers, f ∈ s1.objs := by
      intro f hf; rw [a1.objs]; exact h.fins f (List.mem_append_left _ (a5 ▸ hf))
    have hsucc : ∀ o, succ s1 o = succ s o := by intro o; simp only [succ, a10, a11, afl]
    have hb := (phaseFinalizers_spec ten g1 hl1).1
    have hy := fun f hf => young_kept ten g1 hl1
      (by intro f hf x hx; rw [hsucc] at hx; exact (hin f (List.mem_append_left _ (a5 ▸ hf))).1 x hx)
      (by intro f hf g; rw [a1.ftarget]; exact ht f (List.mem_append_left _ (a5 ▸ hf)) g) (f := f) hf
    generalize phaseFinalizers ten s1 = p2 at *
    obtain ⟨s2, movedF⟩ := p2
    simp only at hb hy hfst ⊢
    obtain ⟨n, j, e1, e2, hp, _⟩ := hb.sched
    have hs2 : f ∈ scheduled s2 := by
      have := hp.symm.subset (a5.symm ▸ hf)
      rcases List.mem_append.1 this with e | e
      · simp only [scheduled, e1, e2, List.mem_append] at e ⊢
        rcases e with e | e
        · exact Or.inl (Or.inl e)
        · exact Or.inr (Or.inl e)
      · have := hy f e
        rw [a1.ftarget, dead_congr a2, hd'] at this
        cases this
    have hs3 : f ∈ scheduled (phaseRefs ten s2).1 := by
      have := refLoop_lists ten s2.weak [] s2
      unfold scheduled phaseRefs at *
      simp only at this ⊢
      rw [this.2.1, this.2.2]; exact hs2
    generalize phaseRefs ten s2 = p3 at *
    obtain ⟨s3, movedR⟩ := p3
    simp only at hs3 hfst ⊢
    rw [joinLists_eq]
    cases major with
    | false => exact hs3
    | true =>
      simp only [if_true]
      have g3 := hfst.ext.good h.good
      have hs4 : f ∈ scheduled (phaseTenuredFinalizers s3) := by
        obtain ⟨n, j, e1, e2, _⟩ := (phaseTenuredFinalizers_spec g3 (by
          intro x hx; rw [hfst.ext.objs]; exact h.fins x (List.mem_append_right _ (hfst.tf ▸ hx)))).1.sched
        simp only [scheduled, e1, e2, List.mem_append] at hs3 ⊢
        rcases hs3 with e | e
        · exact Or.inl (Or.inr e)
        · exact Or.inr (Or.inr e)
      generalize phaseTenuredFinalizers s3 = s4 at *
      have := refLoop_lists (fun _ => false) s4.tenuredWeak [] s4
      unfold scheduled phaseTenuredRefs at *
      simp only at this ⊢
      rw [this.2.1, this.2.2]; exact hs4

/-! ### References -/

/-- After a collection every reference still registered (and looked at) is alive and leads only to
live objects: no reference is left pointing to an object that has been freed. -/
theorem registered_reference_safe (major : Bool) (ten : Nat → Bool) {s : St} {c : Nat → List Nat}
    (h : Ready s c) {r : Nat} (hr : r ∈ processed major s)
    (hk : r ∈ (postVisit major ten s).weak ++ (postVisit major ten s).tenuredWeak) :
    r ∈ (postVisit major ten s).live ∧
    ((postVisit major ten s).target r = 0 ∨ (postVisit major ten s).target r ∈ (postVisit major ten s).live) ∧
    ((postVisit major ten s).queue r = 0 ∨ (postVisit major ten s).queue r ∈ (postVisit major ten s).live) := by
  obtain ⟨_, _, _, h3, _⟩ := (postVisit_spec major ten h).refs
  exact h3 r hk hr

/-- A live reference never leads to an object that has been freed, and it is never redirected: its
target is the old one or null. -/
theorem live_reference_target (major : Bool) (ten : Nat → Bool) {s : St} {c : Nat → List Nat}
    (h : Ready s c) {r : Nat} (hr : r ∈ processed major s) (hl : r ∈ s.live) :
    (postVisit major ten s).target r = 0 ∨
      ((postVisit major ten s).target r = s.target r ∧ s.target r ∈ (postVisit major ten s).live) := by
  have ho := postVisit_spec major ten h
  obtain ⟨gone, h1, h2, h3, _⟩ := ho.refs
  have hin : r ∈ s.weak ++ s.tenuredWeak := by
    unfold processed at hr
    rcases List.mem_append.1 hr with e | e
    · exact List.mem_append_left _ e
    · cases major with
      | false => simp at e
      | true => exact List.mem_append_right _ (by simpa using e)
  have hstay : (postVisit major ten s).target r = 0 ∨ (postVisit major ten s).target r ∈ (postVisit major ten s).live := by
    rcases List.mem_append.1 (h1.symm.subset hin) with e | e
    · rcases (h2 r e).2 with d | d
      · exact absurd hl (is_dead.1 d).2
      · exact Or.inl d.1
    · exact (h3 r e hr).2.1
  rcases ho.ext.target r with e | e
  · rcases hstay with z | z
    · exact Or.inl z
    · exact Or.inr ⟨e, e ▸ z⟩
  · exact Or.inl e

/-- References the collection does not look at (the old ones in a minor collection) are left alone. -/
theorem other_references_untouched (major : Bool) (ten : Nat → Bool) {s : St} {c : Nat → List Nat}
    (h : Ready s c) {r : Nat} (hr : r ∉ processed major s) :
    (postVisit major ten s).target r = s.target r ∧ (postVisit major ten s).queue r = s.queue r :=
  (postVisit_spec major ten h).frame r hr

/-- The queues stay well formed: each holds the references it held before and, before them, new ones,
each once, cleared, no longer registered with a queue or the collector, and no cleaners. -/
theorem queues_after (major : Bool) (ten : Nat → Bool) {s : St} {c : Nat → List Nat}
    (h : Ready s c) (hc : ∀ q, (c q).Nodup) :
    ∃ c' enq : Nat → List Nat, (∀ q, c' q = enq q ++ c q) ∧ Queues (postVisit major ten s) c' ∧
      (∀ q, (c' q).Nodup) ∧
      ∀ q, ∀ r ∈ enq q, r ∈ processed major s ∧ s.queue r = q ∧ (postVisit major ten s).target r = 0 ∧
        (postVisit major ten s).queue r = 0 ∧ s.isCleaner r = false ∧
        r ∉ (postVisit major ten s).weak ++ (postVisit major ten s).tenuredWeak := by
  obtain ⟨gone, h1, h2, h3, enq, h4, h5⟩ := (postVisit_spec major ten h).refs
  refine ⟨_, enq, fun _ => rfl, h4, ?_, ?_⟩
  · intro q
    rw [List.nodup_append]
    refine ⟨(h5 q).1, hc q, ?_⟩
    rintro x hx _ hy rfl
    have e1 := ((h5 q).2 x hx).2
    have e2 := h.queues.2 q x hy
    exact e1.2.1 (e1.1.symm.trans e2)
  · intro q r hr
    obtain ⟨g, e1, e2, e3, e4, e5⟩ := (h5 q).2 r hr
    refine ⟨(h2 r g).1, e1, e4, e5, e3, ?_⟩
    intro hk
    exact (List.nodup_append.1 (h1.nodup_iff.2 h.nodup)).2.2 r g r hk rfl

/-- Exactly which references are cleared and enqueued.  Missing for the full statement (both are
false in general, see `resurrected_reference_dangles` and `early_clear_of_survivor`): references that
were unreachable may be resurrected by other references, and in a major collection objects may be
resurrected by old finalizers after the young references have been dealt with. Hypotheses exclude
just that. Also a reference to an object with a finalizer is not enqueued
(`reference_to_finalizable_never_enqueued`). -/
theorem references_exact_partial (major : Bool) (ten : Nat → Bool) {s : St} {c : Nat → List Nat}
    (h : Ready s c) (hin : Internal s)
    (hH : ∀ r ∈ processed major s, r ∉ s.live → r ∉ (postVisit major ten s).live)
    (h1 : major = true → ∀ f ∈ s.tenuredFinalizers, s.ftarget f = 0 ∨ s.ftarget f ∈ s.live) :
    (∀ r ∈ processed major s, r ∈ s.live → (postVisit major ten s).target r =
      if s.target r ≠ 0 ∧ s.target r ∉ s.live ∧ s.hasFinalizer (s.target r) = true then 0
      else if s.target r ∈ (postVisit major ten s).live then s.target r else 0) ∧
    ∃ enq : Nat → List Nat, Queues (postVisit major ten s) (fun q => enq q ++ c q) ∧
      ∀ q r, r ∈ enq q ↔ r ∈ processed major s ∧ r ∈ s.live ∧ s.isCleaner r = false ∧
        s.target r ≠ 0 ∧ s.target r ∉ (postVisit major ten s).live ∧ s.hasFinalizer (s.target r) = false ∧
        s.queue r = q ∧ q ∈ (postVisit major ten s).live := by
  have hmono := (postVisit_spec major ten h).ext.live
  obtain ⟨e1, enq, e2, e3⟩ := postVisit_exact major ten h hin hH h1
  refine ⟨?_, enq, e2, ?_⟩
  · intro r hr hl
    rw [e1 r hr hl]
    have hiff : (isFinalizable s (s.target r) = true) ↔
        (s.target r ≠ 0 ∧ s.target r ∉ s.live ∧ s.hasFinalizer (s.target r) = true) := by
      unfold isFinalizable
      rw [Bool.and_eq_true, is_dead, and_assoc]
    by_cases hx : isFinalizable s (s.target r) = true
    · rw [if_pos hx, if_pos (hiff.1 hx)]
    · rw [if_neg hx, if_neg (fun y => hx (hiff.2 y))]
  · intro q r
    rw [e3 q r]
    constructor
    · rintro ⟨x1, x2, x3, x4, x5, x6, x7, x8⟩
      refine ⟨x1, x2, x3, x5, x6, ?_, x7, x8⟩
      have hd : dead s (s.target r) = true := is_dead.2 ⟨x5, fun y => x6 (hmono _ y)⟩
      simpa [isFinalizable, hd] using x4
    · rintro ⟨x1, x2, x3, x5, x6, x4, x7, x8⟩
      exact ⟨x1, x2, x3, by simp [isFinalizable, x4], x5, x6, x7, x8⟩

/-- Weak references made by native code: exactly those to objects that do not survive, or were
unreachable and have a finalizer, are cleared. -/
theorem jni_weak_exact (major : Bool) (ten : Nat → Bool) {s : St} {c : Nat → List Nat} (h : Ready s c) :
    (postVisit major ten s).jni = s.jni.map fun o =>
      if o ≠ 0 ∧ o ∉ s.live ∧ s.hasFinalizer o = true then 0
      else if o ∈ (postVisit major ten s).live then o else 0 := by
  obtain ⟨a1, a2, a3, a4, a5, a6, a7, a8, a9, a10, a11, afl, a12, a13⟩ := phaseClear_spec major s
  have key : postVisit major ten s = joinLists (phaseFinalizers ten (phaseClear major s)).2
      (phaseRefs ten (phaseFinalizers ten (phaseClear major s)).1).2
      (if major then phaseTenuredRefs (phaseTenuredFinalizers (phaseRefs ten (phaseFinalizers ten (phaseClear major s)).1).1)
        else (phaseRefs ten (phaseFinalizers ten (phaseClear major s)).1).1) := rfl
  have hfst := first_spec major ten h
  rw [key]
  clear key
  generalize phaseClear major s = s1 at *
  have g1 := a1.good h.good
  have hb := (phaseFinalizers_spec ten g1 (by
    intro f hf; rw [a1.objs]; exact h.fins f (List.mem_append_left _ (a5 ▸ hf)))).1
  generalize phaseFinalizers ten s1 = p2 at *
  obtain ⟨s2, movedF⟩ := p2
  simp only at hb hfst ⊢
  have hj3 : (phaseRefs ten s2).1.jni = s2.jni := (refLoop_lists ten s2.weak [] s2).1.2.2.2.2
  generalize phaseRefs ten s2 = p3 at *
  obtain ⟨s3, movedR⟩ := p3
  simp only at hj3 hfst ⊢
  have fin : ∀ s5 : St, s5.jni = s2.jni → (joinLists movedF movedR s5).jni = s.jni.map fun o =>
      if o ≠ 0 ∧ o ∉ s.live ∧ s.hasFinalizer o = true then 0
      else if o ∈ (joinLists movedF movedR s5).live then o else 0 := by
    intro s5 hj
    rw [joinLists_eq]
    simp only
    rw [hj, hb.jni, a13, List.map_map]
    apply List.map_congr_left
    intro o _
    simp only [Function.comp]
    have hiff : (isFinalizable s o = true) ↔ (o ≠ 0 ∧ o ∉ s.live ∧ s.hasFinalizer o = true) := by
      unfold isFinalizable
      rw [Bool.and_eq_true, is_dead, and_assoc]
    by_cases hx : isFinalizable s o = true
    · rw [if_pos hx, if_pos (hiff.1 hx)]; simp [dead]
    · rw [if_neg hx, if_neg (fun y => hx (hiff.2 y))]
      exact pick (fun _ _ => Iff.rfl)
  cases major with
  | false => exact fin _ hj3
  | true =>
    simp only [if_true]
    have g3 := hfst.ext.good h.good
    have hj4 := (phaseTenuredFinalizers_spec g3 (by
        intro x hx; rw [hfst.ext.objs]; exact h.fins x (List.mem_append_right _ (hfst.tf ▸ hx)))).1.jni
    have hj5 : ∀ s4 : St, (phaseTenuredRefs s4).jni = s4.jni :=
      fun s4 => (refLoop_lists (fun _ => false) s4.tenuredWeak [] s4).1.2.2.2.2
    exact fin _ (by rw [hj5, hj4, hj3])

/-! ### Taking references from a queue -/

/-- `poll` takes the front reference off a queue and leaves the rest and the other queues. -/
theorem poll_takes_front {s : St} {c : Nat → List Nat} (h : Queues s c) {q r : Nat} {l : List Nat}
    (hq0 : q ≠ 0) (hq : c q = r :: l) (hn : (r :: l).Nodup) :
    (poll s q).1 = r ∧ Queues (poll s q).2 (fun q' => if q' = q then l else c q') := by
  obtain ⟨hf, hl, hz⟩ := h.1 q hq0
  rw [hq] at hf hl hz
  simp only [List.headD_cons] at hf
  have hr0 : r ≠ 0 := fun e => hz (by rw [e]; exact List.mem_cons_self ..)
  have hq' : ∀ q', ∀ x ∈ (if q' = q then l else c q'), s.queue x = 0 := by
    intro q' x hx
    split at hx
    · exact h.2 q x (by rw [hq]; exact List.mem_cons_of_mem _ hx)
    · exact h.2 q' x hx
  cases l with
  | nil =>
    simp only [Linked] at hl
    have : poll s q = (r, { s with front := upd s.front q 0 }) := by
      unfold poll
      simp only [hf]
      rw [if_neg hr0, if_pos hl.symm]
    rw [this]
    refine ⟨rfl, ?_, hq'⟩
    intro q' h0
    by_cases e : q' = q
    · subst e; simp only [if_true]; exact ⟨upd_same, True.intro, by simp⟩
    · simp only [if_neg e]
      obtain ⟨x1, x2, x3⟩ := h.1 q' h0
      exact ⟨(upd_other e).trans x1, x2, x3⟩
  | cons r2 l =>
    obtain ⟨hl1, hl2⟩ := hl
    have hne : r ≠ r2 := fun e => (List.nodup_cons.1 hn).1 (e ▸ List.mem_cons_self ..)
    have : poll s q = (r, { s with front := upd s.front q r2 }) := by
      unfold poll
      simp only [hf, hl1]
      rw [if_neg hr0, if_neg hne]
    rw [this]
    refine ⟨rfl, ?_, hq'⟩
    intro q' h0
    by_cases e : q' = q
    · subst e; simp only [if_true]
      exact ⟨upd_same, hl2, fun x => hz (List.mem_cons_of_mem _ x)⟩
    · simp only [if_neg e]
      obtain ⟨x1, x2, x3⟩ := h.1 q' h0
      exact ⟨(upd_other e).trans x1, x2, x3⟩

/-- Polling a queue until it is empty returns each of its references once, and then null. -/
theorem poll_all : ∀ (l : List Nat) {s : St} {c : Nat → List Nat} {q : Nat}, Queues s c → q ≠ 0 → c q = l →
    l.Nodup → pollMany q (l.length + 1) s = l ++ [0]
  | [], s, c, q, h, hq0, hq, _ => by
    have hf := (h.1 q hq0).1
    rw [hq] at hf
    have hf : s.front q = 0 := hf
    simp [pollMany, poll, hf]
  | r :: l, s, c, q, h, hq0, hq, hn => by
    obtain ⟨h1, h2⟩ := poll_takes_front h hq0 hq hn
    have ih := poll_all l h2 hq0 (by simp) (List.nodup_cons.1 hn).2
    simp only [List.length_cons, List.cons_append]
    rw [pollMany, h1, ih]

/-! ### Where the code falls short -/

/-- A state given by tables; anything not listed is empty, null or false. -/
def look {α : Type} (d : α) : List (Nat × α) → Nat → α
  | [], _ => d
  | (k, v) :: l, i => if i = k then v else look d l i

def mk (n : Nat) (fields : List (Nat × List Nat)) (target queue : List (Nat × Nat)) (fin ftarget : List (Nat × Nat))
    (live weak tenuredWeak finalizers tenuredFinalizers jni : List Nat) : St :=
  { objs := (List.range n).map (· + 1), fields := look [] fields, jNext := fun _ => 0, front := fun _ => 0
    target := look 0 target, queue := look 0 queue, hasFinalizer := fun o => look 0 fin o = 1
    isCleaner := fun _ => false, ftarget := look 0 ftarget, native := fun f => f = 9, live, weak, tenuredWeak
    finalizers, tenuredFinalizers, finalizeQueue := [], toFinalize := [], toClean := [], jni }

theorem look_or {l : List (Nat × Nat)} {P : Nat → Prop} (h0 : P 0) (h : ∀ p ∈ l, P p.2) (i : Nat) : P (look 0 l i) := by
  induction l with
  | nil => exact h0
  | cons p l ih =>
    simp only [look]
    split
    · exact h p (List.mem_cons_self ..)
    · exact ih (fun q hq => h q (List.mem_cons_of_mem _ hq))

/-- States made this way are ready for `postVisit` if the tables make sense. -/
theorem mk_ready {n : Nat} {fields : List (Nat × List Nat)} {target queue fin ftarget : List (Nat × Nat)}
    {live weak tenuredWeak finalizers tenuredFinalizers jni : List Nat}
    (h1 : ∀ o ∈ (List.range n).map (· + 1), ∀ x ∈ look [] fields o, x = 0 ∨ x ∈ (List.range n).map (· + 1))
    (h2 : ∀ o ∈ live, o ∈ (List.range n).map (· + 1))
    (h3 : ∀ o ∈ live, ∀ x ∈ look [] fields o, x = 0 ∨ x ∈ live)
    (h4 : ∀ p ∈ target, p.2 = 0 ∨ p.2 ∈ (List.range n).map (· + 1))
    (h5 : ∀ p ∈ queue, p.2 = 0 ∨ p.2 ∈ (List.range n).map (· + 1))
    (h6 : ∀ p ∈ ftarget, p.2 = 0 ∨ p.2 ∈ (List.range n).map (· + 1))
    (h7 : (weak ++ tenuredWeak).Nodup)
    (h8 : ∀ o ∈ weak ++ tenuredWeak, o ∈ (List.range n).map (· + 1))
    (h9 : ∀ o ∈ finalizers ++ tenuredFinalizers, o ∈ (List.range n).map (· + 1)) :
    Ready (mk n fields target queue fin ftarget live weak tenuredWeak finalizers tenuredFinalizers jni) (fun _ => []) := by
  let K : Nat → Prop := fun x => x = 0 ∨ x ∈ (List.range n).map (· + 1)
  refine ⟨⟨?_, ?_, h2, ?_, fun r => look_or (P := K) (Or.inl rfl) h4 r,
    fun r => look_or (P := K) (Or.inl rfl) h5 r, fun r => look_or (P := K) (Or.inl rfl) h6 r⟩, h7, h8, h9, ⟨fun q _ => ⟨rfl, True.intro, by simp⟩, by simp⟩⟩
  · intro o ho x hx
    simp only [succ, mk, List.mem_cons] at hx
    rcases hx with e | e | e
    · exact Or.inl e
    · exact Or.inl e
    · exact h1 o ho x e
  · simp [mk]
  · intro o ho x hx
    simp only [succ, mk, List.mem_cons] at hx
    rcases hx with e | e | e
    · exact Or.inl e
    · exact Or.inl e
    · exact h3 o ho x e

/-- 1 is a reachable reference, with the reachable queue 3, to the unreachable object 2, which has a
finalizer (4). -/
def finalizable : St := mk 4 [] [(1, 2)] [(1, 3)] [(2, 1)] [(4, 2)] [1, 3] [1] [] [4] [] []

theorem finalizable_ready : Ready finalizable (fun _ => []) := by
  refine mk_ready ?_ ?_ ?_ ?_ ?_ ?_ ?_ ?_ ?_ <;> decide +kernel

/-- A reference to an unreachable object that has a finalizer is cleared but never put on its queue:
not by the collection that clears it and not by later ones, since the target is null then. -/
theorem reference_to_finalizable_never_enqueued :
    let s1 := postVisit false (fun _ => false) finalizable
    let s2 := postVisit true (fun _ => false) s1
    Ready finalizable (fun _ => []) ∧ finalizable.target 1 = 2 ∧ finalizable.queue 1 = 3 ∧
    s1.target 1 = 0 ∧ s1.front 3 = 0 ∧ s1.weak = [1] ∧ s1.toFinalize = [4] ∧
    s2.front 3 = 0 ∧ s2.weak = [1] :=
  ⟨finalizable_ready, by decide +kernel⟩

/-- 1 is a reachable young reference to 2, which is referred to only by the unreachable old object 3;
that one has a finalizer (4). -/
def oldHolder : St := mk 4 [(3, [2])] [(1, 2)] [] [(3, 1)] [(4, 3)] [1] [1] [] [] [4] []

/-- In a major collection a young reference is cleared although its target, which has no finalizer,
survives (it is kept for the finalizer of an old object). -/
theorem early_clear_of_survivor :
    let s1 := postVisit true (fun _ => false) oldHolder
    Ready oldHolder (fun _ => []) ∧ oldHolder.hasFinalizer 2 = false ∧ oldHolder.target 1 = 2 ∧
    s1.target 1 = 0 ∧ 2 ∈ s1.live ∧ 1 ∉ s1.weak ++ s1.tenuredWeak :=
  ⟨by refine mk_ready ?_ ?_ ?_ ?_ ?_ ?_ ?_ ?_ ?_ <;> decide +kernel, by decide +kernel⟩

/-- 1 is an unreachable reference without a queue to the unreachable object 2; it is referred to by
another unreachable reference, 3, whose queue 4 is reachable. -/
def resurrecting : St := mk 5 [(3, [1])] [(1, 2), (3, 5)] [(3, 4)] [] [] [4] [1, 3] [] [] [] []

/-- A reference can end up alive, unregistered and still pointing to an object that has been freed:
3 is put on its queue and keeps 1 alive, whose target is neither cleared nor kept. -/
theorem resurrected_reference_dangles :
    let s1 := postVisit false (fun _ => false) resurrecting
    Ready resurrecting (fun _ => []) ∧ 1 ∈ s1.live ∧ s1.target 1 = 2 ∧ 2 ∉ s1.live ∧
    1 ∉ s1.weak ++ s1.tenuredWeak :=
  ⟨by refine mk_ready ?_ ?_ ?_ ?_ ?_ ?_ ?_ ?_ ?_ <;> decide +kernel, by decide +kernel⟩

/-! ### Concrete cases -/

/-- 1 and 2 are reachable references with queue 3 to the dead object 4 and the live object 5; 6 is an
old reference to the dead object 7, which refers to 4; 8 is an unreachable object with native
finalizer 9, and refers to 10, to which native code has a weak reference. -/
def sample : St :=
  mk 10 [(7, [4]), (8, [10])] [(1, 4), (2, 5), (6, 7)] [(1, 3), (2, 3)] [(8, 1)] [(9, 8)] [1, 2, 3, 5, 6]
    [1, 2] [6] [9] [] [10, 8, 4, 5]

theorem sample_ready : Ready sample (fun _ => []) := by
  refine mk_ready ?_ ?_ ?_ ?_ ?_ ?_ ?_ ?_ ?_ <;> decide +kernel

theorem sample_internal : Internal sample := by
  intro f hf
  have : f = 9 := by simpa [sample, mk] using hf
  subst this
  refine ⟨by decide +kernel, by decide +kernel, fun r => ⟨?_, ?_⟩⟩
  · exact look_or (P := fun x => x ≠ 9) (by decide) (by decide) r
  · exact look_or (P := fun x => x ≠ 9) (by decide) (by decide) r

example : Life [9, 4] [4]
    { postVisit false (fun _ => true) { finalizable with finalizers := [4] } with
      toFinalize := [], finalizers := [9] } := by
  have h0 : Life [] [] { finalizable with finalizers := [] } := .start rfl rfl
  have h1 := Life.register (f := 4) h0 (by simp)
  have h2 := Life.collect false (fun _ => true) (c := fun _ => []) h1 finalizable_ready
  have h3 := Life.runJava (f := 4) (l := []) h2 (by decide +kernel)
  have h4 := Life.register (f := 9) h3 (by simp)
  exact .program h4 (by decide +kernel) (by decide +kernel) (by decide +kernel) (by decide +kernel)

example : 9 ∉ scheduled sample ∧ 9 ∈ scheduled (postVisit false (fun _ => false) sample) := by decide +kernel

example : sample.ftarget 9 = 8 ∧ 8 ∉ sample.live ∧ 8 ∈ (postVisit true (fun _ => false) sample).live ∧
    10 ∈ (postVisit true (fun _ => false) sample).live := by decide +kernel

example : ∀ f ∈ waiting sample, ∀ g, sample.ftarget g ≠ f := by
  intro f hf g
  have : f = 9 := by simpa [waiting, sample, mk] using hf
  subst this
  exact look_or (P := fun x => x ≠ 9) (by decide) (by decide) g

example : (∀ r ∈ processed true sample, r ∉ sample.live → r ∉ (postVisit true (fun _ => false) sample).live) ∧
    (∀ f ∈ sample.tenuredFinalizers, sample.ftarget f = 0 ∨ sample.ftarget f ∈ sample.live) ∧
    (postVisit true (fun _ => false) sample).target 1 = 0 ∧ (postVisit true (fun _ => false) sample).target 2 = 5 ∧
    (postVisit true (fun _ => false) sample).target 6 = 0 ∧ (postVisit true (fun _ => false) sample).front 3 = 1 ∧
    (postVisit true (fun _ => false) sample).jni = [10, 0, 0, 5] ∧
    (postVisit true (fun _ => true) sample).tenuredWeak = [2] := by decide +kernel

/-- two references on one queue -/
example : let s := { sample with front := upd sample.front 3 2, jNext := look 0 [(2, 1), (1, 1)] }
    Chain s 3 [2, 1] ∧ pollMany 3 3 s = [2, 1, 0] := by
  exact ⟨⟨by decide +kernel, ⟨by decide +kernel, show look 0 [(2, 1), (1, 1)] 1 = 1 by decide⟩, by decide⟩, by decide +kernel⟩

end Avian.Refs
