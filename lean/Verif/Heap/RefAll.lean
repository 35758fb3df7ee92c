import Verif.Heap.RefExact

/-
Lemmas about `Heap/Refs`: the whole of `postVisit`.
-/
namespace Avian.Refs

/-- A state at the end of marking: pointers and lists lead to objects, what is live is closed, no
reference is registered twice, and the queues hold the references `c`. -/
structure Ready (s : St) (c : Nat → List Nat) : Prop where
  good : Good s
  nodup : (s.weak ++ s.tenuredWeak).Nodup
  refs : ∀ r ∈ s.weak ++ s.tenuredWeak, r ∈ s.objs
  fins : ∀ f ∈ s.finalizers ++ s.tenuredFinalizers, f ∈ s.objs
  queues : Queues s c

theorem phaseRefs_spec (ten : Nat → Bool) {s : St} {c : Nat → List Nat} (hs : Good s) (hn : s.weak.Nodup)
    (hl : ∀ r ∈ s.weak, r ∈ s.objs) (hc : Queues s c) :
    ∃ s0, refLoop ten s.weak [] s = (s0, (phaseRefs ten s).1.weak, (phaseRefs ten s).2) ∧
      (phaseRefs ten s).1 = { s0 with weak := (phaseRefs ten s).1.weak } ∧
      Passed s.weak [] s s0 (phaseRefs ten s).1.weak (phaseRefs ten s).2 c := by
  cases h : refLoop ten s.weak [] s with
  | mk s0 r0 =>
    obtain ⟨kept, moved⟩ := r0
    have heq : phaseRefs ten s = ({ s0 with weak := kept }, moved) := by unfold phaseRefs; simp only [h]
    rw [heq]
    exact ⟨s0, rfl, rfl, refLoop_spec ten s.weak [] s s0 kept moved c hs hn hl hc h⟩

theorem phaseTenuredRefs_spec {s : St} {c : Nat → List Nat} (hs : Good s) (hn : s.tenuredWeak.Nodup)
    (hl : ∀ r ∈ s.tenuredWeak, r ∈ s.objs) (hc : Queues s c) :
    ∃ s0 moved, refLoop (fun _ => false) s.tenuredWeak [] s = (s0, (phaseTenuredRefs s).tenuredWeak, moved) ∧
      phaseTenuredRefs s = { s0 with tenuredWeak := (phaseTenuredRefs s).tenuredWeak } ∧ moved = [] ∧
      Passed s.tenuredWeak [] s s0 (phaseTenuredRefs s).tenuredWeak moved c := by
  cases h : refLoop (fun _ => false) s.tenuredWeak [] s with
  | mk s0 r0 =>
    obtain ⟨kept, moved⟩ := r0
    have heq : phaseTenuredRefs s = { s0 with tenuredWeak := kept } := by unfold phaseTenuredRefs; simp only [h]
    rw [heq]
    refine ⟨s0, moved, rfl, rfl, ?_, refLoop_spec _ s.tenuredWeak [] s s0 kept moved c hs hn hl hc h⟩
    have : ∀ (l m : List Nat) (s s' : St) (k m' : List Nat), refLoop (fun _ => false) l m s = (s', k, m') → m' = m := by
      intro l
      induction l with
      | nil => intro m s s' k m' h; simp only [refLoop, Prod.mk.injEq] at h; exact h.2.2.symm
      | cons a l ih =>
        intro m s s' k m' h
        simp only [refLoop] at h
        split at h
        · exact ih _ _ _ _ _ h
        · split at h
          · exact ih _ _ _ _ _ h
          · simp only [Bool.false_eq_true, if_false] at h
            cases hrec : refLoop (fun _ => false) l m (referenceTargetReachable s a) with
            | mk s2 rest =>
              obtain ⟨k2, m2⟩ := rest
              rw [hrec] at h
              simp only [Prod.mk.injEq] at h
              rw [← h.2.2]
              exact ih _ _ _ _ _ hrec
    exact this _ _ _ _ _ _ h

/-- The outcome of a collection for finalizers and references. -/
structure Outcome (major : Bool) (s s' : St) (c : Nat → List Nat) : Prop where
  ext : Ext s s'
  fin : ∃ newN newJ, s'.finalizeQueue = newN ++ s.finalizeQueue ∧ s'.toFinalize = newJ ++ s.toFinalize ∧
    ((newN ++ newJ) ++ (s'.finalizers ++ s'.tenuredFinalizers)).Perm (s.finalizers ++ s.tenuredFinalizers) ∧
    (∀ f ∈ newN, s.native f = true) ∧ (∀ f ∈ newJ, s.native f = false) ∧
    (∀ f ∈ newN ++ newJ, dead s (s.ftarget f) = true ∧ s.ftarget f ∈ s'.live)
  finKept : ∀ f, f ∈ s.finalizers ∨ (major = true ∧ f ∈ s.tenuredFinalizers) →
    f ∈ s'.finalizers ++ s'.tenuredFinalizers → s.ftarget f = 0 ∨ s.ftarget f ∈ s'.live
  finLive : ∀ f, f ∈ s.finalizers ∨ (major = true ∧ f ∈ s.tenuredFinalizers) → f ∈ s'.live
  refs : ∃ gone, (gone ++ (s'.weak ++ s'.tenuredWeak)).Perm (s.weak ++ s.tenuredWeak) ∧
    (∀ r ∈ gone, r ∈ processed major s ∧ (dead s r = true ∨ (s'.target r = 0 ∧ r ∈ s'.live))) ∧
    (∀ r ∈ s'.weak ++ s'.tenuredWeak, r ∈ processed major s → Safe s' r) ∧
    ∃ enq : Nat → List Nat, Queues s' (fun q => enq q ++ c q) ∧
      ∀ q, (enq q).Nodup ∧ ∀ r ∈ enq q, r ∈ gone ∧ s.queue r = q ∧ q ≠ 0 ∧ s.isCleaner r = false ∧
        s'.target r = 0 ∧ s'.queue r = 0
  frame : ∀ r, r ∉ processed major s → s'.target r = s.target r ∧ s'.queue r = s.queue r

theorem joinLists_eq (movedF movedR : List Nat) (s : St) : joinLists movedF movedR s =
    { s with
      tenuredFinalizers := movedF ++ s.tenuredFinalizers
      tenuredWeak := movedR ++ s.tenuredWeak
      jni := s.jni.map fun o => if dead s o = true then 0 else o } := by
  unfold joinLists
  simp only
  rw [jniLoop_eq]
  rfl

theorem postVisit_minor (ten : Nat → Bool) (s : St) : postVisit false ten s =
    joinLists (phaseFinalizers ten (phaseClear false s)).2
      (phaseRefs ten (phaseFinalizers ten (phaseClear false s)).1).2
      (phaseRefs ten (phaseFinalizers ten (phaseClear false s)).1).1 := by
  unfold postVisit
  simp only [Bool.false_eq_true, if_false]

theorem postVisit_major (ten : Nat → Bool) (s : St) : postVisit true ten s =
    joinLists (phaseFinalizers ten (phaseClear true s)).2
      (phaseRefs ten (phaseFinalizers ten (phaseClear true s)).1).2
      (phaseTenuredRefs (phaseTenuredFinalizers (phaseRefs ten (phaseFinalizers ten (phaseClear true s)).1).1)) := by
  unfold postVisit
  simp only [if_true]

/-- The first three phases, common to both kinds of collection. -/
structure First (major : Bool) (s s3 : St) (movedF movedR : List Nat) (c : Nat → List Nat) : Prop where
  ext : Ext s s3
  tf : s3.tenuredFinalizers = s.tenuredFinalizers
  tw : s3.tenuredWeak = s.tenuredWeak
  fin : ∃ newN newJ, s3.finalizeQueue = newN ++ s.finalizeQueue ∧ s3.toFinalize = newJ ++ s.toFinalize ∧
    ((newN ++ newJ) ++ (movedF ++ s3.finalizers)).Perm s.finalizers ∧
    (∀ f ∈ newN, s.native f = true) ∧ (∀ f ∈ newJ, s.native f = false) ∧
    (∀ f ∈ newN ++ newJ, dead s (s.ftarget f) = true ∧ s.ftarget f ∈ s3.live)
  finKept : ∀ f ∈ movedF ++ s3.finalizers, s.ftarget f = 0 ∨ s.ftarget f ∈ s3.live
  finLive : ∀ f ∈ s.finalizers, f ∈ s3.live
  refs : ∃ gone, (gone ++ (movedR ++ s3.weak)).Perm s.weak ∧
    (∀ r ∈ gone, dead s r = true ∨ (s3.target r = 0 ∧ r ∈ s3.live)) ∧
    (∀ r ∈ movedR ++ s3.weak, Safe s3 r) ∧
    ∃ enq : Nat → List Nat, Queues s3 (fun q => enq q ++ c q) ∧
      ∀ q, (enq q).Nodup ∧ ∀ r ∈ enq q, r ∈ gone ∧ s.queue r = q ∧ q ≠ 0 ∧ s.isCleaner r = false ∧
        s3.target r = 0 ∧ s3.queue r = 0
  frameQ : ∀ r, r ∉ s.weak → s3.queue r = s.queue r
  frame : ∀ r, r ∉ processed major s → s3.target r = s.target r

theorem first_spec (major : Bool) (ten : Nat → Bool) {s : St} {c : Nat → List Nat} (h : Ready s c) :
    First major s (phaseRefs ten (phaseFinalizers ten (phaseClear major s)).1).1
      (phaseFinalizers ten (phaseClear major s)).2
      (phaseRefs ten (phaseFinalizers ten (phaseClear major s)).1).2 c := by
  obtain ⟨a1, a2, a3, a4, a5, a6, a7, a8, a9, a10, a11, afl, a12, a13⟩ := phaseClear_spec major s
  generalize phaseClear major s = s1 at *
  have g1 := a1.good h.good
  obtain ⟨b, b2⟩ := phaseFinalizers_spec ten g1
    (by intro f hf; rw [a1.objs]; exact h.fins f (List.mem_append_left _ (a5 ▸ hf)))
  generalize phaseFinalizers ten s1 = p2 at *
  obtain ⟨s2, movedF⟩ := p2
  simp only at b b2 ⊢
  have g2 := b.ext.good g1
  have hw2 : s2.weak = s.weak := b.weak.trans a3
  have e2 := a1.trans b.ext
  have hq2 : Queues s2 c := queues_same (s := s1) (queues_same h.queues a11 a10 (fun r => Or.inl (by rw [a9])))
    b.front b.jNext (fun r => Or.inl (by rw [b.queue]))
  obtain ⟨s0, hl, hp, hpass⟩ := phaseRefs_spec ten (s := s2) (c := c) g2
    (by rw [hw2]; exact (List.nodup_append.1 h.nodup).1)
    (by intro r hr; rw [e2.objs]; exact h.refs r (List.mem_append_left _ (hw2 ▸ hr))) hq2
  generalize phaseRefs ten s2 = p3 at *
  obtain ⟨s3, movedR⟩ := p3
  simp only at hl hp hpass ⊢
  obtain ⟨i1, i2, i3, i4, i5, gone, new, i6, i7, i8, i9, enq, i10, i11⟩ := hpass
  rw [List.append_nil] at i6
  subst i6
  have e03 : Ext s0 s3 := by
    rw [hp]; exact core_ext rfl rfl rfl rfl rfl rfl rfl rfl rfl rfl rfl
  have hlive : s3.live = s0.live := by rw [hp]
  have htgt : s3.target = s0.target := by rw [hp]
  have hqq : s3.queue = s0.queue := by rw [hp]
  have e23 := i1.trans e03
  obtain ⟨newN, newJ, f1, f2, f3, f4, f5, f6⟩ := b.sched
  refine ⟨e2.trans e23, ?_, ?_, ⟨newN, newJ, ?_, ?_, ?_, ?_, ?_, ?_⟩, ?_, ?_, ⟨gone, ?_, ?_, ?_, enq, ?_, ?_⟩, ?_, ?_⟩
  · rw [hp]; show s0.tenuredFinalizers = _; rw [i2.2.2.2.1, b2, a6]
  · rw [hp]; show s0.tenuredWeak = _; rw [i2.2.1, b.tweak, a4]
  · rw [hp]; show s0.finalizeQueue = _; rw [i3, f1, a7]
  · rw [hp]; show s0.toFinalize = _; rw [i4, f2, a8]
  · have : s3.finalizers = s2.finalizers := by rw [hp]; exact i2.2.2.1
    rw [this, ← a5]; exact f3
  · rw [← a1.native]; exact f4
  · rw [← a1.native]; exact f5
  · intro f hf
    obtain ⟨x1, x2⟩ := f6 f hf
    have := a1.dead x1
    rw [a1.ftarget] at this x2
    exact ⟨this, e23.live _ x2⟩
  · intro f hf
    have hfin : s3.finalizers = s2.finalizers := by rw [hp]; exact i2.2.2.1
    rw [hfin] at hf
    have := b.kept f hf
    rw [a1.ftarget] at this
    exact this.imp_right (e23.live _)
  · intro f hf
    exact e23.live _ (b.alive f (by rw [a5]; exact hf))
  · rw [← hw2]; exact i7
  · intro r hr
    rcases i9 r hr with d | ⟨d1, d2⟩
    · exact Or.inl (e2.dead d)
    · right; rw [htgt, hlive]; exact ⟨d1, d2⟩
  · intro r hr
    exact (i8 r hr).ext e03
  · exact queues_same i10 (by rw [hp]) (by rw [hp]) (fun r => Or.inl (by rw [hqq]))
  · intro q
    refine ⟨(i11 q).1, ?_⟩
    intro r hr
    obtain ⟨x1, x2, x3, x4, x5, x6⟩ := (i11 q).2 r hr
    refine ⟨x1, ?_, x3, ?_, htgt ▸ x5, hqq ▸ x6⟩
    · rw [← a9, ← b.queue]; exact x2
    · rw [← e2.cleaner]; exact x4
  · intro r hr
    rw [hqq, (i5 r (hw2.symm ▸ hr)).2, b.queue, a9]
  · intro r hr
    have hnw : r ∉ s.weak := fun e => hr (List.mem_append_left _ e)
    rw [htgt, (i5 r (hw2.symm ▸ hnw)).1, b.target, a12 r, if_neg (fun x => hr x.1)]

theorem postVisit_spec (major : Bool) (ten : Nat → Bool) {s : St} {c : Nat → List Nat} (h : Ready s c) :
    Outcome major s (postVisit major ten s) c := by
  have hf := first_spec major ten h
  cases major with
  | false =>
    rw [postVisit_minor, joinLists_eq]
    generalize phaseFinalizers ten (phaseClear false s) = p2 at *
    obtain ⟨s2, movedF⟩ := p2
    generalize phaseRefs ten s2 = p3 at *
    obtain ⟨s3, movedR⟩ := p3
    simp only at hf ⊢
    obtain ⟨a1, a2, a3, ⟨newN, newJ, b1, b2, b3, b4, b5, b6⟩, c1, c2, ⟨gone, d1, d2, d3, enq, d4, d5⟩, x1, x2⟩ := hf
    have e : Ext s3 { s3 with
        tenuredFinalizers := movedF ++ s3.tenuredFinalizers
        tenuredWeak := movedR ++ s3.tenuredWeak
        jni := s3.jni.map fun o => if dead s3 o = true then 0 else o } :=
      core_ext rfl rfl rfl rfl rfl rfl rfl rfl rfl rfl rfl
    refine ⟨a1.trans e, ⟨newN, newJ, b1, b2, ?_, b4, b5, b6⟩, ?_, ?_, ⟨gone, ?_, ?_, ?_, enq, queues_same d4 rfl rfl (fun _ => Or.inl rfl), d5⟩, ?_⟩
    · simp only
      rw [a2]
      refine List.Perm.trans ?_ (List.Perm.append_right s.tenuredFinalizers b3)
      simp only [List.append_assoc]
      refine List.Perm.append_left _ (List.Perm.append_left _ ?_)
      rw [← List.append_assoc, ← List.append_assoc]
      exact List.Perm.append_right _ List.perm_append_comm
    · intro f hf hk
      simp only at hk ⊢
      rcases hf with hf | hf
      · rcases List.mem_append.1 hk with e | e
        · exact c1 f (List.mem_append_right _ e)
        · rcases List.mem_append.1 e with e | e
          · exact c1 f (List.mem_append_left _ e)
          · -- the finalizer is on both lists: look at where it went
            have hin := b3.symm.subset hf
            rcases List.mem_append.1 hin with e' | e'
            · exact Or.inr (b6 f e').2
            · exact c1 f e'
      · exact absurd hf.1 (by decide)
    · intro f hf
      rcases hf with hf | hf
      · exact c2 f hf
      · exact absurd hf.1 (by decide)
    · simp only
      rw [a3]
      refine List.Perm.trans ?_ (List.Perm.append_right s.tenuredWeak d1)
      simp only [List.append_assoc]
      refine List.Perm.append_left _ ?_
      rw [← List.append_assoc, ← List.append_assoc]
      exact List.Perm.append_right _ List.perm_append_comm
    · intro r hr
      exact ⟨List.mem_append_left _ (d1.subset (List.mem_append_left _ hr)), d2 r hr⟩
    · intro r hr hp
      have hw : r ∈ s.weak := by simpa [processed] using hp
      simp only at hr
      rcases List.mem_append.1 hr with e' | e'
      · exact (d3 r (List.mem_append_right _ e')).ext e
      · rcases List.mem_append.1 e' with e' | e'
        · exact (d3 r (List.mem_append_left _ e')).ext e
        · exact absurd rfl ((List.nodup_append.1 h.nodup).2.2 r hw r (a3 ▸ e'))
    · intro r hr
      exact ⟨x2 r hr, x1 r (fun e => hr (List.mem_append_left _ e))⟩
  | true =>
    rw [postVisit_major, joinLists_eq]
    generalize phaseFinalizers ten (phaseClear true s) = p2 at *
    obtain ⟨s2, movedF⟩ := p2
    generalize phaseRefs ten s2 = p3 at *
    obtain ⟨s3, movedR⟩ := p3
    simp only at hf ⊢
    obtain ⟨a1, a2, a3, ⟨newN, newJ, b1, b2, b3, b4, b5, b6⟩, c1, c2, ⟨gone, d1, d2, d3, enq, d4, d5⟩, x1, x2⟩ := hf
    have g3 := a1.good h.good
    obtain ⟨t, t2⟩ := phaseTenuredFinalizers_spec g3
      (by intro f hf; rw [a1.objs]; exact h.fins f (List.mem_append_right _ (a2 ▸ hf)))
    generalize phaseTenuredFinalizers s3 = s4 at *
    have g4 := t.ext.good g3
    have e4 := a1.trans t.ext
    have htw4 : s4.tenuredWeak = s.tenuredWeak := t.tweak.trans a3
    have hq4 : Queues s4 (fun q => enq q ++ c q) :=
      queues_same d4 t.front t.jNext (fun r => Or.inl (by rw [t.queue]))
    obtain ⟨s0, moved, hl, hp, hm, hpass⟩ := phaseTenuredRefs_spec (s := s4) g4
      (by rw [htw4]; exact (List.nodup_append.1 h.nodup).2.1)
      (by intro r hr; rw [e4.objs]; exact h.refs r (List.mem_append_right _ (htw4 ▸ hr))) hq4
    subst hm
    generalize phaseTenuredRefs s4 = s5 at *
    obtain ⟨i1, i2, i3, i4, i5, gone2, new2, i6, i7, i8, i9, enq2, i10, i11⟩ := hpass
    rw [List.append_nil] at i6
    subst i6
    have e05 : Ext s0 s5 := by
      rw [hp]; exact core_ext rfl rfl rfl rfl rfl rfl rfl rfl rfl rfl rfl
    have e56 : Ext s5 { s5 with
        tenuredFinalizers := movedF ++ s5.tenuredFinalizers
        tenuredWeak := movedR ++ s5.tenuredWeak
        jni := s5.jni.map fun o => if dead s5 o = true then 0 else o } :=
      core_ext rfl rfl rfl rfl rfl rfl rfl rfl rfl rfl rfl
    have e45 := i1.trans e05
    have e35 := t.ext.trans e45
    have hlive : s5.live = s0.live := by rw [hp]
    have htgt : s5.target = s0.target := by rw [hp]
    have hqq : s5.queue = s0.queue := by rw [hp]
    have hfin5 : s5.finalizers = s3.finalizers := by rw [hp]; show s0.finalizers = _; rw [i2.2.2.1, t2]
    have htf5 : s5.tenuredFinalizers = s4.tenuredFinalizers := by rw [hp]; exact i2.2.2.2.1
    have hw5 : s5.weak = s3.weak := by rw [hp]; show s0.weak = _; rw [i2.1, t.weak]
    obtain ⟨newN2, newJ2, f1, f2, f3, f4, f5, f6⟩ := t.sched
    have hdisj := (List.nodup_append.1 h.nodup).2.2
    have hgone : ∀ r ∈ gone, r ∈ s.weak := fun r hr => d1.subset (List.mem_append_left _ hr)
    have hgone2 : ∀ r ∈ gone2, r ∈ s.tenuredWeak := fun r hr => htw4 ▸ i7.subset (List.mem_append_left _ hr)
    have hfk : ∀ f, f ∈ s.finalizers → s.ftarget f = 0 ∨ s.ftarget f ∈ s5.live := by
      intro f hf
      have hin := b3.symm.subset hf
      rcases List.mem_append.1 hin with e' | e'
      · exact Or.inr (e35.live _ (b6 f e').2)
      · exact (c1 f e').imp_right (e35.live _)
    have hfk2 : ∀ f, f ∈ s.tenuredFinalizers → s.ftarget f = 0 ∨ s.ftarget f ∈ s5.live := by
      intro f hf
      have hin := f3.symm.subset (a2.symm ▸ hf)
      rw [a1.ftarget] at f6
      rcases List.mem_append.1 hin with e' | e'
      · exact Or.inr (e45.live _ (f6 f e').2)
      · have := t.kept f e'
        rw [a1.ftarget] at this
        exact this.imp_right (e45.live _)
    refine ⟨(a1.trans e35).trans e56, ⟨newN2 ++ newN, newJ2 ++ newJ, ?_, ?_, ?_, ?_, ?_, ?_⟩, ?_, ?_,
      ⟨gone ++ gone2, ?_, ?_, ?_, fun q => enq2 q ++ enq q, ?_, ?_⟩, ?_⟩
    · show s5.finalizeQueue = _
      rw [hp]; show s0.finalizeQueue = _; rw [i3, f1, b1, List.append_assoc]
    · show s5.toFinalize = _
      rw [hp]; show s0.toFinalize = _; rw [i4, f2, b2, List.append_assoc]
    · simp only
      rw [hfin5, htf5]
      rw [a2] at f3
      refine List.Perm.trans ?_ (List.Perm.append b3 f3)
      rw [List.perm_iff_count]
      intro x
      simp only [List.count_append]
      omega
    · intro f hf
      rcases List.mem_append.1 hf with e | e
      · rw [← a1.native]; exact f4 f e
      · exact b4 f e
    · intro f hf
      rcases List.mem_append.1 hf with e | e
      · rw [← a1.native]; exact f5 f e
      · exact b5 f e
    · intro f hf
      have : f ∈ newN2 ++ newJ2 ∨ f ∈ newN ++ newJ := by
        simp only [List.mem_append] at hf ⊢
        rcases hf with (e | e) | (e | e)
        · exact Or.inl (Or.inl e)
        · exact Or.inr (Or.inl e)
        · exact Or.inl (Or.inr e)
        · exact Or.inr (Or.inr e)
      rcases this with e | e
      · obtain ⟨y1, y2⟩ := f6 f e
        have y1' := a1.dead y1
        rw [a1.ftarget] at y1' y2
        exact ⟨y1', e45.live _ y2⟩
      · exact ⟨(b6 f e).1, e35.live _ (b6 f e).2⟩
    · intro f hf _
      rcases hf with hf | hf
      · exact hfk f hf
      · exact hfk2 f hf.2
    · intro f hf
      rcases hf with hf | hf
      · exact e35.live _ (c2 f hf)
      · exact e45.live _ (t.alive f (a2.symm ▸ hf.2))
    · simp only
      rw [hw5]
      rw [htw4] at i7
      refine List.Perm.trans ?_ (List.Perm.append d1 i7)
      rw [List.perm_iff_count]
      intro x
      simp only [List.count_append, List.count_nil]
      omega
    · intro r hr
      rcases List.mem_append.1 hr with e | e
      · refine ⟨List.mem_append_left _ (hgone r e), ?_⟩
        rcases d2 r e with d | ⟨d, d'⟩
        · exact Or.inl d
        · exact Or.inr ⟨target_zero_ext d (e35.trans e56), e35.live _ d'⟩
      · refine ⟨List.mem_append_right _ (by simpa using hgone2 r e), ?_⟩
        rcases i9 r e with d | ⟨d, d'⟩
        · exact Or.inl (e4.dead d)
        · right; show s5.target r = 0 ∧ r ∈ s5.live; rw [htgt, hlive]; exact ⟨d, d'⟩
    · intro r hr _
      simp only at hr
      rw [hw5] at hr
      rcases List.mem_append.1 hr with e' | e'
      · exact (d3 r (List.mem_append_right _ e')).ext (e35.trans e56)
      · rcases List.mem_append.1 e' with e' | e'
        · exact (d3 r (List.mem_append_left _ e')).ext (e35.trans e56)
        · exact (i8 r (List.mem_append_right _ e')).ext (e05.trans e56)
    · have : (fun q => (enq2 q ++ enq q) ++ c q) = fun q => enq2 q ++ (enq q ++ c q) := by
        funext q; rw [List.append_assoc]
      rw [this]
      exact queues_same i10 (show s5.front = _ by rw [hp]) (show s5.jNext = _ by rw [hp])
        (fun r => Or.inl (show s5.queue r = _ by rw [hqq]))
    · intro q
      constructor
      · rw [List.nodup_append]
        refine ⟨(i11 q).1, (d5 q).1, ?_⟩
        intro x hx y hy e
        subst e
        exact hdisj x (hgone x ((d5 q).2 x hy).1) x (hgone2 x ((i11 q).2 x hx).1) rfl
      · intro r hr
        rcases List.mem_append.1 hr with e | e
        · obtain ⟨y1, y2, y3, y4, y5, y6⟩ := (i11 q).2 r e
          have hnw : r ∉ s.weak := fun hw => hdisj r hw r (hgone2 r y1) rfl
          refine ⟨List.mem_append_right _ y1, ?_, y3, ?_, ?_, ?_⟩
          · rw [← x1 r hnw, ← t.queue]; exact y2
          · rw [← e4.cleaner]; exact y4
          · show s5.target r = 0; rw [htgt]; exact y5
          · show s5.queue r = 0; rw [hqq]; exact y6
        · obtain ⟨y1, y2, y3, y4, y5, y6⟩ := (d5 q).2 r e
          exact ⟨List.mem_append_left _ y1, y2, y3, y4, target_zero_ext y5 (e35.trans e56), queue_zero_ext y6 (e35.trans e56)⟩
    · intro r hr
      have h1 : r ∉ s.weak := fun e => hr (List.mem_append_left _ e)
      have h2 : r ∉ s.tenuredWeak := fun e => hr (List.mem_append_right _ (by simpa using e))
      have h3 : r ∉ s4.tenuredWeak := htw4.symm ▸ h2
      refine ⟨?_, ?_⟩
      · show s5.target r = _
        rw [htgt, (i5 r h3).1, t.target, x2 r hr]
      · show s5.queue r = _
        rw [hqq, (i5 r h3).2, t.queue, x1 r h1]

end Avian.Refs
