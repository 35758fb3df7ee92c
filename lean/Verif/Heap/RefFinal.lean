import Verif.Heap.RefAll

/-
Lemmas about `Heap/Refs`: the exact outcome when no unreachable reference survives.
-/
namespace Avian.Refs

theorem rtu_frame (s : St) (r o : Nat) (ho : o ≠ r) (hq : s.queue r ≠ o) :
    succ (referenceTargetUnreachable s r) o = succ s o := by
  unfold referenceTargetUnreachable visit succ
  simp only
  split
  · rfl
  · split
    · simp only [upd_other ho, upd_other (Ne.symm hq)]
    · rfl

theorem rtr_frame (s : St) (r o : Nat) : succ (referenceTargetReachable s r) o = succ s o := by
  unfold referenceTargetReachable visit succ
  simp only
  split <;> rfl

theorem refLoop_frame (ten : Nat → Bool) (o : Nat) (h0 : o ≠ 0) : ∀ (l moved : List Nat) (s s' : St) (kept moved' : List Nat),
    Good s → (∀ r ∈ l, r ∈ s.objs) → o ∉ l → (∀ r ∈ l, s.queue r ≠ o) →
    refLoop ten l moved s = (s', kept, moved') → succ s' o = succ s o
  | [], moved, s, s', kept, moved', _, _, _, _, h => by
    simp only [refLoop, Prod.mk.injEq] at h
    obtain ⟨rfl, rfl, rfl⟩ := h
    rfl
  | r :: l, moved, s, s', kept, moved', hs, hl, hol, hq, h => by
    have hr : r ∈ s.objs := hl r (List.mem_cons_self ..)
    have hor : o ≠ r := fun e => hol (e ▸ List.mem_cons_self ..)
    have hqr := hq r (List.mem_cons_self ..)
    simp only [refLoop] at h
    have go : ∀ (s1 : St) (m k m' : List Nat), Ext s s1 → succ s1 o = succ s o →
        refLoop ten l m s1 = (s', k, m') → succ s' o = succ s o := by
      intro s1 m k m' e1 hsucc h
      refine (refLoop_frame ten o h0 l m s1 s' k m' (e1.good hs) ?_ ?_ ?_ h).trans hsucc
      · intro x hx; rw [e1.objs]; exact hl x (List.mem_cons_of_mem _ hx)
      · exact fun e => hol (List.mem_cons_of_mem _ e)
      · intro x hx
        rcases e1.queue x with e | e
        · rw [e]; exact hq x (List.mem_cons_of_mem _ hx)
        · rw [e]; exact Ne.symm h0
    split at h
    · refine go _ _ _ _ (ru_ext hs hr) ?_ h
      unfold referenceUnreachable
      split
      · exact rtu_frame s r o hor hqr
      · rfl
    · split at h
      · exact go _ _ _ _ (rtu_ext hs hr) (rtu_frame s r o hor hqr) h
      · split at h
        · exact go _ _ _ _ (rtr_ext hs hr) (rtr_frame s r o) h
        · cases hrec : refLoop ten l moved (referenceTargetReachable s r) with
          | mk s2 rest =>
            obtain ⟨k2, m2⟩ := rest
            rw [hrec] at h
            simp only [Prod.mk.injEq] at h
            obtain ⟨rfl, rfl, rfl⟩ := h
            exact go _ _ _ _ (rtr_ext hs hr) (rtr_frame s r o) hrec

/-- Finalizers contain no pointers, so visiting them makes nothing else live. -/
theorem split_live : ∀ (l un : List Nat) (s s' : St) (kept un' : List Nat),
    Good s → (∀ f ∈ l, f ∈ s.objs) → (∀ f ∈ l, ∀ x ∈ succ s f, x = 0) →
    splitFinalizers l un s = (s', kept, un') → ∀ x ∈ s'.live, x ∈ s.live ∨ x ∈ l
  | [], un, s, s', kept, un', _, _, _, h => by
    simp only [splitFinalizers, Prod.mk.injEq] at h
    obtain ⟨rfl, rfl, rfl⟩ := h
    exact fun x hx => Or.inl hx
  | f :: l, un, s, s', kept, un', hs, hl, hz, h => by
    simp only [splitFinalizers] at h
    have hf : f ∈ s.objs := hl f (List.mem_cons_self ..)
    have e1 := visit_ext hs (Or.inr hf)
    have hone : ∀ x ∈ (visit s f).live, x ∈ s.live ∨ x = f := by
      intro x hx
      rcases ((visit_spec hs (Or.inr hf)).1 x).1 hx with e | e
      · exact Or.inl e
      · right
        have : ∀ y, Reach (succ s) f y → y = f := by
          intro y hy
          induction hy with
          | refl _ => rfl
          | step _ hm hne ih =>
            subst ih
            exact absurd (hz _ (List.mem_cons_self ..) _ hm) hne
        exact this x e
    have go : ∀ un1 k1 u1, splitFinalizers l un1 (visit s f) = (s', k1, u1) →
        ∀ x ∈ s'.live, x ∈ s.live ∨ x ∈ f :: l := by
      intro un1 k1 u1 h x hx
      rcases split_live l un1 (visit s f) s' k1 u1 (e1.good hs)
        (fun x hx => hl x (List.mem_cons_of_mem _ hx)) (fun g hg => hz g (List.mem_cons_of_mem _ hg)) h x hx with e | e
      · rcases hone x e with e | e
        · exact Or.inl e
        · exact Or.inr (e ▸ List.mem_cons_self ..)
      · exact Or.inr (List.mem_cons_of_mem _ e)
    split at h
    · exact go _ _ _ h
    · cases hrec : splitFinalizers l un (visit s f) with
      | mk s2 rest =>
        obtain ⟨k2, u2⟩ := rest
        rw [hrec] at h
        simp only [Prod.mk.injEq] at h
        obtain ⟨rfl, rfl, rfl⟩ := h
        exact go _ _ _ hrec

/-- If the targets of all tenured finalizers are alive, only the finalizers themselves become live. -/
theorem tenured_live {s : St} (hs : Good s) (hl : ∀ f ∈ s.tenuredFinalizers, f ∈ s.objs)
    (hz : ∀ f ∈ s.tenuredFinalizers, ∀ x ∈ succ s f, x = 0)
    (ht : ∀ f ∈ s.tenuredFinalizers, s.ftarget f = 0 ∨ s.ftarget f ∈ s.live) :
    ∀ x ∈ (phaseTenuredFinalizers s).live, x ∈ s.live ∨ x ∈ s.tenuredFinalizers := by
  cases h1 : splitFinalizers s.tenuredFinalizers [] s with
  | mk s1 r1 =>
    obtain ⟨kept, un⟩ := r1
    cases h2 : keepFinalizers (fun _ => false) kept [] s1 with
    | mk s2 r2 =>
      obtain ⟨kept2, moved⟩ := r2
      obtain ⟨c1, _, _, _⟩ := finalized_core _ hs hl h1 h2
      subst c1
      obtain ⟨_, _, _, ⟨new, i4, i5, i6⟩, _, _⟩ := split_spec s.tenuredFinalizers [] s s2 kept un hs hl h1
      have hun : un = [] := by
        rw [i4, List.append_nil]
        cases hnew : new with
        | nil => rfl
        | cons a l =>
          have ha : a ∈ new := hnew ▸ List.mem_cons_self ..
          have h1 := i6 a ha
          have h2 := ht a (i5.subset (List.mem_append_left _ ha))
          rw [← not_dead, h1] at h2
          cases h2
      have heq : phaseTenuredFinalizers s = scheduleAll un { s2 with tenuredFinalizers := kept2 } := by
        unfold phaseTenuredFinalizers; simp only [h1, h2]
      rw [heq, hun]
      exact split_live s.tenuredFinalizers [] s s2 kept un hs hl hz h1

/-- Finalizers are objects of the machine's own: they hold no pointers before they are scheduled and
no reference or finalizer is about them. -/
def Internal (s : St) : Prop :=
  ∀ f ∈ s.finalizers ++ s.tenuredFinalizers, (∀ x ∈ succ s f, x = 0) ∧ f ∉ s.weak ++ s.tenuredWeak ∧
    ∀ r, s.target r ≠ f ∧ s.queue r ≠ f

/-- The exact outcome for references. -/
def ExactOutcome (major : Bool) (s s' : St) (c : Nat → List Nat) : Prop :=
  (∀ r ∈ processed major s, r ∈ s.live → s'.target r =
    if isFinalizable s (s.target r) = true then 0 else if s.target r ∈ s'.live then s.target r else 0) ∧
  ∃ enq : Nat → List Nat, Queues s' (fun q => enq q ++ c q) ∧
    ∀ q r, r ∈ enq q ↔ r ∈ processed major s ∧ r ∈ s.live ∧ s.isCleaner r = false ∧
      isFinalizable s (s.target r) = false ∧ s.target r ≠ 0 ∧ s.target r ∉ s'.live ∧ s.queue r = q ∧ q ∈ s'.live

theorem pick {s : St} {x : Nat} {live : List Nat} (hl : ∀ y, y = x → (y ∈ s.live ↔ y ∈ live)) :
    (if dead s x = true then 0 else x) = if x ∈ live then x else 0 := by
  by_cases h : dead s x = true
  · rw [if_pos h, if_neg (fun e => (is_dead.1 h).2 ((hl x rfl).2 e))]
  · rw [if_neg h]
    have := not_dead.1 (show dead s x = false by simpa using h)
    rcases this with e | e
    · rw [e]; split <;> rfl
    · rw [if_pos ((hl x rfl).1 e)]

theorem postVisit_exact (major : Bool) (ten : Nat → Bool) {s : St} {c : Nat → List Nat} (h : Ready s c)
    (hin : Internal s)
    (hH : ∀ r ∈ processed major s, r ∉ s.live → r ∉ (postVisit major ten s).live)
    (h1 : major = true → ∀ f ∈ s.tenuredFinalizers, s.ftarget f = 0 ∨ s.ftarget f ∈ s.live) :
    ExactOutcome major s (postVisit major ten s) c := by
  have hmono := (postVisit_spec major ten h).ext
  have hf := first_spec major ten h
  obtain ⟨a1, a2, a3, a4, a5, a6, a7, a8, a9, a10, a11, afl, a12, a13⟩ := phaseClear_spec major s
  have key : postVisit major ten s = joinLists (phaseFinalizers ten (phaseClear major s)).2
      (phaseRefs ten (phaseFinalizers ten (phaseClear major s)).1).2
      (if major then phaseTenuredRefs (phaseTenuredFinalizers (phaseRefs ten (phaseFinalizers ten (phaseClear major s)).1).1)
        else (phaseRefs ten (phaseFinalizers ten (phaseClear major s)).1).1) := rfl
  rw [key] at hH hmono ⊢
  clear key
  generalize phaseClear major s = s1 at *
  have g1 := a1.good h.good
  obtain ⟨b, b2⟩ := phaseFinalizers_spec ten g1
    (by intro f hf; rw [a1.objs]; exact h.fins f (List.mem_append_left _ (a5 ▸ hf)))
  generalize phaseFinalizers ten s1 = p2 at *
  obtain ⟨s2, movedF⟩ := p2
  simp only at b b2 hH hmono hf ⊢
  have g2 := b.ext.good g1
  have hw2 : s2.weak = s.weak := b.weak.trans a3
  have e2 := a1.trans b.ext
  have hq2 : Queues s2 c := queues_same (s := s1) (queues_same h.queues a11 a10 (fun r => Or.inl (by rw [a9])))
    b.front b.jNext (fun r => Or.inl (by rw [b.queue]))
  have hn2 : s2.weak.Nodup := by rw [hw2]; exact (List.nodup_append.1 h.nodup).1
  have ho2 : ∀ r ∈ s2.weak, r ∈ s2.objs := by
    intro r hr; rw [e2.objs]; exact h.refs r (List.mem_append_left _ (hw2 ▸ hr))
  obtain ⟨s0, hl, hp, hpass⟩ := phaseRefs_spec ten (s := s2) (c := c) g2 hn2 ho2 hq2
  generalize phaseRefs ten s2 = p3 at *
  obtain ⟨s3, movedR⟩ := p3
  simp only at hl hp hpass hf hH hmono ⊢
  have hlive30 : s3.live = s0.live := by rw [hp]
  have hdisj := (List.nodup_append.1 h.nodup).2.2
  -- targets and queues before the loops
  have ht2 : ∀ r, s2.target r = if r ∈ processed major s ∧ isFinalizable s (s.target r) = true then 0 else s.target r := by
    intro r; rw [b.target]; exact a12 r
  have hqu2 : s2.queue = s.queue := b.queue.trans a9
  cases major with
  | false =>
    simp only [Bool.false_eq_true, if_false] at hH hmono ⊢
    rw [joinLists_eq] at hH hmono ⊢
    have hproc : processed false s = s.weak := by simp [processed]
    rw [hproc] at hH ht2
    have hsub : ∀ r ∈ s2.weak, r ∉ s2.live → r ∉ s0.live := by
      intro r hr hrl
      have := hH r (hw2 ▸ hr) (fun e => hrl (e2.live r e))
      simp only [hlive30] at this
      exact this
    obtain ⟨x1, x2, enq, x3, x4⟩ := refLoop_exact ten s2.weak [] s2 s0 s3.weak movedR c g2 hn2 ho2 hq2 hl hsub
    have hl2 : s2.live = s3.live := by rw [hlive30, x1]
    refine ⟨?_, enq, ?_, ?_⟩
    · intro r hr hrl
      rw [hproc] at hr
      show s3.target r = _
      rw [show s3.target = s0.target by rw [hp], x2 r (hw2.symm ▸ hr) (e2.live r hrl)]
      have ht := ht2 r
      by_cases hfin : isFinalizable s (s.target r) = true
      · rw [if_pos ⟨hr, hfin⟩] at ht
        rw [ht, if_pos hfin]; split <;> rfl
      · rw [if_neg (fun e => hfin e.2)] at ht
        rw [ht, if_neg hfin]
        exact pick (fun y _ => by rw [hl2])
    · exact queues_same x3 (show s3.front = _ by rw [hp]) (show s3.jNext = _ by rw [hp])
        (fun r => Or.inl (show s3.queue r = _ by rw [hp]))
    · intro q r
      rw [x4 q r, hw2, hproc, e2.cleaner, hqu2, hl2, ht2 r]
      constructor
      · rintro ⟨y1, y2, y3, y4, y5, y6⟩
        have hfin : ¬ isFinalizable s (s.target r) = true := by
          intro e; rw [if_pos ⟨y1, e⟩] at y4; simp [dead] at y4
        rw [if_neg (fun e => hfin e.2)] at y4
        obtain ⟨z1, z2⟩ := is_dead.1 y4
        refine ⟨y1, ?_, y3, by simpa using hfin, z1, hl2 ▸ z2, y5, y6⟩
        apply Classical.byContradiction
        intro hns
        exact hH r y1 hns y2
      · rintro ⟨y1, y2, y3, y4, y5, y6, y7, y8⟩
        refine ⟨y1, hl2 ▸ e2.live r y2, y3, ?_, y7, y8⟩
        rw [if_neg (fun e => by rw [y4] at e; cases e.2)]
        exact is_dead.2 ⟨y5, hl2.symm ▸ y6⟩
  | true =>
    simp only [if_true] at hH hmono ⊢
    rw [joinLists_eq] at hH hmono ⊢
    obtain ⟨p1, p2, p3, _, _, _, ⟨gone, d1, d2, d3, enq0, d4, d5⟩, x1, x2⟩ := hf
    have g3 := p1.good h.good
    have htfo : ∀ f ∈ s3.tenuredFinalizers, f ∈ s3.objs := by
      intro f hf; rw [p1.objs]; exact h.fins f (List.mem_append_right _ (p2 ▸ hf))
    obtain ⟨t, t2⟩ := phaseTenuredFinalizers_spec g3 htfo
    have hzero : ∀ f ∈ s3.tenuredFinalizers, ∀ x ∈ succ s3 f, x = 0 := by
      intro f hf x hx
      rw [p2] at hf
      obtain ⟨k1, k2, k3⟩ := hin f (List.mem_append_right _ hf)
      have hf0 : f ≠ 0 := fun e => h.good.nz (e ▸ h.fins f (List.mem_append_right _ hf))
      have s32 : succ s3 f = succ s2 f := by
        have : succ s3 f = succ s0 f := by rw [hp]; rfl
        rw [this]
        refine refLoop_frame ten f hf0 s2.weak [] s2 s0 s3.weak movedR g2 ho2 ?_ ?_ hl
        · rw [hw2]; exact fun e => k2 (List.mem_append_left _ e)
        · intro r _; rw [hqu2]; exact (k3 r).2
      have s21 : succ s2 f = succ s f := by
        simp only [succ, b.jNext, a10, b.front, a11, b.fields, afl]
      rw [s32, s21] at hx
      exact k1 x hx
    have htl := tenured_live g3 htfo hzero (by
      intro f hf
      rw [p1.ftarget]
      exact (h1 rfl f (p2 ▸ hf)).imp_right (p1.live _))
    generalize phaseTenuredFinalizers s3 = s4 at *
    have g4 := t.ext.good g3
    have e4 := p1.trans t.ext
    have htw4 : s4.tenuredWeak = s.tenuredWeak := t.tweak.trans p3
    have hn4 : s4.tenuredWeak.Nodup := by rw [htw4]; exact (List.nodup_append.1 h.nodup).2.1
    have ho4 : ∀ r ∈ s4.tenuredWeak, r ∈ s4.objs := by
      intro r hr; rw [e4.objs]; exact h.refs r (List.mem_append_right _ (htw4 ▸ hr))
    have hproc : ∀ r, r ∈ processed true s ↔ r ∈ s.weak ∨ r ∈ s.tenuredWeak := by
      intro r; simp [processed]
    -- first loop
    have e05' : ∀ x ∈ s3.live, x ∈ (phaseTenuredRefs s4).live := by
      intro x hx
      obtain ⟨s0', moved', hl', hp', _, hpass'⟩ := phaseTenuredRefs_spec (s := s4) g4 hn4 ho4
        (queues_same d4 t.front t.jNext (fun r => Or.inl (by rw [t.queue])))
      rw [hp']
      exact hpass'.1.live x (t.ext.live x hx)
    have hsub : ∀ r ∈ s2.weak, r ∉ s2.live → r ∉ s0.live := by
      intro r hr hrl hr0
      refine hH r ((hproc r).2 (Or.inl (hw2 ▸ hr))) (fun e => hrl (e2.live r e)) ?_
      exact e05' r (hlive30.symm ▸ hr0)
    obtain ⟨x1', x2', enq, x3, x4⟩ := refLoop_exact ten s2.weak [] s2 s0 s3.weak movedR c g2 hn2 ho2 hq2 hl hsub
    have hq4 : Queues s4 (fun q => enq q ++ c q) :=
      queues_same (queues_same x3 (show s3.front = _ by rw [hp]) (show s3.jNext = _ by rw [hp])
        (fun r => Or.inl (show s3.queue r = _ by rw [hp]))) t.front t.jNext (fun r => Or.inl (by rw [t.queue]))
    obtain ⟨s0', moved', hl', hp', hm', hpass'⟩ := phaseTenuredRefs_spec (s := s4) g4 hn4 ho4 hq4
    generalize phaseTenuredRefs s4 = s5 at *
    have hlive50 : s5.live = s0'.live := by rw [hp']
    have hsub2 : ∀ r ∈ s4.tenuredWeak, r ∉ s4.live → r ∉ s0'.live := by
      intro r hr hrl hr0
      refine hH r ((hproc r).2 (Or.inr (htw4 ▸ hr))) (fun e => hrl (e4.live r e)) ?_
      exact (show r ∈ s5.live from hlive50.symm ▸ hr0)
    obtain ⟨y1', y2', enq2, y3, y4⟩ := refLoop_exact (fun _ => false) s4.tenuredWeak [] s4 s0' s5.tenuredWeak moved'
      (fun q => enq q ++ c q) g4 hn4 ho4 hq4 hl' hsub2
    have hl54 : s5.live = s4.live := by rw [hlive50, y1']
    have hl23 : s2.live = s3.live := by rw [hlive30, x1']
    -- a target or queue is alive after the first loop exactly if it is alive at the end
    have same : ∀ x, (∀ f ∈ s.tenuredFinalizers, x ≠ f) → (x ∈ s2.live ↔ x ∈ s5.live) := by
      intro x hx
      rw [hl23, hl54]
      constructor
      · exact t.ext.live x
      · intro hxl
        rcases htl x hxl with e | e
        · exact e
        · rw [p2] at e; exact absurd rfl (hx x e)
    have hti : ∀ r, ∀ f ∈ s.tenuredFinalizers, s.target r ≠ f := fun r f hf =>
      ((hin f (List.mem_append_right _ hf)).2.2 r).1
    have hqi : ∀ r, ∀ f ∈ s.tenuredFinalizers, s.queue r ≠ f := fun r f hf =>
      ((hin f (List.mem_append_right _ hf)).2.2 r).2
    have ht4 : ∀ r, r ∉ s.weak → s4.target r = s2.target r := by
      intro r hr
      rw [t.target, show s3.target = s0.target by rw [hp]]
      exact (hpass.2.2.2.2.1 r (hw2.symm ▸ hr)).1
    have hqu4 : ∀ r, r ∉ s.weak → s4.queue r = s.queue r := by
      intro r hr
      rw [t.queue, show s3.queue = s0.queue by rw [hp], (hpass.2.2.2.2.1 r (hw2.symm ▸ hr)).2, hqu2]
    have ht5 : ∀ r, r ∉ s.tenuredWeak → s5.target r = s3.target r := by
      intro r hr
      rw [show s5.target = s0'.target by rw [hp'], (hpass'.2.2.2.2.1 r (htw4.symm ▸ hr)).1, t.target]
    refine ⟨?_, fun q => enq2 q ++ enq q, ?_, ?_⟩
    · intro r hr hrl
      have ht := ht2 r
      show s5.target r = _
      rcases (hproc r).1 hr with hw | hw
      · have hnt : r ∉ s.tenuredWeak := fun e => hdisj r hw r e rfl
        rw [ht5 r hnt, show s3.target = s0.target by rw [hp], x2' r (hw2.symm ▸ hw) (e2.live r hrl)]
        by_cases hfin : isFinalizable s (s.target r) = true
        · rw [if_pos ⟨hr, hfin⟩] at ht
          rw [ht, if_pos hfin]; split <;> rfl
        · rw [if_neg (fun e => hfin e.2)] at ht
          rw [ht, if_neg hfin]
          exact pick (fun y hy => by subst hy; exact same _ (hti r))
      · have hnw : r ∉ s.weak := fun e => hdisj r e r hw rfl
        rw [show s5.target = s0'.target by rw [hp'], y2' r (htw4.symm ▸ hw) (e4.live r hrl), ht4 r hnw]
        by_cases hfin : isFinalizable s (s.target r) = true
        · rw [if_pos ⟨hr, hfin⟩] at ht
          rw [ht, if_pos hfin]; split <;> rfl
        · rw [if_neg (fun e => hfin e.2)] at ht
          rw [ht, if_neg hfin]
          exact pick (fun y _ => by rw [hl54])
    · have : (fun q => (enq2 q ++ enq q) ++ c q) = fun q => enq2 q ++ (enq q ++ c q) := by
        funext q; rw [List.append_assoc]
      rw [this]
      exact queues_same y3 (show s5.front = _ by rw [hp']) (show s5.jNext = _ by rw [hp'])
        (fun r => Or.inl (show s5.queue r = _ by rw [hp']))
    · intro q r
      show r ∈ enq2 q ++ enq q ↔ _
      rw [List.mem_append, x4 q r, y4 q r, hw2, htw4, e2.cleaner, e4.cleaner, hqu2]
      have ht := ht2 r
      constructor
      · rintro (⟨z1, z2, z3, z4, z5, z6⟩ | ⟨z1, z2, z3, z4, z5, z6⟩)
        · have hnw : r ∉ s.weak := fun e => hdisj r e r z1 rfl
          have hpr := (hproc r).2 (Or.inr z1)
          rw [ht4 r hnw] at z4
          have hfin : ¬ isFinalizable s (s.target r) = true := by
            intro e; rw [if_pos ⟨hpr, e⟩] at ht; rw [ht] at z4; simp [dead] at z4
          rw [if_neg (fun e => hfin e.2)] at ht
          rw [ht] at z4
          obtain ⟨w1, w2⟩ := is_dead.1 z4
          rw [hqu4 r hnw] at z5
          refine ⟨hpr, ?_, z3, by simpa using hfin, w1, hl54.symm ▸ w2, z5, hl54.symm ▸ z6⟩
          apply Classical.byContradiction
          intro hns
          exact hH r hpr hns (hl54.symm ▸ z2)
        · have hpr := (hproc r).2 (Or.inl z1)
          have hfin : ¬ isFinalizable s (s.target r) = true := by
            intro e; rw [if_pos ⟨hpr, e⟩] at ht; rw [ht] at z4; simp [dead] at z4
          rw [if_neg (fun e => hfin e.2)] at ht
          rw [ht] at z4
          obtain ⟨w1, w2⟩ := is_dead.1 z4
          refine ⟨hpr, ?_, z3, by simpa using hfin, w1, fun e => w2 ((same _ (hti r)).2 e), z5, ?_⟩
          · apply Classical.byContradiction
            intro hns
            refine hH r hpr hns ?_
            exact e05' r (hl23 ▸ z2)
          · subst z5; exact (same _ (hqi r)).1 z6
      · rintro ⟨z1, z2, z3, z4, z5, z6, z7, z8⟩
        rw [if_neg (fun e => by rw [z4] at e; cases e.2)] at ht
        rcases (hproc r).1 z1 with hw | hw
        · right
          rw [ht]
          refine ⟨hw, e2.live r z2, z3, is_dead.2 ⟨z5, fun e => z6 ((same _ (hti r)).1 e)⟩, z7, ?_⟩
          subst z7; exact (same _ (hqi r)).2 z8
        · left
          have hnw : r ∉ s.weak := fun e => hdisj r e r hw rfl
          rw [ht4 r hnw, hqu4 r hnw, ht]
          exact ⟨hw, e4.live r z2, z3, is_dead.2 ⟨z5, hl54 ▸ z6⟩, z7, hl54 ▸ z8⟩

end Avian.Refs
