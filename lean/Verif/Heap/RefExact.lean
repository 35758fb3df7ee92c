import Verif.Heap.RefLoops

/-
Lemmas about `Heap/Refs`: the loop over references when no unreachable reference survives, and the
phases of `postVisit`.
-/
namespace Avian.Refs

theorem rtu_live_eq {s : St} {r : Nat} (hrl : r ∈ s.live) : (referenceTargetUnreachable s r).live = s.live := by
  unfold referenceTargetUnreachable
  simp only
  rw [visit_of_live (Or.inr hrl)]
  split
  · rfl
  · split
    · rename_i hq
      have hq' := (not_dead.1 hq.2).resolve_left hq.1
      rw [visit_of_live (Or.inr hq')]
    · rfl

theorem rtr_live_eq {s : St} {r : Nat} (hrl : r ∈ s.live) (ht : dead s (s.target r) = false) :
    (referenceTargetReachable s r).live = s.live := by
  rw [rtr_eq hrl ht]; split <;> rfl

theorem dead_congr {s s' : St} (h : s'.live = s.live) (o : Nat) : dead s' o = dead s o := by
  simp only [dead, h]

/-- What one pass over a list of references does when no unreachable reference survives. -/
def Exact (l : List Nat) (s s' : St) (c : Nat → List Nat) : Prop :=
  s'.live = s.live ∧
  (∀ r ∈ l, r ∈ s.live → s'.target r = if dead s (s.target r) = true then 0 else s.target r) ∧
  ∃ enq : Nat → List Nat, Queues s' (fun q => enq q ++ c q) ∧
    ∀ q r, r ∈ enq q ↔ r ∈ l ∧ r ∈ s.live ∧ s.isCleaner r = false ∧ dead s (s.target r) = true ∧
      s.queue r = q ∧ q ∈ s.live

theorem refLoop_exact (ten : Nat → Bool) : ∀ (l moved : List Nat) (s s' : St) (kept moved' : List Nat) (c : Nat → List Nat),
    Good s → l.Nodup → (∀ r ∈ l, r ∈ s.objs) → Queues s c → refLoop ten l moved s = (s', kept, moved') →
    (∀ r ∈ l, r ∉ s.live → r ∉ s'.live) → Exact l s s' c
  | [], moved, s, s', kept, moved', c, _, _, _, hc, h, _ => by
    simp only [refLoop, Prod.mk.injEq] at h
    obtain ⟨rfl, rfl, rfl⟩ := h
    exact ⟨rfl, by simp, fun _ => [], hc, by simp⟩
  | r :: l, moved, s, s', kept, moved', c, hs, hnd, hl, hc, h, hH => by
    have hr : r ∈ s.objs := hl r (List.mem_cons_self ..)
    have hr0 : r ≠ 0 := fun e => hs.nz (e ▸ hr)
    have hnd' := List.nodup_cons.1 hnd
    simp only [refLoop] at h
    -- from the state after the step for `r` to the end
    have go : ∀ (s1 : St) (moved1 kept1 moved2 : List Nat) (c1 : Nat → List Nat),
        Ext s s1 → s1.live = s.live → (∀ x, x ≠ r → s1.target x = s.target x ∧ s1.queue x = s.queue x) →
        (r ∈ s.live → s1.target r = if dead s (s.target r) = true then 0 else s.target r) →
        Queues s1 c1 →
        (∀ q, c1 q = (if r ∈ s.live ∧ s.isCleaner r = false ∧ dead s (s.target r) = true ∧ s.queue r = q ∧ q ∈ s.live
          then [r] else []) ++ c q) →
        refLoop ten l moved1 s1 = (s', kept1, moved2) → Exact (r :: l) s s' c := by
      intro s1 moved1 kept1 moved2 c1 e1 l1 o1 t1 q1 hc1 h
      have hl' : ∀ x ∈ l, x ∈ s1.objs := fun x hx => by rw [e1.objs]; exact hl x (List.mem_cons_of_mem _ hx)
      have hsp := refLoop_spec ten l moved1 s1 s' kept1 moved2 c1 (e1.good hs) hnd'.2 hl' q1 h
      obtain ⟨i1, i2, enq, i3, i4⟩ := refLoop_exact ten l moved1 s1 s' kept1 moved2 c1 (e1.good hs) hnd'.2 hl' q1 h
        (by intro x hx hxl; rw [l1] at hxl; exact hH x (List.mem_cons_of_mem _ hx) hxl)
      have hfr := hsp.2.2.2.2.1 r hnd'.1
      refine ⟨i1.trans l1, ?_, ?_⟩
      · intro x hx hxl
        rcases List.mem_cons.1 hx with e | e
        · subst e; rw [hfr.1]; exact t1 hxl
        · have hne : x ≠ r := fun e' => hnd'.1 (e' ▸ e)
          rw [i2 x e (by rw [l1]; exact hxl), (o1 x hne).1, dead_congr l1]
      · refine ⟨fun q => enq q ++ (if r ∈ s.live ∧ s.isCleaner r = false ∧ dead s (s.target r) = true ∧ s.queue r = q ∧ q ∈ s.live
          then [r] else []), ?_, ?_⟩
        · have : (fun q => (enq q ++ (if r ∈ s.live ∧ s.isCleaner r = false ∧ dead s (s.target r) = true ∧ s.queue r = q ∧ q ∈ s.live
              then [r] else [])) ++ c q) = fun q => enq q ++ c1 q := by
            funext q; rw [hc1 q, List.append_assoc]
          rw [this]; exact i3
        · intro q x
          rw [List.mem_append, i4 q x]
          constructor
          · rintro (⟨a1, a2, a3, a4, a5, a6⟩ | a)
            · have hne : x ≠ r := fun e' => hnd'.1 (e' ▸ a1)
              rw [dead_congr l1, (o1 x hne).1] at a4
              exact ⟨List.mem_cons_of_mem _ a1, l1 ▸ a2, e1.cleaner ▸ a3, a4, (o1 x hne).2 ▸ a5, l1 ▸ a6⟩
            · split at a
              · rename_i hcond
                simp only [List.mem_singleton] at a; subst a
                exact ⟨List.mem_cons_self .., hcond⟩
              · cases a
          · rintro ⟨a1, a2, a3, a4, a5, a6⟩
            rcases List.mem_cons.1 a1 with e | e
            · subst e
              right
              rw [if_pos ⟨a2, a3, a4, a5, a6⟩]
              exact List.mem_singleton.2 rfl
            · left
              have hne : x ≠ r := fun e' => hnd'.1 (e' ▸ e)
              refine ⟨e, l1.symm ▸ a2, e1.cleaner.symm ▸ a3, ?_, (o1 x hne).2.trans a5, l1.symm ▸ a6⟩
              rw [dead_congr l1, (o1 x hne).1]; exact a4
    have rtuFrame : ∀ x, x ≠ r → (referenceTargetUnreachable s r).target x = s.target x ∧
        (referenceTargetUnreachable s r).queue x = s.queue x := by
      intro x hx
      refine ⟨by rw [rtu_target]; exact upd_other hx, ?_⟩
      rcases rtu_cases hs hr hc with ⟨q, _, _, _, _, _, e⟩ | ⟨_, _, e⟩
      · rw [e]; exact upd_other hx
      · rw [e]
    split at h
    · rename_i hd
      have hnl := (is_dead.1 hd).2
      by_cases hq : s.queue r ≠ 0 ∧ dead s (s.queue r) = false
      · -- impossible: the reference would survive
        have e : referenceUnreachable s r = referenceTargetUnreachable s r := by
          unfold referenceUnreachable; rw [if_pos hq]
        rw [e] at h
        have e1 := rtu_ext hs hr
        have hl' : ∀ x ∈ l, x ∈ (referenceTargetUnreachable s r).objs :=
          fun x hx => by rw [e1.objs]; exact hl x (List.mem_cons_of_mem _ hx)
        have hx : Ext (referenceTargetUnreachable s r) s' := by
          rcases rtu_cases hs hr hc with ⟨q, _, _, _, _, a, _⟩ | ⟨_, a, _⟩
          · exact (refLoop_spec ten l moved _ s' kept moved' _ (e1.good hs) hnd'.2 hl' a h).1
          · exact (refLoop_spec ten l moved _ s' kept moved' _ (e1.good hs) hnd'.2 hl' a h).1
        exact absurd (hx.live r (rtu_live hs hr)) (hH r (List.mem_cons_self ..) hnl)
      · have e : referenceUnreachable s r = s := by
          unfold referenceUnreachable; rw [if_neg hq]
        rw [e] at h
        refine go s moved kept moved' c (.refl s) rfl (fun _ _ => ⟨rfl, rfl⟩) (fun a => absurd a hnl) hc ?_ h
        intro q
        rw [if_neg (fun a => hnl a.1)]; rfl
    · rename_i hd
      have hd' : dead s r = false := by simpa using hd
      have hrl : r ∈ s.live := by
        rcases not_dead.1 hd' with e | e
        · exact absurd (e ▸ hr) hs.nz
        · exact e
      split at h
      · rename_i ht
        have hll := rtu_live_eq (s := s) hrl
        rcases rtu_cases hs hr hc with ⟨q, a1, a2, a3, a4, a5, a6⟩ | ⟨a1, a2, a3⟩
        · refine go _ moved kept moved' _ (rtu_ext hs hr) hll rtuFrame ?_ a5 ?_ h
          · intro _; rw [rtu_target, upd_same, if_pos ht]
          · intro q'
            by_cases e : q' = q
            · subst e
              rw [upd_same, if_pos ⟨hrl, a3, ht, a1, hll ▸ a4⟩]; rfl
            · rw [upd_other e, if_neg (fun x => e (x.2.2.2.1.symm.trans a1))]; rfl
        · refine go _ moved kept moved' _ (rtu_ext hs hr) hll rtuFrame ?_ a2 ?_ h
          · intro _; rw [rtu_target, upd_same, if_pos ht]
          · intro q'
            rw [if_neg]
            · rfl
            · rintro ⟨_, x2, _, x4, x5⟩
              rcases a1 with a | a | a
              · rw [a] at x2; cases x2
              · rw [a] at x4; subst x4; exact hs.nz (hs.liveObjs _ x5)
              · rw [x4, hll] at a; exact a x5
      · rename_i ht
        have ht' : dead s (s.target r) = false := by simpa using ht
        have e1 := rtr_ext hs hr
        have heq := rtr_eq hrl ht'
        have hll := rtr_live_eq hrl ht'
        have hc1 : Queues (referenceTargetReachable s r) c := by
          refine queues_same hc ?_ ?_ e1.queue
          · rw [heq]; split <;> rfl
          · rw [heq]; split <;> rfl
        have o1 : ∀ x, x ≠ r → (referenceTargetReachable s r).target x = s.target x ∧
            (referenceTargetReachable s r).queue x = s.queue x := by
          intro x hx
          rw [heq]
          split
          · exact ⟨rfl, upd_other hx⟩
          · exact ⟨rfl, rfl⟩
        have tr : r ∈ s.live → (referenceTargetReachable s r).target r = if dead s (s.target r) = true then 0 else s.target r := by
          intro _
          rw [if_neg ht, heq]; split <;> rfl
        have hcc : ∀ q, c q = (if r ∈ s.live ∧ s.isCleaner r = false ∧ dead s (s.target r) = true ∧ s.queue r = q ∧ q ∈ s.live
            then [r] else []) ++ c q := by
          intro q
          rw [if_neg (fun x => ht x.2.2.1)]; rfl
        split at h
        · exact go _ (r :: moved) kept moved' c e1 hll o1 tr hc1 hcc h
        · cases hrec : refLoop ten l moved (referenceTargetReachable s r) with
          | mk s2 rest =>
            obtain ⟨kept2, moved2⟩ := rest
            rw [hrec] at h
            simp only [Prod.mk.injEq] at h
            obtain ⟨rfl, rfl, rfl⟩ := h
            exact go _ moved kept2 moved2 c e1 hll o1 tr hc1 hcc hrec

/-! ### Phases -/

theorem core_ext {s s' : St} (h1 : s'.objs = s.objs) (h2 : s'.fields = s.fields) (h3 : s'.jNext = s.jNext)
    (h4 : s'.front = s.front) (h5 : s'.target = s.target) (h6 : s'.queue = s.queue)
    (h7 : s'.hasFinalizer = s.hasFinalizer) (h8 : s'.isCleaner = s.isCleaner) (h9 : s'.ftarget = s.ftarget)
    (h10 : s'.native = s.native) (h11 : s'.live = s.live) : Ext s s' := by
  have hsucc : succ s' = succ s := by funext o; simp only [succ, h2, h3, h4]
  refine ⟨h1, h9, h10, h8, h7, fun o ho => h11.symm ▸ ho, fun r => Or.inl (by rw [h5]), fun r => Or.inl (by rw [h6]), ?_⟩
  intro g
  refine ⟨?_, ?_, ?_, ?_, ?_, ?_, ?_⟩
  · rw [h1, hsucc]; exact g.inObjs
  · rw [h1]; exact g.nz
  · rw [h1, h11]; exact g.liveObjs
  · rw [hsucc, h11]; exact g.closed
  · rw [h5, h1]; exact g.targets
  · rw [h6, h1]; exact g.queues
  · rw [h9, h1]; exact g.ftargets

theorem clear_live : ∀ (l : List Nat) (s : St), (l.foldl clearTarget s).live = s.live ∧
    SameLists s (l.foldl clearTarget s) ∧
    (l.foldl clearTarget s).finalizeQueue = s.finalizeQueue ∧ (l.foldl clearTarget s).toFinalize = s.toFinalize ∧
    (l.foldl clearTarget s).toClean = s.toClean ∧ (l.foldl clearTarget s).queue = s.queue ∧
    (l.foldl clearTarget s).jNext = s.jNext ∧ (l.foldl clearTarget s).front = s.front ∧
    (l.foldl clearTarget s).fields = s.fields ∧
    (l.foldl clearTarget s).hasFinalizer = s.hasFinalizer ∧
    ∀ r, (l.foldl clearTarget s).target r = if r ∈ l ∧ isFinalizable s (s.target r) = true then 0 else s.target r
  | [], s => ⟨rfl, .refl s, rfl, rfl, rfl, rfl, rfl, rfl, rfl, rfl, fun r => by simp⟩
  | a :: l, s => by
    obtain ⟨i1, i2, i3, i4, i5, i6, i7, i8, i9, i10, i11⟩ := clear_live l (clearTarget s a)
    have hlive : (clearTarget s a).live = s.live := by unfold clearTarget; split <;> rfl
    have hfin : ∀ o, isFinalizable (clearTarget s a) o = isFinalizable s o := by
      intro o
      unfold isFinalizable
      rw [dead_congr hlive]
      unfold clearTarget; split <;> rfl
    refine ⟨i1.trans hlive, (clearTarget_lists s a).trans i2, i3.trans ?_, i4.trans ?_, i5.trans ?_, i6.trans ?_,
      i7.trans ?_, i8.trans ?_, i9.trans ?_, i10.trans ?_, ?_⟩
    iterate 8 (unfold clearTarget; split <;> rfl)
    intro r
    have := i11 r
    simp only [List.foldl_cons]
    rw [this, hfin]
    by_cases hc : isFinalizable s (s.target a) = true
    · have ht : (clearTarget s a).target = upd s.target a 0 := by unfold clearTarget; rw [if_pos hc]
      rw [ht]
      by_cases e : r = a
      · subst e
        rw [upd_same, if_pos (⟨List.mem_cons_self .., hc⟩ : r ∈ r :: l ∧ _)]
        split <;> rfl
      · rw [upd_other e]
        simp only [List.mem_cons, e, false_or]
    · have ht : (clearTarget s a).target = s.target := by unfold clearTarget; rw [if_neg hc]
      rw [ht]
      by_cases e : r = a
      · subst e
        rw [if_neg (fun x => hc x.2), if_neg (fun x => hc x.2)]
      · simp only [List.mem_cons, e, false_or]

/-- The references a collection looks at. -/
def processed (major : Bool) (s : St) : List Nat := s.weak ++ if major then s.tenuredWeak else []

/-- Finalizers a collection looks at. -/
theorem phaseClear_spec (major : Bool) (s : St) :
    Ext s (phaseClear major s) ∧ (phaseClear major s).live = s.live ∧
    (phaseClear major s).weak = s.weak ∧ (phaseClear major s).tenuredWeak = s.tenuredWeak ∧
    (phaseClear major s).finalizers = s.finalizers ∧ (phaseClear major s).tenuredFinalizers = s.tenuredFinalizers ∧
    (phaseClear major s).finalizeQueue = s.finalizeQueue ∧ (phaseClear major s).toFinalize = s.toFinalize ∧
    (phaseClear major s).queue = s.queue ∧ (phaseClear major s).jNext = s.jNext ∧
    (phaseClear major s).front = s.front ∧ (phaseClear major s).fields = s.fields ∧
    (∀ r, (phaseClear major s).target r =
      if r ∈ processed major s ∧ isFinalizable s (s.target r) = true then 0 else s.target r) ∧
    (phaseClear major s).jni = s.jni.map (fun o => if isFinalizable s o then 0 else o) := by
  obtain ⟨a1, a2, a3, a4, a5, a6, a7, a8, a9, a10, a11⟩ := clear_live s.weak s
  have e1 := (clear_loop s.weak s).1
  generalize hs1 : s.weak.foldl clearTarget s = s1 at a1 a2 a3 a4 a5 a6 a7 a8 a9 a10 a11 e1
  cases major with
  | false =>
    have hp : phaseClear false s = clearJni s1 := by unfold phaseClear; simp only [Bool.false_eq_true, if_false]; rw [hs1]
    rw [hp]
    have hfin : ∀ o, isFinalizable s1 o = isFinalizable s o := by
      intro o; unfold isFinalizable; rw [dead_congr a1, a10]
    refine ⟨e1.trans (core_ext rfl rfl rfl rfl rfl rfl rfl rfl rfl rfl rfl), a1, a2.1, a2.2.1, a2.2.2.1, a2.2.2.2.1,
      a3, a4, a6, a7, a8, a9, ?_, ?_⟩
    · intro r
      rw [show processed false s = s.weak by simp [processed]]
      exact a11 r
    · simp only [clearJni, hfin, a2.2.2.2.2]
  | true =>
    obtain ⟨b1, b2, b3, b4, b5, b6, b7, b8, b9, b10, b11⟩ := clear_live s1.tenuredWeak s1
    have e2 := (clear_loop s1.tenuredWeak s1).1
    generalize hs2 : s1.tenuredWeak.foldl clearTarget s1 = s2 at b1 b2 b3 b4 b5 b6 b7 b8 b9 b10 b11 e2
    have hp : phaseClear true s = clearJni s2 := by unfold phaseClear; simp only [if_true]; rw [hs1, hs2]
    rw [hp]
    have hl : s2.live = s.live := b1.trans a1
    have hfin1 : ∀ o, isFinalizable s1 o = isFinalizable s o := by
      intro o; unfold isFinalizable; rw [dead_congr a1, a10]
    have hfin : ∀ o, isFinalizable s2 o = isFinalizable s o := by
      intro o; unfold isFinalizable; rw [dead_congr hl, b10, a10]
    refine ⟨(e1.trans e2).trans (core_ext rfl rfl rfl rfl rfl rfl rfl rfl rfl rfl rfl), hl, b2.1.trans a2.1,
      b2.2.1.trans a2.2.1, b2.2.2.1.trans a2.2.2.1, b2.2.2.2.1.trans a2.2.2.2.1,
      b3.trans a3, b4.trans a4, b6.trans a6, b7.trans a7, b8.trans a8, b9.trans a9, ?_, ?_⟩
    · intro r
      have h1 := b11 r
      show s2.target r = _
      rw [h1, hfin1, a2.2.1, a11 r]
      have hz : isFinalizable s 0 = false := by simp [isFinalizable, dead]
      simp only [processed, if_true, List.mem_append]
      by_cases hw : r ∈ s.weak <;> by_cases ht : r ∈ s.tenuredWeak <;>
        by_cases hf : isFinalizable s (s.target r) = true <;> simp [hw, ht, hf, hz]
    · simp only [clearJni, hfin, b2.2.2.2.2, a2.2.2.2.2]

/-- What a phase over finalizers does. -/
structure Finalized (l : List Nat) (s s' : St) (kept : List Nat) : Prop where
  ext : Ext s s'
  weak : s'.weak = s.weak
  tweak : s'.tenuredWeak = s.tenuredWeak
  jni : s'.jni = s.jni
  target : s'.target = s.target
  queue : s'.queue = s.queue
  jNext : s'.jNext = s.jNext
  front : s'.front = s.front
  fields : s'.fields = s.fields
  sched : ∃ newN newJ, s'.finalizeQueue = newN ++ s.finalizeQueue ∧ s'.toFinalize = newJ ++ s.toFinalize ∧
    ((newN ++ newJ) ++ kept).Perm l ∧ (∀ f ∈ newN, s.native f = true) ∧ (∀ f ∈ newJ, s.native f = false) ∧
    (∀ f ∈ newN ++ newJ, dead s (s.ftarget f) = true ∧ s.ftarget f ∈ s'.live)
  alive : ∀ f ∈ l, f ∈ s'.live
  kept : ∀ f ∈ kept, s.ftarget f = 0 ∨ s.ftarget f ∈ s'.live

theorem finalized_core (ten : Nat → Bool) {l : List Nat} {s : St} (hs : Good s) (hl : ∀ f ∈ l, f ∈ s.objs)
    {s1 s2 : St} {kept un kept2 moved : List Nat} (h1 : splitFinalizers l [] s = (s1, kept, un))
    (h2 : keepFinalizers ten kept [] s1 = (s2, kept2, moved)) :
    s2 = s1 ∧ (∀ f ∈ kept2, ten f = false) ∧ (∀ f ∈ moved, ten f = true) ∧
    (∀ s3 : St, Ext s1 s3 → s3.weak = s1.weak → s3.tenuredWeak = s1.tenuredWeak → s3.jni = s1.jni →
      s3.target = s1.target → s3.queue = s1.queue → s3.jNext = s1.jNext → s3.front = s1.front → s3.fields = s1.fields →
      s3.finalizeQueue = s1.finalizeQueue → s3.toFinalize = s1.toFinalize →
      Finalized l s (scheduleAll un s3) (moved ++ kept2)) := by
  obtain ⟨i1, i2, i3, ⟨new, i4, i5, i6⟩, i7, i8⟩ := split_spec l [] s s1 kept un hs hl h1
  rw [List.append_nil] at i4
  subst i4
  have hk : ∀ f ∈ kept, dead s1 (s1.ftarget f) = false := by
    intro f hf; rw [i1.ftarget]; exact i8 f hf
  obtain ⟨k1, new2, k2, k3, k4, k5⟩ := keep_spec ten kept [] s1 s2 kept2 moved hk h2
  rw [List.append_nil] at k2
  subst k2
  refine ⟨k1, k5, k4, ?_⟩
  intro s3 e3 hw ht hj htg hq hjn hfr hfld hfq htf
  have g3 := e3.good (i1.good hs)
  obtain ⟨m1, m2, m3, m4, m5, m6, m7, m8, newN, newJ, m9, m10, m11, m12, m13, m14⟩ := schedule_spec un s3 g3
  have e13 := i1.trans e3
  obtain ⟨q1, q2, q3, q4, q5, q6, q7, q8⟩ := i3
  refine ⟨e13.trans m1, ?_, ?_, ?_, ?_, ?_, ?_, ?_, ?_, ⟨newN, newJ, ?_, ?_, ?_, ?_, ?_, ?_⟩, ?_, ?_⟩
  · rw [m2.1, hw, i2.1]
  · rw [m2.2.1, ht, i2.2.1]
  · rw [m2.2.2.2.2, hj, i2.2.2.2.2]
  · rw [m3, htg, q4]
  · rw [m4, hq, q5]
  · rw [m5, hjn, q6]
  · rw [m6, hfr, q7]
  · rw [m7, hfld, q8]
  · rw [m9, hfq, q1]
  · rw [m10, htf, q2]
  · refine List.Perm.trans (List.Perm.append m11 k3) i5
  · rw [← e13.native]; exact m12
  · rw [← e13.native]; exact m13
  · intro f hf
    have hun : f ∈ un := m11.subset hf
    have hd := i6 f hun
    refine ⟨hd, ?_⟩
    have := m14 f hun
    rw [e13.ftarget] at this
    exact this.resolve_left (is_dead.1 hd).1
  · intro f hf; exact (e3.trans m1).live f (i7 f hf)
  · intro f hf
    have hk' : f ∈ kept := k3.subset hf
    have := not_dead.1 (i8 f hk')
    exact this.imp_right (fun x => (e3.trans m1).live _ x)

theorem phaseFinalizers_spec (ten : Nat → Bool) {s : St} (hs : Good s) (hl : ∀ f ∈ s.finalizers, f ∈ s.objs) :
    Finalized s.finalizers s (phaseFinalizers ten s).1 ((phaseFinalizers ten s).2 ++ (phaseFinalizers ten s).1.finalizers) ∧
    (phaseFinalizers ten s).1.tenuredFinalizers = s.tenuredFinalizers := by
  cases h1 : splitFinalizers s.finalizers [] s with
  | mk s1 r1 =>
    obtain ⟨kept, un⟩ := r1
    cases h2 : keepFinalizers ten kept [] s1 with
    | mk s2 r2 =>
      obtain ⟨kept2, moved⟩ := r2
      obtain ⟨c1, _, _, c4⟩ := finalized_core ten hs hl h1 h2
      subst c1
      have heq : phaseFinalizers ten s = (scheduleAll un { s2 with finalizers := kept2 }, moved) := by
        unfold phaseFinalizers; simp only [h1, h2]
      rw [heq]
      have hf := c4 { s2 with finalizers := kept2 } (core_ext rfl rfl rfl rfl rfl rfl rfl rfl rfl rfl rfl)
        rfl rfl rfl rfl rfl rfl rfl rfl rfl rfl
      have g3 := (core_ext (s := s2) (s' := { s2 with finalizers := kept2 }) rfl rfl rfl rfl rfl rfl rfl rfl rfl rfl rfl).good
        ((split_spec s.finalizers [] s s2 kept un hs hl h1).1.good hs)
      have hlists := (schedule_spec un { s2 with finalizers := kept2 } g3).2.1
      refine ⟨?_, ?_⟩
      · simp only
        rw [hlists.2.2.1]; exact hf
      · simp only
        rw [hlists.2.2.2.1]
        exact (split_spec s.finalizers [] s s2 kept un hs hl h1).2.1.2.2.2.1

theorem phaseTenuredFinalizers_spec {s : St} (hs : Good s) (hl : ∀ f ∈ s.tenuredFinalizers, f ∈ s.objs) :
    Finalized s.tenuredFinalizers s (phaseTenuredFinalizers s) (phaseTenuredFinalizers s).tenuredFinalizers ∧
    (phaseTenuredFinalizers s).finalizers = s.finalizers := by
  cases h1 : splitFinalizers s.tenuredFinalizers [] s with
  | mk s1 r1 =>
    obtain ⟨kept, un⟩ := r1
    cases h2 : keepFinalizers (fun _ => false) kept [] s1 with
    | mk s2 r2 =>
      obtain ⟨kept2, moved⟩ := r2
      obtain ⟨c1, _, c3, c4⟩ := finalized_core _ hs hl h1 h2
      subst c1
      have hm : moved = [] := by
        cases moved with
        | nil => rfl
        | cons a l => exact absurd (c3 a (List.mem_cons_self ..)) (by decide)
      subst hm
      have heq : phaseTenuredFinalizers s = scheduleAll un { s2 with tenuredFinalizers := kept2 } := by
        unfold phaseTenuredFinalizers; simp only [h1, h2]
      rw [heq]
      have hf := c4 { s2 with tenuredFinalizers := kept2 } (core_ext rfl rfl rfl rfl rfl rfl rfl rfl rfl rfl rfl)
        rfl rfl rfl rfl rfl rfl rfl rfl rfl rfl
      have g3 := (core_ext (s := s2) (s' := { s2 with tenuredFinalizers := kept2 }) rfl rfl rfl rfl rfl rfl rfl rfl rfl rfl rfl).good
        ((split_spec s.tenuredFinalizers [] s s2 kept un hs hl h1).1.good hs)
      have hlists := (schedule_spec un { s2 with tenuredFinalizers := kept2 } g3).2.1
      refine ⟨?_, ?_⟩
      · rw [hlists.2.2.2.1]; exact hf
      · rw [hlists.2.2.1]
        exact (split_spec s.tenuredFinalizers [] s s2 kept un hs hl h1).2.1.2.2.1

theorem jniLoop_eq : ∀ (l : List Nat) (s : St), jniLoop l s = (s, l.map fun o => if dead s o = true then 0 else o)
  | [], s => rfl
  | o :: l, s => by
    simp only [jniLoop, List.map_cons]
    by_cases h : dead s o = true
    · rw [if_pos h, if_pos h, jniLoop_eq l s]
    · rw [if_neg h, if_neg h, visit_of_live (not_dead.1 (by simpa using h)), jniLoop_eq l s]

end Avian.Refs
