import Verif.Heap.RefSteps

/-
Lemmas about the loops over references in `Heap/Refs`.
-/
namespace Avian.Refs

/-- A reference that stays registered: it and what it leads to are alive. -/
def Safe (s : St) (r : Nat) : Prop :=
  r ∈ s.live ∧ (s.target r = 0 ∨ s.target r ∈ s.live) ∧ (s.queue r = 0 ∨ s.queue r ∈ s.live)

theorem Safe.ext {s s' : St} {r : Nat} (h : Safe s r) (e : Ext s s') : Safe s' r := by
  refine ⟨e.live r h.1, ?_, ?_⟩
  · rcases e.target r with x | x
    · rw [x]; exact h.2.1.imp_right (e.live _)
    · exact Or.inl x
  · rcases e.queue r with x | x
    · rw [x]; exact h.2.2.imp_right (e.live _)
    · exact Or.inl x

theorem target_zero_ext {s s' : St} {r : Nat} (h : s.target r = 0) (e : Ext s s') : s'.target r = 0 := by
  rcases e.target r with x | x
  · rw [x]; exact h
  · exact x

theorem queue_zero_ext {s s' : St} {r : Nat} (h : s.queue r = 0) (e : Ext s s') : s'.queue r = 0 := by
  rcases e.queue r with x | x
  · rw [x]; exact h
  · exact x

theorem rtu_target (s : St) (r : Nat) : (referenceTargetUnreachable s r).target = upd s.target r 0 := by
  unfold referenceTargetUnreachable visit
  simp only
  split
  · rfl
  · split <;> rfl

theorem rtu_live {s : St} (hs : Good s) {r : Nat} (hr : r ∈ s.objs) :
    r ∈ (referenceTargetUnreachable s r).live := by
  have hrl := visit_mem hs hr
  unfold referenceTargetUnreachable
  simp only
  split
  · exact hrl
  · split
    · rename_i hq
      have hq' := (not_dead.1 hq.2).resolve_left hq.1
      rw [visit_of_live (Or.inr hq')]
      exact hrl
    · exact hrl

theorem rtr_safe {s : St} (hs : Good s) {r : Nat} (hr : r ∈ s.objs) (hd : dead s r = false)
    (ht : dead s (s.target r) = false) : Safe (referenceTargetReachable s r) r := by
  have hrl : r ∈ s.live := by
    rcases not_dead.1 hd with e | e
    · exact absurd (e ▸ hr) hs.nz
    · exact e
  have e1 := visit_of_live (s := s) (Or.inr hrl)
  have e2 := visit_of_live (not_dead.1 ht)
  unfold referenceTargetReachable
  simp only [e1, e2]
  by_cases hq : dead s (s.queue r) = true
  · rw [if_pos hq]
    exact ⟨hrl, not_dead.1 ht, Or.inl upd_same⟩
  · rw [if_neg hq]
    have hq' : s.queue r = 0 ∨ s.queue r ∈ s.live := by
      rw [← not_dead]; cases h : dead s (s.queue r)
      · rfl
      · exact absurd h hq
    rw [visit_of_live hq']
    exact ⟨hrl, not_dead.1 ht, hq'⟩

theorem rtr_eq {s : St} {r : Nat} (hrl : r ∈ s.live) (ht : dead s (s.target r) = false) :
    referenceTargetReachable s r =
      if dead s (s.queue r) = true then { s with queue := upd s.queue r 0 } else s := by
  have e1 := visit_of_live (s := s) (Or.inr hrl)
  have e2 := visit_of_live (not_dead.1 ht)
  unfold referenceTargetReachable
  simp only [e1, e2]
  by_cases hq : dead s (s.queue r) = true
  · rw [if_pos hq, if_pos hq]
  · rw [if_neg hq, if_neg hq]
    have hq' : s.queue r = 0 ∨ s.queue r ∈ s.live := by
      rw [← not_dead]; cases h : dead s (s.queue r)
      · rfl
      · exact absurd h hq
    rw [visit_of_live hq']

theorem rtu_same (s : St) (r : Nat) : (referenceTargetUnreachable s r).finalizeQueue = s.finalizeQueue ∧
    (referenceTargetUnreachable s r).toFinalize = s.toFinalize := by
  unfold referenceTargetUnreachable visit
  simp only
  split
  · exact ⟨rfl, rfl⟩
  · split <;> exact ⟨rfl, rfl⟩

theorem ru_same (s : St) (r : Nat) : (referenceUnreachable s r).finalizeQueue = s.finalizeQueue ∧
    (referenceUnreachable s r).toFinalize = s.toFinalize := by
  unfold referenceUnreachable
  split
  · exact rtu_same s r
  · exact ⟨rfl, rfl⟩

theorem rtr_same (s : St) (r : Nat) : (referenceTargetReachable s r).finalizeQueue = s.finalizeQueue ∧
    (referenceTargetReachable s r).toFinalize = s.toFinalize := by
  unfold referenceTargetReachable visit
  simp only
  split <;> exact ⟨rfl, rfl⟩

/-! ### Queues -/

/-- A list linked through `jNext`, the last element pointing to itself. -/
def Linked (j : Nat → Nat) : List Nat → Prop
  | [] => True
  | [r] => j r = r
  | r :: r2 :: l => j r = r2 ∧ Linked j (r2 :: l)

/-- The queue `q` holds the references `l`, front first. -/
def Chain (s : St) (q : Nat) (l : List Nat) : Prop := s.front q = l.headD 0 ∧ Linked s.jNext l ∧ 0 ∉ l

/-- The contents of all queues; a reference in a queue is registered with none. -/
def Queues (s : St) (c : Nat → List Nat) : Prop :=
  (∀ q, q ≠ 0 → Chain s q (c q)) ∧ ∀ q, ∀ r ∈ c q, s.queue r = 0

theorem linked_congr {j j' : Nat → Nat} : ∀ (l : List Nat), (∀ r ∈ l, j' r = j r) → Linked j l → Linked j' l
  | [], _, _ => True.intro
  | [r], h, hl => by
    simp only [Linked] at hl ⊢
    rw [h r (List.mem_cons_self ..)]; exact hl
  | r :: r2 :: l, h, hl => by
    refine ⟨?_, linked_congr (r2 :: l) (fun x hx => h x (List.mem_cons_of_mem _ hx)) hl.2⟩
    rw [h r (List.mem_cons_self ..)]; exact hl.1

theorem queues_same {s s' : St} {c : Nat → List Nat} (h : Queues s c) (hf : s'.front = s.front)
    (hj : s'.jNext = s.jNext) (hq : ∀ r, s'.queue r = s.queue r ∨ s'.queue r = 0) : Queues s' c := by
  constructor
  · intro q h0
    unfold Chain
    rw [hf, hj]; exact h.1 q h0
  · intro q r hr
    rcases hq r with e | e
    · rw [e]; exact h.2 q r hr
    · exact e

theorem queues_enqueue {s : St} {c : Nat → List Nat} (h : Queues s c) {r q : Nat} (hq : s.queue r = q)
    (hq0 : q ≠ 0) (hr : r ≠ 0) :
    Queues { s with
      jNext := upd s.jNext r (if s.front q ≠ 0 then s.front q else r)
      front := upd s.front q r
      queue := upd s.queue r 0 } (upd c q (r :: c q)) := by
  have hnot : ∀ q', r ∉ c q' := fun q' hm => hq0 (hq ▸ h.2 q' r hm)
  constructor
  · intro q' h0
    by_cases e : q' = q
    · subst e
      rw [upd_same]
      obtain ⟨h1, h2, h3⟩ := h.1 q' h0
      refine ⟨by simp [upd_same], ?_, ?_⟩
      · cases hc : c q' with
        | nil =>
          rw [hc] at h1
          simp only [Linked, upd_same]
          rw [if_neg]
          simpa using h1
        | cons a l =>
          rw [hc] at h1 h2 h3
          simp only [List.headD_cons] at h1
          refine ⟨?_, linked_congr _ ?_ h2⟩
          · show upd s.jNext r _ r = a
            rw [upd_same, if_pos, h1]
            rw [h1]; intro e; exact h3 (e ▸ List.mem_cons_self ..)
          · intro x hx
            exact upd_other (fun e => hnot q' (by rw [hc, ← e]; exact hx))
      · intro hm
        rcases List.mem_cons.1 hm with e | e
        · exact hr e.symm
        · exact h3 e
    · rw [upd_other e]
      obtain ⟨h1, h2, h3⟩ := h.1 q' h0
      refine ⟨?_, linked_congr _ ?_ h2, h3⟩
      · simp only [upd_other e]; exact h1
      · intro x hx
        exact upd_other (fun e => hnot q' (e ▸ hx))
  · intro q' x hx
    by_cases e : x = r
    · subst e; exact upd_same
    · simp only [upd_other e]
      by_cases e2 : q' = q
      · subst e2
        rw [upd_same] at hx
        rcases List.mem_cons.1 hx with e3 | e3
        · exact absurd e3 e
        · exact h.2 q' x e3
      · rw [upd_other e2] at hx; exact h.2 q' x hx

/-- When `referenceTargetUnreachable` puts the reference on its queue. -/
theorem rtu_cases {s : St} (hs : Good s) {r : Nat} (hr : r ∈ s.objs) {c : Nat → List Nat} (hc : Queues s c) :
    (∃ q, s.queue r = q ∧ q ≠ 0 ∧ s.isCleaner r = false ∧ q ∈ (referenceTargetUnreachable s r).live ∧
      Queues (referenceTargetUnreachable s r) (upd c q (r :: c q)) ∧
      (referenceTargetUnreachable s r).queue = upd s.queue r 0) ∨
    ((s.isCleaner r = true ∨ s.queue r = 0 ∨ s.queue r ∉ (referenceTargetUnreachable s r).live) ∧
      Queues (referenceTargetUnreachable s r) c ∧ (referenceTargetUnreachable s r).queue = s.queue) := by
  have hr0 : r ≠ 0 := fun e => hs.nz (e ▸ hr)
  unfold referenceTargetUnreachable
  simp only
  by_cases hcl : s.isCleaner r = true
  · right
    rw [if_pos (show (visit s r).isCleaner r = true from hcl)]
    exact ⟨Or.inl hcl, queues_same hc rfl rfl (fun _ => Or.inl rfl), rfl⟩
  · rw [if_neg (show ¬ (visit s r).isCleaner r = true from hcl)]
    by_cases hq : (visit s r).queue r ≠ 0 ∧
        dead { visit s r with target := upd (visit s r).target r 0 } ((visit s r).queue r) = false
    · left
      rw [if_pos hq]
      have hq' := (not_dead.1 hq.2).resolve_left hq.1
      rw [visit_of_live (Or.inr hq')]
      refine ⟨s.queue r, rfl, hq.1, by simpa using hcl, hq', ?_, rfl⟩
      exact queues_enqueue (queues_same hc rfl rfl (fun _ => Or.inl rfl)) rfl hq.1 hr0
    · right
      rw [if_neg hq]
      refine ⟨?_, queues_same hc rfl rfl (fun _ => Or.inl rfl), rfl⟩
      right
      by_cases h0 : s.queue r = 0
      · exact Or.inl h0
      · right
        intro hl
        exact hq ⟨h0, not_dead.2 (Or.inr hl)⟩

/-- What one pass over a list of references achieves. -/
def Passed (l moved : List Nat) (s s' : St) (kept moved' : List Nat) (c : Nat → List Nat) : Prop :=
    Ext s s' ∧ SameLists s s' ∧ s'.finalizeQueue = s.finalizeQueue ∧ s'.toFinalize = s.toFinalize ∧
    (∀ r, r ∉ l → s'.target r = s.target r ∧ s'.queue r = s.queue r) ∧
    ∃ gone new, moved' = new ++ moved ∧ (gone ++ (new ++ kept)).Perm l ∧ (∀ r ∈ new ++ kept, Safe s' r) ∧
    (∀ r ∈ gone, dead s r = true ∨ (s'.target r = 0 ∧ r ∈ s'.live)) ∧
    ∃ enq : Nat → List Nat, Queues s' (fun q => enq q ++ c q) ∧
      ∀ q, (enq q).Nodup ∧ ∀ r ∈ enq q, r ∈ gone ∧ s.queue r = q ∧ q ≠ 0 ∧ s.isCleaner r = false ∧
        s'.target r = 0 ∧ s'.queue r = 0

/-- One pass over a list of references. -/
theorem refLoop_spec (ten : Nat → Bool) : ∀ (l moved : List Nat) (s s' : St) (kept moved' : List Nat) (c : Nat → List Nat),
    Good s → l.Nodup → (∀ r ∈ l, r ∈ s.objs) → Queues s c → refLoop ten l moved s = (s', kept, moved') →
    Passed l moved s s' kept moved' c
  | [], moved, s, s', kept, moved', c, _, _, _, hc, h => by
    simp only [refLoop, Prod.mk.injEq] at h
    obtain ⟨rfl, rfl, rfl⟩ := h
    exact ⟨.refl _, .refl _, rfl, rfl, fun _ _ => ⟨rfl, rfl⟩, [], [], rfl, .refl _, by simp, by simp, fun _ => [], hc, by simp⟩
  | r :: l, moved, s, s', kept, moved', c, hs, hnd, hl, hc, h => by
    have hr : r ∈ s.objs := hl r (List.mem_cons_self ..)
    have hnd' := List.nodup_cons.1 hnd
    simp only [refLoop] at h
    -- a reference that leaves the list by `referenceTargetUnreachable` or by being dropped
    have leave : ∀ s1, Ext s s1 → SameLists s s1 → s1.finalizeQueue = s.finalizeQueue → s1.toFinalize = s.toFinalize →
        (∀ x, x ≠ r → s1.target x = s.target x ∧ s1.queue x = s.queue x) →
        (dead s r = true ∨ (s1.target r = 0 ∧ r ∈ s1.live)) →
        ((∃ q, s.queue r = q ∧ q ≠ 0 ∧ s.isCleaner r = false ∧ s1.target r = 0 ∧ s1.queue r = 0 ∧ Queues s1 (upd c q (r :: c q))) ∨
          Queues s1 c) →
        refLoop ten l moved s1 = (s', kept, moved') → Passed (r :: l) moved s s' kept moved' c := by
      intro s1 e1 l1 f1 t1 o1 d1 q1 h
      have hl' : ∀ x ∈ l, x ∈ s1.objs := fun x hx => by rw [e1.objs]; exact hl x (List.mem_cons_of_mem _ hx)
      rcases q1 with ⟨q, q1, q2, q3, q4, q5, q6⟩ | q1
      · obtain ⟨i1, i2, i3, i4, i5, gone, new, i6, i7, i8, i9, enq, i10, i11⟩ :=
          refLoop_spec ten l moved s1 s' kept moved' _ (e1.good hs) hnd'.2 hl' q6 h
        refine ⟨e1.trans i1, l1.trans i2, i3.trans f1, i4.trans t1, ?_, r :: gone, new, i6, ?_, i8, ?_, upd enq q (enq q ++ [r]), ?_, ?_⟩
        · intro x hx
          have h1 : x ≠ r := fun e => hx (e ▸ List.mem_cons_self ..)
          have h2 : x ∉ l := fun e => hx (List.mem_cons_of_mem _ e)
          exact ⟨(i5 x h2).1.trans (o1 x h1).1, (i5 x h2).2.trans (o1 x h1).2⟩
        · exact List.Perm.cons r i7
        · intro x hx
          rcases List.mem_cons.1 hx with e | e
          · subst e
            rcases d1 with d | ⟨d, d'⟩
            · exact Or.inl d
            · exact Or.inr ⟨target_zero_ext d i1, i1.live _ d'⟩
          · rcases i9 x e with d | d
            · exact Or.inl (e1.dead d)
            · exact Or.inr d
        · have : (fun q' => upd enq q (enq q ++ [r]) q' ++ c q') = fun q' => enq q' ++ upd c q (r :: c q) q' := by
            funext q'
            by_cases e : q' = q
            · subst e; rw [upd_same, upd_same]; simp
            · rw [upd_other e, upd_other e]
          rw [this]; exact i10
        · intro q'
          have hgl : ∀ x ∈ gone, x ∈ l := fun x hx => i7.subset (List.mem_append_left _ hx)
          have conv : ∀ x ∈ enq q', x ∈ r :: gone ∧ s.queue x = q' ∧ q' ≠ 0 ∧ s.isCleaner x = false ∧ s'.target x = 0 ∧ s'.queue x = 0 := by
            intro x hx
            obtain ⟨a1, a2, a3, a4, a5, a6⟩ := (i11 q').2 x hx
            have hne : x ≠ r := fun e => hnd'.1 (e ▸ hgl x a1)
            exact ⟨List.mem_cons_of_mem _ a1, (o1 x hne).2 ▸ a2, a3, by rw [← e1.cleaner]; exact a4, a5, a6⟩
          by_cases e : q' = q
          · subst e
            rw [upd_same]
            constructor
            · rw [List.nodup_append]
              refine ⟨(i11 q').1, by simp, ?_⟩
              intro x hx y hy
              simp only [List.mem_singleton] at hy
              subst hy
              intro e; subst e
              exact hnd'.1 (hgl _ ((i11 q').2 _ hx).1)
            · intro x hx
              rcases List.mem_append.1 hx with e | e
              · exact conv x e
              · simp only [List.mem_singleton] at e; subst e
                exact ⟨List.mem_cons_self .., q1, q2, q3, target_zero_ext q4 i1, queue_zero_ext q5 i1⟩
          · rw [upd_other e]
            exact ⟨(i11 q').1, conv⟩
      · obtain ⟨i1, i2, i3, i4, i5, gone, new, i6, i7, i8, i9, enq, i10, i11⟩ :=
          refLoop_spec ten l moved s1 s' kept moved' _ (e1.good hs) hnd'.2 hl' q1 h
        refine ⟨e1.trans i1, l1.trans i2, i3.trans f1, i4.trans t1, ?_, r :: gone, new, i6, ?_, i8, ?_, enq, i10, ?_⟩
        · intro x hx
          have h1 : x ≠ r := fun e => hx (e ▸ List.mem_cons_self ..)
          have h2 : x ∉ l := fun e => hx (List.mem_cons_of_mem _ e)
          exact ⟨(i5 x h2).1.trans (o1 x h1).1, (i5 x h2).2.trans (o1 x h1).2⟩
        · exact List.Perm.cons r i7
        · intro x hx
          rcases List.mem_cons.1 hx with e | e
          · subst e
            rcases d1 with d | ⟨d, d'⟩
            · exact Or.inl d
            · exact Or.inr ⟨target_zero_ext d i1, i1.live _ d'⟩
          · rcases i9 x e with d | d
            · exact Or.inl (e1.dead d)
            · exact Or.inr d
        · intro q'
          have hgl : ∀ x ∈ gone, x ∈ l := fun x hx => i7.subset (List.mem_append_left _ hx)
          refine ⟨(i11 q').1, ?_⟩
          intro x hx
          obtain ⟨a1, a2, a3, a4, a5, a6⟩ := (i11 q').2 x hx
          have hne : x ≠ r := fun e => hnd'.1 (e ▸ hgl x a1)
          exact ⟨List.mem_cons_of_mem _ a1, (o1 x hne).2 ▸ a2, a3, by rw [← e1.cleaner]; exact a4, a5, a6⟩
    have rtuFrame : ∀ x, x ≠ r → (referenceTargetUnreachable s r).target x = s.target x ∧
        (referenceTargetUnreachable s r).queue x = s.queue x := by
      intro x hx
      refine ⟨by rw [rtu_target]; exact upd_other hx, ?_⟩
      rcases rtu_cases hs hr hc with ⟨q, _, _, _, _, _, e⟩ | ⟨_, _, e⟩
      · rw [e]; exact upd_other hx
      · rw [e]
    have rtuQueues : (∃ q, s.queue r = q ∧ q ≠ 0 ∧ s.isCleaner r = false ∧ (referenceTargetUnreachable s r).target r = 0 ∧
        (referenceTargetUnreachable s r).queue r = 0 ∧ Queues (referenceTargetUnreachable s r) (upd c q (r :: c q))) ∨
        Queues (referenceTargetUnreachable s r) c := by
      rcases rtu_cases hs hr hc with ⟨q, a1, a2, a3, _, a4, a5⟩ | ⟨_, a, _⟩
      · left; exact ⟨q, a1, a2, a3, by rw [rtu_target]; exact upd_same, by rw [a5]; exact upd_same, a4⟩
      · exact Or.inr a
    have rtuZero : (referenceTargetUnreachable s r).target r = 0 := by rw [rtu_target]; exact upd_same
    split at h
    · rename_i hd
      by_cases hq : s.queue r ≠ 0 ∧ dead s (s.queue r) = false
      · have e : referenceUnreachable s r = referenceTargetUnreachable s r := by
          unfold referenceUnreachable; rw [if_pos hq]
        rw [e] at h
        exact leave _ (rtu_ext hs hr) (rtu_lists s r) (rtu_same s r).1 (rtu_same s r).2 rtuFrame (Or.inl hd) rtuQueues h
      · have e : referenceUnreachable s r = s := by
          unfold referenceUnreachable; rw [if_neg hq]
        rw [e] at h
        exact leave s (.refl s) (.refl s) rfl rfl (fun _ _ => ⟨rfl, rfl⟩) (Or.inl hd) (Or.inr hc) h
    · rename_i hd
      split at h
      · rename_i ht
        exact leave _ (rtu_ext hs hr) (rtu_lists s r) (rtu_same s r).1 (rtu_same s r).2 rtuFrame
          (Or.inr ⟨rtuZero, rtu_live hs hr⟩) rtuQueues h
      · rename_i ht
        have hd' : dead s r = false := by simpa using hd
        have ht' : dead s (s.target r) = false := by simpa using ht
        have hrl : r ∈ s.live := by
          rcases not_dead.1 hd' with e | e
          · exact absurd (e ▸ hr) hs.nz
          · exact e
        have e1 := rtr_ext hs hr
        have hsafe := rtr_safe hs hr hd' ht'
        have heq := rtr_eq hrl ht'
        have hc1 : Queues (referenceTargetReachable s r) c := by
          refine queues_same hc ?_ ?_ e1.queue
          · rw [heq]; split <;> rfl
          · rw [heq]; split <;> rfl
        have o1 : ∀ x, x ≠ r → (referenceTargetReachable s r).target x = s.target x ∧
            (referenceTargetReachable s r).queue x = s.queue x := by
          intro x hx
          rw [heq]
          split
          · exact ⟨rfl, upd_other hx⟩
          · exact ⟨rfl, rfl⟩
        have hl' : ∀ x ∈ l, x ∈ (referenceTargetReachable s r).objs :=
          fun x hx => by rw [e1.objs]; exact hl x (List.mem_cons_of_mem _ hx)
        have lists := rtr_lists s r
        have same := rtr_same s r
        generalize referenceTargetReachable s r = s1 at h e1 hsafe hc1 o1 hl' lists same
        have finish : ∀ (kept2 moved2 new : List Nat) (gone : List Nat) (enq : Nat → List Nat),
            Ext s1 s' → SameLists s1 s' → s'.finalizeQueue = s1.finalizeQueue → s'.toFinalize = s1.toFinalize →
            (∀ x, x ∉ l → s'.target x = s1.target x ∧ s'.queue x = s1.queue x) →
            (gone ++ (new ++ kept2)).Perm l → (∀ x ∈ new ++ kept2, Safe s' x) →
            (∀ x ∈ gone, dead s1 x = true ∨ (s'.target x = 0 ∧ x ∈ s'.live)) →
            Queues s' (fun q => enq q ++ c q) →
            (∀ q, (enq q).Nodup ∧ ∀ x ∈ enq q, x ∈ gone ∧ s1.queue x = q ∧ q ≠ 0 ∧ s1.isCleaner x = false ∧
              s'.target x = 0 ∧ s'.queue x = 0) →
            (kept = r :: kept2 ∧ moved' = new ++ moved ∨ kept = kept2 ∧ moved' = new ++ (r :: moved)) → Passed (r :: l) moved s s' kept moved' c := by
          intro kept2 moved2 new gone enq i1 i2 i3 i4 i5 i7 i8 i9 i10 i11 hk
          have hgl : ∀ x ∈ gone, x ∈ l := fun x hx => i7.subset (List.mem_append_left _ hx)
          have hsafe' := hsafe.ext i1
          have frame : ∀ x, x ∉ r :: l → s'.target x = s.target x ∧ s'.queue x = s.queue x := by
            intro x hx
            have h1 : x ≠ r := fun e => hx (e ▸ List.mem_cons_self ..)
            have h2 : x ∉ l := fun e => hx (List.mem_cons_of_mem _ e)
            exact ⟨(i5 x h2).1.trans (o1 x h1).1, (i5 x h2).2.trans (o1 x h1).2⟩
          have hgone : ∀ x ∈ gone, dead s x = true ∨ (s'.target x = 0 ∧ x ∈ s'.live) := by
            intro x hx
            rcases i9 x hx with d | d
            · exact Or.inl (e1.dead d)
            · exact Or.inr d
          have henq : ∀ q, (enq q).Nodup ∧ ∀ x ∈ enq q, x ∈ gone ∧ s.queue x = q ∧ q ≠ 0 ∧ s.isCleaner x = false ∧
              s'.target x = 0 ∧ s'.queue x = 0 := by
            intro q
            refine ⟨(i11 q).1, ?_⟩
            intro x hx
            obtain ⟨a1, a2, a3, a4, a5, a6⟩ := (i11 q).2 x hx
            have hne : x ≠ r := fun e => hnd'.1 (e ▸ hgl x a1)
            exact ⟨a1, (o1 x hne).2 ▸ a2, a3, by rw [← e1.cleaner]; exact a4, a5, a6⟩
          rcases hk with ⟨rfl, rfl⟩ | ⟨rfl, rfl⟩
          · refine ⟨e1.trans i1, lists.trans i2, i3.trans same.1, i4.trans same.2, frame, gone, new, rfl, ?_, ?_, hgone, enq, i10, henq⟩
            · refine List.Perm.trans ?_ (List.Perm.cons r i7)
              rw [← List.append_assoc, ← List.append_assoc]
              exact List.perm_middle
            · intro x hx
              rcases List.mem_append.1 hx with e | e
              · exact i8 x (List.mem_append_left _ e)
              · rcases List.mem_cons.1 e with e | e
                · subst e; exact hsafe'
                · exact i8 x (List.mem_append_right _ e)
          · refine ⟨e1.trans i1, lists.trans i2, i3.trans same.1, i4.trans same.2, frame, gone, new ++ [r], by simp, ?_, ?_, hgone, enq, i10, henq⟩
            · refine List.Perm.trans ?_ (List.Perm.cons r i7)
              have : gone ++ (new ++ [r] ++ kept) = (gone ++ new) ++ r :: kept := by simp
              rw [this, ← List.append_assoc]
              exact List.perm_middle
            · intro x hx
              rcases List.mem_append.1 hx with e | e
              · rcases List.mem_append.1 e with e | e
                · exact i8 x (List.mem_append_left _ e)
                · simp only [List.mem_singleton] at e; subst e; exact hsafe'
              · exact i8 x (List.mem_append_right _ e)
        split at h
        · obtain ⟨i1, i2, i3, i4, i5, gone, new, i6, i7, i8, i9, enq, i10, i11⟩ :=
            refLoop_spec ten l (r :: moved) s1 s' kept moved' c (e1.good hs) hnd'.2 hl' hc1 h
          exact finish kept moved' new gone enq i1 i2 i3 i4 i5 i7 i8 i9 i10 i11 (Or.inr ⟨rfl, i6⟩)
        · cases hrec : refLoop ten l moved s1 with
          | mk s2 rest =>
            obtain ⟨kept2, moved2⟩ := rest
            rw [hrec] at h
            simp only [Prod.mk.injEq] at h
            obtain ⟨rfl, rfl, rfl⟩ := h
            obtain ⟨i1, i2, i3, i4, i5, gone, new, i6, i7, i8, i9, enq, i10, i11⟩ :=
              refLoop_spec ten l moved s1 s2 kept2 moved2 c (e1.good hs) hnd'.2 hl' hc1 hrec
            exact finish kept2 moved2 new gone enq i1 i2 i3 i4 i5 i7 i8 i9 i10 i11 (Or.inl ⟨rfl, i6⟩)

end Avian.Refs
