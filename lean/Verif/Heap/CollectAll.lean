import Verif.Heap.CollectLoop

/-! A whole collection. -/

namespace Avian.Collect

theorem read_reach {c sl} (hps : ∀ a k, sl = .field a k → (a, k) ∈ c.ps ∨ (Reach c a ∧ c.kind a = .fixed))
    (ho : Outer c sl) (w : WF c) : read c.s0 sl = 0 ∨ (read c.s0 sl ∈ c.U ∧ Reach c (read c.s0 sl)) := by
  by_cases h0 : read c.s0 sl = 0
  · exact Or.inl h0
  · right
    cases sl with
    | root i =>
      refine ⟨?_, Reach.root i h0⟩
      rcases w.roots i with h | h
      · exact absurd h h0
      · exact h
    | field a k =>
      refine ⟨?_, ?_⟩
      · rcases w.closed a ho.1 k ho.2.2 with h | h
        · exact absurd h h0
        · exact h
      · rcases hps a k rfl with h | ⟨h, hk⟩
        · exact Reach.old a k h h0
        · exact Reach.step a k h (by rw [hk]; simp) ho.2.2 h0

theorem write_frame (s : St) (sl : Slot) (v : Addr) : Frame s (write s sl v) := by
  cases sl <;> exact ⟨rfl, rfl, rfl, fun _ _ h => h⟩

theorem collect_spec {c s dn ip sl} {n : Nat} (w : WF c) (h : Quiet c s dn ip) (ho : Outer c sl) (hnd : ¬ dn sl)
    (hps : ∀ a k, sl = .field a k → (a, k) ∈ c.ps ∨ (Reach c a ∧ c.kind a = .fixed))
    (hip : ∀ f k, sl = .field f k → c.kind f = .fixed → f ∈ ip ++ s.visitedList) (hn : c.U.length ≤ n) :
    ∃ s', collect c.e n s sl = some s' ∧ Quiet c s' (fun x => dn x ∨ x = sl) ip ∧ s'.visitedList = s.visitedList := by
  have hval := h.outRaw sl ho hnd
  have hu := update_spec w h sl (read c.s0 sl) (read_reach hps ho w) (by
    intro a k e; subst e; exact Or.inr ho)
  unfold collect
  simp only [hval]
  generalize update c.e s sl (read c.s0 sl) = r at hu
  have hip' : ∀ f k, sl = .field f k → c.kind f = .fixed → f ∈ ip ++ r.1.visitedList := by
    rw [hu.frame.vis]; exact hip
  cases hb : r.2.2 with
  | false =>
    obtain ⟨hc, _⟩ := hu.stay hb
    have := core_write w hc ho hu.done hip' hu.rem
    simp only [Bool.false_eq_true, if_false]
    exact ⟨_, rfl, this, ((write_frame r.1 sl r.2.1).vis).trans hu.frame.vis⟩
  | true =>
    obtain ⟨hU, hm, hn', hc, hfe⟩ := hu.moved hb
    have hw := core_write w hc ho hu.done hip' hu.rem
    have hfv : ∃ d, (write r.1 sl r.2.1).fwd (read c.s0 sl) = some d := by
      cases hu.done with
      | null h1 => rw [h1] at hU; exact absurd hU w.zero
      | still _ h2 => rw [hm] at h2; cases h2
      | fixed _ h2 => rw [hm] at h2; cases h2
      | moved h1 => exact ⟨_, (write_frame _ _ _).fwd _ _ h1⟩
    have hhead : Head c (write r.1 sl r.2.1) (fun x => dn x ∨ x = sl) ip [] [] (read c.s0 sl) 0 := by
      refine ⟨⟨core_congr hw ?_ ?_ (fun _ => Iff.rfl), by simp [targets], ?_, by simp, by simp, by simp, by simp, by simp,
        by simp, by simp, by simp⟩, rfl⟩
      · intro a k; simp [targets, Pend]
      · intro a k; simp [targets]
      · intro a ha
        have : a = read c.s0 sl := by simpa [targets] using ha
        rw [this]; exact hfv
    obtain ⟨s', a1, a2, a3, _⟩ := loop_spec w n _ [] [] _ 0 hhead (by simpa using hn)
    simp only [if_true]
    exact ⟨s', a1, a2, a3.trans (((write_frame r.1 sl r.2.1).vis).trans hu.frame.vis)⟩

/-- visit the fields of one non-moving object -/
theorem fields_spec {c f vl} {n : Nat} (w : WF c) (hn : c.U.length ≤ n) (hf : f ∈ c.U) (hk : c.kind f = .fixed)
    (hr : Reach c f) : ∀ (ks : List Nat) (s : St) (dn : Slot → Prop), Quiet c s dn [f] → s.visitedList = vl → ks.Nodup →
      (∀ k ∈ ks, k ∈ (c.s0.mem f).slots ∧ ¬ dn (.field f k)) →
      ∃ s', ks.foldlM (fun s k => collect c.e n s (.field f k)) s = some s' ∧
        Quiet c s' (fun x => dn x ∨ ∃ k ∈ ks, x = .field f k) [f] ∧ s'.visitedList = vl := by
  intro ks
  induction ks with
  | nil =>
    intro s dn h hv _ _
    exact ⟨s, rfl, core_congr h (fun _ _ => Iff.rfl) (fun _ _ => Iff.rfl) (by simp), hv⟩
  | cons k ks ih =>
    intro s dn h hv hnd hks
    obtain ⟨h1, h2⟩ := hks k List.mem_cons_self
    obtain ⟨s1, a1, a2, a3⟩ := collect_spec (n := n) w h (sl := .field f k) ⟨hf, by rw [hk]; simp, h1⟩ h2
      (fun a j e => by cases e; exact Or.inr ⟨hr, hk⟩) (fun g j e _ => by cases e; simp) hn
    obtain ⟨s2, b1, b2, b3⟩ := ih s1 _ a2 (a3.trans hv) (List.nodup_cons.1 hnd).2 (by
      intro j hj
      obtain ⟨g1, g2⟩ := hks j (List.mem_cons_of_mem _ hj)
      refine ⟨g1, ?_⟩
      rintro (g3 | g3)
      · exact g2 g3
      · have : j = k := by simpa using g3
        subst this
        exact (List.nodup_cons.1 hnd).1 hj)
    refine ⟨s2, ?_, ?_, b3⟩
    · rw [List.foldlM_cons, a1]; exact b1
    · refine core_congr b2 (fun _ _ => Iff.rfl) (fun _ _ => Iff.rfl) ?_
      intro x
      constructor
      · rintro ((h1 | h1) | ⟨j, hj, h1⟩)
        · exact Or.inl h1
        · exact Or.inr ⟨k, List.mem_cons_self, h1⟩
        · exact Or.inr ⟨j, List.mem_cons_of_mem _ hj, h1⟩
      · rintro (h3 | ⟨j, hj, h3⟩)
        · exact Or.inl (Or.inl h3)
        · rcases List.mem_cons.1 hj with e | hj
          · exact Or.inl (Or.inr (by rw [h3, e]))
          · exact Or.inr ⟨j, hj, h3⟩

/-- `dn'` settles more slots than `dn`, but only slots of non-moving objects being collected -/
structure Grows (c : Ctx) (dn dn' : Slot → Prop) : Prop where
  sub : ∀ sl, dn sl → dn' sl
  only : ∀ sl, dn' sl → dn sl ∨ ∃ f k, sl = .field f k ∧ c.kind f = .fixed

theorem visitMarked_spec {c} {n : Nat} (w : WF c) (hn : c.U.length ≤ n) : ∀ (m : Nat) (s : St) (dn : Slot → Prop),
    Quiet c s dn [] → c.U.length ≤ m + s.visitedList.length →
    ∃ s' dn', visitMarked c.e n m s = some s' ∧ Quiet c s' dn' [] ∧ s'.markedList = [] ∧ Grows c dn dn' := by
  intro m
  induction m with
  | zero =>
    intro s dn h hm
    unfold visitMarked
    cases hl : s.markedList with
    | nil => exact ⟨s, dn, rfl, h, hl, ⟨fun _ h => h, fun _ h => Or.inl h⟩⟩
    | cons f rest =>
      exfalso
      have hnd := h.listNodup
      rw [hl] at hnd
      have hsub : ∀ x ∈ f :: rest ++ [] ++ s.visitedList, x ∈ c.U := by
        intro x hx
        exact (h.markedKind x ((h.markedOK x).2 (by rw [hl]; exact hx))).1
      have := nodup_subset_length hnd hsub
      simp at this
      omega
  | succ m ih =>
    intro s dn h hm
    unfold visitMarked
    cases hl : s.markedList with
    | nil => exact ⟨s, dn, rfl, h, hl, ⟨fun _ h => h, fun _ h => Or.inl h⟩⟩
    | cons f rest =>
      simp only
      have hmk : s.marked f = true := (h.markedOK f).2 (by rw [hl]; simp)
      obtain ⟨hfU, hfk⟩ := h.markedKind f hmk
      have hfr := h.reach f (Or.inr hmk)
      have hff : s.fwd f = none := by
        cases hx : s.fwd f with
        | none => rfl
        | some d => have := (h.fwdU f d hx).2.1; rw [hfk] at this; cases this
      have hsl := (h.outside f hfU hff).2
      have hnd := h.listNodup
      rw [hl] at hnd
      have hfv : f ∉ s.visitedList := by
        intro hx
        exact (List.nodup_cons.1 (show (f :: (rest ++ [] ++ s.visitedList)).Nodup from hnd)).1 (by simp [hx])
      have hundone : ∀ k, ¬ dn (.field f k) := fun k hd => hfv (by simpa using h.dnSub f k hfk hd)
      -- `f` is being visited
      have h1 : Quiet c { s with markedList := rest } dn [f] := by
        have hD : ∀ b r, Done c { s with markedList := rest } b r ↔ Done c s b r := by
          intro b r
          constructor <;> intro hd <;> cases hd <;> first | exact .null ‹_› ‹_› | exact .still ‹_› ‹_› ‹_› | exact .fixed ‹_› ‹_› ‹_› ‹_› | exact .moved ‹_›
        have hR : ∀ sl, read { s with markedList := rest } sl = read s sl := by intro sl; cases sl <;> rfl
        refine ⟨h.static, h.static0, h.fwdU, h.inj, h.content, h.outside, h.fieldRaw,
          fun a d k h1 h2 h3 => (hD _ _).2 (h.fieldDone a d k h1 h2 h3), h.movRaw,
          fun sl h1 h2 => by rw [hR]; exact h.outRaw sl h1 h2,
          fun sl h1 h2 => by rw [hR]; exact (hD _ _).2 (h.outDone sl h1 h2),
          fun a d k h1 h2 h3 => by
            obtain ⟨r, hr⟩ := h.known a d k h1 h2 h3
            exact ⟨r, (hD _ _).2 hr⟩,
          fun a d k r h1 h2 h3 h4 h5 h6 h7 => h.remField a d k r h1 h2 h3 h4 ((hD _ _).1 h5) h6 h7,
          fun a k r h1 h2 h3 h4 h5 h6 => h.remOuter a k r h1 h2 h3 ((hD _ _).1 h4) h5 h6,
          ?_, h.markedKind, ?_, h.visDone, fun g k h1 h2 => by
            have := h.dnSub g k h1 h2
            simp at this
            simp [this], h.reach, h.remOnly, h.place⟩
        · intro a
          show s.marked a = true ↔ _
          rw [h.markedOK, hl]
          simp only [List.append_nil, List.mem_append, List.mem_cons, List.not_mem_nil, or_false]
          constructor
          · rintro ((h1 | h1) | h1)
            · exact Or.inl (Or.inr h1)
            · exact Or.inl (Or.inl h1)
            · exact Or.inr h1
          · rintro ((h1 | h1) | h1)
            · exact Or.inl (Or.inr h1)
            · exact Or.inl (Or.inl h1)
            · exact Or.inr h1
        · show (rest ++ [f] ++ s.visitedList).Nodup
          have hp : (rest ++ [f] ++ s.visitedList).Perm (f :: rest ++ [] ++ s.visitedList) := by
            simp only [List.append_nil]
            exact List.Perm.append_right _ List.perm_append_comm
          exact hp.nodup_iff.2 hnd
      obtain ⟨s1, a1, a2, a3⟩ := fields_spec (vl := s.visitedList) w hn hfU hfk hfr (c.s0.mem f).slots _ dn h1 rfl
        ((w.sorted f hfU).imp (fun hlt => Nat.ne_of_lt hlt)) (fun k hk => ⟨hk, hundone k⟩)
      rw [hsl, a1]
      simp only
      have h2 : Quiet c { s1 with visitedList := f :: s1.visitedList } (fun x => dn x ∨ ∃ k ∈ (c.s0.mem f).slots, x = .field f k) [] := by
        have h := a2
        have hD : ∀ b r, Done c { s1 with visitedList := f :: s1.visitedList } b r ↔ Done c s1 b r := by
          intro b r
          constructor <;> intro hd <;> cases hd <;> first | exact .null ‹_› ‹_› | exact .still ‹_› ‹_› ‹_› | exact .fixed ‹_› ‹_› ‹_› ‹_› | exact .moved ‹_›
        have hR : ∀ sl, read { s1 with visitedList := f :: s1.visitedList } sl = read s1 sl := by intro sl; cases sl <;> rfl
        refine ⟨h.static, h.static0, h.fwdU, h.inj, h.content, h.outside, h.fieldRaw,
          fun a d k h1 h2 h3 => (hD _ _).2 (h.fieldDone a d k h1 h2 h3), h.movRaw,
          fun sl h1 h2 => by rw [hR]; exact h.outRaw sl h1 h2,
          fun sl h1 h2 => by rw [hR]; exact (hD _ _).2 (h.outDone sl h1 h2),
          fun a d k h1 h2 h3 => by
            obtain ⟨r, hr⟩ := h.known a d k h1 h2 h3
            exact ⟨r, (hD _ _).2 hr⟩,
          fun a d k r h1 h2 h3 h4 h5 h6 h7 => h.remField a d k r h1 h2 h3 h4 ((hD _ _).1 h5) h6 h7,
          fun a k r h1 h2 h3 h4 h5 h6 => h.remOuter a k r h1 h2 h3 ((hD _ _).1 h4) h5 h6,
          ?_, h.markedKind, ?_, ?_, fun g k h1 h2 => by
            have := h.dnSub g k h1 h2
            simp at this
            simp [this], h.reach, h.remOnly, h.place⟩
        · intro a
          show s1.marked a = true ↔ _
          rw [h.markedOK]
          simp
        · show (s1.markedList ++ [] ++ (f :: s1.visitedList)).Nodup
          have := h.listNodup
          simpa using this
        · intro g hg k hk
          rcases List.mem_cons.1 hg with rfl | hg
          · exact Or.inr ⟨k, hk, rfl⟩
          · exact h.visDone g hg k hk
      obtain ⟨s2, dn2, b1, b2, b3, b4⟩ := ih _ _ h2 (by
        show c.U.length ≤ m + (f :: s1.visitedList).length
        rw [a3]; simp; omega)
      refine ⟨s2, dn2, b1, b2, b3, ⟨fun sl hs => b4.sub sl (Or.inl hs), ?_⟩⟩
      intro sl hs
      rcases b4.only sl hs with (h3 | ⟨k, _, h3⟩) | h3
      · exact Or.inl h3
      · exact Or.inr ⟨f, k, h3, hfk⟩
      · exact Or.inr h3

/-! ### remembered slots, dirty slots and roots -/

/-- what has to hold of the slots that are visited first -/
structure Ready (c : Ctx) : Prop where
  nodup : c.ps.Nodup
  mem : ∀ p ∈ c.ps, p.1 ∈ c.U ∧ c.kind p.1 = .still ∧ p.2 ∈ (c.s0.mem p.1).slots

theorem collectOld_spec {c s dn p} {n : Nat} (w : WF c) (hr : Ready c) (hn : c.U.length ≤ n) (h : Quiet c s dn [])
    (hp : p ∈ c.ps) (hnd : ¬ dn (.field p.1 p.2)) :
    ∃ s', collectOld c.e n s p = some s' ∧ Quiet c s' (fun x => dn x ∨ x = .field p.1 p.2) [] := by
  obtain ⟨hU, hk, hs⟩ := hr.mem p hp
  have h1 := core_forget w h (j := p.2) hU hnd
  have ho : Outer c (.field p.1 p.2) := ⟨hU, by rw [hk]; simp, hs⟩
  have hv := h1.outRaw _ ho hnd
  have hreg : (remember s p.1 p.2 false).region (read (remember s p.1 p.2 false) (.field p.1 p.2)) ≠ .next1 := by
    rw [hv]
    rcases w.closed p.1 hU p.2 hs with h0 | h0
    · show (remember s p.1 p.2 false).region ((c.s0.mem p.1).ref p.2) ≠ .next1
      rw [h0, h1.static0]; simp
    · show (remember s p.1 p.2 false).region ((c.s0.mem p.1).ref p.2) ≠ .next1
      rw [(h1.static _ h0).1]
      exact (w.region0 _ h0).1
  obtain ⟨s1, a1, a2, _⟩ := collect_spec (n := n) w h1 ho hnd (fun a k e => by cases e; exact Or.inl hp)
    (fun f k e hf => by cases e; rw [hk] at hf; cases hf) hn
  unfold collectOld
  simp only [if_neg hreg, a1]
  refine ⟨_, rfl, ?_⟩
  split
  · exact a2
  · exact core_remember a2 _ _ (Or.inr ho)

theorem collectDirty_spec {c s dn p} {n : Nat} (w : WF c) (hr : Ready c) (hn : c.U.length ≤ n) (h : Quiet c s dn [])
    (hp : p ∈ c.ps) (hnd : ¬ dn (.field p.1 p.2)) :
    ∃ s', collectDirty c.e n s p = some s' ∧ Quiet c s' (fun x => dn x ∨ x = .field p.1 p.2) [] := by
  obtain ⟨hU, hk, hs⟩ := hr.mem p hp
  have h1 := core_forget w h (j := p.2) hU hnd
  have ho : Outer c (.field p.1 p.2) := ⟨hU, by rw [hk]; simp, hs⟩
  obtain ⟨s1, a1, a2, _⟩ := collect_spec (n := n) w h1 ho hnd (fun a k e => by cases e; exact Or.inl hp)
    (fun f k e hf => by cases e; rw [hk] at hf; cases hf) hn
  exact ⟨s1, a1, a2⟩

/-- a list of slots of old objects, visited by either of the two -/
theorem slots_spec {c} (f : St → Addr × Nat → Option St)
    (hf : ∀ s dn p, Quiet c s dn [] → p ∈ c.ps → ¬ dn (.field p.1 p.2) →
      ∃ s', f s p = some s' ∧ Quiet c s' (fun x => dn x ∨ x = .field p.1 p.2) []) :
    ∀ (l : List (Addr × Nat)) (s : St) (dn : Slot → Prop), Quiet c s dn [] → l.Nodup →
      (∀ p ∈ l, p ∈ c.ps ∧ ¬ dn (.field p.1 p.2)) →
      ∃ s', l.foldlM f s = some s' ∧ Quiet c s' (fun x => dn x ∨ ∃ p ∈ l, x = .field p.1 p.2) [] := by
  intro l
  induction l with
  | nil => intro s dn h _ _; exact ⟨s, rfl, core_congr h (fun _ _ => Iff.rfl) (fun _ _ => Iff.rfl) (by simp)⟩
  | cons p l ih =>
    intro s dn h hnd hl
    obtain ⟨s1, a1, a2⟩ := hf s dn p h (hl p List.mem_cons_self).1 (hl p List.mem_cons_self).2
    obtain ⟨s2, b1, b2⟩ := ih s1 _ a2 (List.nodup_cons.1 hnd).2 (by
      intro q hq
      obtain ⟨g1, g2⟩ := hl q (List.mem_cons_of_mem _ hq)
      refine ⟨g1, ?_⟩
      rintro (g3 | g3)
      · exact g2 g3
      · injection g3 with g4 g5
        have : q = p := Prod.ext g4 g5
        subst this
        exact (List.nodup_cons.1 hnd).1 hq)
    refine ⟨s2, ?_, ?_⟩
    · rw [List.foldlM_cons, a1]; exact b1
    · refine core_congr b2 (fun _ _ => Iff.rfl) (fun _ _ => Iff.rfl) ?_
      intro x
      constructor
      · rintro ((h1 | h1) | ⟨q, hq, h1⟩)
        · exact Or.inl h1
        · exact Or.inr ⟨p, List.mem_cons_self, h1⟩
        · exact Or.inr ⟨q, List.mem_cons_of_mem _ hq, h1⟩
      · rintro (h1 | ⟨q, hq, h1⟩)
        · exact Or.inl (Or.inl h1)
        · rcases List.mem_cons.1 hq with e | hq
          · exact Or.inl (Or.inr (by rw [h1, e]))
          · exact Or.inr ⟨q, hq, h1⟩

/-- the slots settled once the roots below `i` have been visited -/
structure Progress (c : Ctx) (dn : Slot → Prop) (i : Nat) : Prop where
  roots : ∀ j, dn (.root j) ↔ j < i
  ps : ∀ p ∈ c.ps, dn (.field p.1 p.2)
  still : ∀ a (k : Nat), c.kind a = .still → dn (.field a k) → (a, k) ∈ c.ps

theorem collectRoot_spec {c s dn i} {n : Nat} (w : WF c) (hn : c.U.length ≤ n) (h : Quiet c s dn [])
    (hp : Progress c dn i) :
    ∃ s' dn', collectRoot c.e n s i = some s' ∧ Quiet c s' dn' [] ∧ s'.markedList = [] ∧ Progress c dn' (i + 1) := by
  obtain ⟨s1, a1, a2, _⟩ := collect_spec (n := n) w h (sl := .root i) trivial (by rw [hp.roots]; omega)
    (by intro a k e; cases e) (by intro f k e; cases e) hn
  obtain ⟨s2, dn2, b1, b2, b3, b4⟩ := visitMarked_spec w hn n s1 _ a2 (by omega)
  refine ⟨s2, dn2, ?_, b2, b3, ?_, ?_, ?_⟩
  · unfold collectRoot; rw [a1]; exact b1
  · intro j
    constructor
    · intro hj
      rcases b4.only _ hj with (h1 | h1) | ⟨f, k, h1, _⟩
      · have := (hp.roots j).1 h1; omega
      · injection h1 with h1; omega
      · cases h1
    · intro hj
      refine b4.sub _ ?_
      by_cases hji : j = i
      · right; rw [hji]
      · left; exact (hp.roots j).2 (by omega)
  · intro p hpp; exact b4.sub _ (Or.inl (hp.ps p hpp))
  · intro a k hk hd
    rcases b4.only _ hd with (h1 | h1) | ⟨f, j, h1, h2⟩
    · exact hp.still a k hk h1
    · cases h1
    · injection h1 with h1 _; subst h1; rw [hk] at h2; cases h2

theorem roots_spec {c s dn} {n : Nat} (w : WF c) (hn : c.U.length ≤ n) (h : Quiet c s dn []) (hp : Progress c dn 0) :
    ∀ m, ∃ s' dn', (List.range m).foldlM (collectRoot c.e n) s = some s' ∧ Quiet c s' dn' [] ∧
      (0 < m → s'.markedList = []) ∧ Progress c dn' m := by
  intro m
  induction m with
  | zero => exact ⟨s, dn, rfl, h, by simp, hp⟩
  | succ m ih =>
    obtain ⟨s1, dn1, a1, a2, _, a4⟩ := ih
    obtain ⟨s2, dn2, b1, b2, b3, b4⟩ := collectRoot_spec w hn a2 a4
    refine ⟨s2, dn2, ?_, b2, fun _ => b3, b4⟩
    rw [List.range_succ, List.foldlM_append, a1]
    show List.foldlM (collectRoot c.e n) s1 [m] = some s2
    rw [List.foldlM_cons, b1]
    rfl

theorem quiet_start {c} (w : WF c) : Quiet c c.s0 (fun _ => False) [] := by
  refine ⟨fun _ _ => ⟨rfl, rfl⟩, w.null0, ?_, ?_, ?_, fun _ _ _ => ⟨rfl, rfl⟩, ?_, ?_, fun _ _ _ _ _ _ => rfl,
    fun _ _ _ => rfl, fun _ _ h => h.elim, ?_, ?_, fun _ _ _ _ h => h.elim, ?_, ?_, ?_, ?_, fun _ _ _ h => h.elim, ?_, fun _ _ h => Or.inl h, ?_⟩
  · intro a d h; rw [w.fwd0] at h; cases h
  · intro a b d h; rw [w.fwd0] at h; cases h
  · intro a d h; rw [w.fwd0] at h; cases h
  · intro a d k h; rw [w.fwd0] at h; cases h
  · intro a d k h; rw [w.fwd0] at h; cases h
  · intro a d k h; rw [w.fwd0] at h; cases h
  · intro a d k r h; rw [w.fwd0] at h; cases h
  · intro a; rw [w.marked0, w.list0, w.vis0]; simp
  · intro a h; rw [w.marked0] at h; cases h
  · rw [w.list0, w.vis0]; simp
  · rw [w.vis0]; simp
  · rintro a (⟨d, h⟩ | h)
    · rw [w.fwd0] at h; cases h
    · rw [w.marked0] at h; cases h
  · intro a d h; rw [w.fwd0] at h; cases h

/-- **A collection ends**, and everything reached has been settled. -/
theorem collect2_spec {c} {old dirty : List (Addr × Nat)} {n m : Nat} (w : WF c) (hr : Ready c)
    (hps : c.ps = if c.e.mode = .minor then old ++ dirty else []) (hn : c.U.length ≤ n) (hm : 0 < m) :
    ∃ s' dn, collect2 c.e n c.s0 old dirty m = some s' ∧ Quiet c s' dn [] ∧ s'.markedList = [] ∧ Progress c dn m := by
  have h0 := quiet_start w
  unfold collect2
  by_cases hmode : c.e.mode = .minor
  · simp only [if_pos hmode]
    rw [if_pos hmode] at hps
    have hnd := hr.nodup
    rw [hps] at hnd
    obtain ⟨n1, n2, n3⟩ := List.nodup_append.1 hnd
    obtain ⟨s1, a1, a2⟩ := slots_spec (collectOld c.e n) (fun s dn p h1 h2 h3 => collectOld_spec w hr hn h1 h2 h3)
      old c.s0 _ h0 n1 (fun p hp => ⟨by rw [hps]; simp [hp], fun h => h⟩)
    rw [a1]
    simp only
    obtain ⟨s2, b1, b2⟩ := slots_spec (collectDirty c.e n) (fun s dn p h1 h2 h3 => collectDirty_spec w hr hn h1 h2 h3)
      dirty s1 _ a2 n2 (by
        intro p hp
        refine ⟨by rw [hps]; simp [hp], ?_⟩
        rintro (h | ⟨q, hq, h⟩)
        · exact h
        · injection h with h1 h2
          exact n3 q hq p hp (Prod.ext h1.symm h2.symm))
    rw [b1]
    simp only
    obtain ⟨s3, dn3, c1, c2, c3, c4⟩ := roots_spec w hn b2 ⟨by
        intro j
        constructor
        · rintro ((h | ⟨q, _, h⟩) | ⟨q, _, h⟩)
          · exact h.elim
          · cases h
          · cases h
        · intro h; omega, by
        intro p hp
        rw [hps] at hp
        rcases List.mem_append.1 hp with hp | hp
        · exact Or.inl (Or.inr ⟨p, hp, rfl⟩)
        · exact Or.inr ⟨p, hp, rfl⟩, by
        rintro a k _ ((h | ⟨q, hq, h⟩) | ⟨q, hq, h⟩)
        · exact h.elim
        · injection h with h1 h2
          rw [hps, h1, h2]; exact List.mem_append_left _ hq
        · injection h with h1 h2
          rw [hps, h1, h2]; exact List.mem_append_right _ hq⟩ m
    exact ⟨s3, dn3, c1, c2, c3 hm, c4⟩
  · simp only [if_neg hmode]
    rw [if_neg hmode] at hps
    obtain ⟨s3, dn3, c1, c2, c3, c4⟩ := roots_spec w hn h0 ⟨by simp, by rw [hps]; simp, by simp⟩ m
    exact ⟨s3, dn3, c1, c2, c3 hm, c4⟩

end Avian.Collect
