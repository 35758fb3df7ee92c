import Verif.Heap.CollectAll

/-! What a finished collection has done to the graph of objects. -/

namespace Avian.Collect

/-- where an object is after the collection -/
def image (s : St) (a : Addr) : Addr := match s.fwd a with | some d => d | none => a

/-- slots of objects left alone that lead to objects that are not are visited -/
def Complete (c : Ctx) : Prop :=
  ∀ a ∈ c.U, c.kind a = .still → ∀ k ∈ (c.s0.mem a).slots, (c.s0.mem a).ref k ≠ 0 →
    c.kind ((c.s0.mem a).ref k) ≠ .still → (a, k) ∈ c.ps

/-- the result of a collection of `m` roots -/
structure Final (c : Ctx) (s : St) (dn : Slot → Prop) (m : Nat) : Prop where
  quiet : Quiet c s dn []
  empty : s.markedList = []
  progress : Progress c dn m

/-- `a` is still there -/
def Kept (c : Ctx) (s : St) (a : Addr) : Prop :=
  a ∈ c.U ∧ (c.kind a = .still ∨ (c.kind a = .fixed ∧ s.marked a = true) ∨ ∃ d, s.fwd a = some d)

theorem done_kept {c s b r} {m : Nat} {dn} (h : Final c s dn m) (hd : Done c s b r) (h0 : b ≠ 0) : Kept c s b := by
  cases hd with
  | null h1 => exact absurd h1 h0
  | still h1 h2 => exact ⟨h1, Or.inl h2⟩
  | fixed h1 h2 h3 => exact ⟨h1, Or.inr (Or.inl ⟨h2, h3⟩)⟩
  | moved h1 => exact ⟨(h.quiet.fwdU _ _ h1).1, Or.inr (Or.inr ⟨_, h1⟩)⟩

theorem done_image {c s b r} {m : Nat} {dn} (w : WF c) (h : Final c s dn m) (hd : Done c s b r) : r = image s b := by
  have hn : ∀ b, (b ∉ c.U ∨ c.kind b ≠ .movable) → image s b = b := by
    intro b hb
    unfold image
    cases hf : s.fwd b with
    | none => rfl
    | some d =>
      obtain ⟨h1, h2, _⟩ := h.quiet.fwdU _ _ hf
      rcases hb with hb | hb
      · exact absurd h1 hb
      · exact absurd h2 hb
  cases hd with
  | null h1 h2 => rw [h2, h1, hn 0 (Or.inl w.zero)]
  | still h1 h2 h3 => rw [h3, hn b (Or.inr (by rw [h2]; simp))]
  | fixed h1 h2 h3 h4 => rw [h4, hn b (Or.inr (by rw [h2]; simp))]
  | moved h1 => unfold image; rw [h1]

/-- a visited non-moving object has only settled fields -/
theorem marked_done {c s a} {k : Nat} {m : Nat} {dn} (h : Final c s dn m) (hm : s.marked a = true)
    (hk : k ∈ (c.s0.mem a).slots) : Outer c (.field a k) ∧ dn (.field a k) := by
  obtain ⟨h1, h2⟩ := h.quiet.markedKind a hm
  refine ⟨⟨h1, by rw [h2]; simp, hk⟩, ?_⟩
  have := (h.quiet.markedOK a).1 hm
  rw [h.empty] at this
  exact h.quiet.visDone a (by simpa using this) k hk

theorem reach_kept {c s dn} {m : Nat} (h : Final c s dn m) (hm : ∀ i, m ≤ i → c.s0.roots i = 0) (hr : Ready c) :
    ∀ a, Reach c a → Kept c s a := by
  intro a ha
  induction ha with
  | root i h0 =>
    have hi : i < m := Nat.lt_of_not_le (fun hle => h0 (hm i hle))
    exact done_kept h (h.quiet.outDone (.root i) trivial ((h.progress.roots i).2 hi)) h0
  | old a k hp h0 =>
    obtain ⟨h1, h2, h3⟩ := hr.mem _ hp
    exact done_kept h (h.quiet.outDone (.field a k) ⟨h1, by rw [h2]; simp, h3⟩ (h.progress.ps _ hp)) h0
  | step a k _ hns hk h0 ih =>
    obtain ⟨hU, h1 | ⟨_, h1⟩ | ⟨d, h1⟩⟩ := ih
    · exact absurd h1 hns
    · obtain ⟨h2, h3⟩ := marked_done h h1 hk
      exact done_kept h (h.quiet.outDone _ h2 h3) h0
    · exact done_kept h (h.quiet.fieldDone a d k h1 hk (fun e => e)) h0

/-- **The object at its new place.** -/
theorem kept_content {c s a dn} {m : Nat} (w : WF c) (hc : Complete c) (h : Final c s dn m) (ha : Kept c s a) :
    (s.mem (image s a)).info = (c.s0.mem a).info ∧ (s.mem (image s a)).slots = (c.s0.mem a).slots ∧
    ∀ k ∈ (c.s0.mem a).slots, (s.mem (image s a)).ref k = image s ((c.s0.mem a).ref k) ∧
      ((c.s0.mem a).ref k = 0 ∨ Kept c s ((c.s0.mem a).ref k)) := by
  have hdone : ∀ k r, Done c s ((c.s0.mem a).ref k) r → r = image s ((c.s0.mem a).ref k) ∧
      ((c.s0.mem a).ref k = 0 ∨ Kept c s ((c.s0.mem a).ref k)) := by
    intro k r hd
    refine ⟨done_image w h hd, ?_⟩
    by_cases h0 : (c.s0.mem a).ref k = 0
    · exact Or.inl h0
    · exact Or.inr (done_kept h hd h0)
  obtain ⟨hU, hk⟩ := ha
  cases hf : s.fwd a with
  | some d =>
    have hi : image s a = d := by unfold image; rw [hf]
    obtain ⟨h1, h2⟩ := h.quiet.content a d hf
    rw [hi]
    exact ⟨h1, h2, fun k hk => hdone k _ (h.quiet.fieldDone a d k hf hk (fun e => e))⟩
  | none =>
    have hi : image s a = a := by unfold image; rw [hf]
    obtain ⟨h1, h2⟩ := h.quiet.outside a hU hf
    rw [hi]
    refine ⟨h1, h2, ?_⟩
    intro k hks
    rcases hk with hk | ⟨_, hk⟩ | ⟨d, hk⟩
    · have ho : Outer c (.field a k) := ⟨hU, by rw [hk]; simp, hks⟩
      by_cases hd : dn (.field a k)
      · exact hdone k _ (h.quiet.outDone _ ho hd)
      · have hv : (s.mem a).ref k = (c.s0.mem a).ref k := h.quiet.outRaw _ ho hd
        by_cases h0 : (c.s0.mem a).ref k = 0
        · rw [hv, h0]
          exact ⟨done_image w h (.null rfl rfl), Or.inl rfl⟩
        · by_cases hs : c.kind ((c.s0.mem a).ref k) = .still
          · have hvU : (c.s0.mem a).ref k ∈ c.U := by
              rcases w.closed a hU k hks with h3 | h3
              · exact absurd h3 h0
              · exact h3
            rw [hv]
            exact hdone k _ (.still hvU hs rfl)
          · exact absurd (h.progress.ps _ (hc a hU hk k hks h0 hs)) hd
    · obtain ⟨h3, h4⟩ := marked_done h hk hks
      exact hdone k _ (h.quiet.outDone _ h3 h4)
    · rw [hf] at hk; cases hk

theorem image_inj {c s a b dn} {m : Nat} (w : WF c) (h : Final c s dn m) (ha : a ∈ c.U ∨ a = 0) (hb : b ∈ c.U ∨ b = 0)
    (he : image s a = image s b) : a = b := by
  have hz : s.fwd 0 = none := by
    cases hf : s.fwd 0 with
    | none => rfl
    | some d => exact absurd (h.quiet.fwdU _ _ hf).1 w.zero
  unfold image at he
  cases hfa : s.fwd a with
  | some x =>
    rw [hfa] at he
    cases hfb : s.fwd b with
    | some y =>
      rw [hfb] at he
      simp only at he
      subst he
      exact h.quiet.inj a b x hfa hfb
    | none =>
      rw [hfb] at he
      simp only at he
      subst he
      rcases hb with hb | hb
      · exact absurd hb (copy_notU w h.quiet hfa)
      · obtain ⟨_, _, i, _, h4⟩ := h.quiet.fwdU _ _ hfa
        rw [hb] at h4; exact absurd h4.symm (w.allocZ i)
  | none =>
    rw [hfa] at he
    cases hfb : s.fwd b with
    | some y =>
      rw [hfb] at he
      simp only at he
      subst he
      rcases ha with ha | ha
      · exact absurd ha (copy_notU w h.quiet hfb)
      · obtain ⟨_, _, i, _, h4⟩ := h.quiet.fwdU _ _ hfb
        rw [ha] at h4; exact absurd h4.symm (w.allocZ i)
    | none => rw [hfb] at he; exact he

end Avian.Collect
