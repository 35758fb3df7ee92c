import Verif.Heap.History

/-! The invariant of a heap between operations. -/

namespace Avian.Collect

structure Good (n : Nat) (h : Heap) : Prop where
  nodup : h.U.Nodup
  zero : 0 ∉ h.U
  closed : ∀ a ∈ h.U, ∀ k ∈ (h.st.mem a).slots, (h.st.mem a).ref k = 0 ∨ (h.st.mem a).ref k ∈ h.U
  roots : ∀ i, h.st.roots i = 0 ∨ h.st.roots i ∈ h.U
  rootsEnd : ∀ i, n ≤ i → h.st.roots i = 0
  sorted : ∀ a ∈ h.U, (h.st.mem a).slots.Pairwise (· < ·)
  bound : ∀ a ∈ h.U, ∀ k ∈ (h.st.mem a).slots, k < 2 ^ 31
  fwd0 : ∀ a, h.st.fwd a = none
  marked0 : ∀ a, h.st.marked a = false
  list0 : h.st.markedList = []
  vis0 : h.st.visitedList = []
  count0 : h.st.count = 0
  region0 : ∀ a ∈ h.U, h.st.region a ≠ .next1 ∧ h.st.region a ≠ .next2
  null0 : h.st.region 0 = .young
  /-- only references of objects are remembered -/
  remOnly : ∀ a (k : Nat), h.st.remembered a k = true → a ∈ h.U ∧ k ∈ (h.st.mem a).slots
  /-- **every reference from an old object to a young one is remembered** -/
  remAll : ∀ a ∈ h.U, ∀ k ∈ (h.st.mem a).slots, needsMark h.st a = true →
    targetNeedsMark h.st ((h.st.mem a).ref k) = true → h.st.remembered a k = true
  immortal : ∀ a ∈ h.U, ∀ k ∈ (h.st.mem a).slots, h.st.region a = .immortal →
    (h.st.mem a).ref k = 0 ∨ h.st.region ((h.st.mem a).ref k) = .immortal

/-! ### collections -/

def ctx (h : Heap) (e : Env) (old dirty : List (Addr × Nat)) : Ctx :=
  ⟨e, h.st, h.U, if e.mode = .minor then old ++ dirty else []⟩

structure GcArgs (h : Heap) (e : Env) (old dirty : List (Addr × Nat)) : Prop where
  inj : ∀ i j, e.alloc i = e.alloc j → i = j
  fresh : ∀ i, e.alloc i ∉ h.U
  nz : ∀ i, e.alloc i ≠ 0
  nodup1 : old.Nodup
  nodup2 : dirty.Nodup
  old : ∀ p, p ∈ old ↔ OldSlot h.st p
  dirty : ∀ p, p ∈ dirty ↔ DirtySlot h.st p

theorem good_wf {n h e old dirty} (g : Good n h) (a : GcArgs h e old dirty) : WF (ctx h e old dirty) :=
  ⟨g.nodup, g.zero, g.closed, g.roots, g.sorted, g.bound, a.inj, a.fresh, a.nz, g.fwd0, g.marked0, g.list0, g.vis0,
    g.count0, g.region0, g.null0⟩

theorem good_ready {n h e old dirty} (g : Good n h) (a : GcArgs h e old dirty) : Ready (ctx h e old dirty) := by
  unfold ctx
  by_cases hm : e.mode = .minor
  · simp only [if_pos hm]
    refine ⟨?_, ?_⟩
    · rw [List.nodup_append]
      refine ⟨a.nodup1, a.nodup2, ?_⟩
      intro p hp q hq hpq
      subst hpq
      have h1 := ((a.old p).1 hp).1
      have h2 := ((a.dirty p).1 hq).1
      rw [h1] at h2; cases h2
    · intro p hp
      rcases List.mem_append.1 hp with hp | hp
      · obtain ⟨h1, h2⟩ := (a.old p).1 hp
        obtain ⟨h3, h4⟩ := g.remOnly _ _ h2
        refine ⟨h3, ?_, h4⟩
        show kind e h.st p.1 = .still
        unfold kind; rw [if_pos ⟨hm, h1⟩]
      · obtain ⟨h1, h2, h3⟩ := (a.dirty p).1 hp
        obtain ⟨h4, h5⟩ := g.remOnly _ _ h3
        refine ⟨h4, ?_, h5⟩
        show kind e h.st p.1 = .still
        unfold kind
        rw [if_neg (by rw [h1]; simp), if_pos h1, if_neg (by rw [hm]; simp; exact h2)]
  · simp only [if_neg hm]
    exact ⟨List.nodup_nil, by simp⟩

/-- the targets that need to be remembered are those that a minor collection does not leave alone -/
theorem kind_target {e : Env} {s : St} {v : Addr} (hm : e.mode = .minor) (h0 : v ≠ 0) (hr : s.region v ≠ .next2) :
    kind e s v ≠ .still ↔ targetNeedsMark s v = true := by
  unfold kind targetNeedsMark
  simp only [hm, true_and]
  cases hv : s.region v <;> simp_all <;> split <;> simp_all <;> omega

theorem kind_owner {e : Env} {s : St} {a : Addr} (hm : e.mode = .minor) (hk : kind e s a = .still) :
    needsMark s a = true ∨ s.region a = .immortal := by
  unfold kind at hk
  unfold needsMark
  simp only [hm, true_and] at hk
  cases hv : s.region a <;> simp_all

theorem kind_major {e : Env} {s : St} {a : Addr} (hm : e.mode = .major) : kind e s a = .still ↔ s.region a = .immortal := by
  unfold kind
  simp only [hm]
  cases hv : s.region a <;> simp

theorem good_complete {n h e old dirty} (g : Good n h) (a : GcArgs h e old dirty) : Complete (ctx h e old dirty) := by
  intro x hx hk k hks h0 hv
  have hk' : kind e h.st x = .still := hk
  have hv' : kind e h.st ((h.st.mem x).ref k) ≠ .still := hv
  have hvU : (h.st.mem x).ref k ∈ h.U := by
    rcases g.closed x hx k hks with h1 | h1
    · exact absurd h1 h0
    · exact h1
  have himm : h.st.region x = .immortal → False := by
    intro hi
    rcases g.immortal x hx k hks hi with h1 | h1
    · exact h0 h1
    · apply hv'
      unfold kind
      rw [if_neg (by rw [h1]; simp), if_neg (by rw [h1]; simp), if_pos h1]
  cases hm : e.mode with
  | major => exact (himm ((kind_major hm).1 hk')).elim
  | minor =>
    rcases kind_owner hm hk' with ho | ho
    · have hr := g.remAll x hx k hks ho ((kind_target hm h0 (g.region0 _ hvU).2).1 hv')
      show (x, k) ∈ if e.mode = .minor then old ++ dirty else []
      rw [if_pos hm]
      unfold needsMark at ho
      by_cases hf : h.st.region x = .fixed
      · rw [if_pos hf] at ho
        exact List.mem_append_right _ ((a.dirty (x, k)).2 ⟨hf, by simpa using ho, hr⟩)
      · rw [if_neg hf] at ho
        have : h.st.region x = .gen2 := by
          rcases (g.region0 x hx) with ⟨_, h2⟩
          simpa [h2] using ho
        exact List.mem_append_left _ ((a.old (x, k)).2 ⟨this, hr⟩)
    · exact (himm ho).elim

/-- **A collection ends.** -/
theorem good_gc {n h e old dirty} {fuel : Nat} (g : Good n h) (a : GcArgs h e old dirty) (hn : 0 < n)
    (hf : h.U.length ≤ fuel) :
    ∃ s' dn, collect2 e fuel h.st old dirty n = some s' ∧ Final (ctx h e old dirty) s' dn n := by
  obtain ⟨s', dn, h1, h2, h3, h4⟩ := collect2_spec (c := ctx h e old dirty) (n := fuel) (good_wf g a) (good_ready g a)
    rfl hf hn
  exact ⟨s', dn, h1, h2, h3, h4⟩

/-! ### the state after a collection -/

section After

variable {n : Nat} {h : Heap} {e : Env} {old dirty : List (Addr × Nat)} {s : St} {dn : Slot → Prop}

theorem kind_static (f : Final (ctx h e old dirty) s dn n) {a : Addr} (ha : a ∈ h.U) : kind e s a = kind e h.st a := by
  have := f.quiet.static a ha
  unfold kind; rw [this.1, this.2]; rfl

theorem survivor_iff (g : Good n h) (a : GcArgs h e old dirty) (f : Final (ctx h e old dirty) s dn n) {x y : Addr} (hx : x ∈ h.U) :
    survivor e s x = some y ↔ Kept (ctx h e old dirty) s x ∧ y = image s x := by
  unfold survivor image
  have hk := kind_static f hx
  cases hf : s.fwd x with
  | some d =>
    simp only [Option.some.injEq]
    constructor
    · intro he; exact ⟨⟨hx, Or.inr (Or.inr ⟨d, hf⟩)⟩, he.symm⟩
    · intro he; exact he.2.symm
  | none =>
    simp only
    rw [hk]
    by_cases hc : kind e h.st x = .still ∨ s.marked x = true
    · rw [if_pos hc]
      simp only [Option.some.injEq]
      constructor
      · intro he
        refine ⟨⟨hx, ?_⟩, he.symm⟩
        rcases hc with hc | hc
        · exact Or.inl hc
        · exact Or.inr (Or.inl ⟨(f.quiet.markedKind x hc).2, hc⟩)
      · intro he; exact he.2.symm
    · rw [if_neg hc]
      constructor
      · intro he; cases he
      · rintro ⟨⟨_, h1 | ⟨_, h1⟩ | ⟨d, h1⟩⟩, _⟩
        · exact absurd (Or.inl h1) hc
        · exact absurd (Or.inr h1) hc
        · rw [hf] at h1; cases h1

theorem mem_survivors (g : Good n h) (a : GcArgs h e old dirty) (f : Final (ctx h e old dirty) s dn n) {y : Addr} :
    y ∈ survivors e s h.U ↔ ∃ x, Kept (ctx h e old dirty) s x ∧ y = image s x := by
  unfold survivors
  rw [List.mem_filterMap]
  constructor
  · rintro ⟨x, hx, hs⟩; exact ⟨x, (survivor_iff g a f hx).1 hs⟩
  · rintro ⟨x, hk, he⟩; exact ⟨x, hk.1, (survivor_iff g a f hk.1).2 ⟨hk, he⟩⟩

/-- the places of the survivors -/
theorem image_place (g : Good n h) (a : GcArgs h e old dirty) (f : Final (ctx h e old dirty) s dn n) {x : Addr}
    (hk : Kept (ctx h e old dirty) s x) :
    (image s x = x ∧ s.fwd x = none ∧ (kind e h.st x = .still ∨ (kind e h.st x = .fixed ∧ s.marked x = true)) ∧
      s.region x = h.st.region x ∧ s.age x = h.st.age x) ∨
    (s.fwd x = some (image s x) ∧ image s x ∉ h.U ∧ image s x ≠ 0 ∧ kind e h.st x = .movable ∧
      s.region (image s x) = (dest e h.st x).1) := by
  unfold image
  cases hf : s.fwd x with
  | none =>
    left
    refine ⟨rfl, rfl, ?_, f.quiet.static x hk.1⟩
    obtain ⟨_, h1 | h1 | ⟨d, h1⟩⟩ := hk
    · exact Or.inl h1
    · exact Or.inr h1
    · rw [hf] at h1; cases h1
  | some d =>
    right
    refine ⟨rfl, copy_notU (good_wf g a) f.quiet hf, ?_, (f.quiet.fwdU x d hf).2.1, (f.quiet.place x d hf).1⟩
    obtain ⟨_, _, i, _, h4⟩ := f.quiet.fwdU x d hf
    simp only
    rw [h4]; exact a.nz i

/-- where copies go -/
theorem dest_region {x : Addr} (hm : kind e h.st x = .movable) :
    (dest e h.st x).1 = .next1 ∨ (dest e h.st x).1 = seg e := by
  unfold dest seg
  unfold kind at hm
  cases hv : h.st.region x <;> cases hmode : e.mode <;> simp_all <;> split <;> simp_all

theorem finish_region (a : Addr) : (finish e s h.U).region a =
    match s.region a with | .next1 => .gen1 | .next2 => .gen2 | r => r := rfl

/-- an object that is tenured after the sweep had to remember its slots -/
theorem finish_owner (g : Good n h) (a : GcArgs h e old dirty) (f : Final (ctx h e old dirty) s dn n) {x : Addr}
    (hk : Kept (ctx h e old dirty) s x) (hn : needsMark (finish e s h.U) (image s x) = true) :
    Owner (ctx h e old dirty) s (image s x) ∧ h.st.region x ≠ .immortal := by
  have hfix : ∀ y, s.region y = .fixed → needsMark (finish e s h.U) y = true → fixieTenureThreshold ≤ s.age y + 1 := by
    intro y hy hn
    unfold needsMark at hn
    rw [finish_region, hy] at hn
    simp only [finish, hy] at hn
    by_cases hmk : s.marked y = true
    · simp only [hmk, and_self, if_true, decide_eq_true_eq] at hn
      unfold sweepAge at hn
      unfold fixieTenureThreshold at *
      split at hn
      · omega
      · split at hn <;> omega
    · simp only [hmk] at hn
      simp at hn; omega
  have hseg : ∀ y, s.region y ≠ .fixed → needsMark (finish e s h.U) y = true → s.region y = .gen2 ∨ s.region y = .next2 := by
    intro y hy hn
    unfold needsMark at hn
    rw [finish_region] at hn
    cases hr : s.region y <;> rw [hr] at hn <;> simp_all
  rcases image_place g a f hk with ⟨h1, h2, h3, h4, h5⟩ | ⟨h1, h2, h3, h4, h5⟩
  · rw [h1] at hn ⊢
    by_cases hf : s.region x = .fixed
    · exact ⟨Or.inl ⟨hf, hfix x hf hn⟩, by rw [← h4, hf]; simp⟩
    · have := hseg x hf hn
      have hr0 := g.region0 x hk.1
      rcases this with hg | hg
      · refine ⟨Or.inr ?_, by rw [← h4, hg]; simp⟩
        show s.region x = seg e
        cases hm : e.mode with
        | minor => unfold seg; rw [hm]; exact hg
        | major =>
          exfalso
          rw [h4] at hg
          rcases h3 with h3 | ⟨h3, _⟩
          · rw [kind_major hm, hg] at h3; cases h3
          · unfold kind at h3; rw [hm, hg] at h3; simp at h3
      · rw [h4] at hg; exact absurd hg hr0.2
  · have hd := dest_region (h := h) (e := e) h4
    have hne : s.region (image s x) ≠ .fixed := by
      rw [h5]; rcases hd with hd | hd <;> rw [hd]
      · simp
      · exact seg_ne_fixed e
    have h6 := hseg _ hne hn
    refine ⟨Or.inr ?_, ?_⟩
    · show s.region (image s x) = seg e
      rw [h5] at h6 ⊢
      rcases hd with hd | hd
      · rw [hd] at h6; rcases h6 with h6 | h6 <;> cases h6
      · exact hd
    · intro hi
      unfold kind at h4; rw [hi] at h4; simp at h4

/-- a target that is young after the sweep was young for `updateHeapMap` -/
theorem finish_target {r : Addr} (hn : targetNeedsMark (finish e s h.U) r = true) : needsMemory e s r = true := by
  unfold targetNeedsMark at hn
  unfold needsMemory
  rw [finish_region] at hn
  have hseg : s.region r = seg e → s.region r = .gen2 ∨ s.region r = .next2 := by
    unfold seg; cases e.mode <;> simp +contextual
  cases hr : s.region r <;> rw [hr] at hn <;> simp_all
  all_goals first
    | (intro h1; rw [← h1] at hseg; simp at hseg)
    | skip
  refine ⟨?_, fun h1 => by rw [← h1] at hseg; simp at hseg⟩
  simp only [finish, hr] at hn
  by_cases hm : s.marked r = true
  · simp only [hm, and_self, if_true] at hn
    unfold sweepAge at hn
    unfold fixieTenureThreshold at *
    have := hn.2
    split at this
    · omega
    · split at this <;> omega
  · simp [hm] at hn; exact hn.2

theorem kept_closed (g : Good n h) (a : GcArgs h e old dirty) (f : Final (ctx h e old dirty) s dn n) {x : Addr}
    (hk : Kept (ctx h e old dirty) s x) :
    (s.mem (image s x)).info = (h.st.mem x).info ∧ (s.mem (image s x)).slots = (h.st.mem x).slots ∧
    ∀ k ∈ (h.st.mem x).slots, (s.mem (image s x)).ref k = image s ((h.st.mem x).ref k) ∧
      ((h.st.mem x).ref k = 0 ∨ Kept (ctx h e old dirty) s ((h.st.mem x).ref k)) :=
  kept_content (good_wf g a) (good_complete g a) f hk

theorem image_zero (g : Good n h) (a : GcArgs h e old dirty) (f : Final (ctx h e old dirty) s dn n) : image s 0 = 0 :=
  (done_image (good_wf g a) f (.null rfl rfl)).symm

theorem root_image (g : Good n h) (a : GcArgs h e old dirty) (f : Final (ctx h e old dirty) s dn n) (i : Nat) :
    s.roots i = image s (h.st.roots i) ∧ (h.st.roots i = 0 ∨ Kept (ctx h e old dirty) s (h.st.roots i)) := by
  by_cases hi : i < n
  · have hd : Done (ctx h e old dirty) s (h.st.roots i) (s.roots i) :=
      f.quiet.outDone (.root i) trivial ((f.progress.roots i).2 hi)
    refine ⟨done_image (good_wf g a) f hd, ?_⟩
    by_cases h0 : h.st.roots i = 0
    · exact Or.inl h0
    · exact Or.inr (done_kept f hd h0)
  · have hv : s.roots i = h.st.roots i := f.quiet.outRaw (.root i) trivial (by rw [f.progress.roots]; exact hi)
    have h0 := g.rootsEnd i (by omega)
    rw [hv, h0]
    exact ⟨(image_zero g a f).symm, Or.inl rfl⟩

/-- **The invariant holds after a collection.** -/
theorem good_finish (g : Good n h) (a : GcArgs h e old dirty) (f : Final (ctx h e old dirty) s dn n) :
    Good n ⟨finish e s h.U, survivors e s h.U⟩ := by
  have w := good_wf g a
  have hmem : ∀ {y}, y ∈ survivors e s h.U ↔ ∃ x, Kept (ctx h e old dirty) s x ∧ y = image s x := mem_survivors g a f
  have hz := image_zero g a f
  have hrefs : ∀ x, Kept (ctx h e old dirty) s x → ∀ k ∈ (s.mem (image s x)).slots,
      (s.mem (image s x)).ref k = 0 ∨ (s.mem (image s x)).ref k ∈ survivors e s h.U := by
    intro x hk k hks
    obtain ⟨_, h2, h3⟩ := kept_closed g a f hk
    rw [h2] at hks
    obtain ⟨h4, h5⟩ := h3 k hks
    rw [h4]
    rcases h5 with h5 | h5
    · left; rw [h5, hz]
    · right; exact hmem.2 ⟨_, h5, rfl⟩
  have hself : ∀ y, y ∈ h.U → ∀ x, Kept (ctx h e old dirty) s x → y = image s x → y = x := by
    intro y hy x hx he
    rcases image_place g a f hx with ⟨h1, _⟩ | ⟨_, h2, _⟩
    · rw [he, h1]
    · rw [he] at hy; exact absurd hy h2
  refine ⟨?_, ?_, ?_, ?_, ?_, ?_, ?_, fun _ => rfl, fun _ => rfl, f.empty, rfl, rfl, ?_, ?_, ?_, ?_, ?_⟩
  · show (survivors e s h.U).Nodup
    unfold survivors
    rw [List.Nodup, List.pairwise_filterMap]
    refine List.Pairwise.imp_of_mem ?_ g.nodup
    intro x y hx hy hxy u hu v hv huv
    obtain ⟨_, h2⟩ := (survivor_iff g a f hx).1 hu
    obtain ⟨_, h4⟩ := (survivor_iff g a f hy).1 hv
    exact hxy (image_inj w f (Or.inl hx) (Or.inl hy) (by rw [← h2, ← h4, huv]))
  · intro h0
    obtain ⟨x, hk, he⟩ := hmem.1 h0
    rw [← hz] at he
    have := image_inj w f (Or.inr rfl) (Or.inl hk.1) he
    exact g.zero (this ▸ hk.1)
  · intro y hy k hks
    obtain ⟨x, hk, rfl⟩ := hmem.1 hy
    exact hrefs x hk k hks
  · intro i
    obtain ⟨h1, h2⟩ := root_image g a f i
    show s.roots i = 0 ∨ s.roots i ∈ survivors e s h.U
    rw [h1]
    rcases h2 with h2 | h2
    · left; rw [h2, hz]
    · right; exact hmem.2 ⟨_, h2, rfl⟩
  · intro i hi
    show s.roots i = 0
    rw [(root_image g a f i).1, g.rootsEnd i hi, hz]
  · intro y hy
    obtain ⟨x, hk, rfl⟩ := hmem.1 hy
    show (s.mem (image s x)).slots.Pairwise (· < ·)
    rw [(kept_closed g a f hk).2.1]; exact g.sorted x hk.1
  · intro y hy
    obtain ⟨x, hk, rfl⟩ := hmem.1 hy
    show ∀ k ∈ (s.mem (image s x)).slots, k < 2 ^ 31
    rw [(kept_closed g a f hk).2.1]; exact g.bound x hk.1
  · intro y hy
    show (finish e s h.U).region y ≠ .next1 ∧ (finish e s h.U).region y ≠ .next2
    rw [finish_region]
    cases hr : s.region y <;> simp
  · show (finish e s h.U).region 0 = .young
    rw [finish_region, f.quiet.static0]
  · intro y k hr
    have hr' : y ∈ survivors e s h.U ∧ s.remembered y k = true := by
      simpa [finish] using hr
    refine ⟨hr'.1, ?_⟩
    obtain ⟨x, hk, he⟩ := hmem.1 hr'.1
    show k ∈ (s.mem y).slots
    have hcs := (kept_closed g a f hk).2.1
    rw [he, hcs]
    rcases f.quiet.remOnly y k hr'.2 with h1 | ⟨o, h1, h2⟩ | h1
    · obtain ⟨h2, h3⟩ := g.remOnly y k h1
      rw [← hself y h2 x hk he]; exact h3
    · have hoU := (f.quiet.fwdU o y h1).1
      have hoi : image s o = y := by unfold image; rw [h1]
      have := image_inj w f (Or.inl hoU) (Or.inl hk.1) (by rw [hoi, he])
      rw [← this]; exact h2
    · rw [← hself y h1.1 x hk he]; exact h1.2.2
  · intro y hy k hks hn ht
    obtain ⟨x, hk, rfl⟩ := hmem.1 hy
    have hks' : k ∈ (s.mem (image s x)).slots := hks
    obtain ⟨_, h2, h3⟩ := kept_closed g a f hk
    rw [h2] at hks'
    obtain ⟨ho, hni⟩ := finish_owner g a f hk hn
    have ht' : targetNeedsMark (finish e s h.U) ((s.mem (image s x)).ref k) = true := ht
    have hnm := finish_target ht'
    have h0 : (s.mem (image s x)).ref k ≠ 0 := by
      intro e0; rw [e0] at ht'; simp [targetNeedsMark] at ht'
    have hfin : s.remembered (image s x) k = true → (finish e s h.U).remembered (image s x) k = true := by
      intro hr; simp [finish, hr, hy]
    apply hfin
    rcases image_place g a f hk with ⟨h4, h5, h6, h7, h8⟩ | ⟨h4, _⟩
    · rw [h4] at ho hnm h0 ⊢
      rw [h4] at ht'
      have hou : Outer (ctx h e old dirty) (.field x k) := ⟨hk.1, by
        show kind e h.st x ≠ .movable
        rcases h6 with h6 | ⟨h6, _⟩ <;> rw [h6] <;> simp, hks'⟩
      by_cases hd : dn (.field x k)
      · exact f.quiet.remOuter x k _ hou hd ho (f.quiet.outDone _ hou hd) h0 hnm
      · exfalso
        have hval : (s.mem x).ref k = (h.st.mem x).ref k := f.quiet.outRaw _ hou hd
        rcases h6 with h6 | ⟨_, h6⟩
        · -- left alone and not visited: it leads to something that is left alone as well
          rw [hval] at h0 hnm ht'
          have hvU : (h.st.mem x).ref k ∈ h.U := by
            rcases g.closed x hk.1 k hks' with h9 | h9
            · exact absurd h9 h0
            · exact h9
          have hvk : kind e h.st ((h.st.mem x).ref k) = .still := by
            cases hkk : kind e h.st ((h.st.mem x).ref k) with
            | still => rfl
            | fixed => exact absurd (f.progress.ps _ (good_complete g a x hk.1 h6 k hks' h0 (by
                show kind e h.st ((h.st.mem x).ref k) ≠ .still; rw [hkk]; simp))) hd
            | movable => exact absurd (f.progress.ps _ (good_complete g a x hk.1 h6 k hks' h0 (by
                show kind e h.st ((h.st.mem x).ref k) ≠ .still; rw [hkk]; simp))) hd
          cases hm : e.mode with
          | major => exact hni ((kind_major hm).1 h6)
          | minor =>
            have h9 : ¬ (targetNeedsMark h.st ((h.st.mem x).ref k) = true) := fun h9 =>
              (kind_target hm h0 (g.region0 _ hvU).2).2 h9 hvk
            apply h9
            obtain ⟨s1, s2⟩ := f.quiet.static _ hvU
            have hnmk : s.marked ((h.st.mem x).ref k) = false := by
              cases hmm : s.marked ((h.st.mem x).ref k) with
              | false => rfl
              | true =>
                have : kind e h.st ((h.st.mem x).ref k) = .fixed := (f.quiet.markedKind _ hmm).2
                rw [hvk] at this; cases this
            have s1' : s.region ((h.st.mem x).ref k) = h.st.region ((h.st.mem x).ref k) := s1
            have s2' : s.age ((h.st.mem x).ref k) = h.st.age ((h.st.mem x).ref k) := s2
            obtain ⟨q1, q2⟩ := g.region0 _ hvU
            unfold targetNeedsMark at ht' ⊢
            rw [finish_region, s1'] at ht'
            simp only [finish, hnmk, s2'] at ht'
            cases hrr : h.st.region ((h.st.mem x).ref k) <;> simp_all
        · exact hd (marked_done f h6 hks').2
    · exact f.quiet.remField x _ k _ h4 hks' (fun e => e) ho (f.quiet.fieldDone x _ k h4 hks' (fun e => e)) h0 hnm
  · intro y hy k hks hi
    obtain ⟨x, hk, rfl⟩ := hmem.1 hy
    have hks' : k ∈ (s.mem (image s x)).slots := hks
    obtain ⟨_, h2, h3⟩ := kept_closed g a f hk
    rw [h2] at hks'
    have hi' : s.region (image s x) = .immortal := by
      have hi : (finish e s h.U).region (image s x) = .immortal := hi
      rw [finish_region] at hi
      cases hr : s.region (image s x) <;> rw [hr] at hi <;> simp_all
    rcases image_place g a f hk with ⟨h4, h5, h6, h7, h8⟩ | ⟨h4, _, _, h5, h6⟩
    · have hi0 : h.st.region x = .immortal := by rw [← h7, ← hi', h4]
      have hks0 : kind e h.st x = .still := by unfold kind; rw [hi0]; simp
      have hou : Outer (ctx h e old dirty) (.field x k) := ⟨hk.1, by
        show kind e h.st x ≠ .movable
        rw [hks0]; simp, hks'⟩
      have hd : ¬ dn (.field x k) := by
        intro hd
        have hp := f.progress.still x k hks0 hd
        have hp : (x, k) ∈ if e.mode = .minor then old ++ dirty else [] := hp
        split at hp
        · rcases List.mem_append.1 hp with hp | hp
          · have := ((a.old _).1 hp).1
            simp only at this
            rw [hi0] at this; cases this
          · have := ((a.dirty _).1 hp).1
            simp only at this
            rw [hi0] at this; cases this
        · cases hp
      have hval : (s.mem x).ref k = (h.st.mem x).ref k := f.quiet.outRaw _ hou hd
      show (s.mem (image s x)).ref k = 0 ∨ (finish e s h.U).region ((s.mem (image s x)).ref k) = .immortal
      rw [h4, hval]
      rcases g.immortal x hk.1 k hks' hi0 with h9 | h9
      · exact Or.inl h9
      · by_cases h0 : (h.st.mem x).ref k = 0
        · exact Or.inl h0
        · right
          have hvU : (h.st.mem x).ref k ∈ h.U := by
            rcases g.closed x hk.1 k hks' with h10 | h10
            · exact absurd h10 h0
            · exact h10
          have s1' : s.region ((h.st.mem x).ref k) = h.st.region ((h.st.mem x).ref k) := (f.quiet.static _ hvU).1
          rw [finish_region, s1', h9]
    · exfalso
      rw [h6] at hi'
      rcases dest_region (h := h) (e := e) h5 with hd | hd <;> rw [hd] at hi'
      · cases hi'
      · unfold seg at hi'; cases hm : e.mode <;> rw [hm] at hi' <;> cases hi'

end After

/-! ### the program's own operations -/

theorem good_setRoot {n h i v} (g : Good n h) (hi : i < n) (hv : v = 0 ∨ v ∈ h.U) : Good n ⟨setRoot h.st i v, h.U⟩ := by
  refine ⟨g.nodup, g.zero, g.closed, ?_, ?_, g.sorted, g.bound, g.fwd0, g.marked0, g.list0, g.vis0, g.count0, g.region0,
    g.null0, g.remOnly, g.remAll, g.immortal⟩
  · intro j
    show (if j = i then v else h.st.roots j) = 0 ∨ (if j = i then v else h.st.roots j) ∈ h.U
    by_cases hj : j = i
    · rw [if_pos hj]; exact hv
    · rw [if_neg hj]; exact g.roots j
  · intro j hj
    show (if j = i then v else h.st.roots j) = 0
    rw [if_neg (by omega)]; exact g.rootsEnd j hj

theorem good_new {n h a info slots cls fixed} (g : Good n h) (ha : a ∉ h.U) (h0 : a ≠ 0) (hs : slots.Pairwise (· < ·))
    (hb : ∀ k ∈ slots, k < 2 ^ 31) (hc : cls = 0 ∨ cls ∈ h.U) :
    Good n ⟨newObject h.st a info slots cls fixed, a :: h.U⟩ := by
  have hne : ∀ x ∈ h.U, x ≠ a := fun x hx e => ha (e ▸ hx)
  have m1 : ∀ x, x ≠ a → (newObject h.st a info slots cls fixed).mem x = h.st.mem x := by
    intro x hx; simp [newObject, upd, hx]
  have m2 : (newObject h.st a info slots cls fixed).mem a = ⟨info, slots, fun k => if k = 0 then cls else 0⟩ := by
    simp [newObject, upd]
  have r1 : ∀ x, x ≠ a → (newObject h.st a info slots cls fixed).region x = h.st.region x := by
    intro x hx; simp [newObject, upd, hx]
  have r2 : (newObject h.st a info slots cls fixed).region a = if fixed then .fixed else .young := by
    simp [newObject, upd]
  have g1 : ∀ x, x ≠ a → (newObject h.st a info slots cls fixed).age x = h.st.age x := by
    intro x hx; simp [newObject, upd, hx]
  have g2 : (newObject h.st a info slots cls fixed).age a = 0 := by simp [newObject, upd]
  have hna : needsMark (newObject h.st a info slots cls fixed) a = false := by
    unfold needsMark; rw [r2, g2]
    cases fixed <;> simp [fixieTenureThreshold]
  have hnm : ∀ x, x ≠ a → needsMark (newObject h.st a info slots cls fixed) x = needsMark h.st x := by
    intro x hx; unfold needsMark; rw [r1 x hx, g1 x hx]
  have htm : ∀ x, x ≠ a → targetNeedsMark (newObject h.st a info slots cls fixed) x = targetNeedsMark h.st x := by
    intro x hx; unfold targetNeedsMark; rw [r1 x hx, g1 x hx]
  have hra : ∀ x ∈ h.U, ∀ k ∈ (h.st.mem x).slots, (h.st.mem x).ref k ≠ a := by
    intro x hx k hk e
    rcases g.closed x hx k hk with h1 | h1
    · exact h0 (by rw [← e, h1])
    · exact ha (e ▸ h1)
  refine ⟨List.nodup_cons.2 ⟨ha, g.nodup⟩, ?_, ?_, ?_, g.rootsEnd, ?_, ?_, g.fwd0, g.marked0, g.list0, g.vis0, g.count0, ?_,
    ?_, ?_, ?_, ?_⟩
  · intro hm
    rcases List.mem_cons.1 hm with h1 | h1
    · exact h0 h1.symm
    · exact g.zero h1
  · intro x hx k hk
    rcases List.mem_cons.1 hx with rfl | hx
    · simp only [m2]
      split
      · rcases hc with hc | hc
        · exact Or.inl hc
        · exact Or.inr (List.mem_cons_of_mem _ hc)
      · exact Or.inl rfl
    · simp only [m1 x (hne x hx)] at hk ⊢
      rcases g.closed x hx k hk with h1 | h1
      · exact Or.inl h1
      · exact Or.inr (List.mem_cons_of_mem _ h1)
  · intro i
    rcases g.roots i with h1 | h1
    · exact Or.inl h1
    · exact Or.inr (List.mem_cons_of_mem _ h1)
  · intro x hx
    rcases List.mem_cons.1 hx with rfl | hx
    · simp only [m2]; exact hs
    · simp only [m1 x (hne x hx)]; exact g.sorted x hx
  · intro x hx
    rcases List.mem_cons.1 hx with rfl | hx
    · simp only [m2]; exact hb
    · simp only [m1 x (hne x hx)]; exact g.bound x hx
  · intro x hx
    rcases List.mem_cons.1 hx with rfl | hx
    · simp only [r2]; cases fixed <;> simp
    · simp only [r1 x (hne x hx)]; exact g.region0 x hx
  · simp only [r1 0 (Ne.symm h0)]; exact g.null0
  · intro x k hr
    obtain ⟨h1, h2⟩ := g.remOnly x k hr
    refine ⟨List.mem_cons_of_mem _ h1, ?_⟩
    simp only [m1 x (hne x h1)]; exact h2
  · intro x hx k hk hn ht
    rcases List.mem_cons.1 hx with rfl | hx
    · simp only [hna] at hn; cases hn
    · simp only [m1 x (hne x hx)] at hk ht
      simp only [hnm x (hne x hx)] at hn
      simp only [htm _ (hra x hx k hk)] at ht
      exact g.remAll x hx k hk hn ht
  · intro x hx k hk hi
    rcases List.mem_cons.1 hx with rfl | hx
    · simp only [r2] at hi; cases fixed <;> simp at hi
    · simp only [m1 x (hne x hx)] at hk ⊢
      simp only [r1 x (hne x hx)] at hi
      simp only [r1 _ (hra x hx k hk)]
      exact g.immortal x hx k hk hi

/-- what `mark` does -/
theorem mark_spec (s : St) (p : Addr) (offset count : Nat) :
    (mark s p offset count) = { s with remembered := (mark s p offset count).remembered } ∧
    ∀ a k, (mark s p offset count).remembered a k = true ↔ s.remembered a k = true ∨
      (a = p ∧ needsMark s p = true ∧ offset ≤ k ∧ k < offset + count ∧ targetNeedsMark s ((s.mem p).ref k) = true) := by
  unfold mark
  by_cases hn : needsMark s p = true
  · rw [if_pos hn]
    induction count with
    | zero => simp; omega
    | succ m ih =>
      rw [List.range_succ, List.foldl_append]
      generalize hs' : (List.range m).foldl (fun (s : St) i =>
        if targetNeedsMark s ((s.mem p).ref (offset + i)) then remember s p (offset + i) true else s) s = s' at ih ⊢
      obtain ⟨i1, i2⟩ := ih
      simp only [List.foldl_cons, List.foldl_nil]
      have ht : ∀ v, targetNeedsMark s' v = targetNeedsMark s v := by intro v; unfold targetNeedsMark; rw [i1]
      have hm : s'.mem = s.mem := by rw [i1]
      rw [ht, hm]
      by_cases hc : targetNeedsMark s ((s.mem p).ref (offset + m)) = true
      · rw [if_pos hc]
        refine ⟨?_, ?_⟩
        · conv => lhs; rw [i1]
          rw [i1]; rfl
        · intro a k
          simp only [remember]
          by_cases he : a = p ∧ k = offset + m
          · rw [if_pos he]
            simp only [true_iff]
            right
            obtain ⟨rfl, rfl⟩ := he
            exact ⟨rfl, hn, by omega, by omega, hc⟩
          · rw [if_neg he, i2]
            constructor
            · rintro (h1 | ⟨h1, h2, h3, h4, h5⟩)
              · exact Or.inl h1
              · exact Or.inr ⟨h1, h2, h3, by omega, h5⟩
            · rintro (h1 | ⟨h1, h2, h3, h4, h5⟩)
              · exact Or.inl h1
              · refine Or.inr ⟨h1, h2, h3, ?_, h5⟩
                have : k ≠ offset + m := fun e => he ⟨h1, e⟩
                omega
      · rw [if_neg hc]
        refine ⟨i1, ?_⟩
        intro a k
        rw [i2]
        constructor
        · rintro (h1 | ⟨h1, h2, h3, h4, h5⟩)
          · exact Or.inl h1
          · exact Or.inr ⟨h1, h2, h3, by omega, h5⟩
        · rintro (h1 | ⟨h1, h2, h3, h4, h5⟩)
          · exact Or.inl h1
          · refine Or.inr ⟨h1, h2, h3, ?_, h5⟩
            have : k ≠ offset + m := by intro e; rw [e] at h5; exact hc h5
            omega
  · rw [if_neg hn]
    exact ⟨rfl, fun a k => ⟨Or.inl, fun h => by
      rcases h with h | ⟨_, h, _⟩
      · exact h
      · exact absurd h hn⟩⟩

/-- the memory after a store -/
def stored (s : St) (a : Addr) (k : Nat) (vs : List Addr) : St :=
  { s with mem := upd s.mem a { s.mem a with
    ref := fun j => if k ≤ j ∧ j < k + vs.length then vs.getD (j - k) 0 else (s.mem a).ref j } }

theorem store_eq (s : St) (a : Addr) (k : Nat) (vs : List Addr) : store s a k vs = mark (stored s a k vs) a k vs.length := rfl

theorem good_store {n h a k vs} (g : Good n h) (ha : a ∈ h.U) (hi : h.st.region a ≠ .immortal)
    (hk : ∀ x, x < vs.length → k + x ∈ (h.st.mem a).slots) (hv : ∀ v ∈ vs, v = 0 ∨ v ∈ h.U) :
    Good n ⟨store h.st a k vs, h.U⟩ := by
  rw [store_eq]
  obtain ⟨e1, e2⟩ := mark_spec (stored h.st a k vs) a k vs.length
  generalize mark (stored h.st a k vs) a k vs.length = s' at e1 e2
  have m0 : s'.mem = (stored h.st a k vs).mem := by rw [e1]
  have m1 : ∀ x, (s'.mem x).slots = (h.st.mem x).slots := by
    intro x; rw [m0]; simp only [stored, upd]; split
    · rename_i hx; subst hx; rfl
    · rfl
  have m2 : ∀ x j, (s'.mem x).ref j = (h.st.mem x).ref j ∨
      (x = a ∧ k ≤ j ∧ j < k + vs.length ∧ ((s'.mem x).ref j = 0 ∨ (s'.mem x).ref j ∈ h.U)) := by
    intro x j; rw [m0]
    by_cases hx : x = a
    · subst hx
      simp only [stored, upd, if_true]
      by_cases hj : k ≤ j ∧ j < k + vs.length
      · right
        rw [if_pos hj]
        refine ⟨trivial, hj.1, hj.2, ?_⟩
        have hlt : j - k < vs.length := by omega
        rw [List.getD_eq_getElem?_getD, List.getElem?_eq_getElem hlt]
        exact hv _ (List.getElem_mem hlt)
      · left; rw [if_neg hj]
    · left; simp [stored, upd, hx]
  have rr : s'.region = h.st.region := by rw [e1]; rfl
  have ra : s'.age = h.st.age := by rw [e1]; rfl
  have hnm : ∀ x, needsMark s' x = needsMark h.st x := by intro x; unfold needsMark; rw [rr, ra]
  have htm : ∀ x, targetNeedsMark s' x = targetNeedsMark h.st x := by intro x; unfold targetNeedsMark; rw [rr, ra]
  have hnm' : ∀ x, needsMark (stored h.st a k vs) x = needsMark h.st x := fun _ => rfl
  have htm' : ∀ x, targetNeedsMark (stored h.st a k vs) x = targetNeedsMark h.st x := fun _ => rfl
  refine ⟨g.nodup, g.zero, ?_, ?_, ?_, ?_, ?_, ?_, ?_, ?_, ?_, ?_, ?_, ?_, ?_, ?_, ?_⟩
  · intro x hx j hj
    have hj' : j ∈ (h.st.mem x).slots := by rw [← m1]; exact hj
    rcases m2 x j with h1 | ⟨_, _, _, h1⟩
    · show (s'.mem x).ref j = 0 ∨ (s'.mem x).ref j ∈ h.U
      rw [h1]; exact g.closed x hx j hj'
    · exact h1
  · show ∀ i, s'.roots i = 0 ∨ s'.roots i ∈ h.U
    rw [e1]; exact g.roots
  · show ∀ i, n ≤ i → s'.roots i = 0
    rw [e1]; exact g.rootsEnd
  · intro x hx; show (s'.mem x).slots.Pairwise (· < ·); rw [m1]; exact g.sorted x hx
  · intro x hx; show ∀ j ∈ (s'.mem x).slots, j < 2 ^ 31; rw [m1]; exact g.bound x hx
  · show ∀ x, s'.fwd x = none
    rw [e1]; exact g.fwd0
  · show ∀ x, s'.marked x = false
    rw [e1]; exact g.marked0
  · show s'.markedList = []
    rw [e1]; exact g.list0
  · show s'.visitedList = []
    rw [e1]; exact g.vis0
  · show s'.count = 0
    rw [e1]; exact g.count0
  · show ∀ x ∈ h.U, s'.region x ≠ .next1 ∧ s'.region x ≠ .next2
    rw [rr]; exact g.region0
  · show s'.region 0 = .young
    rw [rr]; exact g.null0
  · intro x j hr
    show x ∈ h.U ∧ j ∈ (s'.mem x).slots
    rw [m1]
    rcases (e2 x j).1 hr with h1 | ⟨h1, _, h2, h3, _⟩
    · exact g.remOnly x j h1
    · refine ⟨h1 ▸ ha, ?_⟩
      have := hk (j - k) (by omega)
      rw [show k + (j - k) = j by omega] at this
      rw [h1]; exact this
  · intro x hx j hj hn ht
    have hj' : j ∈ (h.st.mem x).slots := by rw [← m1]; exact hj
    have hn' : needsMark h.st x = true := by rw [← hnm]; exact hn
    have ht' : targetNeedsMark h.st ((s'.mem x).ref j) = true := by rw [← htm]; exact ht
    show s'.remembered x j = true
    rw [e2]
    rcases m2 x j with h1 | ⟨h1, h2, h3, _⟩
    · left; rw [h1] at ht'; exact g.remAll x hx j hj' hn' ht'
    · right
      rw [h1] at hn' ht'
      rw [m0] at ht'
      exact ⟨h1, hn', h2, h3, ht'⟩
  · intro x hx j hj hii
    have hj' : j ∈ (h.st.mem x).slots := by rw [← m1]; exact hj
    have hii' : h.st.region x = .immortal := by
      have : s'.region x = .immortal := hii
      rw [rr] at this; exact this
    show (s'.mem x).ref j = 0 ∨ s'.region ((s'.mem x).ref j) = .immortal
    rw [rr]
    rcases m2 x j with h1 | ⟨h1, _⟩
    · rw [h1]; exact g.immortal x hx j hj' hii'
    · rw [h1] at hii'; exact absurd hii' hi

/-- **The invariant holds after every operation.** -/
theorem good_step {n op h h'} (g : Good n h) (hs : Step n op h h') : Good n h' := by
  cases hs with
  | new i info slots c fixed a h1 h2 h3 h4 h5 h6 =>
    exact good_setRoot (good_new g h3 h4 h5 h6 (g.roots c)) h1 (Or.inr List.mem_cons_self)
  | move i j h1 _ => exact good_setRoot g h1 (g.roots j)
  | null i h1 => exact good_setRoot g h1 (Or.inl rfl)
  | load i j k h1 _ h3 h4 =>
    refine good_setRoot g h1 (g.closed _ ?_ k h4)
    rcases g.roots j with h5 | h5
    · exact absurd h5 h3
    · exact h5
  | store i k js h1 h2 h3 h4 h5 =>
    refine good_store g ?_ h4 (by simpa using h5) ?_
    · rcases g.roots i with h6 | h6
      · exact absurd h6 h3
      · exact h6
    · intro v hv
      obtain ⟨j, _, rfl⟩ := List.mem_map.1 hv
      exact g.roots j
  | gc mode alloc old dirty fuel h1 h2 h3 h4 h5 h6 h7 h8 h9 h10 =>
    have a : GcArgs h ⟨mode, alloc⟩ old dirty := ⟨h2, h3, h4, h5, h6, h7, h8⟩
    obtain ⟨s1, dn, h11, h12⟩ := good_gc g a h1 h9
    have he := Option.some.inj (h11.symm.trans h10)
    subst he
    exact good_finish g a h12

end Avian.Collect
