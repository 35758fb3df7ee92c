import Verif.Heap.FixieSteps

/-
Property C36 (lists): every non-moving object is on the right one of the collector's lists
at any time, the lists are correctly linked, and a collection releases exactly the
non-moving objects it did not reach.  (That the address does not change and that "reached"
means reachable is in `Verif.Props.Collect`.)
-/
namespace Avian.Fixies

/-! ### Specification -/

/-- Walking a list with its `next` fields from its head: `xs` are the objects met, in order. -/
inductive Walks (m : Mem) : Nat → List Nat → Prop where
  | stop : Walks m 0 []
  | next {f xs} : f ≠ 0 → Walks m (m.next f) xs → Walks m f (f :: xs)

/-- `f` is met when walking list `l`. -/
def On (s : St) (l : L) (f : Nat) : Prop := ∃ xs, Walks s.mem (s.mem.heads l) xs ∧ f ∈ xs

/-- What may happen to the lists, in the order the heap's functions allow.  Between
collections: objects are allocated, and a store into an old object may make it dirty.
During a collection: objects are marked when reached, dirty old objects may be cleaned
(minor collections only), marked objects are taken off their list, visited (which may make
them dirty if they will be old after this collection) and put aside; once nothing is
waiting the unmarked ones may be declared dead, after which marking may go on; finally the
heap is swept. -/
inductive Step : Phase × St → Phase × St → Prop where
  | alloc {s f imm} : f ∉ s.live → f ≠ 0 → Step (.idle, s) (.idle, alloc s f imm)
  | barrier {s f} : f ∈ s.live → threshold ≤ s.age f → Step (.idle, s) (.idle, markDirty s f)
  | start {s major} : Step (.idle, s) (.gc major none, s)
  | touch {s f major c} : f ∈ s.live → Step (.gc major c, s) (.gc major c, touch s major f)
  | clean {s f} : On s .dirty f → Step (.gc false none, s) (.gc false none, markClean s f)
  | visitBegin {s major} : s.mem.heads .marked ≠ 0 →
      Step (.gc major none, s) (.gc major (some (s.mem.heads .marked)), visitBegin s (s.mem.heads .marked))
  | slot {s f major} : threshold ≤ s.age f + 1 →
      Step (.gc major (some f), s) (.gc major (some f), markDirty s f)
  | visitEnd {s f major} : Step (.gc major (some f), s) (.gc major none, visitEnd s f)
  | kill {s major} : s.mem.heads .marked = 0 → Step (.gc major none, s) (.gc major none, kill s major)
  | sweep {s major} : s.mem.heads .marked = 0 → Step (.gc major none, s) (.idle, sweep s major)

/-- States that can occur. -/
inductive Reach : Phase × St → Prop where
  | start : Reach (.idle, empty)
  | step {a b} : Reach a → Step a b → Reach b

/-! ### Proofs -/

theorem walks_iff {m : Mem} {v : Nat} {xs : List Nat} : Walks m v xs ↔ NChain m v xs := by
  induction xs generalizing v with
  | nil =>
    constructor
    · intro h; cases h; rfl
    · intro h; rw [show v = 0 from h]; exact .stop
  | cons f fs ih =>
    constructor
    · intro h; cases h with
      | next h0 h1 => exact ⟨rfl, h0, ih.1 h1⟩
    · rintro ⟨rfl, h0, h1⟩
      exact .next h0 (ih.2 h1)

theorem nchain_unique {m : Mem} {v : Nat} {xs ys : List Nat} (h1 : NChain m v xs) (h2 : NChain m v ys) :
    xs = ys := by
  induction xs generalizing v ys with
  | nil =>
    cases ys with
    | nil => rfl
    | cons g gs => exact absurd (h2.1.symm.trans h1) h2.2.1
  | cons f fs ih =>
    cases ys with
    | nil => exact absurd (h1.1.symm.trans h2) h1.2.1
    | cons g gs =>
      have : f = g := h1.1.symm.trans h2.1
      subst this
      rw [ih h1.2.2 h2.2.2]

theorem on_iff {s : St} {Ls : L → List Nat} (h : Rep s.mem Ls) (l : L) (f : Nat) :
    On s l f ↔ f ∈ Ls l := by
  have hc : NChain s.mem (s.mem.heads l) (Ls l) := chain_nchain (h.chain l)
  constructor
  · rintro ⟨xs, h1, h2⟩
    rw [nchain_unique hc (walks_iff.1 h1)]; exact h2
  · intro hf
    exact ⟨Ls l, walks_iff.2 hc, hf⟩

theorem reach_inv {a : Phase × St} (h : Reach a) : ∃ Ls, Inv a.2 Ls a.1 := by
  induction h with
  | start => exact ⟨_, inv_empty⟩
  | step _ hs ih =>
    obtain ⟨Ls, ih⟩ := ih
    cases hs with
    | alloc h1 h2 => exact inv_alloc ih h1 h2 _
    | barrier h1 h2 =>
      refine inv_dirty_plain ih h1 ?_ h2
      rename_i s f _
      cases hm : s.mark f
      · rfl
      · exact (ih.busy f h1 hm).elim
    | start =>
      refine ⟨Ls, ih.rep, ih.nodup, ih.ne0, ih.isLive, ih.aged, ih.plain, ?_, (by intro _ _ he; cases he),
        (by intro hi; cases hi), ?_⟩
      · intro f hf hm; exact (ih.busy f hf hm).elim
      · intro f hf hd; exact (ih.killed f hf hd).elim
    | touch h1 => exact inv_touch ih h1
    | clean h1 => exact inv_clean ih ((on_iff ih.rep _ _).1 h1)
    | visitBegin h1 => exact inv_begin ih h1
    | slot h1 => exact inv_dirty_cur ih h1
    | visitEnd => exact inv_end ih
    | kill _ => exact ⟨Ls, inv_kill ih⟩
    | sweep h1 => exact (sweep_spec ih h1).1

/-- **C36 (linked correctly).** At any time each list can be walked from its head to the
end, meets no object twice, and every object on it exists and has a back pointer to the
pointer it was reached through. -/
theorem lists_sound {ph : Phase} {s : St} (h : Reach (ph, s)) (l : L) :
    ∃ xs, Walks s.mem (s.mem.heads l) xs ∧ xs.Nodup ∧
      ∀ f ∈ xs, f ∈ s.live ∧ read s.mem (s.mem.handle f) = f := by
  obtain ⟨Ls, hi⟩ := reach_inv h
  refine ⟨Ls l, walks_iff.2 (chain_nchain (hi.rep.chain l)), hi.rep.nodup l, ?_⟩
  intro f hf
  refine ⟨hi.isLive l f hf, ?_⟩
  have hc : ∀ (xs : List Nat) (h : Handle), Chain s.mem h xs → f ∈ xs → read s.mem (s.mem.handle f) = f := by
    intro xs
    induction xs with
    | nil => intro _ _ hh; cases hh
    | cons a as ih =>
      intro h hc hm
      rcases List.mem_cons.1 hm with rfl | hm
      · rw [hc.2.2.1]; exact hc.1
      · exact ih _ hc.2.2.2 hm
  exact hc _ _ (hi.rep.chain l) hf

/-- **C36 (at most one list).** No object is on two lists. -/
theorem one_list {ph : Phase} {s : St} (h : Reach (ph, s)) (l l' : L) (f : Nat)
    (h1 : On s l f) (h2 : On s l' f) : l = l' := by
  obtain ⟨Ls, hi⟩ := reach_inv h
  exact hi.rep.disj _ _ f ((on_iff hi.rep _ _).1 h1) ((on_iff hi.rep _ _).1 h2)

/-- **C36 (exactly one list between collections).** Between collections every object that
is not immortal is on exactly one list: the young list while young, afterwards the dirty
list if it is dirty and the clean list otherwise.  Nothing is on the two lists used during
a collection, and an immortal object is on the dirty list exactly when it is dirty. -/
theorem resting_place {s : St} (h : Reach (.idle, s)) (f : Nat) (hf : f ∈ s.live) :
    (∀ l, immortal s f = false →
      (On s l f ↔ l = if s.age f < threshold then .fixies
        else if s.isDirty f = true then .dirty else .tenured)) ∧
    (immortal s f = true → (On s .dirty f ↔ s.isDirty f = true) ∧ ¬ On s .fixies f) ∧
    ¬ On s .marked f ∧ ¬ On s .visited f := by
  obtain ⟨Ls, hi⟩ := reach_inv h
  have hm : s.mark f = false := by
    cases hm : s.mark f
    · rfl
    · exact (hi.busy f hf hm).elim
  have hp := hi.plain f hf hm
  simp only [on_iff hi.rep]
  refine ⟨?_, ?_, ?_, ?_⟩
  · intro l him
    unfold Place at hp
    rw [if_neg (by rw [him]; decide)] at hp
    split
    · rename_i ha
      rw [if_pos ha] at hp
      exact ⟨fun hx => hi.rep.disj _ _ f hx hp.1, fun hl => by rw [hl]; exact hp.1⟩
    · rename_i ha
      rw [if_neg ha] at hp
      split <;> rename_i hd
      · rw [if_pos hd] at hp
        exact ⟨fun hx => hi.rep.disj _ _ f hx hp, fun hl => by rw [hl]; exact hp⟩
      · rw [if_neg hd] at hp
        exact ⟨fun hx => hi.rep.disj _ _ f hx hp, fun hl => by rw [hl]; exact hp⟩
  · intro him
    have ha : s.age f = threshold + 1 := by simpa [immortal] using him
    refine ⟨⟨?_, ?_⟩, ?_⟩
    · intro hx
      rcases plain_lists hi hx hm with ⟨e, _⟩ | ⟨e, _⟩ | ⟨_, _, e⟩
      · cases e
      · cases e
      · exact e
    · intro hd
      unfold Place at hp
      rw [if_pos him, if_pos hd] at hp
      exact hp
    · intro hx
      rcases plain_lists hi hx hm with ⟨_, e, _⟩ | ⟨e, _⟩ | ⟨e, _⟩
      · simp only at e; omega
      · cases e
      · cases e
  · rw [(hi.rest rfl).1]; exact List.not_mem_nil
  · rw [(hi.rest rfl).2]; exact List.not_mem_nil

/-- **C36 (exactly one list during a collection).** During a collection a marked object that
is not being visited is on the list of objects waiting or on the list of objects done, and
on no other; the one being visited is on none of the lists from which objects are freed
unless it is dirty. -/
theorem working_place {s : St} {major : Bool} {c : Option Nat} (h : Reach (.gc major c, s)) (f : Nat)
    (hf : f ∈ s.live) (hm : s.mark f = true) :
    (c ≠ some f → (On s .marked f ∨ On s .visited f) ∧
      ∀ l, On s l f → l = .marked ∨ l = .visited) ∧
    (c = some f → ∀ l, On s l f → l = .dirty ∧ s.isDirty f = true) := by
  obtain ⟨Ls, hi⟩ := reach_inv h
  simp only [on_iff hi.rep]
  constructor
  · intro hc
    have := (busy_lists hi hf hm hc).2.2
    refine ⟨this, ?_⟩
    intro l hl
    rcases this with hh | hh
    · exact Or.inl (hi.rep.disj _ _ f hl hh)
    · exact Or.inr (hi.rep.disj _ _ f hl hh)
  · intro hc l hl
    have hb := hi.busy f hf hm
    simp only [MarkedPlace, if_pos hc] at hb
    rcases hb.2.2 with hb | ⟨hb, hd⟩
    · exact absurd hl (hb l)
    · exact ⟨hi.rep.disj _ _ f hl hb, hd⟩

/-- **C36 (released exactly when not reached).** The sweep that ends a collection releases
exactly the objects which are not immortal, were not marked, and were subject to this
collection: all of them in a major collection, the young ones in a minor one. -/
theorem released_iff {s : St} {major : Bool} (h : Reach (.gc major none, s))
    (hm : s.mem.heads .marked = 0) (f : Nat) (hf : f ∈ s.live) :
    f ∉ (sweep s major).live ↔
      s.mark f = false ∧ immortal s f = false ∧ (major = true ∨ s.age f < threshold) := by
  obtain ⟨Ls, hi⟩ := reach_inv h
  have := (sweep_spec hi hm).2.1 f
  rw [this]
  simp only [hf, true_and, Keeps]
  cases s.mark f <;> cases immortal s f <;> cases major <;> simp

/-- **C36 (nothing appears).** A sweep creates no object. -/
theorem sweep_creates_nothing {s : St} {major : Bool} (h : Reach (.gc major none, s))
    (hm : s.mem.heads .marked = 0) (f : Nat) (hf : f ∈ (sweep s major).live) : f ∈ s.live := by
  obtain ⟨Ls, hi⟩ := reach_inv h
  exact (((sweep_spec hi hm).2.1 f).1 hf).1

/-- **C36 (ageing).** A survivor that was marked gets one collection older, up to the age of
old objects; immortal objects and objects not subject to the collection keep their age. -/
theorem ageing {s : St} {major : Bool} (h : Reach (.gc major none, s))
    (hm : s.mem.heads .marked = 0) (f : Nat) (hf : f ∈ (sweep s major).live) :
    (sweep s major).age f =
      if s.mark f = true ∧ immortal s f = false then min (s.age f + 1) threshold else s.age f := by
  obtain ⟨Ls, hi⟩ := reach_inv h
  have := (sweep_spec hi hm).2.2.1 f hf
  rw [this]
  by_cases h1 : s.mark f = true
  · rw [if_pos h1]
    by_cases h2 : s.age f = threshold + 1
    · have h3 : immortal s f = true := by simp [immortal, h2]
      rw [if_neg (by rw [h3]; simp)]
      simp [older, h2]
    · have h3 : immortal s f = false := by simp [immortal, h2]
      rw [if_pos ⟨h1, h3⟩]
      simp only [older, if_neg h2]
      split <;> omega
  · rw [if_neg h1, if_neg (fun hh => h1 hh.1)]

/-- **C36 (what clients are told).** After the collector has declared unmarked objects dead,
an object is dead exactly when the sweep would release it; and marking it again afterwards
(for instance to run a finalizer) takes that back. -/
theorem dead_iff_doomed {s : St} {major : Bool} (h : Reach (.gc major none, s)) (f : Nat)
    (hf : f ∈ s.live) :
    ((kill s major).dead f = true ↔
      s.mark f = false ∧ immortal s f = false ∧ (major = true ∨ s.age f < threshold)) := by
  obtain ⟨Ls, hi⟩ := reach_inv h
  rw [(kill_eq hi major).2 f]
  constructor
  · rintro (hd | ⟨hw, him⟩)
    · exact hi.killed f hf hd
    · exact (walked_doomed hi hf him).1 hw
  · intro hd
    exact Or.inr ⟨(walked_doomed hi hf hd.2.1).2 hd, hd.2.1⟩

/-- **C36 (resurrection).** An object told dead and reached again is no longer dead and is kept. -/
theorem resurrected {s : St} {major : Bool} {c : Option Nat} (h : Reach (.gc major c, s)) (f : Nat)
    (hf : f ∈ s.live) (hd : s.dead f = true) :
    (touch s major f).dead f = false ∧ (touch s major f).mark f = true := by
  obtain ⟨Ls, hi⟩ := reach_inv h
  obtain ⟨h1, _, h3⟩ := hi.killed f hf hd
  unfold touch
  rw [if_pos (by simp only at h1 h3; simp [h1, h3])]
  exact ⟨upd_same _ _ _, upd_same _ _ _⟩

/-- Nothing is told dead between collections. -/
theorem none_dead {s : St} (h : Reach (.idle, s)) (f : Nat) (hf : f ∈ s.live) : s.dead f = false := by
  obtain ⟨Ls, hi⟩ := reach_inv h
  cases hd : s.dead f
  · rfl
  · exact (hi.killed f hf hd).elim

/-! ### Example -/

/-- Three objects, one immortal; a major collection marks 8 (and makes it wait, be visited),
then declares the rest dead, resurrects 16, and sweeps. -/
def demo : Phase × St :=
  let s := alloc (alloc (alloc (alloc empty 8 false) 16 false) 24 false) 32 true
  let s := markDirty s 32
  let s := touch s true 8
  let s := visitEnd (visitBegin s 8) 8
  let s := kill s true
  let s := touch s true 16
  (.gc true none, visitEnd (visitBegin s 16) 16)

theorem demo_reach : Reach demo := by
  have h0 := Reach.start
  have h1 := h0.step (.alloc (f := 8) (imm := false) (by decide) (by decide))
  have h2 := h1.step (.alloc (f := 16) (imm := false) (by decide) (by decide))
  have h3 := h2.step (.alloc (f := 24) (imm := false) (by decide) (by decide))
  have h4 := h3.step (.alloc (f := 32) (imm := true) (by decide) (by decide))
  have h5 := h4.step (.barrier (f := 32) (by decide) (by decide))
  have h6 := h5.step (.start (major := true))
  have h7 := h6.step (.touch (f := 8) (by decide))
  have h8 := h7.step (.visitBegin (by decide))
  have h9 := h8.step .visitEnd
  have h10 := h9.step (.kill (by decide))
  have h11 := h10.step (.touch (f := 16) (by decide))
  have h12 := h11.step (.visitBegin (by decide))
  exact h12.step .visitEnd

example : demo.2.mem.heads .marked = 0 ∧ (sweep demo.2 true).live = [32, 16, 8] ∧
    (sweep demo.2 true).mem.heads .fixies = 8 ∧ (sweep demo.2 true).mem.next 8 = 16 ∧
    (sweep demo.2 true).mem.heads .dirty = 0 ∧ (sweep demo.2 true).age 16 = 1 := by decide

end Avian.Fixies
