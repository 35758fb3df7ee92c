import Verif.Heap.HistoryLemmas

/-!
C32, C34 and part of C36: the collector as a program sees it.

The specification is a heap without a collector: objects are never moved and never freed, and a request to
collect does nothing. A program that works through its roots cannot tell the two heaps apart.
-/

namespace Avian.Collect

/-! ### specification -/

/-- A heap in which nothing is ever moved or freed; identities are numbered in the order of creation. -/
structure Ideal where
  mem : Nat → Obj
  roots : Nat → Nat
  next : Nat

/-- the operations on it -/
def ideal (A : Ideal) : Op → Ideal
  | .new i info slots c _ =>
    ⟨fun a => if a = A.next then ⟨info, slots, fun k => if k = 0 then A.roots c else 0⟩ else A.mem a,
      fun j => if j = i then A.next else A.roots j, A.next + 1⟩
  | .move i j => { A with roots := fun x => if x = i then A.roots j else A.roots x }
  | .null i => { A with roots := fun x => if x = i then 0 else A.roots x }
  | .load i j k => { A with roots := fun x => if x = i then (A.mem (A.roots j)).ref k else A.roots x }
  | .store i k js =>
    { A with mem := fun a =>
        if a = A.roots i then
          { A.mem a with ref := fun x => if k ≤ x ∧ x < k + js.length then A.roots (js.getD (x - k) 0) else (A.mem a).ref x }
        else A.mem a }
  | .gc _ => A

/-- reachable from the roots -/
inductive Live (mem : Addr → Obj) (roots : Nat → Addr) : Addr → Prop
  | root (i : Nat) : roots i ≠ 0 → Live mem roots (roots i)
  | step (a : Addr) (k : Nat) : Live mem roots a → k ∈ (mem a).slots → (mem a).ref k ≠ 0 → Live mem roots ((mem a).ref k)

/-- `φ` takes the live part of one heap to the other: same contents, same references, same roots, nothing
merged, nothing lost. -/
structure Iso (φ : Addr → Addr) (mem : Addr → Obj) (roots : Nat → Addr) (mem' : Addr → Obj) (roots' : Nat → Addr)
    (U' : List Addr) : Prop where
  null : φ 0 = 0
  exists' : ∀ a, Live mem roots a → φ a ∈ U'
  inj : ∀ a b, Live mem roots a → Live mem roots b → φ a = φ b → a = b
  root : ∀ i, roots' i = φ (roots i)
  info : ∀ a, Live mem roots a → (mem' (φ a)).info = (mem a).info
  slots : ∀ a, Live mem roots a → (mem' (φ a)).slots = (mem a).slots
  refs : ∀ a, Live mem roots a → ∀ k ∈ (mem a).slots, (mem' (φ a)).ref k = φ ((mem a).ref k)

/-- A heap at the start: objects of a boot image only, which refer to each other. -/
structure Start (n : Nat) (h : Heap) : Prop where
  nodup : h.U.Nodup
  zero : 0 ∉ h.U
  image : ∀ a ∈ h.U, h.st.region a = .immortal
  closed : ∀ a ∈ h.U, ∀ k ∈ (h.st.mem a).slots, (h.st.mem a).ref k = 0 ∨ (h.st.mem a).ref k ∈ h.U
  sorted : ∀ a ∈ h.U, (h.st.mem a).slots.Pairwise (· < ·)
  bound : ∀ a ∈ h.U, ∀ k ∈ (h.st.mem a).slots, k < 2 ^ 31
  roots : ∀ i, h.st.roots i = 0 ∨ h.st.roots i ∈ h.U
  rootsEnd : ∀ i, n ≤ i → h.st.roots i = 0
  null : h.st.region 0 = .young
  clean : (∀ a, h.st.fwd a = none) ∧ (∀ a, h.st.marked a = false) ∧ h.st.markedList = [] ∧ h.st.visitedList = [] ∧
    h.st.count = 0 ∧ ∀ a k, h.st.remembered a k = false

/-- histories -/
inductive Run (n : Nat) : List Op → Heap → Heap → Prop
  | nil (h : Heap) : Run n [] h h
  | cons {op : Op} {ops : List Op} {h h' h'' : Heap} : Step n op h h' → Run n ops h' h'' → Run n (op :: ops) h h''

/-- heaps that occur -/
def Occurs (n : Nat) (h : Heap) : Prop := ∃ h0 ops, Start n h0 ∧ Run n ops h0 h

/-! ### the invariant holds in every heap that occurs -/

theorem start_good {n h} (s : Start n h) : Good n h := by
  obtain ⟨c1, c2, c3, c4, c5, c6⟩ := s.clean
  refine ⟨s.nodup, s.zero, s.closed, s.roots, s.rootsEnd, s.sorted, s.bound, c1, c2, c3, c4, c5, ?_, s.null, ?_, ?_, ?_⟩
  · intro a ha; rw [s.image a ha]; simp
  · intro a k h; rw [c6] at h; cases h
  · intro a ha k _ hn; unfold needsMark at hn; rw [s.image a ha] at hn; simp at hn
  · intro a ha k hk _
    rcases s.closed a ha k hk with h | h
    · exact Or.inl h
    · exact Or.inr (s.image _ h)

theorem run_good {n ops h h'} (g : Good n h) (r : Run n ops h h') : Good n h' := by
  induction r with
  | nil => exact g
  | cons hs _ ih => exact ih (good_step g hs)

theorem occurs_good {n h} (o : Occurs n h) : Good n h := by
  obtain ⟨h0, ops, s, r⟩ := o
  exact run_good (start_good s) r

theorem live_U {n h} (g : Good n h) : ∀ a, Live h.st.mem h.st.roots a → a ∈ h.U := by
  intro a ha
  induction ha with
  | root i h0 =>
    rcases g.roots i with h1 | h1
    · exact absurd h1 h0
    · exact h1
  | step a k _ hk h0 ih =>
    rcases g.closed a ih k hk with h1 | h1
    · exact absurd h1 h0
    · exact h1

theorem live_kept {n h e old dirty s dn} (g : Good n h) (a : GcArgs h e old dirty) (f : Final (ctx h e old dirty) s dn n) :
    ∀ x, Live h.st.mem h.st.roots x → Kept (ctx h e old dirty) s x := by
  intro x hx
  induction hx with
  | root i h0 =>
    rcases (root_image g a f i).2 with h1 | h1
    · exact absurd h1 h0
    · exact h1
  | step y k _ hk h0 ih =>
    rcases ((kept_closed g a f ih).2.2 k hk).2 with h1 | h1
    · exact absurd h1 h0
    · exact h1

/-! ### C32 -/

/-- **Collection preserves the reachable object graph.** In every heap that occurs, whatever a minor or major
collection does, each object reachable from the roots afterwards exists at a place of its own with the same
contents and with references to the corresponding objects, and the roots refer to the corresponding
objects. Non-moving and immortal objects, and in a minor collection those of the second generation, stay
where they are. -/
theorem collection_preserves_graph {n : Nat} {h h' : Heap} {mode : Mode} (o : Occurs n h) (s : Step n (.gc mode) h h') :
    ∃ φ, Iso φ h.st.mem h.st.roots h'.st.mem h'.st.roots h'.U ∧
      ∀ a, Live h.st.mem h.st.roots a →
        h.st.region a = .fixed ∨ h.st.region a = .immortal ∨ (mode = .minor ∧ h.st.region a = .gen2) → φ a = a := by
  have g := occurs_good o
  cases s with
  | gc mode alloc old dirty fuel h1 h2 h3 h4 h5 h6 h7 h8 h9 h10 =>
    have a : GcArgs h ⟨mode, alloc⟩ old dirty := ⟨h2, h3, h4, h5, h6, h7, h8⟩
    obtain ⟨s1, dn, h11, f⟩ := good_gc g a h1 h9
    have he := Option.some.inj (h11.symm.trans h10)
    subst he
    have hk := live_kept g a f
    refine ⟨image s1, ⟨image_zero g a f, fun x hx => (mem_survivors g a f).2 ⟨x, hk x hx, rfl⟩,
      fun x y hx hy e => image_inj (good_wf g a) f (Or.inl (hk x hx).1) (Or.inl (hk y hy).1) e,
      fun i => (root_image g a f i).1, fun x hx => (kept_closed g a f (hk x hx)).1,
      fun x hx => (kept_closed g a f (hk x hx)).2.1, fun x hx k hks => ((kept_closed g a f (hk x hx)).2.2 k hks).1⟩, ?_⟩
    intro x hx hr
    rcases image_place g a f (hk x hx) with ⟨h12, _⟩ | ⟨_, _, _, h12, _⟩
    · exact h12
    · exfalso
      unfold kind at h12
      rcases hr with hr | hr | ⟨hm, hr⟩ <;> rw [hr] at h12
      · simp at h12; split at h12 <;> cases h12
      · simp at h12
      · simp [hm] at h12

/-- the remembered slots can be listed -/
theorem list_slots {n h} (g : Good n h) (p : Addr × Nat → Prop) (hp : ∀ x, p x → h.st.remembered x.1 x.2 = true) :
    ∃ l : List (Addr × Nat), l.Nodup ∧ ∀ x, x ∈ l ↔ p x := by
  have hdec : ∀ x, Decidable (p x) := fun x => Classical.propDecidable _
  refine ⟨((h.U.flatMap fun a => (h.st.mem a).slots.map fun k => (a, k))).filter fun x => decide (p x), ?_, ?_⟩
  · refine List.Pairwise.filter _ ?_
    rw [← List.Nodup]
    have : ∀ l : List Addr, l.Nodup → (∀ a ∈ l, a ∈ h.U) → (l.flatMap fun a => (h.st.mem a).slots.map fun k => (a, k)).Nodup := by
      intro l
      induction l with
      | nil => intro _ _; simp
      | cons a l ih =>
        intro hn hl
        rw [List.flatMap_cons, List.nodup_append]
        refine ⟨?_, ih (List.nodup_cons.1 hn).2 (fun x hx => hl x (List.mem_cons_of_mem _ hx)), ?_⟩
        · rw [List.Nodup, List.pairwise_map]
          refine (g.sorted a (hl a List.mem_cons_self)).imp ?_
          intro x y hxy e
          have : x = y := (Prod.mk.inj e).2
          omega
        · intro x hx y hy e
          obtain ⟨k, _, rfl⟩ := List.mem_map.1 hx
          obtain ⟨b, hb, hy⟩ := List.mem_flatMap.1 hy
          obtain ⟨j, _, rfl⟩ := List.mem_map.1 hy
          have : a = b := (Prod.mk.inj e).1
          subst this
          exact (List.nodup_cons.1 hn).1 hb
    exact this h.U g.nodup (fun _ h => h)
  · intro x
    rw [List.mem_filter]
    constructor
    · rintro ⟨_, h1⟩; simpa using h1
    · intro h1
      refine ⟨?_, by simpa using h1⟩
      obtain ⟨h2, h3⟩ := g.remOnly _ _ (hp x h1)
      exact List.mem_flatMap.2 ⟨x.1, h2, List.mem_map.2 ⟨x.2, h3, rfl⟩⟩

/-- **A collection always ends**, wherever the copies are put, as long as that memory is not in use. -/
theorem collection_ends {n : Nat} {h : Heap} (o : Occurs n h) (hn : 0 < n) (mode : Mode) (alloc : Nat → Addr)
    (inj : ∀ i j, alloc i = alloc j → i = j) (fresh : ∀ i, alloc i ∉ h.U) (nz : ∀ i, alloc i ≠ 0) :
    ∃ h', Step n (.gc mode) h h' := by
  have g := occurs_good o
  obtain ⟨old, o1, o2⟩ := list_slots g (OldSlot h.st) (fun _ h => h.2)
  obtain ⟨dirty, d1, d2⟩ := list_slots g (DirtySlot h.st) (fun _ h => h.2.2)
  have a : GcArgs h ⟨mode, alloc⟩ old dirty := ⟨inj, fresh, nz, o1, d1, o2, d2⟩
  obtain ⟨s1, dn, h1, _⟩ := good_gc g a hn (Nat.le_refl _)
  exact ⟨_, .gc mode alloc old dirty _ hn inj fresh nz o1 d1 o2 d2 (Nat.le_refl _) h1⟩

/-- **A major collection frees everything that is not reachable**: afterwards there are only objects that
are reachable from the roots and objects of the boot image. -/
theorem major_frees_garbage {n : Nat} {h h' : Heap} (o : Occurs n h) (s : Step n (.gc .major) h h') :
    ∀ a ∈ h'.U, Live h'.st.mem h'.st.roots a ∨ h'.st.region a = .immortal := by
  have g := occurs_good o
  cases s with
  | gc mode alloc old dirty fuel h1 h2 h3 h4 h5 h6 h7 h8 h9 h10 =>
    have a : GcArgs h ⟨.major, alloc⟩ old dirty := ⟨h2, h3, h4, h5, h6, h7, h8⟩
    obtain ⟨s1, dn, h11, f⟩ := good_gc g a h1 h9
    have he := Option.some.inj (h11.symm.trans h10)
    subst he
    intro y hy
    obtain ⟨x, hk, rfl⟩ := (mem_survivors g a f).1 hy
    have hreach : ∀ x, Reach (ctx h ⟨.major, alloc⟩ old dirty) x → Kept (ctx h ⟨.major, alloc⟩ old dirty) s1 x →
        Live s1.mem s1.roots (image s1 x) := by
      intro x hr
      induction hr with
      | root i h0 =>
        intro hk
        have := (root_image g a f i).1
        rw [show (ctx h ⟨.major, alloc⟩ old dirty).s0.roots i = h.st.roots i from rfl, ← this]
        refine Live.root i ?_
        rw [this]
        intro e
        have := image_inj (good_wf g a) f (Or.inl hk.1) (Or.inr rfl) (e.trans (image_zero g a f).symm)
        exact h0 this
      | old a k hp _ => intro _; simp [ctx] at hp
      | step b k hb hns hks h0 ih =>
        intro hk
        have hbk := reach_kept f g.rootsEnd (good_ready g a) b hb
        obtain ⟨_, h2, h3⟩ := kept_closed g a f hbk
        have h4 := (h3 k hks).1
        show Live s1.mem s1.roots (image s1 ((h.st.mem b).ref k))
        rw [← h4]
        refine Live.step _ k (ih hbk) (by rw [h2]; exact hks) ?_
        rw [h4]
        intro e
        have := image_inj (good_wf g a) f (Or.inl hk.1) (Or.inr rfl) (e.trans (image_zero g a f).symm)
        exact h0 this
    rcases hk.2 with h12 | h12 | h12
    · right
      have hi : h.st.region x = .immortal := (kind_major rfl).1 h12
      rcases image_place g a f hk with ⟨h13, _, _, h14, _⟩ | ⟨_, _, _, h13, _⟩
      · show (finish ⟨.major, alloc⟩ s1 h.U).region (image s1 x) = .immortal
        rw [h13, finish_region, h14, hi]
      · have h12' : kind ⟨.major, alloc⟩ h.st x = .still := h12
        rw [h13] at h12'; cases h12'
    · left; exact hreach x (f.quiet.reach x (Or.inr h12.2)) hk
    · left; exact hreach x (f.quiet.reach x (Or.inl h12)) hk

/-! ### C36 -/

/-- **A non-moving object keeps its address while it is reachable**: through every collection it stays in the
heap, in place and still non-moving, with the same contents; and its references are those of the
corresponding objects (`collection_preserves_graph`). -/
theorem non_moving_stays {n : Nat} {h h' : Heap} {mode : Mode} (o : Occurs n h) (s : Step n (.gc mode) h h') (a : Addr)
    (hl : Live h.st.mem h.st.roots a) (hf : h.st.region a = .fixed) :
    a ∈ h'.U ∧ h'.st.region a = .fixed ∧ (h'.st.mem a).info = (h.st.mem a).info ∧
      (h'.st.mem a).slots = (h.st.mem a).slots := by
  obtain ⟨φ, i, hp⟩ := collection_preserves_graph o s
  have e := hp a hl (Or.inl hf)
  have h1 := i.exists' a hl
  have h2 := i.info a hl
  have h3 := i.slots a hl
  rw [e] at h1 h2 h3
  refine ⟨h1, ?_, h2, h3⟩
  clear h1 h2 h3
  have g := occurs_good o
  cases s with
  | gc mode alloc old dirty fuel h1 h2 h3 h4 h5 h6 h7 h8 h9 h10 =>
    have ag : GcArgs h ⟨mode, alloc⟩ old dirty := ⟨h2, h3, h4, h5, h6, h7, h8⟩
    obtain ⟨s1, dn, h11, f⟩ := good_gc g ag h1 h9
    have he := Option.some.inj (h11.symm.trans h10)
    subst he
    show (finish ⟨mode, alloc⟩ s1 h.U).region a = .fixed
    rw [finish_region, (f.quiet.static a (live_U g a hl)).1]
    show (match h.st.region a with | .next1 => .gen1 | .next2 => .gen2 | r => r) = Region.fixed
    rw [hf]

/-- **A non-moving object is freed when a collection that considers it finds it unreachable**: after a major
collection the non-moving objects are exactly those that were reachable. -/
theorem non_moving_freed_exactly {n : Nat} {h h' : Heap} (o : Occurs n h) (s : Step n (.gc .major) h h') (a : Addr)
    (hU : a ∈ h.U) (hf : h.st.region a = .fixed) : a ∈ h'.U ↔ Live h.st.mem h.st.roots a := by
  constructor
  · intro ha
    have g := occurs_good o
    cases s with
    | gc mode alloc old dirty fuel h1 h2 h3 h4 h5 h6 h7 h8 h9 h10 =>
      have ag : GcArgs h ⟨.major, alloc⟩ old dirty := ⟨h2, h3, h4, h5, h6, h7, h8⟩
      obtain ⟨s1, dn, h11, f⟩ := good_gc g ag h1 h9
      have he := Option.some.inj (h11.symm.trans h10)
      subst he
      obtain ⟨x, hk, he⟩ := (mem_survivors g ag f).1 ha
      have hx : a = x := by
        rcases image_place g ag f hk with ⟨h13, _⟩ | ⟨_, h13, _⟩
        · rw [he, h13]
        · rw [← he] at h13; exact absurd hU h13
      subst hx
      have hr : Reach (ctx h ⟨.major, alloc⟩ old dirty) a := by
        refine f.quiet.reach a ?_
        rcases hk.2 with h13 | h13 | h13
        · have : h.st.region a = .immortal := (kind_major rfl).1 h13
          rw [hf] at this; cases this
        · exact Or.inr h13.2
        · exact Or.inl h13
      clear ha he hk hU hf
      induction hr with
      | root i h0 => exact .root i h0
      | old a k hp _ => simp [ctx] at hp
      | step b k _ _ hks h0 ih => exact .step b k ih hks h0
  · intro hl; exact (non_moving_stays o s a hl hf).1

/-! ### C34 -/

/-- **Every reference from an old object to a young one is remembered**, at all times: in every heap that
occurs, whatever the history of allocations, stores and collections. -/
theorem old_to_young_remembered {n : Nat} {h : Heap} (o : Occurs n h) (a : Addr) (ha : a ∈ h.U) (k : Nat)
    (hk : k ∈ (h.st.mem a).slots)
    (old : h.st.region a = .gen2 ∨ (h.st.region a = .fixed ∧ fixieTenureThreshold ≤ h.st.age a))
    (young : (h.st.mem a).ref k ≠ 0 ∧ (h.st.region ((h.st.mem a).ref k) = .young ∨ h.st.region ((h.st.mem a).ref k) = .gen1 ∨
      (h.st.region ((h.st.mem a).ref k) = .fixed ∧ h.st.age ((h.st.mem a).ref k) < fixieTenureThreshold))) :
    h.st.remembered a k = true := by
  refine (occurs_good o).remAll a ha k hk ?_ ?_
  · unfold needsMark
    rcases old with h1 | ⟨h1, h2⟩
    · rw [if_neg (by rw [h1]; simp), h1]; simp
    · rw [if_pos h1]; simpa using h2
  · obtain ⟨h0, h1 | h1 | ⟨h1, h2⟩⟩ := young
    · unfold targetNeedsMark; rw [h1]; simp [h0]
    · unfold targetNeedsMark; rw [h1]; simp [h0]
    · unfold targetNeedsMark; rw [h1]; simp [h0]; omega

/-- nothing but references is ever remembered, so that a collection never takes something else for one -/
theorem remembered_are_references {n : Nat} {h : Heap} (o : Occurs n h) (a : Addr) (k : Nat)
    (hr : h.st.remembered a k = true) : a ∈ h.U ∧ k ∈ (h.st.mem a).slots := (occurs_good o).remOnly a k hr

/-- the heap is the image of the ideal heap -/
def Matches (h : Heap) (A : Ideal) : Prop :=
  0 < A.next ∧ (∀ a, Live A.mem A.roots a → a < A.next ∧ a ≠ 0) ∧ ∃ φ, Iso φ A.mem A.roots h.st.mem h.st.roots h.U

theorem live_ne {mem roots a} (h : Live mem roots a) : a ≠ 0 := by cases h <;> assumption

/-- if every root and every reference of the new heap's live objects was live in the old one, so is the rest -/
theorem live_mono {mem' : Addr → Obj} {roots' : Nat → Addr} {P : Addr → Prop}
    (hr : ∀ i, roots' i ≠ 0 → P (roots' i))
    (hs : ∀ a, P a → ∀ k ∈ (mem' a).slots, (mem' a).ref k ≠ 0 → P ((mem' a).ref k)) :
    ∀ a, Live mem' roots' a → P a := by
  intro a ha
  induction ha with
  | root i h0 => exact hr i h0
  | step b k _ hk h0 ih => exact hs b ih k hk h0

theorem live_setRoot {mem : Addr → Obj} {roots : Nat → Addr} {i : Nat} {v : Addr} (hv : v = 0 ∨ Live mem roots v) :
    ∀ a, Live mem (fun x => if x = i then v else roots x) a → Live mem roots a := by
  refine live_mono ?_ (fun a ha k hk h0 => .step a k ha hk h0)
  intro j h0
  by_cases hj : j = i
  · simp only [if_pos hj] at h0 ⊢
    rcases hv with hv | hv
    · exact absurd hv h0
    · exact hv
  · simp only [if_neg hj] at h0 ⊢; exact .root j h0

theorem matches_setRoot {h : Heap} {A : Ideal} {i : Nat} {v : Addr} {v' : Addr} {φ : Addr → Addr} (h0 : 0 < A.next)
    (hlt : ∀ a, Live A.mem A.roots a → a < A.next ∧ a ≠ 0) (I : Iso φ A.mem A.roots h.st.mem h.st.roots h.U)
    (hv : v = 0 ∨ Live A.mem A.roots v) (he : v' = φ v) :
    Matches ⟨setRoot h.st i v', h.U⟩ { A with roots := fun x => if x = i then v else A.roots x } := by
  have hl := live_setRoot (i := i) hv
  refine ⟨h0, fun a ha => hlt a (hl a ha), φ, I.null, fun a ha => I.exists' a (hl a ha),
    fun a b ha hb => I.inj a b (hl a ha) (hl b hb), ?_, fun a ha => I.info a (hl a ha), fun a ha => I.slots a (hl a ha),
    fun a ha => I.refs a (hl a ha)⟩
  intro j
  show (if j = i then v' else h.st.roots j) = φ (if j = i then v else A.roots j)
  by_cases hj : j = i
  · rw [if_pos hj, if_pos hj]; exact he
  · rw [if_neg hj, if_neg hj]; exact I.root j

theorem step_matches {n : Nat} {op : Op} {h h' : Heap} {A : Ideal} (g : Good n h) (m : Matches h A) (s : Step n op h h') :
    Matches h' (ideal A op) := by
  obtain ⟨hn, hlt, φ, I⟩ := m
  have hroot : ∀ i, A.roots i = 0 ∨ Live A.mem A.roots (A.roots i) := by
    intro i
    by_cases h0 : A.roots i = 0
    · exact Or.inl h0
    · exact Or.inr (.root i h0)
  have hnz : ∀ i, h.st.roots i ≠ 0 → A.roots i ≠ 0 := by
    intro i h0 e; exact h0 (by rw [I.root, e, I.null])
  cases s with
  | move i j h1 h2 => exact matches_setRoot hn hlt I (hroot j) (I.root j)
  | null i h1 => exact matches_setRoot hn hlt I (Or.inl rfl) I.null.symm
  | load i j k h1 h2 h3 h4 =>
    have hj := hnz j h3
    have hL := Live.root (mem := A.mem) (roots := A.roots) j hj
    have hk : k ∈ (A.mem (A.roots j)).slots := by rw [← I.slots _ hL, ← I.root]; exact h4
    refine matches_setRoot hn hlt I ?_ ?_
    · by_cases h0 : (A.mem (A.roots j)).ref k = 0
      · exact Or.inl h0
      · exact Or.inr (.step _ k hL hk h0)
    · rw [I.root j]; exact I.refs _ hL k hk
  | gc mode alloc old dirty fuel h1 h2 h3 h4 h5 h6 h7 h8 h9 h10 =>
    refine ⟨hn, hlt, ?_⟩
    have a : GcArgs h ⟨mode, alloc⟩ old dirty := ⟨h2, h3, h4, h5, h6, h7, h8⟩
    obtain ⟨s1, dn, h11, f⟩ := good_gc g a h1 h9
    have he := Option.some.inj (h11.symm.trans h10)
    subst he
    -- live objects of the ideal heap correspond to live objects of the real one
    have hlive : ∀ x, Live A.mem A.roots x → Live h.st.mem h.st.roots (φ x) := by
      intro x hx
      induction hx with
      | root i h0 =>
        rw [← I.root i]
        refine .root i ?_
        rw [I.root i]
        intro e
        have := I.exists' _ (.root i h0)
        rw [e] at this; exact g.zero this
      | step b k hb hk h0 ih =>
        rw [← I.refs b hb k hk]
        refine .step _ k ih (by rw [I.slots b hb]; exact hk) ?_
        rw [I.refs b hb k hk]
        intro e
        have := I.exists' _ (.step b k hb hk h0)
        rw [e] at this; exact g.zero this
    have hk : ∀ x, Live A.mem A.roots x → Kept (ctx h ⟨mode, alloc⟩ old dirty) s1 (φ x) :=
      fun x hx => live_kept g a f _ (hlive x hx)
    refine ⟨fun x => image s1 (φ x), ?_, ?_, ?_, ?_, ?_, ?_, ?_⟩
    · show image s1 (φ 0) = 0
      rw [I.null]; exact image_zero g a f
    · intro x hx; exact (mem_survivors g a f).2 ⟨_, hk x hx, rfl⟩
    · intro x y hx hy e
      exact I.inj x y hx hy (image_inj (good_wf g a) f (Or.inl (hk x hx).1) (Or.inl (hk y hy).1) e)
    · intro i
      show s1.roots i = image s1 (φ (A.roots i))
      rw [(root_image g a f i).1, I.root]
    · intro x hx
      show (s1.mem (image s1 (φ x))).info = _
      rw [(kept_closed g a f (hk x hx)).1, I.info x hx]; rfl
    · intro x hx
      show (s1.mem (image s1 (φ x))).slots = _
      rw [(kept_closed g a f (hk x hx)).2.1, I.slots x hx]; rfl
    · intro x hx k hks
      show (s1.mem (image s1 (φ x))).ref k = _
      rw [((kept_closed g a f (hk x hx)).2.2 k (by rw [I.slots x hx]; exact hks)).1, I.refs x hx k hks]; rfl
  | new i info slots c fixed a h1 h2 h3 h4 h5 h6 =>
    -- the new object is the only new live one
    have hnl : ¬ Live A.mem A.roots A.next := fun hl => absurd (hlt _ hl).1 (Nat.lt_irrefl _)
    have hl : ∀ x, Live (ideal A (.new i info slots c fixed)).mem (ideal A (.new i info slots c fixed)).roots x →
        x = A.next ∨ Live A.mem A.roots x := by
      refine live_mono ?_ ?_
      · intro j h0
        simp only [ideal] at h0 ⊢
        by_cases hj : j = i
        · rw [if_pos hj]; exact Or.inl rfl
        · rw [if_neg hj] at h0 ⊢; exact Or.inr (.root j h0)
      · intro x hx k hk h0
        simp only [ideal] at hk h0 ⊢
        by_cases he : x = A.next
        · simp only [if_pos he] at h0 ⊢
          by_cases hk0 : k = 0
          · simp only [if_pos hk0] at h0 ⊢; exact Or.inr (.root c h0)
          · simp only [if_neg hk0] at h0; exact absurd rfl h0
        · simp only [if_neg he] at hk h0 ⊢
          rcases hx with hx | hx
          · exact absurd hx he
          · exact Or.inr (.step x k hx hk h0)
    have hφ : ∀ x, Live A.mem A.roots x → x ≠ A.next := fun x hx e => hnl (e ▸ hx)
    have hφa : ∀ x, Live A.mem A.roots x → φ x ≠ a := fun x hx e => h3 (e ▸ I.exists' x hx)
    have hφr : ∀ v, v = 0 ∨ Live A.mem A.roots v → (if v = A.next then a else φ v) = φ v := by
      intro v hv
      rw [if_neg]
      rcases hv with hv | hv
      · rw [hv]; exact Nat.ne_of_lt hn
      · exact hφ v hv
    have m1 : ∀ x, x ≠ a → (newObject h.st a info slots (h.st.roots c) fixed).mem x = h.st.mem x := by
      intro x hx; simp [newObject, upd, hx]
    have m2 : (newObject h.st a info slots (h.st.roots c) fixed).mem a =
        ⟨info, slots, fun k => if k = 0 then h.st.roots c else 0⟩ := by
      simp [newObject, upd]
    refine ⟨Nat.succ_pos _, ?_, fun x => if x = A.next then a else φ x, ?_, ?_, ?_, ?_, ?_, ?_, ?_⟩
    · intro x hx
      show x < A.next + 1 ∧ x ≠ 0
      rcases hl x hx with h7 | h7
      · rw [h7]; exact ⟨Nat.lt_succ_self _, Nat.ne_of_gt hn⟩
      · exact ⟨Nat.lt_succ_of_lt (hlt x h7).1, (hlt x h7).2⟩
    · show (if 0 = A.next then a else φ 0) = 0
      rw [if_neg (by omega)]; exact I.null
    · intro x hx
      show (if x = A.next then a else φ x) ∈ a :: h.U
      rcases hl x hx with h7 | h7
      · rw [if_pos h7]; exact List.mem_cons_self
      · rw [if_neg (hφ x h7)]; exact List.mem_cons_of_mem _ (I.exists' x h7)
    · intro x y hx hy e
      have e : (if x = A.next then a else φ x) = (if y = A.next then a else φ y) := e
      rcases hl x hx with h7 | h7 <;> rcases hl y hy with h8 | h8
      · rw [h7, h8]
      · rw [if_pos h7, if_neg (hφ y h8)] at e; exact absurd e.symm (hφa y h8)
      · rw [if_neg (hφ x h7), if_pos h8] at e; exact absurd e (hφa x h7)
      · rw [if_neg (hφ x h7), if_neg (hφ y h8)] at e; exact I.inj x y h7 h8 e
    · intro j
      show (if j = i then a else h.st.roots j) = (if (if j = i then A.next else A.roots j) = A.next then a else φ (if j = i then A.next else A.roots j))
      by_cases hj : j = i
      · simp [if_pos hj]
      · rw [if_neg hj, if_neg hj, hφr _ (hroot j)]; exact I.root j
    · intro x hx
      show ((newObject h.st a info slots (h.st.roots c) fixed).mem (if x = A.next then a else φ x)).info = ((if x = A.next then _ else A.mem x) : Obj).info
      rcases hl x hx with h7 | h7
      · rw [if_pos h7, if_pos h7, m2]
      · rw [if_neg (hφ x h7), if_neg (hφ x h7), m1 _ (hφa x h7)]; exact I.info x h7
    · intro x hx
      show ((newObject h.st a info slots (h.st.roots c) fixed).mem (if x = A.next then a else φ x)).slots = ((if x = A.next then _ else A.mem x) : Obj).slots
      rcases hl x hx with h7 | h7
      · rw [if_pos h7, if_pos h7, m2]
      · rw [if_neg (hφ x h7), if_neg (hφ x h7), m1 _ (hφa x h7)]; exact I.slots x h7
    · intro x hx k hk
      show ((newObject h.st a info slots (h.st.roots c) fixed).mem (if x = A.next then a else φ x)).ref k =
        (fun v => if v = A.next then a else φ v) (((if x = A.next then ⟨info, slots, fun k => if k = 0 then A.roots c else 0⟩ else A.mem x) : Obj).ref k)
      have hk' : k ∈ ((if x = A.next then ⟨info, slots, fun k => if k = 0 then A.roots c else 0⟩ else A.mem x) : Obj).slots := hk
      rcases hl x hx with h7 | h7
      · rw [if_pos h7, if_pos h7, m2]
        simp only
        by_cases hk0 : k = 0
        · rw [if_pos hk0, if_pos hk0, hφr _ (hroot c)]; exact I.root c
        · rw [if_neg hk0, if_neg hk0, hφr 0 (Or.inl rfl)]; exact I.null.symm
      · rw [if_neg (hφ x h7)] at hk'
        rw [if_neg (hφ x h7), if_neg (hφ x h7), m1 _ (hφa x h7), I.refs x h7 k hk']
        simp only
        refine (hφr _ ?_).symm
        by_cases h0 : (A.mem x).ref k = 0
        · exact Or.inl h0
        · exact Or.inr (.step x k h7 hk' h0)
  | store i k js h1 h2 h3 h4 h5 =>
    have hi := hnz i h3
    have hL := Live.root (mem := A.mem) (roots := A.roots) i hi
    have hlen : ∀ x, x < js.length → js.getD x 0 < n ∧ (js.map h.st.roots).getD x 0 = φ (A.roots (js.getD x 0)) := by
      intro x hx
      rw [List.getD_eq_getElem?_getD, List.getD_eq_getElem?_getD, List.getElem?_map, List.getElem?_eq_getElem hx]
      exact ⟨h2 _ (List.getElem_mem hx), I.root _⟩
    have hl : ∀ x, Live (ideal A (.store i k js)).mem (ideal A (.store i k js)).roots x → Live A.mem A.roots x := by
      refine live_mono ?_ ?_
      · intro j h0; exact .root j h0
      · intro x hx j hj h0
        simp only [ideal] at hj h0 ⊢
        by_cases he : x = A.roots i
        · simp only [if_pos he] at hj h0 ⊢
          by_cases hr : k ≤ j ∧ j < k + js.length
          · simp only [if_pos hr] at h0 ⊢; exact .root _ h0
          · simp only [if_neg hr] at h0 ⊢; exact .step x j hx hj h0
        · simp only [if_neg he] at hj h0 ⊢; exact .step x j hx hj h0
    have hmem : ∀ x, (store h.st (h.st.roots i) k (js.map h.st.roots)).mem x =
        (stored h.st (h.st.roots i) k (js.map h.st.roots)).mem x := by
      intro x; rw [store_eq, (mark_spec _ _ _ _).1]
    have hm1 : ∀ x, x ≠ h.st.roots i → (store h.st (h.st.roots i) k (js.map h.st.roots)).mem x = h.st.mem x := by
      intro x hx; rw [hmem]; simp [stored, upd, hx]
    have hm2 : (store h.st (h.st.roots i) k (js.map h.st.roots)).mem (h.st.roots i) = { h.st.mem (h.st.roots i) with
        ref := fun j => if k ≤ j ∧ j < k + js.length then (js.map h.st.roots).getD (j - k) 0 else (h.st.mem (h.st.roots i)).ref j } := by
      rw [hmem]; simp [stored, upd]
    have hφ : ∀ x, Live A.mem A.roots x → x ≠ A.roots i → φ x ≠ h.st.roots i := by
      intro x hx hne e; rw [I.root] at e; exact hne (I.inj x _ hx hL e)
    refine ⟨hn, fun x hx => hlt x (hl x hx), φ, I.null, fun x hx => I.exists' x (hl x hx),
      fun x y hx hy => I.inj x y (hl x hx) (hl y hy), ?_, ?_, ?_, ?_⟩
    · intro j
      show (store h.st (h.st.roots i) k (js.map h.st.roots)).roots j = φ (A.roots j)
      rw [store_eq, (mark_spec _ _ _ _).1]; exact I.root j
    · intro x hx
      simp only [ideal]
      by_cases he : x = A.roots i
      · rw [if_pos he, he, ← I.root i, hm2]; simp only; rw [I.root i]; exact I.info _ hL
      · rw [if_neg he, hm1 _ (hφ x (hl x hx) he)]; exact I.info x (hl x hx)
    · intro x hx
      simp only [ideal]
      by_cases he : x = A.roots i
      · rw [if_pos he, he, ← I.root i, hm2]; simp only; rw [I.root i]; exact I.slots _ hL
      · rw [if_neg he, hm1 _ (hφ x (hl x hx) he)]; exact I.slots x (hl x hx)
    · intro x hx j hj
      simp only [ideal] at hj ⊢
      by_cases he : x = A.roots i
      · rw [if_pos he] at hj ⊢
        rw [he, ← I.root i, hm2]
        simp only
        simp only [he] at hj
        by_cases hr : k ≤ j ∧ j < k + js.length
        · rw [if_pos hr, if_pos hr]; exact (hlen (j - k) (by omega)).2
        · rw [if_neg hr, if_neg hr, I.root i]; exact I.refs _ hL j hj
      · rw [if_neg he] at hj ⊢
        rw [hm1 _ (hφ x (hl x hx) he)]; exact I.refs x (hl x hx) j hj

theorem run_matches {n : Nat} {ops : List Op} {h h' : Heap} (r : Run n ops h h') : ∀ {A : Ideal}, Good n h → Matches h A →
    Matches h' (ops.foldl ideal A) := by
  induction r with
  | nil => intro A _ m; exact m
  | cons hs _ ih => intro A g m; exact ih (good_step g hs) (step_matches g m hs)

/-- **The collector cannot be observed.** Start with a boot image; run any history of allocations, copies
of roots, loads, stores of one or many references and collections, minor and major. Then the part of the
heap that the program can reach is a copy of what it would be if nothing were ever moved or freed: a root is
null exactly if it is there, two roots are the same object exactly if they are there, and the objects have
the same contents, fields and references. -/
theorem collector_invisible {n : Nat} {ops : List Op} {h0 h : Heap} (s : Start n h0) (r : Run n ops h0 h) (next : Nat)
    (hnext : ∀ a ∈ h0.U, a < next) :
    ∃ φ, Iso φ (ops.foldl ideal ⟨h0.st.mem, h0.st.roots, next + 1⟩).mem (ops.foldl ideal ⟨h0.st.mem, h0.st.roots, next + 1⟩).roots
        h.st.mem h.st.roots h.U ∧
      (∀ i, h.st.roots i = 0 ↔ (ops.foldl ideal ⟨h0.st.mem, h0.st.roots, next + 1⟩).roots i = 0) ∧
      (∀ i j, h.st.roots i = h.st.roots j ↔ (ops.foldl ideal ⟨h0.st.mem, h0.st.roots, next + 1⟩).roots i =
        (ops.foldl ideal ⟨h0.st.mem, h0.st.roots, next + 1⟩).roots j) := by
  have g := start_good s
  have hm : Matches h0 ⟨h0.st.mem, h0.st.roots, next + 1⟩ := by
    refine ⟨Nat.succ_pos _, ?_, id, rfl, fun a ha => live_U g a ha, fun a b _ _ e => e, fun _ => rfl, fun _ _ => rfl,
      fun _ _ => rfl, fun _ _ _ _ => rfl⟩
    intro a ha
    have := hnext a (live_U g a ha)
    exact ⟨by show a < next + 1; exact Nat.lt_succ_of_lt this, live_ne ha⟩
  obtain ⟨_, _, φ, I⟩ := run_matches r g hm
  have g' := run_good g r
  generalize (ops.foldl ideal ⟨h0.st.mem, h0.st.roots, next + 1⟩) = A at *
  have hz : ∀ i, h.st.roots i = 0 ↔ A.roots i = 0 := by
    intro i
    constructor
    · intro e
      by_cases h0 : A.roots i = 0
      · exact h0
      · have := I.exists' _ (.root i h0)
        rw [← I.root i, e] at this; exact absurd this g'.zero
    · intro e; rw [I.root, e, I.null]
  refine ⟨φ, I, hz, ?_⟩
  intro i j
  constructor
  · intro e
    by_cases h0 : A.roots i = 0
    · have hj : A.roots j = 0 := (hz j).1 (by rw [← e]; exact (hz i).2 h0)
      rw [h0, hj]
    · have hj : A.roots j ≠ 0 := fun e' => h0 ((hz i).1 (by rw [e]; exact (hz j).2 e'))
      exact I.inj _ _ (.root i h0) (.root j hj) (by rw [← I.root, ← I.root]; exact e)
  · intro e; rw [I.root, I.root, e]


/-! ### concrete histories

An executable version of `Step` that takes the lowest free addresses, and a history that has it all: sharing,
a cycle, an object with many fields, non-moving objects, ageing into the second generation and stores of
young objects into old ones. -/

def top (h : Heap) : Nat := h.U.foldr Nat.max 0

def slotsWhere (h : Heap) (p : Addr → Bool) : List (Addr × Nat) :=
  h.U.flatMap fun a => if p a then ((h.st.mem a).slots.filter (h.st.remembered a)).map fun k => (a, k) else []

def sortedBelow : List Nat → Bool
  | [] => true
  | [a] => decide (a < 2 ^ 31)
  | a :: b :: l => decide (a < b) && decide (a < 2 ^ 31) && sortedBelow (b :: l)

/-- one step, taking the lowest free addresses -/
def exec (n : Nat) (h : Heap) : Op → Option Heap
  | .new i info slots c fixed =>
    if i < n ∧ c < n ∧ sortedBelow slots = true then
      some ⟨setRoot (newObject h.st (top h + 1) info slots (h.st.roots c) fixed) i (top h + 1), (top h + 1) :: h.U⟩
    else none
  | .move i j => if i < n ∧ j < n then some ⟨setRoot h.st i (h.st.roots j), h.U⟩ else none
  | .null i => if i < n then some ⟨setRoot h.st i 0, h.U⟩ else none
  | .load i j k =>
    if i < n ∧ j < n ∧ h.st.roots j ≠ 0 ∧ k ∈ (h.st.mem (h.st.roots j)).slots then
      some ⟨setRoot h.st i ((h.st.mem (h.st.roots j)).ref k), h.U⟩
    else none
  | .store i k js =>
    if i < n ∧ (∀ j ∈ js, j < n) ∧ h.st.roots i ≠ 0 ∧ h.st.region (h.st.roots i) ≠ .immortal ∧
        (∀ x ∈ List.range js.length, k + x ∈ (h.st.mem (h.st.roots i)).slots) then
      some ⟨store h.st (h.st.roots i) k (js.map h.st.roots), h.U⟩
    else none
  | .gc mode =>
    if 0 < n then
      (collect2 ⟨mode, fun i => top h + 1 + i⟩ h.U.length h.st
        (slotsWhere h fun a => decide (h.st.region a = .gen2))
        (slotsWhere h fun a => decide (h.st.region a = .fixed ∧ fixieTenureThreshold ≤ h.st.age a)) n).map fun s =>
          ⟨finish ⟨mode, fun i => top h + 1 + i⟩ s h.U, survivors ⟨mode, fun i => top h + 1 + i⟩ s h.U⟩
    else none

theorem top_le {h : Heap} {a : Addr} (ha : a ∈ h.U) : a ≤ top h := by
  unfold top
  generalize h.U = l at ha
  induction l with
  | nil => cases ha
  | cons b l ih =>
    rw [List.foldr_cons]
    rcases List.mem_cons.1 ha with rfl | ha
    · exact Nat.le_max_left _ _
    · exact Nat.le_trans (ih ha) (Nat.le_max_right _ _)

theorem sortedBelow_spec : ∀ {l : List Nat}, sortedBelow l = true → l.Pairwise (· < ·) ∧ ∀ k ∈ l, k < 2 ^ 31
  | [], _ => ⟨.nil, by simp⟩
  | [a], h => ⟨by simp, by simpa [sortedBelow] using h⟩
  | a :: b :: l, h => by
    simp only [sortedBelow, Bool.and_eq_true, decide_eq_true_eq] at h
    obtain ⟨h1, h2⟩ := sortedBelow_spec h.2
    refine ⟨List.pairwise_cons.2 ⟨?_, h1⟩, ?_⟩
    · intro c hc
      rcases List.mem_cons.1 hc with rfl | hc
      · exact h.1.1
      · exact Nat.lt_trans h.1.1 ((List.pairwise_cons.1 h1).1 c hc)
    · intro k hk
      rcases List.mem_cons.1 hk with rfl | hk
      · exact h.1.2
      · exact h2 k hk

theorem slotsWhere_spec {n h} (g : Good n h) (p : Addr → Bool) :
    (slotsWhere h p).Nodup ∧ ∀ x, x ∈ slotsWhere h p ↔ p x.1 = true ∧ h.st.remembered x.1 x.2 = true := by
  constructor
  · unfold slotsWhere
    have : ∀ l : List Addr, l.Nodup → (∀ a ∈ l, a ∈ h.U) →
        (l.flatMap fun a => if p a then ((h.st.mem a).slots.filter (h.st.remembered a)).map fun k => (a, k) else []).Nodup := by
      intro l
      induction l with
      | nil => intro _ _; simp
      | cons a l ih =>
        intro hn hl
        rw [List.flatMap_cons, List.nodup_append]
        refine ⟨?_, ih (List.nodup_cons.1 hn).2 (fun x hx => hl x (List.mem_cons_of_mem _ hx)), ?_⟩
        · split
          · rw [List.Nodup, List.pairwise_map]
            refine ((g.sorted a (hl a List.mem_cons_self)).filter _).imp ?_
            intro x y hxy e
            have : x = y := (Prod.mk.inj e).2
            omega
          · simp
        · intro x hx y hy e
          split at hx
          · obtain ⟨k, _, rfl⟩ := List.mem_map.1 hx
            obtain ⟨b, hb, hy⟩ := List.mem_flatMap.1 hy
            split at hy
            · obtain ⟨j, _, rfl⟩ := List.mem_map.1 hy
              have : a = b := (Prod.mk.inj e).1
              subst this
              exact (List.nodup_cons.1 hn).1 hb
            · cases hy
          · cases hx
    exact this h.U g.nodup (fun _ h => h)
  · intro x
    unfold slotsWhere
    rw [List.mem_flatMap]
    constructor
    · rintro ⟨a, _, hx⟩
      split at hx
      · rename_i hp
        obtain ⟨k, hk, rfl⟩ := List.mem_map.1 hx
        exact ⟨hp, by simpa using (List.mem_filter.1 hk).2⟩
      · cases hx
    · rintro ⟨h1, h2⟩
      obtain ⟨h3, h4⟩ := g.remOnly _ _ h2
      refine ⟨x.1, h3, ?_⟩
      rw [if_pos h1]
      exact List.mem_map.2 ⟨x.2, List.mem_filter.2 ⟨h4, h2⟩, rfl⟩

theorem exec_sound {n : Nat} {h h' : Heap} {op : Op} (g : Good n h) (he : exec n h op = some h') : Step n op h h' := by
  have hfresh : ∀ i : Nat, top h + 1 + i ∉ h.U := by
    intro i hm
    have : (top h + 1 + i : Nat) ≤ top h := top_le hm
    omega
  cases op with
  | new i info slots c fixed =>
    simp only [exec] at he
    split at he
    · rename_i hc
      have he' := Option.some.inj he
      subst he'
      obtain ⟨h1, h2⟩ := sortedBelow_spec hc.2.2
      exact .new i info slots c fixed _ hc.1 hc.2.1 (hfresh 0) (Nat.succ_ne_zero _) h1 h2
    · cases he
  | move i j =>
    simp only [exec] at he
    split at he
    · rename_i hc
      have he' := Option.some.inj he
      subst he'
      exact .move i j hc.1 hc.2
    · cases he
  | null i =>
    simp only [exec] at he
    split at he
    · rename_i hc
      have he' := Option.some.inj he
      subst he'
      exact .null i hc
    · cases he
  | load i j k =>
    simp only [exec] at he
    split at he
    · rename_i hc
      have he' := Option.some.inj he
      subst he'
      exact .load i j k hc.1 hc.2.1 hc.2.2.1 hc.2.2.2
    · cases he
  | store i k js =>
    simp only [exec] at he
    split at he
    · rename_i hc
      have he' := Option.some.inj he
      subst he'
      exact .store i k js hc.1 hc.2.1 hc.2.2.1 hc.2.2.2.1 (fun x hx => hc.2.2.2.2 x (List.mem_range.2 hx))
    · cases he
  | gc mode =>
    simp only [exec] at he
    split at he
    · rename_i hn
      obtain ⟨s, hs, he'⟩ := Option.map_eq_some_iff.1 he
      subst he'
      obtain ⟨o1, o2⟩ := slotsWhere_spec g (fun a => decide (h.st.region a = .gen2))
      obtain ⟨d1, d2⟩ := slotsWhere_spec g (fun a => decide (h.st.region a = .fixed ∧ fixieTenureThreshold ≤ h.st.age a))
      refine .gc mode _ _ _ _ hn (fun i j e => Nat.add_left_cancel e) hfresh (fun i => by show top h + 1 + i ≠ 0; omega) o1 d1 ?_ ?_ (Nat.le_refl _) hs
      · intro p; rw [o2]; simp [OldSlot]
      · intro p; rw [d2]; simp [DirtySlot, and_assoc]
    · cases he

theorem execs_sound {n : Nat} : ∀ {ops : List Op} {h h' : Heap}, Good n h → ops.foldlM (exec n) h = some h' → Run n ops h h'
  | [], h, h', _, he => by
    have : h = h' := Option.some.inj he
    subst this; exact .nil h
  | op :: ops, h, h', g, he => by
    rw [List.foldlM_cons] at he
    cases hx : exec n h op with
    | none => rw [hx] at he; cases he
    | some h1 =>
      rw [hx] at he
      have hs := exec_sound g hx
      exact .cons hs (execs_sound (good_step g hs) he)

/-- a boot image with one object: a class, which is its own class -/
def boot : Heap :=
  ⟨{ mem := fun a => if a = 1 then ⟨77, [0], fun _ => 1⟩ else rubbish
     region := fun a => if a = 1 then .immortal else .young
     age := fun _ => 0, fwd := fun _ => none, parent := fun _ => 0, bits := fun _ => fun _ => 0
     remembered := fun _ _ => false, marked := fun _ => false, markedList := [], visitedList := []
     roots := fun i => if i = 0 then 1 else 0, count := 0 }, [1]⟩

theorem boot_start : Start 4 boot := by
  refine ⟨by simp [boot], by simp [boot], ?_, ?_, ?_, ?_, ?_, ?_, rfl, ?_⟩
  · intro a ha; simp [boot] at ha; subst ha; rfl
  · intro a ha k hk; simp [boot] at ha; subst ha; exact Or.inr (by simp [boot])
  · intro a ha; simp [boot] at ha; subst ha; simp [boot]
  · intro a ha k hk; simp [boot] at ha; subst ha; simp [boot] at hk; omega
  · intro i; by_cases hi : i = 0
    · exact Or.inr (by simp [boot, hi])
    · exact Or.inl (by simp [boot, hi])
  · intro i hi; simp [boot]; omega
  · exact ⟨fun _ => rfl, fun _ => rfl, rfl, rfl, rfl, fun _ _ => rfl⟩

/-- two objects in a cycle with a shared third one, a non-moving one, four fields; five minor collections
make them old; then a young object is stored into the old and into the non-moving one, and is in no root -/
def story : List Op :=
  [.new 1 10 [0, 1, 2, 3] 0 false, .new 2 20 [0, 1, 2] 0 false, .store 1 1 [2, 2], .store 2 1 [1],
   .new 3 30 [0, 2] 0 true, .store 1 3 [3], .store 2 2 [3], .store 3 2 [1], .null 3, .null 2,
   .gc .minor, .gc .minor, .gc .minor, .gc .minor, .gc .minor, .gc .minor,
   .load 2 1 3, .new 3 40 [0, 1] 0 false, .store 3 1 [1], .store 1 2 [3], .store 2 2 [3], .null 3, .null 2,
   .gc .minor, .gc .major, .load 2 1 2, .load 3 1 3]

/-- what can be seen through root 1 -/
def view (h : Heap) : List Nat :=
  let o := h.st.mem (h.st.roots 1)
  let b := h.st.mem (o.ref 1)
  let y := h.st.mem (o.ref 2)
  let f := h.st.mem (o.ref 3)
  [o.info, b.info, y.info, f.info, if b.ref 1 = h.st.roots 1 then 1 else 0, if y.ref 1 = h.st.roots 1 then 1 else 0,
    if b.ref 2 = o.ref 3 then 1 else 0, if f.ref 2 = o.ref 2 then 1 else 0, if o.ref 1 = o.ref 2 then 1 else 0]

set_option maxRecDepth 100000 in
theorem story_runs : ((story.foldlM (exec 4) boot).map view) = some [10, 20, 40, 30, 1, 1, 1, 1, 0] := by decide +kernel

/-- halfway through the story the object in root 1 is in the second generation, the non-moving object is
tenured, and both have a remembered reference to a young object that no root refers to -/
theorem story_remembers : (((story.take 23).foldlM (exec 4) boot).map fun h =>
      (h.st.region (h.st.roots 1), h.st.region ((h.st.mem (h.st.roots 1)).ref 2), h.st.remembered (h.st.roots 1) 2,
        h.st.region ((h.st.mem (h.st.roots 1)).ref 3), h.st.age ((h.st.mem (h.st.roots 1)).ref 3),
        h.st.remembered ((h.st.mem (h.st.roots 1)).ref 3) 2)) =
    some (.gen2, .young, true, .fixed, 5, true) := by decide +kernel

theorem story_occurs : ∃ h, Occurs 4 h ∧ view h = [10, 20, 40, 30, 1, 1, 1, 1, 0] := by
  obtain ⟨h, h1, h2⟩ := Option.map_eq_some_iff.1 story_runs
  exact ⟨h, ⟨boot, story, boot_start, execs_sound (start_good boot_start) h1⟩, h2⟩

/-- the hypotheses of the theorems above are met: a minor and a major collection of the heap of the story,
halfway through -/
example : ∃ h h' h'', Occurs 4 h ∧ Step 4 (.gc .minor) h h' ∧ Step 4 (.gc .major) h h'' := by
  have hx : ((story.take 23).foldlM (exec 4) boot).isSome = true := by decide +kernel
  obtain ⟨h, hh⟩ := Option.isSome_iff_exists.1 hx
  have o : Occurs 4 h := ⟨boot, _, boot_start, execs_sound (start_good boot_start) hh⟩
  have hf : ∀ i : Nat, top h + 1 + i ∉ h.U := by
    intro i hm
    have : (top h + 1 + i : Nat) ≤ top h := top_le hm
    omega
  obtain ⟨h', s'⟩ := collection_ends o (by omega) .minor (fun i => top h + 1 + i) (fun i j e => Nat.add_left_cancel e) hf
    (by intro i; show top h + 1 + i ≠ 0; omega)
  obtain ⟨h'', s''⟩ := collection_ends o (by omega) .major (fun i => top h + 1 + i) (fun i j e => Nat.add_left_cancel e) hf
    (by intro i; show top h + 1 + i ≠ 0; omega)
  exact ⟨h, h', h'', o, s', s''⟩

/-- without collections the story looks the same -/
example : (story.foldl ideal ⟨boot.st.mem, boot.st.roots, 3⟩).roots 1 = 3 ∧
    ((story.foldl ideal ⟨boot.st.mem, boot.st.roots, 3⟩).mem 3).info = 10 := by decide +kernel

end Avian.Collect
