import Verif.Util.Zone
import Verif.Props.Math

/-
Property C09: arena blocks never overlap and are released in reverse order.
-/
namespace Avian.Zone

/-! ### Specification -/

/-- A block handed out: address and requested size. -/
abbrev Block := Nat × Nat

/-- Half-open address ranges `[a, a+n)` and `[b, b+m)` share no byte. -/
def Apart (a n b m : Nat) : Prop := ∀ x, ¬ (a ≤ x ∧ x < a + n ∧ b ≤ x ∧ x < b + m)

/-- The memory obtained from the backing allocator for one segment. -/
def Segment.Owns (s : Segment) (a n : Nat) : Prop :=
  s.base ≤ a ∧ a + n ≤ s.base + headerSize + s.size

/-- The request does not overflow the 32-bit size computations. -/
def NoWrap (z : Zone) (n : Nat) : Prop :=
  n + 7 + headerSize + 4095 < 2 ^ 32 ∧
  Nat.max (n + 7) (Nat.max z.minimumFootprint
    (match z.segments with | [] => 0 | s :: _ => s.size * 2 % 2 ^ 32)) + headerSize + 4095 < 2 ^ 32

/-- The region `[p, p+n)` does not overlap memory currently held by the arena. -/
def FreshRegion (z : Zone) (p n : Nat) : Prop :=
  ∀ s ∈ z.segments, Apart p n s.base (headerSize + s.size)

/-- The backing allocator hands out memory that is not in use. -/
def FreshAnswers (z : Zone) (n : Nat) (a : Answers) : Prop :=
  (∀ p, a.try1 = some p → FreshRegion z p (z.wish (pad n))) ∧
  (∀ p, a.try2 = some p → FreshRegion z p (padToPage (pad n + headerSize))) ∧
  FreshRegion z a.must (padToPage (pad n + headerSize))

/-- One request of a client that releases blocks in reverse order; the second component is the
list of live blocks, newest first. -/
inductive Step : Zone × List Block → Zone × List Block → Prop
  | alloc (z : Zone) (live : List Block) (n : Nat) (a : Answers) (p : Nat) (z' : Zone)
      (pos : 0 < n) (nowrap : NoWrap z n) (fresh : FreshAnswers z n a)
      (h : z.allocate n a = some (p, z')) : Step (z, live) (z', (p, n) :: live)
  | pop (z : Zone) (live : List Block) (p n : Nat) (freed : List Segment) (z' : Zone)
      (h : z.pop n = some (freed, z')) : Step (z, (p, n) :: live) (z', live)

/-- States reachable from a new arena. -/
inductive Reachable : Zone × List Block → Prop
  | new (m : Nat) : Reachable (Zone.new m, [])
  | step {a b} (h : Reachable a) (s : Step a b) : Reachable b

/-! ### Invariant -/

private theorem pad_eq (n : Nat) (h : n + 7 < 2 ^ 32) : pad n = (n + 7) - (n + 7) % 8 := by
  have hn : (BitVec.ofNat 32 n).toNat = n := by
    rw [BitVec.toNat_ofNat]; exact Nat.mod_eq_of_lt (by omega)
  have := Math.pad_toNat (BitVec.ofNat 32 n) 3 (by decide) (by rw [hn]; omega)
  rw [hn] at this
  exact this

private theorem padToPage_eq (n : Nat) (h : n + 4095 < 2 ^ 32) :
    padToPage n = (n + 4095) - (n + 4095) % 4096 := by
  have hn : (BitVec.ofNat 32 n).toNat = n := by
    rw [BitVec.toNat_ofNat]; exact Nat.mod_eq_of_lt (by omega)
  have := Math.pad_toNat (BitVec.ofNat 32 n) 12 (by decide) (by rw [hn]; omega)
  rw [hn] at this
  exact this

/-- The live blocks fill the used parts of the segments exactly. -/
private inductive Tiles : List Segment → List Block → Prop
  | nil : Tiles [] []
  | empty {s rest live} (h : s.position = 0) (t : Tiles rest live) : Tiles (s :: rest) live
  | block {s rest live p n} (pos : 0 < n) (hn : n ≤ pad n) (hp : pad n ≤ s.position)
      (he : p = s.data + (s.position - pad n))
      (t : Tiles ({ s with position := s.position - pad n } :: rest) live) :
      Tiles (s :: rest) ((p, n) :: live)

private structure Inv (z : Zone) (live : List Block) : Prop where
  tiles : Tiles z.segments live
  inside : ∀ s ∈ z.segments, s.position ≤ s.size
  apart : z.segments.Pairwise
    (fun s t => Apart s.base (headerSize + s.size) t.base (headerSize + t.size))

private theorem tiles_inside {segs live} (h : Tiles segs live) :
    ∀ b ∈ live, ∃ s ∈ segs, s.data ≤ b.1 ∧ b.1 + b.2 ≤ s.data + s.position := by
  induction h with
  | nil => intro b hb; cases hb
  | empty _ _ ih =>
    intro b hb
    obtain ⟨s, hs, h⟩ := ih b hb
    exact ⟨s, List.mem_cons_of_mem _ hs, h⟩
  | block pos hn hp he t ih =>
    rename_i s rest live p n
    intro b hb
    rcases List.mem_cons.1 hb with rfl | hb
    · exact ⟨s, List.mem_cons_self, by simp only; omega, by simp only; omega⟩
    · obtain ⟨s', hs', h1, h2⟩ := ih b hb
      rcases List.mem_cons.1 hs' with rfl | hs'
      · exact ⟨s, List.mem_cons_self, h1, by simp only [Segment.data] at h2 ⊢; omega⟩
      · exact ⟨s', List.mem_cons_of_mem _ hs', h1, h2⟩

private theorem tiles_apart {segs live} (h : Tiles segs live)
    (hi : ∀ s ∈ segs, s.position ≤ s.size)
    (ha : segs.Pairwise
      (fun s t => Apart s.base (headerSize + s.size) t.base (headerSize + t.size))) :
    live.Pairwise (fun a b => Apart a.1 a.2 b.1 b.2) := by
  induction h with
  | nil => exact List.Pairwise.nil
  | empty _ _ ih =>
    exact ih (fun s hs => hi s (List.mem_cons_of_mem _ hs)) (List.pairwise_cons.1 ha).2
  | block pos hn hp he t ih =>
    rename_i s rest live p n
    have hapart := List.pairwise_cons.1 ha
    have hs := hi s List.mem_cons_self
    refine List.pairwise_cons.2 ⟨?_, ?_⟩
    · intro b hb x hx
      obtain ⟨s', hs', h1, h2⟩ := tiles_inside t b hb
      rcases List.mem_cons.1 hs' with rfl | hs'
      · simp only [Segment.data] at h1 h2 hx he; omega
      · have hd := hapart.1 s' hs'
        have hp' := hi s' (List.mem_cons_of_mem _ hs')
        apply hd x
        simp only [Segment.data] at *
        omega
    · apply ih
      · intro s' hs'
        rcases List.mem_cons.1 hs' with rfl | hs'
        · simp only; omega
        · exact hi s' (List.mem_cons_of_mem _ hs')
      · exact List.pairwise_cons.2 ⟨hapart.1, hapart.2⟩

private theorem padMono (n : Nat) (h : n + 7 < 2 ^ 32) : pad (pad n) = pad n ∧ n ≤ pad n ∧
    pad n ≤ n + 7 := by
  have e := pad_eq n h
  have b : pad n = n + 7 - (n + 7) % 8 := e
  refine ⟨?_, by omega, by omega⟩
  have hw : pad n + 7 < 2 ^ 32 := by omega
  rw [pad_eq (pad n) hw]
  omega

private theorem pushed_ok (z : Zone) (live : List Block) (h : Inv z live) (p size : Nat)
    (hsz : headerSize ≤ size) (hlt : size < 2 ^ 32) (hf : FreshRegion z p size) :
    Inv (z.push p size) live ∧
      (z.push p size).segments = ⟨p, size - headerSize, 0⟩ :: z.segments := by
  have he : (size + 2 ^ 32 - headerSize) % 2 ^ 32 = size - headerSize := by
    simp only [headerSize] at *; omega
  refine ⟨⟨?_, ?_, ?_⟩, ?_⟩
  · exact Tiles.empty rfl h.tiles
  · intro s hs
    rcases List.mem_cons.1 hs with rfl | hs
    · simp
    · exact h.inside s hs
  · refine List.pairwise_cons.2 ⟨?_, h.apart⟩
    intro s hs
    have := hf s hs
    simp only [he]
    rw [show headerSize + (size - headerSize) = size by omega]
    exact this
  · simp [Zone.push, he]

private theorem bump_ok (z : Zone) (live : List Block) (n : Nat) (h : Inv z live)
    (pos : 0 < n) (hn : n + 7 < 2 ^ 32) (hfull : z.full (pad n) = false) :
    ∃ p z', z.bump (pad n) = some (p, z') ∧ Inv z' ((p, n) :: live) ∧
      (∃ s ∈ z'.segments, s.Owns p n) := by
  unfold Zone.full at hfull
  unfold Zone.bump
  have hpad := padMono n hn
  cases hsegs : z.segments with
  | nil => rw [hsegs] at hfull; simp at hfull
  | cons s rest =>
    rw [hsegs] at hfull
    simp only [gt_iff_lt, decide_eq_false_iff_not, Nat.not_lt] at hfull
    refine ⟨_, _, rfl, ⟨?_, ?_, ?_⟩, ?_⟩
    · refine Tiles.block pos hpad.2.1 (by simp) ?_ ?_
      · simp [Segment.data]
      · have := h.tiles
        rw [hsegs] at this
        simpa using this
    · intro s' hs'
      rcases List.mem_cons.1 hs' with rfl | hs'
      · exact hfull
      · exact h.inside s' (by rw [hsegs]; exact List.mem_cons_of_mem _ hs')
    · have := h.apart
      rw [hsegs] at this
      have := List.pairwise_cons.1 this
      exact List.pairwise_cons.2 ⟨this.1, this.2⟩
    · refine ⟨_, List.mem_cons_self, ?_⟩
      simp only [Segment.Owns, Segment.data]
      omega

private theorem push_not_full (z : Zone) (p size space : Nat) (hsz : space + headerSize ≤ size)
    (hlt : size < 2 ^ 32) : (z.push p size).full space = false := by
  have he : (size + 2 ^ 32 - headerSize) % 2 ^ 32 = size - headerSize := by
    simp only [headerSize] at *; omega
  simp only [Zone.full, Zone.push, he, gt_iff_lt, decide_eq_false_iff_not, Nat.not_lt]
  omega

private theorem wish_bounds (z : Zone) (n : Nat) (hw : NoWrap z n) :
    pad n + headerSize ≤ z.wish (pad n) ∧ z.wish (pad n) < 2 ^ 32 := by
  obtain ⟨h1, h2⟩ := hw
  have hp := padMono n (by omega)
  unfold Zone.wish
  simp only
  generalize hm : Nat.max z.minimumFootprint
    (match z.segments with | [] => 0 | s :: _ => s.size * 2 % 2 ^ 32) = m at *
  have a1 : pad n ≤ Nat.max (pad n) m := Nat.le_max_left _ _
  have a2 : Nat.max (pad n) m ≤ Nat.max (n + 7) m :=
    Nat.max_le.2 ⟨Nat.le_trans hp.2.2 (Nat.le_max_left _ _), Nat.le_max_right _ _⟩
  rw [padToPage_eq _ (by omega)]
  omega

private theorem page_bounds (n : Nat) (h : n + 7 + headerSize + 4095 < 2 ^ 32) :
    pad n + headerSize ≤ padToPage (pad n + headerSize) ∧
      padToPage (pad n + headerSize) < 2 ^ 32 := by
  have hp := padMono n (by omega)
  rw [padToPage_eq _ (by omega)]
  omega

private theorem allocate_ok (z : Zone) (live : List Block) (n : Nat) (a : Answers)
    (h : Inv z live) (pos : 0 < n) (hw : NoWrap z n) (hf : FreshAnswers z n a) :
    ∃ p z', z.allocate n a = some (p, z') ∧ Inv z' ((p, n) :: live) ∧
      (∃ s ∈ z'.segments, s.Owns p n) := by
  have hn : n + 7 < 2 ^ 32 := by have := hw.1; omega
  have hp := padMono n hn
  have hwb := wish_bounds z n hw
  have hpb := page_bounds n hw.1
  unfold Zone.allocate
  simp only [hp.1]
  unfold Zone.tryEnsure
  cases hfull : z.full (pad n) with
  | false => simpa using bump_ok z live n h pos hn hfull
  | true =>
    simp only [if_true]
    cases h1 : a.try1 with
    | some p =>
      simp only
      exact bump_ok _ live n (pushed_ok z live h p _ (by omega) hwb.2 (hf.1 p h1)).1 pos hn
        (push_not_full z p _ _ hwb.1 hwb.2)
    | none =>
      cases h2 : a.try2 with
      | some p =>
        simp only
        exact bump_ok _ live n (pushed_ok z live h p _ (by omega) hpb.2 (hf.2.1 p h2)).1 pos hn
          (push_not_full z p _ _ hpb.1 hpb.2)
      | none =>
        simp only [Zone.ensure, hfull, if_true]
        exact bump_ok _ live n (pushed_ok z live h _ _ (by omega) hpb.2 hf.2.2).1 pos hn
          (push_not_full z _ _ _ hpb.1 hpb.2)

private theorem pop_tiles {segs live p n} (h : Tiles segs ((p, n) :: live)) :
    ∃ freed left s rest, popLoop segs (pad n) = some (freed, left) ∧
      peekLoop segs (pad n) = some p ∧ Tiles left live ∧
      segs = freed ++ s :: rest ∧ left = { s with position := s.position - pad n } :: rest ∧
      (∀ t ∈ freed, t.position = 0) ∧ pad n ≤ s.position ∧
      s.data + (s.position - pad n) = p := by
  generalize hl : (p, n) :: live = l at h
  induction h with
  | nil => cases hl
  | empty h0 t ih =>
    rename_i s rest live'
    obtain ⟨freed, left, s', rest', h1, h2, h3, h4, h5, h6, h7⟩ := ih hl
    subst hl
    have hpos : 0 < pad n := by
      clear ih h1 h2 h3 h4 h5 h6 h7
      generalize hq : (p, n) :: live = q at t
      induction t with
      | nil => cases hq
      | empty _ _ ih => exact ih hq
      | block pos hn _ _ _ _ => cases hq; omega
    refine ⟨s :: freed, left, s', rest', ?_, ?_, h3, by rw [h4]; rfl, h5, ?_, h7⟩
    · simp only [popLoop]
      rw [if_pos (by omega), h0, Nat.sub_zero, h1]; rfl
    · simp only [peekLoop]
      rw [if_pos (by omega), h0, Nat.sub_zero, h2]
    · intro t ht
      rcases List.mem_cons.1 ht with rfl | ht
      · exact h0
      · exact h6 t ht
  | block pos hn hp he t ih =>
    rename_i s rest live' p' n'
    cases hl
    refine ⟨[], _, s, rest, ?_, ?_, t, rfl, rfl, ?_, hp, he.symm⟩
    · simp only [popLoop]
      rw [if_neg (by omega)]
    · simp only [peekLoop]
      rw [if_neg (by omega), he]
    · intro t ht; cases ht

private theorem pop_ok (z : Zone) (live : List Block) (p n : Nat) (h : Inv z ((p, n) :: live)) :
    ∃ freed z', z.pop n = some (freed, z') ∧ z.peek n = some p ∧ Inv z' live ∧
      ∃ s rest, z.segments = freed ++ s :: rest ∧
        z'.segments = { s with position := s.position - pad n } :: rest ∧
        (∀ t ∈ freed, t.position = 0) ∧ pad n ≤ s.position ∧
        s.data + (s.position - pad n) = p := by
  obtain ⟨freed, left, s, rest, h1, h2, h3, h4, h5, h6⟩ := pop_tiles h.tiles
  refine ⟨freed, { z with segments := left }, ?_, h2, ?_, s, rest, h4, h5, h6⟩
  · simp [Zone.pop, h1]
  · have hi := h.inside
    have ha := h.apart
    rw [h4] at hi ha
    refine ⟨h3, ?_, ?_⟩
    · intro t ht
      simp only [h5] at ht
      rcases List.mem_cons.1 ht with rfl | ht
      · have := hi s (by simp)
        simp only; omega
      · exact hi t (by simp [ht])
    · simp only [h5]
      have := (List.pairwise_append.1 ha).2.1
      have := List.pairwise_cons.1 this
      exact List.pairwise_cons.2 ⟨this.1, this.2⟩

private theorem reachable_inv {st} (h : Reachable st) : Inv st.1 st.2 := by
  induction h with
  | new m =>
    exact ⟨Tiles.nil, (by intro s hs; cases hs), List.Pairwise.nil⟩
  | step _ s ih =>
    cases s with
    | alloc z live n a p z' pos nowrap fresh h =>
      obtain ⟨p', z'', h1, h2, _⟩ := allocate_ok z live n a ih pos nowrap fresh
      rw [h] at h1
      cases h1
      exact h2
    | pop z live p n freed z' h =>
      obtain ⟨f, z'', h1, _, h2, _⟩ := pop_ok z live p n ih
      rw [h] at h1
      cases h1
      exact h2

/-! ### Theorems -/

/-- C09: in every reachable state the live blocks are pairwise disjoint and each lies inside
memory obtained from the backing allocator, after the segment header. -/
theorem blocks_disjoint (z : Zone) (live : List Block) (h : Reachable (z, live)) :
    live.Pairwise (fun a b => Apart a.1 a.2 b.1 b.2) ∧
    ∀ b ∈ live, ∃ s ∈ z.segments, s.Owns b.1 b.2 ∧ s.data ≤ b.1 := by
  have hi := reachable_inv h
  refine ⟨tiles_apart hi.tiles hi.inside hi.apart, ?_⟩
  intro b hb
  obtain ⟨s, hs, h1, h2⟩ := tiles_inside hi.tiles b hb
  have := hi.inside s hs
  refine ⟨s, hs, ⟨?_, ?_⟩, h1⟩ <;> simp only [Segment.data] at h1 h2 <;> omega

/-- C09: an allocation never fails as long as the backing allocator's last resort does not, and
its block is disjoint from all live ones (by `blocks_disjoint` for the next state). -/
theorem allocate_succeeds (z : Zone) (live : List Block) (h : Reachable (z, live)) (n : Nat)
    (a : Answers) (pos : 0 < n) (hw : NoWrap z n) (hf : FreshAnswers z n a) :
    ∃ p z', z.allocate n a = some (p, z') ∧ Reachable (z', (p, n) :: live) := by
  obtain ⟨p, z', h1, _, _⟩ := allocate_ok z live n a (reachable_inv h) pos hw hf
  exact ⟨p, z', h1, Reachable.step h (Step.alloc z live n a p z' pos hw hf h1)⟩

/-- C09: `peek` finds the most recent block; releasing it succeeds, gives back exactly its
(rounded) space, frees only segments that hold no block, and leaves every older segment
untouched. -/
theorem pop_releases_last (z : Zone) (live : List Block) (p n : Nat)
    (h : Reachable (z, (p, n) :: live)) :
    z.peek n = some p ∧
    ∃ freed z' s rest, z.pop n = some (freed, z') ∧ Reachable (z', live) ∧
      z.segments = freed ++ s :: rest ∧
      z'.segments = { s with position := s.position - pad n } :: rest ∧
      s.data + (s.position - pad n) = p ∧
      (∀ t ∈ freed, t.position = 0) := by
  obtain ⟨freed, z', h1, h2, _, s, rest, h4, h5, h6, _, h7⟩ := pop_ok z live p n (reachable_inv h)
  exact ⟨h2, freed, z', s, rest, h1, Reachable.step h (Step.pop z live p n freed z' h1), h4, h5,
    h7, h6⟩

/-- C09: releasing a block and asking again for the same size returns the same address, without
asking the backing allocator. -/
theorem pop_then_allocate (z : Zone) (live : List Block) (p n : Nat)
    (h : Reachable (z, (p, n) :: live)) (hn : n + 7 < 2 ^ 32) (a : Answers) :
    ∃ freed z' z'', z.pop n = some (freed, z') ∧ z'.allocate n a = some (p, z'') := by
  obtain ⟨freed, z', h1, _, _, s, rest, h4, h5, _, hpos, h6⟩ := pop_ok z live p n (reachable_inv h)
  have hpad := padMono n hn
  have hi := (reachable_inv h).inside s (by simp [h4])
  have hfull : z'.full (pad n) = false := by
    simp only [Zone.full, h5, gt_iff_lt, decide_eq_false_iff_not, Nat.not_lt]
    omega
  refine ⟨freed, z', { z' with segments :=
    { s with position := s.position - pad n + pad n } :: rest }, h1, ?_⟩
  unfold Zone.allocate Zone.tryEnsure
  simp only [hpad.1, hfull, Bool.false_eq_true, if_false, Zone.bump, h5]
  rw [← h6]
  rfl

/-- A concrete history: two blocks in a first page, a third that needs a second segment, then
two releases; it is a reachable state, so the theorems above apply to it. -/
def demoAnswers (p : Nat) : Answers := { try1 := some p, try2 := none, must := 0 }

example : ((Zone.new 0).allocate 100 (demoAnswers 65536)).map (·.1) = some 65560 := by decide

example : Reachable (⟨[⟨65536, 4072, 104⟩], 0⟩, [(65560, 100)]) :=
  Reachable.step (Reachable.new 0)
    (Step.alloc _ _ 100 (demoAnswers 65536) _ _ (by decide) (by unfold NoWrap; decide)
      ⟨(by intro _ _ s hs; cases hs), (by intro _ _ s hs; cases hs), (by intro s hs; cases hs)⟩
      (by decide))

/-- C09 (limit of the code): an empty block allocated just before a segment boundary is not
found again by `peek`, so the theorems require positive sizes. -/
theorem empty_block_peek_wrong :
    let z0 : Zone := ⟨[⟨65536, 4072, 104⟩], 0⟩
    ∃ z1 z2 z3 freed, z0.allocate 0 (demoAnswers 131072) = some (65664, z1) ∧
      z1.allocate 5000 (demoAnswers 131072) = some (131096, z2) ∧
      z2.pop 5000 = some (freed, z3) ∧ z3.peek 0 = some 131096 :=
  ⟨_, _, _, _, rfl, rfl, rfl, rfl⟩

end Avian.Zone
