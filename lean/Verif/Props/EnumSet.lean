import Verif.Lib.EnumSet
import Verif.Props.JBitSet

/-
C110: sets of enum constants.
-/
namespace Avian.EnumSet

open JBitSet (Word mem NoGap)

/-! ## Specification: a set of ordinals and the place of an iterator -/

structure Spec where
  has : Nat → Bool
  place : Nat
  removable : Bool

inductive Op where
  | add (i : Nat)
  | remove (i : Nat)
  | contains (i : Nat)
  | count
  /-- A new iterator takes the place of the one before. -/
  | iterator
  | hasNext
  | next
  | iterRemove
  /-- The set is replaced by a copy, and gets a new iterator. -/
  | copy
  /-- The set is replaced by its complement, and gets a new iterator. -/
  | complement

/-- The first member among `d` constants from `c` on. -/
def least (f : Nat → Bool) : Nat → Nat → Option Nat
  | _, 0 => none
  | c, d + 1 => if f c then some c else least f (c + 1) d

def specStep (n : Nat) (s : Spec) : Op → Res × Spec
  | .add i => (.bool (!s.has i), { s with has := fun k => s.has k || decide (k = i) })
  | .remove i => (.bool (s.has i), { s with has := fun k => s.has k && !decide (k = i) })
  | .contains i => (.bool (s.has i), s)
  | .count => (.num ((List.range n).filter s.has).length, s)
  | .iterator => (.done, { s with place := 0, removable := false })
  | .hasNext => (.bool (least s.has s.place (n - s.place)).isSome, s)
  | .next =>
    match least s.has s.place (n - s.place) with
    | none => (.noSuchElement, s)
    | some i => (.element i, { s with place := i + 1, removable := true })
  | .iterRemove =>
    if s.removable then (.done, { s with has := fun k => s.has k && !decide (k = s.place - 1), removable := false }) else (.illegalState, s)
  | .copy => (.done, { s with place := 0, removable := false })
  | .complement => (.done, ⟨fun k => decide (k < n) && !s.has k, 0, false⟩)

def specRun (n : Nat) (s : Spec) : List Op → List Res
  | [] => []
  | op :: ops => (specStep n s op).1 :: specRun n (specStep n s op).2 ops

/-- The constants belong to the type. -/
def Op.Ok (n : Nat) : Op → Prop
  | .add i | .remove i | .contains i => i < n
  | _ => True

/-! ## The code -/

structure Code where
  bits : List Word
  it : Iter

def codeStep (n : Nat) (c : Code) : Op → Res × Code
  | .add i => match add c.bits i with
    | some r => (.bool r.1, { c with bits := r.2 })
    | none => (.exception, c)
  | .remove i => match remove c.bits i with
    | some r => (.bool r.1, { c with bits := r.2 })
    | none => (.exception, c)
  | .contains i => match contains c.bits i with
    | some b => (.bool b, c)
    | none => (.exception, c)
  | .count => match size c.bits with
    | some k => (.num k, c)
    | none => (.exception, c)
  | .iterator => (.done, { c with it := Iter.new })
  | .hasNext => (.bool (hasNext c.bits c.it), c)
  | .next => ((next n c.bits c.it).1, { c with it := (next n c.bits c.it).2 })
  | .iterRemove => ((iterRemove c.bits c.it).1, ⟨(iterRemove c.bits c.it).2.1, (iterRemove c.bits c.it).2.2⟩)
  | .copy => match copyOf n c.bits with
    | some b => (.done, ⟨b, Iter.new⟩)
    | none => (.exception, c)
  | .complement => match complementOf n c.bits with
    | some b => (.done, ⟨b, Iter.new⟩)
    | none => (.exception, c)

def codeRun (n : Nat) (c : Code) : List Op → List Res
  | [] => []
  | op :: ops => (codeStep n c op).1 :: codeRun n (codeStep n c op).2 ops

/-- The bits are the set, the constants belong to the type. -/
structure Rep (n : Nat) (bits : List Word) (f : Nat → Bool) : Prop where
  same : ∀ k, mem bits k = f k
  below : ∀ k, f k = true → k < n

structure Sim (n : Nat) (c : Code) (s : Spec) : Prop where
  rep : Rep n c.bits s.has
  place : c.it.currentIndex = s.place
  removable : c.it.removeAllowed = s.removable
  positive : s.removable = true → 0 < s.place

theorem noGap (n : Nat) (hn : n ≤ 64) (bits : List Word) (f : Nat → Bool) (h : Rep n bits f) : NoGap bits := by
  intro p q hpq _ w hw
  apply BitVec.eq_of_getLsbD_eq
  intro i hi
  have h1 : mem bits (64 * q + i) = w.getLsbD i := by
    unfold mem
    rw [show (64 * q + i) / 64 = q by omega, show (64 * q + i) % 64 = i by omega, hw, Option.getD_some]
  rw [← h1, h.same]
  have : f (64 * q + i) ≠ true := fun hf => by have := h.below _ hf; omega
  simp only [Bool.not_eq_true] at this
  rw [this]
  simp

theorem create_ok (n : Nat) : ∃ b, create n = some b ∧ Rep n b (fun _ => false) := by
  have : ∃ m : Nat, create n = some (List.replicate m 0) := by
    unfold create JBitSet.new
    simp only
    rw [JBitSet.longPosition_nat]
    split
    · rw [if_neg (by omega)]; exact ⟨_, rfl⟩
    · rw [if_neg (by omega)]; exact ⟨_, rfl⟩
  obtain ⟨m, hm⟩ := this
  refine ⟨_, hm, ⟨fun k => ?_, fun k h => by cases h⟩⟩
  unfold mem
  rw [List.getElem?_replicate]
  split <;> simp

theorem add_ok (n i : Nat) (hi : i < n) (bits : List Word) (f : Nat → Bool) (h : Rep n bits f) :
    ∃ b, add bits i = some (!f i, b) ∧ Rep n b (fun k => f k || decide (k = i)) := by
  have hg := JBitSet.get_ok bits i
  have hs := JBitSet.set_ok bits i
  unfold add okBits
  rw [hg, Option.bind_some, h.same]
  by_cases hf : f i = true
  · rw [hf]
    refine ⟨bits, by simp, ⟨fun k => ?_, fun k hk => ?_⟩⟩
    · rw [h.same]
      by_cases hk : k = i
      · rw [hk, hf]; rfl
      · simp [hk]
    · simp only [Bool.or_eq_true, decide_eq_true_eq] at hk
      rcases hk with hk | hk
      · exact h.below k hk
      · omega
  · simp only [Bool.not_eq_true] at hf
    rw [hf]
    refine ⟨(JBitSet.set bits i).1, by simp [hs.1], ⟨fun k => ?_, fun k hk => ?_⟩⟩
    · rw [hs.2.2, h.same]
    · simp only [Bool.or_eq_true, decide_eq_true_eq] at hk
      rcases hk with hk | hk
      · exact h.below k hk
      · omega

theorem clear_rep (n i : Nat) (bits : List Word) (f : Nat → Bool) (h : Rep n bits f) :
    ∃ b, okBits (JBitSet.clear bits i) = some b ∧ Rep n b (fun k => f k && !decide (k = i)) := by
  have hs := JBitSet.clear_ok bits i
  unfold okBits
  rw [if_pos hs.1]
  refine ⟨_, rfl, ⟨fun k => ?_, fun k hk => ?_⟩⟩
  · rw [hs.2.2, h.same]
  · simp only [Bool.and_eq_true] at hk
    exact h.below k hk.1

theorem remove_ok (n i : Nat) (bits : List Word) (f : Nat → Bool) (h : Rep n bits f) :
    ∃ b, remove bits i = some (f i, b) ∧ Rep n b (fun k => f k && !decide (k = i)) := by
  have hg := JBitSet.get_ok bits i
  obtain ⟨b, hb, hr⟩ := clear_rep n i bits f h
  unfold remove
  rw [hg, Option.bind_some, h.same, hb]
  by_cases hf : f i = true
  · rw [hf]
    exact ⟨b, by simp, hr⟩
  · simp only [Bool.not_eq_true] at hf
    rw [hf]
    refine ⟨bits, by simp, ⟨fun k => ?_, hr.below⟩⟩
    rw [h.same]
    by_cases hk : k = i
    · rw [hk, hf]; rfl
    · simp [hk]

theorem filter_range (f : Nat → Bool) (a d : Nat) (h : ∀ k, f k = true → k < a) :
    (List.range (a + d)).filter f = (List.range a).filter f := by
  induction d with
  | zero => rfl
  | succ d ih =>
    rw [← Nat.add_assoc, List.range_succ, List.filter_append, ih]
    have : ¬ f (a + d) = true := fun hf => by have := h _ hf; omega
    simp [this]

theorem size_ok (n : Nat) (hn : n ≤ 64) (bits : List Word) (f : Nat → Bool) (h : Rep n bits f) :
    size bits = some ((List.range n).filter f).length := by
  unfold size
  rw [JBitSet.cardinality_partial bits (noGap n hn bits f h), show mem bits = f from funext h.same]
  have h2 : ∀ k, f k = true → k < 64 * bits.length := by
    intro k hk
    rw [← h.same] at hk
    by_cases hb : bits.length ≤ k / 64
    · rw [JBitSet.mem_beyond hb] at hk; cases hk
    · omega
  have e1 := filter_range f n (64 * bits.length) h.below
  have e2 := filter_range f (64 * bits.length) n h2
  rw [Nat.add_comm, e2] at e1
  rw [e1]

theorem least_some (f : Nat → Bool) (c d i : Nat) (h1 : c ≤ i) (h2 : i < c + d) (hf : f i = true) (hb : ∀ k, c ≤ k → k < i → f k = false) :
    least f c d = some i := by
  induction d generalizing c with
  | zero => omega
  | succ d ih =>
    rw [least]
    by_cases he : c = i
    · rw [he, if_pos hf]
    · rw [hb c (by omega) (by omega)]
      exact ih (c + 1) (by omega) (by omega) (fun k hk => hb k (by omega))

theorem least_none (f : Nat → Bool) (c d : Nat) (hb : ∀ k, c ≤ k → f k = false) : least f c d = none := by
  induction d generalizing c with
  | zero => rfl
  | succ d ih =>
    rw [least, hb c (by omega)]
    exact ih (c + 1) (fun k hk => hb k (by omega))

theorem nextIndex_ok (n : Nat) (hn : n ≤ 64) (bits : List Word) (f : Nat → Bool) (h : Rep n bits f) (it : Iter) :
    match least f it.currentIndex (n - it.currentIndex) with
    | some i => nextIndex bits it = (i : Int) ∧ i < n
    | none => nextIndex bits it = -1 := by
  have := JBitSet.nextSetBit_partial bits (noGap n hn bits f h) it.currentIndex
  unfold JBitSet.Next at this
  rw [show mem bits = f from funext h.same] at this
  rcases this with ⟨i, h1, h2, h3, h4⟩ | ⟨h1, h2⟩
  · have hlt := h.below i h3
    rw [least_some f _ _ i h2 (by omega) h3 h4]
    exact ⟨h1, hlt⟩
  · rw [least_none f _ _ h2]
    exact h1

theorem copy_ok (n : Nat) (bits : List Word) (f : Nat → Bool) (h : Rep n bits f) : ∃ b, copyOf n bits = some b ∧ Rep n b f := by
  obtain ⟨b, hb, hr⟩ := create_ok n
  unfold copyOf
  rw [hb, Option.map_some]
  refine ⟨_, rfl, ⟨fun k => ?_, h.below⟩⟩
  have := (JBitSet.combined JBitSet.or_bit b bits k).1
  unfold JBitSet.or
  rw [this, hr.same, h.same]
  rfl

theorem complement_ok (n : Nat) (bits : List Word) (f : Nat → Bool) (h : Rep n bits f) :
    ∃ b, complementOf n bits = some b ∧ Rep n b (fun k => decide (k < n) && !f k) := by
  obtain ⟨b, hb, hr⟩ := copy_ok n bits f h
  have hf := JBitSet.flipRange_ok b 0 n
  unfold complementOf okBits
  rw [hb, Option.bind_some, if_pos (by rw [hf.2.1]; simp)]
  refine ⟨_, rfl, ⟨fun k => ?_, fun k hk => ?_⟩⟩
  · rw [hf.2.2, hr.same]
    unfold JBitSet.within
    by_cases hk : k < n
    · simp [hk]
    · have : f k = false := by
        by_cases hfk : f k = true
        · exact absurd (h.below k hfk) hk
        · simpa using hfk
      simp [hk, this]
  · simp only [Bool.and_eq_true, decide_eq_true_eq] at hk
    exact hk.1

/-- Each operation answers as the set does. -/
theorem step_ok (n : Nat) (hn : n ≤ 64) (c : Code) (s : Spec) (h : Sim n c s) (op : Op) (ho : op.Ok n) :
    (codeStep n c op).1 = (specStep n s op).1 ∧ Sim n (codeStep n c op).2 (specStep n s op).2 := by
  obtain ⟨hr, hp, hm, hpos⟩ := h
  cases op with
  | add i =>
    obtain ⟨b, hb, hr'⟩ := add_ok n i ho c.bits s.has hr
    simp only [codeStep, specStep, hb]
    exact ⟨trivial, ⟨hr', hp, hm, hpos⟩⟩
  | remove i =>
    obtain ⟨b, hb, hr'⟩ := remove_ok n i c.bits s.has hr
    simp only [codeStep, specStep, hb]
    exact ⟨trivial, ⟨hr', hp, hm, hpos⟩⟩
  | contains i =>
    simp only [codeStep, specStep, contains, JBitSet.get_ok, hr.same]
    exact ⟨trivial, ⟨hr, hp, hm, hpos⟩⟩
  | count =>
    simp only [codeStep, specStep, size_ok n hn c.bits s.has hr]
    exact ⟨trivial, ⟨hr, hp, hm, hpos⟩⟩
  | iterator => exact ⟨rfl, ⟨hr, rfl, rfl, fun h => by cases h⟩⟩
  | hasNext =>
    have := nextIndex_ok n hn c.bits s.has hr c.it
    rw [hp] at this
    refine ⟨?_, ⟨hr, hp, hm, hpos⟩⟩
    simp only [codeStep, specStep, hasNext]
    cases hl : least s.has s.place (n - s.place) with
    | none => rw [hl] at this; simp only at this; rw [this]; rfl
    | some i => rw [hl] at this; simp only at this; rw [this.1]; simp
  | next =>
    have := nextIndex_ok n hn c.bits s.has hr c.it
    rw [hp] at this
    cases hl : least s.has s.place (n - s.place) with
    | none =>
      rw [hl] at this; simp only at this
      have hh : hasNext c.bits c.it = false := by unfold hasNext; rw [this]; rfl
      have he : next n c.bits c.it = (.noSuchElement, c.it) := by unfold next; rw [hh]; rfl
      simp only [codeStep, specStep, he, hl]
      exact ⟨trivial, ⟨hr, hp, hm, hpos⟩⟩
    | some i =>
      rw [hl] at this; simp only at this
      have hh : hasNext c.bits c.it = true := by unfold hasNext; rw [this.1]; simp
      have he : next n c.bits c.it = (.element i, ⟨i + 1, true⟩) := by
        unfold next
        rw [hh, this.1]
        simp only [Bool.not_true, Bool.false_eq_true, if_false, Int.toNat_natCast]
        rw [if_pos this.2]
      simp only [codeStep, specStep, he, hl]
      exact ⟨trivial, ⟨hr, rfl, rfl, fun _ => Nat.succ_pos i⟩⟩
  | iterRemove =>
    simp only [codeStep, specStep, iterRemove]
    rw [hm]
    by_cases hrm : s.removable = true
    · have hp0 := hpos hrm
      obtain ⟨b, hb, hr'⟩ := clear_rep n (s.place - 1) c.bits s.has hr
      rw [hp, show ((s.place : Nat) : Int) - 1 = ((s.place - 1 : Nat) : Int) by omega, hb, hrm]
      exact ⟨rfl, ⟨hr', rfl, rfl, fun h => by cases h⟩⟩
    · simp only [Bool.not_eq_true] at hrm
      rw [hrm]
      exact ⟨rfl, ⟨hr, hp, hm, hpos⟩⟩
  | copy =>
    obtain ⟨b, hb, hr'⟩ := copy_ok n c.bits s.has hr
    simp only [codeStep, specStep, hb]
    exact ⟨trivial, ⟨hr', rfl, rfl, fun h => by cases h⟩⟩
  | complement =>
    obtain ⟨b, hb, hr'⟩ := complement_ok n c.bits s.has hr
    simp only [codeStep, specStep, hb]
    exact ⟨trivial, ⟨hr', rfl, rfl, fun h => by cases h⟩⟩

theorem run_sim (n : Nat) (hn : n ≤ 64) (ops : List Op) (ho : ∀ op ∈ ops, op.Ok n) (c : Code) (s : Spec) (h : Sim n c s) :
    codeRun n c ops = specRun n s ops := by
  induction ops generalizing c s with
  | nil => rfl
  | cons op ops ih =>
    have hs := step_ok n hn c s h op (ho op (List.mem_cons_self ..))
    rw [codeRun, specRun, hs.1, ih (fun o hm => ho o (List.mem_cons_of_mem _ hm)) _ _ hs.2]

theorem addAll_ok (n : Nat) (es : List Nat) (he : ∀ e ∈ es, e < n) (bits : List Word) (f : Nat → Bool) (h : Rep n bits f) :
    ∃ b, addAll bits es = some b ∧ Rep n b (fun k => f k || es.contains k) := by
  induction es generalizing bits f with
  | nil => exact ⟨bits, rfl, by simpa using h⟩
  | cons e es ih =>
    obtain ⟨b, hb, hr⟩ := add_ok n e (he e (List.mem_cons_self ..)) bits f h
    obtain ⟨b', hb', hr'⟩ := ih (fun x hx => he x (List.mem_cons_of_mem _ hx)) b _ hr
    refine ⟨b', by rw [addAll, hb, Option.bind_some, hb'], ?_⟩
    have : (fun k => f k || (e :: es).contains k) = (fun k => (f k || decide (k = e)) || es.contains k) := by
      funext k
      rw [List.contains_cons, Bool.or_assoc]
      rfl
    rw [this]
    exact hr'

/-- How a set begins. -/
inductive Start where
  | none
  | all
  | of (first : Nat) (rest : List Nat)

def Start.Ok (n : Nat) : Start → Prop
  | .of first rest => first < n ∧ ∀ e ∈ rest, e < n
  | _ => True

def Start.code (n : Nat) : Start → Option (List Word)
  | .none => noneOf n
  | .all => allOf n
  | .of first rest => ofElements n first rest

def Start.spec (n : Nat) : Start → Nat → Bool
  | .none => fun _ => false
  | .all => fun k => decide (k < n)
  | .of first rest => fun k => decide (k = first) || rest.contains k

theorem start_ok (n : Nat) (st : Start) (h : st.Ok n) : ∃ b, st.code n = some b ∧ Rep n b (st.spec n) := by
  obtain ⟨b, hb, hr⟩ := create_ok n
  cases st with
  | none => exact ⟨b, hb, hr⟩
  | all =>
    simp only [Start.code, allOf, Start.spec]
    rw [hb, Option.bind_some]
    by_cases h0 : n = 0
    · subst h0
      have e : JBitSet.setRange b 0 ((0 : Nat) : Int) = (b, true) := by
        unfold JBitSet.setRange JBitSet.masked
        rw [show JBitSet.lastPartition 0 ((0 : Nat) : Int) = -1 by decide, show (JBitSet.partitions 0 ((0 : Nat) : Int)).toNat = 0 by decide]
        unfold JBitSet.enlarge
        rw [if_neg (by omega)]
        rfl
      rw [e]
      refine ⟨b, rfl, ?_⟩
      have : (fun k => decide (k < 0)) = (fun _ => false) := by funext k; simp
      rw [this]
      exact hr
    · have hm := JBitSet.masked_ok JBitSet.or_bit 0 n (by omega) (JBitSet.enlarge b (JBitSet.lastPartition 0 n)) (by
        have := (JBitSet.enlarge_length b (JBitSet.lastPartition 0 n)).2
        have h2 := JBitSet.lastPartition_nat (i := 0) (j := n) (by omega)
        rw [show ((0 : Nat) : Int) = 0 from rfl] at h2
        rw [h2] at this
        rw [h2]
        omega)
      rw [show ((0 : Nat) : Int) = 0 from rfl] at hm
      unfold okBits JBitSet.setRange
      rw [if_pos hm.1]
      refine ⟨_, rfl, ⟨fun k => ?_, fun k hk => by simpa using hk⟩⟩
      have := hm.2.2 k
      rw [this, JBitSet.enlarge_mem, hr.same]
      unfold JBitSet.within
      simp
  | of first rest =>
    obtain ⟨b1, hb1, hr1⟩ := add_ok n first h.1 b _ hr
    obtain ⟨b2, hb2, hr2⟩ := addAll_ok n rest h.2 b1 _ hr1
    refine ⟨b2, ?_, ?_⟩
    · simp only [Start.code, ofElements]
      rw [hb, Option.bind_some, hb1, Option.bind_some, hb2]
    · have : Start.spec n (.of first rest) = (fun k => (false || decide (k = first)) || rest.contains k) := by
        funext k; simp [Start.spec]
      rw [this]
      exact hr2

/-- An EnumSet of a type with at most 64 constants is a set of constants, under all operations and its iterators, which go
through the constants in their order. -/
theorem enumSet_partial (n : Nat) (hn : n ≤ 64) (st : Start) (hs : st.Ok n) (ops : List Op) (ho : ∀ op ∈ ops, op.Ok n) :
    ∃ b, st.code n = some b ∧ codeRun n ⟨b, Iter.new⟩ ops = specRun n ⟨st.spec n, 0, false⟩ ops := by
  obtain ⟨b, hb, hr⟩ := start_ok n st hs
  exact ⟨b, hb, run_sim n hn ops ho _ _ ⟨hr, rfl, rfl, fun h => by cases h⟩⟩

example : (Start.of 3 [1]).code 5 ≠ none ∧ ((Start.of 3 [1]).code 5).map (fun b => codeRun 5 ⟨b, Iter.new⟩
    [.add 3, .next, .iterRemove, .iterRemove, .next, .hasNext, .next, .complement, .count, .contains 4]) =
    some [.bool false, .element 1, .done, .illegalState, .element 3, .bool false, .noSuchElement, .done, .num 4, .bool true] := by
  decide +kernel

/-- The members, `add`, `remove`, `contains`, copies and complements are right for any number of constants. -/
theorem members_ok (n : Nat) (bits : List Word) (f : Nat → Bool) (h : Rep n bits f) :
    (∀ i, i < n → ∃ b, add bits i = some (!f i, b) ∧ Rep n b (fun k => f k || decide (k = i))) ∧
    (∀ i, ∃ b, remove bits i = some (f i, b) ∧ Rep n b (fun k => f k && !decide (k = i))) ∧
    (∀ i : Nat, contains bits i = some (f i)) ∧
    (∃ b, copyOf n bits = some b ∧ Rep n b f) ∧
    (∃ b, complementOf n bits = some b ∧ Rep n b (fun k => decide (k < n) && !f k)) :=
  ⟨fun i hi => add_ok n i hi bits f h, fun i => remove_ok n i bits f h, fun i => by rw [contains, JBitSet.get_ok, h.same],
    copy_ok n bits f h, complement_ok n bits f h⟩

/-- With more than 64 constants, a member after 64 that are none is neither counted nor found by an iterator. -/
theorem many_constants_wrong : (ofElements 65 64 []).map (fun b => codeRun 65 ⟨b, Iter.new⟩ [.contains 64, .count, .hasNext]) =
    some [.bool true, .num 0, .bool false] := by decide +kernel

end Avian.EnumSet
