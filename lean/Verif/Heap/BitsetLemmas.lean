import Verif.Heap.Bitset

/-! Lemmas about `Verif.Heap.Bitset`. -/

namespace Avian.Bitset

open Avian.Bits

/-! ### words and bits -/

theorem and_shl_ne (x : BitVec 64) (k : Nat) (hk : k < 64) : (x &&& (1#64 <<< k) ≠ 0#64) ↔ x.getLsbD k = true := by
  have hs : ∀ j, j < 64 → (1#64 <<< k).getLsbD j = decide (j = k) := by
    intro j hj
    rw [BitVec.getLsbD_shiftLeft]
    simp only [BitVec.getLsbD_one, hj, decide_true, Bool.true_and]
    by_cases h : j < k
    · simp [h]; omega
    · by_cases h2 : j = k
      · subst h2; simp
      · have : ¬ (j - k = 0) := by omega
        simp [h, h2, this]
  constructor
  · intro h
    apply Classical.byContradiction
    intro hn
    apply h
    apply BitVec.eq_of_getLsbD_eq
    intro j hj
    rw [BitVec.getLsbD_and, hs j hj]
    by_cases hjk : j = k
    · subst hjk
      simp at hn
      simp [hn]
    · simp [hjk]
  · intro h h0
    have := congrArg (fun y => BitVec.getLsbD y k) h0
    simp only [BitVec.getLsbD_and, hs k hk, h] at this
    simp at this

theorem word_ne_zero (x : BitVec 64) : x ≠ 0#64 ↔ ∃ k, k < 64 ∧ x.getLsbD k = true := by
  constructor
  · intro h
    apply Classical.byContradiction
    intro hn
    apply h
    apply BitVec.eq_of_getLsbD_eq
    intro j hj
    cases hb : x.getLsbD j with
    | false => simp
    | true => exact absurd ⟨j, hj, hb⟩ hn
  · rintro ⟨k, _, hk⟩ h
    rw [h] at hk; simp at hk

theorem bitAt_word (p : Map) (w k : Nat) (hk : k < 64) : bitAt p (w * 64 + k) = (p w).getLsbD k := by
  unfold bitAt
  have h1 : (w * 64 + k) / 64 = w := by omega
  have h2 : (w * 64 + k) % 64 = k := by omega
  rw [h1, h2]

theorem bitAt_low (p : Map) (k : Nat) (hk : k < 64) : bitAt p k = (p 0).getLsbD k := by
  have := bitAt_word p 0 k hk
  simpa using this

theorem bitAt_store_other (p : Map) (w : Nat) (v : BitVec 64) (i : Nat) (h : i / 64 ≠ w) :
    bitAt (store p w v) i = bitAt p i := by
  unfold bitAt store
  rw [if_neg h]

theorem ext_bit (k : Nat) (hk : k < 64) : extensionBit.getLsbD k = decide (k = 63) := by
  have h : ∀ k, k < 64 → extensionBit.getLsbD k = decide (k = 63) := by decide
  exact h k hk

/-- the place of an offset in the map -/
theorem ext_pos (i : Nat) (h : 63 ≤ i) : i + 129 = ((i - 63) / 64 + 3) * 64 + (i - 63) % 64 := by omega

/-! ### a map that represents a set -/

structure Rep (p : Map) (S : List Nat) : Prop where
  low : ∀ i, i < 63 → (bitAt p i = true ↔ i ∈ S)
  ext : ∀ i ∈ S, 63 ≤ i → bitAt p 63 = true
  words : bitAt p 63 = true → ∀ i, 63 ≤ i → (i - 63) / 64 < (p 2).toNat → (bitAt p (i + 129) = true ↔ i ∈ S)
  len : bitAt p 63 = true → ∀ i ∈ S, 63 ≤ i → (i - 63) / 64 < (p 2).toNat
  cur : bitAt p 63 = true → ∀ i ∈ S, 63 ≤ i → (p 1).toNat / 64 ≤ (i - 63) / 64
  bound : bitAt p 63 = true → (p 2).toNat < 2 ^ 26 ∧ (p 1).toNat < 2 ^ 33

theorem scan_spec (p : Map) : ∀ n word,
    word ≤ (scan p word n).1 ∧ (scan p word n).1 ≤ word + n ∧
    (∀ w, word ≤ w → w < (scan p word n).1 → p (w + 3) = 0#64) ∧
    ((scan p word n).2 = true → (scan p word n).1 < word + n ∧ p ((scan p word n).1 + 3) ≠ 0#64) ∧
    ((scan p word n).2 = false → (scan p word n).1 = word + n) := by
  intro n
  induction n with
  | zero =>
    intro word
    simp only [scan]
    exact ⟨Nat.le_refl _, Nat.le_refl _, fun w h1 h2 => by omega, fun h => by simp at h, fun _ => rfl⟩
  | succ n ih =>
    intro word
    simp only [scan]
    by_cases h : p (word + 3) ≠ 0#64
    · rw [if_pos h]
      exact ⟨Nat.le_refl _, by simp, fun w h1 h2 => by simp at h2; omega, fun _ => ⟨by simp, h⟩, fun h => by simp at h⟩
    · rw [if_neg h]
      obtain ⟨h1, h2, h3, h4, h5⟩ := ih (word + 1)
      refine ⟨by omega, by omega, ?_, ?_, ?_⟩
      · intro w hw1 hw2
        by_cases hw : w = word
        · subst hw; exact Classical.not_not.1 h
        · exact h3 w (by omega) hw2
      · intro hs
        obtain ⟨h6, h7⟩ := h4 hs
        exact ⟨by omega, h7⟩
      · intro hs
        have := h5 hs
        omega

theorem rep_store_cursor {p S} (h : Rep p S) {v : Nat} (hv : v < 2 ^ 33)
    (hc : ∀ i ∈ S, 63 ≤ i → v / 64 ≤ (i - 63) / 64) : Rep (store p 1 (BitVec.ofNat 64 v)) S := by
  have hb : ∀ i, i / 64 ≠ 1 → bitAt (store p 1 (BitVec.ofNat 64 v)) i = bitAt p i :=
    fun i hi => bitAt_store_other p 1 _ i hi
  have h63 : bitAt (store p 1 (BitVec.ofNat 64 v)) 63 = bitAt p 63 := hb 63 (by decide)
  have h2 : (store p 1 (BitVec.ofNat 64 v)) 2 = p 2 := by simp [store]
  have h1 : ((store p 1 (BitVec.ofNat 64 v)) 1).toNat = v := by
    simp only [store, if_true, BitVec.toNat_ofNat]
    apply Nat.mod_eq_of_lt
    have : (2:Nat) ^ 33 < 2 ^ 64 := by decide
    omega
  refine ⟨?_, ?_, ?_, ?_, ?_, ?_⟩
  · intro i hi; rw [hb i (by omega)]; exact h.low i hi
  · intro i hi hi'; rw [h63]; exact h.ext i hi hi'
  · intro he i hi hl
    rw [h63] at he; rw [h2] at hl
    rw [hb (i + 129) (by omega)]; exact h.words he i hi hl
  · intro he i hi hl
    rw [h63] at he; rw [h2]; exact h.len he i hi hl
  · intro he i hi hl
    rw [h1]; exact hc i hi hl
  · intro he
    rw [h63] at he
    rw [h2, h1]; exact ⟨(h.bound he).1, hv⟩

theorem hasMore_spec {p S} (h : Rep p S) : ((hasMore p).1 = true ↔ S ≠ []) ∧ Rep (hasMore p).2 S ∧
    (p 0 = extensionBit → S ≠ [] → ∃ w, ((hasMore p).2 1).toNat = w * 64 ∧ w < ((hasMore p).2 2).toNat ∧
      (hasMore p).2 (w + 3) ≠ 0#64 ∧ ∀ i ∈ S, 63 ≤ i → w ≤ (i - 63) / 64) ∧ (hasMore p).2 0 = p 0 := by
  unfold hasMore
  by_cases h0 : p 0 = 0#64
  · rw [if_pos h0]
    have hS : S = [] := by
      cases S with
      | nil => rfl
      | cons a S =>
        exfalso
        by_cases ha : a < 63
        · have := (h.low a ha).2 List.mem_cons_self
          rw [bitAt_low p a (by omega), h0] at this
          simp at this
        · have := h.ext a List.mem_cons_self (by omega)
          rw [bitAt_low p 63 (by omega), h0] at this
          simp at this
    refine ⟨by simp [hS], h, ?_, rfl⟩
    intro _ hne; exact absurd hS hne
  · rw [if_neg h0]
    by_cases he : p 0 = extensionBit
    · rw [if_pos he]
      have h63 : bitAt p 63 = true := by
        rw [bitAt_low p 63 (by omega), he]; decide
      have hlow : ∀ i ∈ S, 63 ≤ i := by
        intro i hi
        apply Classical.byContradiction
        intro hn
        have := (h.low i (by omega)).2 hi
        rw [bitAt_low p i (by omega), he, ext_bit i (by omega)] at this
        simp at this; omega
      obtain ⟨s1, s2, s3, s4, s5⟩ := scan_spec p ((p 2).toNat - wordOf (p 1).toNat) (wordOf (p 1).toNat)
      generalize hr : scan p (wordOf (p 1).toNat) ((p 2).toNat - wordOf (p 1).toNat) = r at s1 s2 s3 s4 s5
      obtain ⟨hb2, hb1⟩ := h.bound h63
      have hcur : ∀ i ∈ S, 63 ≤ i → r.1 ≤ (i - 63) / 64 := by
        intro i hi h63i
        apply Classical.byContradiction
        intro hn
        have h1 := h.cur h63 i hi h63i
        have h2 := s3 ((i - 63) / 64) h1 (by omega)
        have h3 := (h.words h63 i h63i (h.len h63 i hi h63i)).2 hi
        rw [ext_pos i h63i, bitAt_word _ _ _ (Nat.mod_lt _ (by decide)), h2] at h3
        simp at h3
      have hw1 : wordOf (p 1).toNat < 2 ^ 27 := by
        unfold wordOf
        have : (2:Nat) ^ 33 = 2 ^ 27 * 64 := by decide
        omega
      have hr1 : r.1 < 2 ^ 27 := by
        rcases Nat.lt_or_ge (wordOf (p 1).toNat) (p 2).toNat with hlt | hge
        · have : (2:Nat) ^ 27 = 2 ^ 26 * 2 := by decide
          omega
        · omega
      have hv : indexOf r.1 0 < 2 ^ 33 := by
        unfold indexOf
        have : (2:Nat) ^ 33 = 2 ^ 27 * 64 := by decide
        omega
      have hrep : Rep (store p 1 (BitVec.ofNat 64 (indexOf r.1 0))) S := by
        apply rep_store_cursor h hv
        intro i hi h63i
        have := hcur i hi h63i
        unfold indexOf
        omega
      have hmem : r.2 = true → ∃ i ∈ S, True := by
        intro hr2
        obtain ⟨h1, h2⟩ := s4 hr2
        obtain ⟨k, hk, hb⟩ := (word_ne_zero _).1 h2
        refine ⟨r.1 * 64 + k + 63, ?_, trivial⟩
        refine (h.words h63 _ (by omega) ?_).1 ?_
        · have e1 : r.1 * 64 + k + 63 - 63 = r.1 * 64 + k := by omega
          have e2 : (r.1 * 64 + k) / 64 = r.1 := by omega
          rw [e1, e2]; omega
        · rw [ext_pos _ (by omega)]
          have e1 : (r.1 * 64 + k + 63 - 63) / 64 = r.1 := by omega
          have e2 : (r.1 * 64 + k + 63 - 63) % 64 = k := by omega
          rw [e1, e2, bitAt_word _ _ _ hk]; exact hb
      have hnil : r.2 = false → S = [] := by
        intro hr2
        have h1 := s5 hr2
        cases S with
        | nil => rfl
        | cons a S =>
          have h2 := hcur a List.mem_cons_self (hlow a List.mem_cons_self)
          have h3 := h.len h63 a List.mem_cons_self (hlow a List.mem_cons_self)
          omega
      refine ⟨?_, hrep, ?_, ?_⟩
      · constructor
        · intro hr2
          obtain ⟨i, hi, _⟩ := hmem hr2
          intro e; rw [e] at hi; cases hi
        · intro hne
          cases hr2 : r.2 with
          | true => exact hr2
          | false => exact absurd (hnil hr2) hne
      · intro _ hne
        have hr2 : r.2 = true := by
          cases hr2 : r.2 with
          | true => rfl
          | false => exact absurd (hnil hr2) hne
        obtain ⟨h1, h2⟩ := s4 hr2
        refine ⟨r.1, ?_, ?_, ?_, hcur⟩
        · simp only [store, if_true, BitVec.toNat_ofNat]
          rw [Nat.mod_eq_of_lt (by
            have : (2:Nat) ^ 33 < 2 ^ 64 := by decide
            omega)]
          simp [indexOf]
        · simp only [store, show (2:Nat) ≠ 1 from by decide, if_false]
          omega
        · simp only [store, show r.1 + 3 ≠ 1 from by omega, if_false]
          exact h2
      · simp [store]
    · rw [if_neg he]
      refine ⟨?_, h, fun h' => absurd h' he, rfl⟩
      simp only [true_iff]
      intro hS
      subst hS
      obtain ⟨k, hk, hb⟩ := (word_ne_zero _).1 h0
      by_cases hk' : k < 63
      · have := (h.low k hk').1 (by rw [bitAt_low p k hk]; exact hb)
        cases this
      · apply he
        apply BitVec.eq_of_getLsbD_eq
        intro j hj
        rw [ext_bit j hj]
        by_cases hj' : j < 63
        · have : j ≠ 63 := by omega
          simp only [this, decide_false]
          cases hbj : (p 0).getLsbD j with
          | false => rfl
          | true =>
            have := (h.low j hj').1 (by rw [bitAt_low p j hj]; exact hbj)
            cases this
        · have e1 : j = 63 := by omega
          have e2 : k = 63 := by omega
          subst e1; subst e2
          simp [hb]

theorem find_least {P : Nat → Bool} {a n r : Nat} (h : (List.range' a n).find? P = some r) :
    P r = true ∧ a ≤ r ∧ r < a + n ∧ ∀ j, a ≤ j → j < r → P j = false := by
  induction n generalizing a with
  | zero => simp at h
  | succ n ih =>
    rw [List.range'_succ, List.find?_cons] at h
    cases hp : P a with
    | true =>
      rw [hp] at h; cases h
      exact ⟨hp, Nat.le_refl _, by omega, fun j h1 h2 => by omega⟩
    | false =>
      rw [hp] at h
      obtain ⟨h1, h2, h3, h4⟩ := ih h
      refine ⟨h1, by omega, by omega, ?_⟩
      intro j hj1 hj2
      by_cases hja : j = a
      · subst hja; exact hp
      · exact h4 j (by omega) hj2

/-- removing an element -/
theorem rep_clear {p a S} (h : Rep p (a :: S)) (hs : (a :: S).Pairwise (· < ·)) : Rep (set p a false) S := by
  have hna : a ∉ S := by
    intro ha
    have := (List.pairwise_cons.1 hs).1 a ha
    omega
  have hmem : ∀ i, i ≠ a → (i ∈ a :: S ↔ i ∈ S) := by intro i hi; simp [hi]
  unfold set
  by_cases ha : 63 ≤ a
  · rw [if_pos ha]
    simp only [Bool.false_eq_true, if_false]
    have hw : ∀ w, w < 3 → clearBit p (a + 129) w = p w := by
      intro w hw
      unfold clearBit store wordOf
      rw [if_neg (by omega)]
    have hb : ∀ i, i ≠ a + 129 → bitAt (clearBit p (a + 129)) i = bitAt p i := by
      intro i hi; rw [bitAt_clearBit]; simp [hi]
    have h63 : bitAt (clearBit p (a + 129)) 63 = bitAt p 63 := hb 63 (by omega)
    refine ⟨?_, ?_, ?_, ?_, ?_, ?_⟩
    · intro i hi; rw [hb i (by omega), h.low i hi, hmem i (by omega)]
    · intro i hi hi'; rw [h63]; exact h.ext i (List.mem_cons_of_mem _ hi) hi'
    · intro he i hi hl
      rw [h63] at he; rw [hw 2 (by decide)] at hl
      by_cases hia : i = a
      · subst hia
        rw [bitAt_clearBit]; simp [hna]
      · rw [hb _ (by omega), h.words he i hi hl, hmem i hia]
    · intro he i hi hl
      rw [h63] at he; rw [hw 2 (by decide)]; exact h.len he i (List.mem_cons_of_mem _ hi) hl
    · intro he i hi hl
      rw [h63] at he; rw [hw 1 (by decide)]; exact h.cur he i (List.mem_cons_of_mem _ hi) hl
    · intro he
      rw [h63] at he; rw [hw 1 (by decide), hw 2 (by decide)]; exact h.bound he
  · rw [if_neg ha]
    simp only [Bool.false_eq_true, if_false]
    have hw : ∀ w, 0 < w → clearBit p a w = p w := by
      intro w hw
      unfold clearBit store wordOf
      rw [if_neg (by omega)]
    have hb : ∀ i, i ≠ a → bitAt (clearBit p a) i = bitAt p i := by
      intro i hi; rw [bitAt_clearBit]; simp [hi]
    have h63 : bitAt (clearBit p a) 63 = bitAt p 63 := hb 63 (by omega)
    refine ⟨?_, ?_, ?_, ?_, ?_, ?_⟩
    · intro i hi
      by_cases hia : i = a
      · subst hia
        rw [bitAt_clearBit]; simp [hna]
      · rw [hb i hia, h.low i hi, hmem i hia]
    · intro i hi hi'; rw [h63]; exact h.ext i (List.mem_cons_of_mem _ hi) hi'
    · intro he i hi hl
      rw [h63] at he; rw [hw 2 (by decide)] at hl
      rw [hb _ (by omega), h.words he i hi hl, hmem i (by omega)]
    · intro he i hi hl
      rw [h63] at he; rw [hw 2 (by decide)]; exact h.len he i (List.mem_cons_of_mem _ hi) hl
    · intro he i hi hl
      rw [h63] at he; rw [hw 1 (by decide)]; exact h.cur he i (List.mem_cons_of_mem _ hi) hl
    · intro he
      rw [h63] at he; rw [hw 1 (by decide), hw 2 (by decide)]; exact h.bound he

theorem next_spec {p a S} (h : Rep p (a :: S)) (hs : (a :: S).Pairwise (· < ·)) :
    ∃ p', next p = some (a, p') ∧ Rep p' S := by
  obtain ⟨_, h1, h2, h3⟩ := hasMore_spec h
  have hmin : ∀ i ∈ a :: S, a ≤ i := by
    intro i hi
    rcases List.mem_cons.1 hi with rfl | hi
    · exact Nat.le_refl _
    · exact Nat.le_of_lt ((List.pairwise_cons.1 hs).1 i hi)
  unfold next
  simp only
  generalize hq : (hasMore p).2 = q at h1 h2 h3
  have h0 : q 0 ≠ 0#64 := by
    intro h0
    by_cases ha : a < 63
    · have := (h1.low a ha).2 List.mem_cons_self
      rw [bitAt_low q a (by omega), h0] at this
      simp at this
    · have := h1.ext a List.mem_cons_self (by omega)
      rw [bitAt_low q 63 (by omega), h0] at this
      simp at this
  rw [if_neg h0]
  by_cases he : q 0 = extensionBit
  · rw [if_pos he]
    obtain ⟨w, hw1, hw2, hw3, hw4⟩ := h2 (by rw [← h3]; exact he) (by simp)
    have e1 : wordOf (q 1).toNat = w := by rw [hw1]; unfold wordOf; omega
    have e2 : bitOf (q 1).toNat = 0 := by rw [hw1]; unfold bitOf; omega
    rw [e1, e2]
    have h63 : bitAt q 63 = true := by
      rw [bitAt_low q 63 (by omega), he]; decide
    have ha63 : 63 ≤ a := by
      apply Classical.byContradiction
      intro hn
      have := (h1.low a (by omega)).2 List.mem_cons_self
      rw [bitAt_low q a (by omega), he, ext_bit a (by omega)] at this
      simp at this; omega
    obtain ⟨k, hk, hb⟩ := (word_ne_zero _).1 hw3
    cases hf : (List.range' 0 (64 - 0)).find? (fun bit => decide (q (w + 3) &&& (1#64 <<< bit) ≠ 0#64)) with
    | none =>
      rw [List.find?_eq_none] at hf
      have := hf k (List.mem_range'_1.2 ⟨by omega, by omega⟩)
      rw [decide_eq_true_eq, and_shl_ne _ k hk] at this
      exact absurd hb this
    | some r =>
      obtain ⟨r1, _, r2, r3⟩ := find_least hf
      simp only
      rw [decide_eq_true_eq, and_shl_ne _ r (by omega)] at r1
      have hpos : ∀ k, k < 64 → (q (w + 3)).getLsbD k = true → w * 64 + k + 63 ∈ a :: S := by
        intro k hk hb
        refine (h1.words h63 _ (by omega) ?_).1 ?_
        · have e1 : w * 64 + k + 63 - 63 = w * 64 + k := by omega
          have e2 : (w * 64 + k) / 64 = w := by omega
          rw [e1, e2]; exact hw2
        · rw [ext_pos _ (by omega)]
          have e1 : (w * 64 + k + 63 - 63) / 64 = w := by omega
          have e2 : (w * 64 + k + 63 - 63) % 64 = k := by omega
          rw [e1, e2, bitAt_word _ _ _ hk]; exact hb
      have hle := hmin _ (hpos r (by omega) r1)
      have haw : (a - 63) / 64 = w := by
        have := hw4 a List.mem_cons_self ha63
        omega
      have har : a = w * 64 + r + 63 := by
        have hba := (h1.words h63 a ha63 (h1.len h63 a List.mem_cons_self ha63)).2 List.mem_cons_self
        rw [ext_pos a ha63, haw, bitAt_word _ _ _ (Nat.mod_lt _ (by decide))] at hba
        have : ¬ ((a - 63) % 64 < r) := by
          intro hlt
          have := r3 ((a - 63) % 64) (by omega) hlt
          rw [decide_eq_false_iff_not, and_shl_ne _ _ (Nat.mod_lt _ (by decide))] at this
          exact this hba
        omega
      have hw26 := (h1.bound h63).1
      have hv : indexOf w r + 1 < 2 ^ 33 := by
        unfold indexOf
        have : (2:Nat) ^ 33 = 2 ^ 26 * 128 := by decide
        omega
      have hval : ((store q 1 (BitVec.ofNat 64 (indexOf w r + 1))) 1).toNat = indexOf w r + 1 := by
        simp only [store, if_true, BitVec.toNat_ofNat]
        apply Nat.mod_eq_of_lt
        have : (2:Nat) ^ 33 < 2 ^ 64 := by decide
        omega
      have hret : indexOf w r + 1 + 62 = a := by unfold indexOf; omega
      rw [hval, hret]
      refine ⟨_, rfl, ?_⟩
      -- the order of the two stores does not matter
      have hcl := rep_clear h1 hs
      have hcomm : set (store q 1 (BitVec.ofNat 64 (indexOf w r + 1))) a false =
          store (set q a false) 1 (BitVec.ofNat 64 (indexOf w r + 1)) := by
        unfold set
        rw [if_pos ha63, if_pos ha63]
        simp only [Bool.false_eq_true, if_false]
        funext j
        have hne : wordOf (a + 129) ≠ 1 := by unfold wordOf; omega
        simp only [clearBit, store]
        by_cases hj : j = 1
        · subst hj; simp [Ne.symm hne]
        · simp [hj, hne]
      rw [hcomm]
      apply rep_store_cursor hcl hv
      intro i hi h63i
      have := (List.pairwise_cons.1 hs).1 i hi
      unfold indexOf
      omega
  · rw [if_neg he]
    have halow : a < 63 := by
      apply Classical.byContradiction
      intro hn
      apply he
      apply BitVec.eq_of_getLsbD_eq
      intro j hj
      rw [ext_bit j hj]
      have h63 := h1.ext a List.mem_cons_self (by omega)
      by_cases hj' : j < 63
      · have : j ≠ 63 := by omega
        simp only [this, decide_false]
        cases hbj : (q 0).getLsbD j with
        | false => rfl
        | true =>
          have := (h1.low j hj').1 (by rw [bitAt_low q j hj]; exact hbj)
          have := hmin j this
          omega
      · have e1 : j = 63 := by omega
        subst e1
        rw [bitAt_low q 63 (by omega)] at h63
        simp [h63]
    have hba := (h1.low a halow).2 List.mem_cons_self
    rw [bitAt_low q a (by omega)] at hba
    have hrange : List.range 63 = List.range' 0 63 := List.range_eq_range'
    rw [hrange]
    cases hf : (List.range' 0 63).find? (fun i => decide (q 0 &&& (1#64 <<< i) ≠ 0#64)) with
    | none =>
      rw [List.find?_eq_none] at hf
      have := hf a (List.mem_range'_1.2 ⟨by omega, by omega⟩)
      rw [decide_eq_true_eq, and_shl_ne _ a (by omega)] at this
      exact absurd hba this
    | some r =>
      obtain ⟨r1, _, r2, r3⟩ := find_least hf
      rw [decide_eq_true_eq, and_shl_ne _ r (by omega)] at r1
      have hra : r = a := by
        have h4 : r ∈ a :: S := (h1.low r (by omega)).1 (by rw [bitAt_low q r (by omega)]; exact r1)
        have h5 := hmin r h4
        have h6 : ¬ (a < r) := by
          intro hlt
          have := r3 a (by omega) hlt
          rw [decide_eq_false_iff_not, and_shl_ne _ _ (by omega)] at this
          exact this hba
        omega
      subst hra
      exact ⟨_, rfl, rep_clear h1 hs⟩

/-! ### building the set -/

structure Build (p : Map) (S : List Nat) (l : Nat) : Prop where
  low : ∀ i, i < 63 → (bitAt p i = true ↔ i ∈ S)
  ext : bitAt p 63 = true ↔ ∃ i ∈ S, 63 ≤ i
  le : ∀ i ∈ S, i ≤ l
  cur : 63 ≤ l → (p 1).toNat = 0
  words : 63 ≤ l → ∀ i, 63 ≤ i → (i - 63) / 64 ≤ (l - 63) / 64 → (bitAt p (i + 129) = true ↔ i ∈ S)
  len : 63 ≤ l → ∀ i ∈ S, 63 ≤ i → (i - 63) / 64 < (p 2).toNat
  bound : 63 ≤ l → (p 2).toNat ≤ (l - 63) / 64 + 1

theorem build_init (p : Map) : Build (init p) [] 0 := by
  have h0 : (init p) 0 = 0#64 := by simp [init, store]
  refine ⟨?_, ?_, ?_, ?_, ?_, ?_, ?_⟩
  · intro i hi; rw [bitAt_low _ _ (by omega), h0]; simp
  · rw [bitAt_low _ _ (by omega), h0]; simp
  · simp
  all_goals (intro h; omega)

theorem bitAt_zero {p : Map} {i : Nat} (h : p (i / 64) = 0#64) : bitAt p i = false := by
  unfold bitAt; rw [h]; simp

theorem bitAt_same {p q : Map} {i : Nat} (h : p (i / 64) = q (i / 64)) : bitAt p i = bitAt q i := by
  unfold bitAt; rw [h]

theorem build_clear {p S l o} (h : Build p S l) (ho : l ≤ o) : Build (clear p l o) S o := by
  have hle : ∀ i ∈ S, i ≤ o := fun i hi => by have := h.le i hi; omega
  unfold clear
  by_cases h1 : o < 63
  · rw [if_pos h1]
    exact ⟨h.low, h.ext, hle, fun h => by omega, fun h => by omega, fun h => by omega, fun h => by omega⟩
  · rw [if_neg h1]
    by_cases h2 : l < 63
    · rw [if_pos h2]
      generalize hq : (fun j => if 1 ≤ j ∧ j ≤ wordOf (o + 129) then 0#64 else p j : Map) = q
      have q0 : q 0 = p 0 := by subst hq; simp
      have qz : ∀ j, 1 ≤ j → j ≤ (o + 129) / 64 → q j = 0#64 := by
        intro j hj1 hj2; subst hq
        exact if_pos (show 1 ≤ j ∧ j ≤ wordOf (o + 129) from ⟨hj1, hj2⟩)
      have hno : ∀ i ∈ S, ¬ 63 ≤ i := fun i hi => by have := h.le i hi; omega
      refine ⟨?_, ?_, hle, ?_, ?_, ?_, ?_⟩
      · intro i hi
        rw [bitAt_low q i (by omega), q0, ← bitAt_low p i (by omega)]; exact h.low i hi
      · rw [bitAt_low q 63 (by omega), q0, ← bitAt_low p 63 (by omega)]; exact h.ext
      · intro _; rw [qz 1 (by omega) (by omega)]; rfl
      · intro _ i hi hw
        rw [bitAt_zero (qz _ (by omega) (by omega))]
        simp only [Bool.false_eq_true, false_iff]
        exact fun hm => hno i hm hi
      · intro _ i hi hw; exact absurd hw (hno i hi)
      · intro _; rw [qz 2 (by omega) (by omega)]; simp
    · rw [if_neg h2]
      generalize hq : (fun j => if wordOf (l + 129) + 1 ≤ j ∧ j ≤ wordOf (o + 129) then 0#64 else p j : Map) = q
      have qs : ∀ j, j ≤ (l + 129) / 64 → q j = p j := by
        intro j hj; subst hq
        exact if_neg (show ¬ (wordOf (l + 129) + 1 ≤ j ∧ j ≤ wordOf (o + 129)) from by unfold wordOf; omega)
      have qz : ∀ j, (l + 129) / 64 < j → j ≤ (o + 129) / 64 → q j = 0#64 := by
        intro j hj1 hj2; subst hq
        exact if_pos (show wordOf (l + 129) + 1 ≤ j ∧ j ≤ wordOf (o + 129) from ⟨by unfold wordOf; omega, hj2⟩)
      have q1 : q 1 = p 1 := qs 1 (by omega)
      have q2 : q 2 = p 2 := qs 2 (by omega)
      have h63 : 63 ≤ l := by omega
      refine ⟨?_, ?_, hle, ?_, ?_, ?_, ?_⟩
      · intro i hi
        rw [bitAt_same (qs _ (by omega))]; exact h.low i hi
      · rw [bitAt_same (qs _ (by omega))]; exact h.ext
      · intro _; rw [q1]; exact h.cur h63
      · intro _ i hi hw
        by_cases hil : (i - 63) / 64 ≤ (l - 63) / 64
        · rw [bitAt_same (qs _ (by omega))]; exact h.words h63 i hi hil
        · rw [bitAt_zero (qz _ (by omega) (by omega))]
          simp only [Bool.false_eq_true, false_iff]
          intro hm
          have := h.le i hm
          omega
      · intro _ i hi hw; rw [q2]; exact h.len h63 i hi hw
      · intro _; rw [q2]; have := h.bound h63; omega

theorem build_set {p S o} {i : Nat} (h : Build p S o) (hi : i ≤ o) (hb : o < 2 ^ 31) :
    Build (set p i true) (S ++ [i]) o := by
  have hle : ∀ j ∈ S ++ [i], j ≤ o := by
    intro j hj
    rcases List.mem_append.1 hj with hj | hj
    · exact h.le j hj
    · have : j = i := by simpa using hj
      omega
  have hmem : ∀ j, j ∈ S ++ [i] ↔ j ∈ S ∨ j = i := by intro j; simp
  unfold set
  by_cases h1 : 63 ≤ i
  · rw [if_pos h1]
    simp only [if_true]
    have h63 : 63 ≤ o := by omega
    generalize hp1 : store p 0 (p 0 ||| extensionBit) = p1
    have a0 : p1 0 = p 0 ||| extensionBit := by subst hp1; simp [store]
    have aw : ∀ j, 0 < j → p1 j = p j := by
      intro j hj; subst hp1; simp only [store]; rw [if_neg (by omega)]
    have e3 : wordOf (i + 129) - 3 = (i - 63) / 64 := by unfold wordOf; omega
    have e2 : wordOf (i + 129) - 2 = (i - 63) / 64 + 1 := by unfold wordOf; omega
    rw [e3, e2]
    generalize hp2 : (if (p1 2).toNat ≤ (i - 63) / 64 then store p1 2 (BitVec.ofNat 64 ((i - 63) / 64 + 1)) else p1) = p2
    have b2 : ∀ j, j ≠ 2 → p2 j = p1 j := by
      intro j hj; subst hp2
      by_cases hc : (p1 2).toNat ≤ (i - 63) / 64
      · rw [if_pos hc]; simp [store, hj]
      · rw [if_neg hc]
    have blen : (p2 2).toNat = max (p 2).toNat ((i - 63) / 64 + 1) := by
      subst hp2
      by_cases hc : (p1 2).toNat ≤ (i - 63) / 64
      · rw [if_pos hc]
        simp only [store, if_true, BitVec.toNat_ofNat]
        rw [aw 2 (by omega)] at hc
        rw [Nat.mod_eq_of_lt (by
          have : (2:Nat) ^ 31 < 2 ^ 64 := by decide
          omega)]
        omega
      · rw [if_neg hc]
        rw [aw 2 (by omega)] at hc ⊢
        omega
    have c : ∀ j, bitAt (markBit p2 (i + 129)) j = (if j = i + 129 then true else bitAt p2 j) := by
      intro j; rw [bitAt_markBit]; split <;> simp [*]
    have cw : ∀ j, j < 3 → markBit p2 (i + 129) j = p2 j := by
      intro j hj; unfold markBit store wordOf; rw [if_neg (by omega)]
    have d : ∀ j, j < 64 → bitAt p2 j = (bitAt p j || decide (j = 63)) := by
      intro j hj
      rw [bitAt_low p2 j hj, b2 0 (by decide), a0, BitVec.getLsbD_or, ext_bit j hj, bitAt_low p j hj]
    have d' : ∀ j, 63 ≤ j → bitAt p2 (j + 129) = bitAt p (j + 129) := by
      intro j hj
      apply bitAt_same
      rw [b2 _ (by omega), aw _ (by omega)]
    refine ⟨?_, ?_, hle, ?_, ?_, ?_, ?_⟩
    · intro j hj
      rw [c, if_neg (by omega), d j (by omega), hmem]
      have : j ≠ 63 := by omega
      simp only [this, decide_false, Bool.or_false]
      rw [h.low j hj]
      constructor
      · exact Or.inl
      · rintro (hm | hm)
        · exact hm
        · omega
    · rw [c, if_neg (by omega), d 63 (by omega)]
      simp only [decide_true, Bool.or_true, true_iff]
      exact ⟨i, by simp, h1⟩
    · intro _
      rw [cw 1 (by omega), b2 1 (by decide), aw 1 (by omega)]; exact h.cur h63
    · intro _ j hj hw
      rw [c, hmem]
      by_cases hji : j = i
      · subst hji; simp
      · rw [if_neg (by omega), d' j hj, h.words h63 j hj hw]
        simp [hji]
    · intro _ j hj hw
      rw [cw 2 (by omega), blen]
      rcases (hmem j).1 hj with hm | hm
      · have := h.len h63 j hm hw; omega
      · subst hm; omega
    · intro _
      rw [cw 2 (by omega), blen]
      have := h.bound h63
      omega
  · rw [if_neg h1]
    simp only [if_true]
    have c : ∀ j, bitAt (markBit p i) j = (if j = i then true else bitAt p j) := by
      intro j; rw [bitAt_markBit]; split <;> simp [*]
    have cw : ∀ j, 0 < j → markBit p i j = p j := by
      intro j hj; unfold markBit store wordOf; rw [if_neg (by omega)]
    refine ⟨?_, ?_, hle, ?_, ?_, ?_, ?_⟩
    · intro j hj
      rw [c, hmem]
      by_cases hji : j = i
      · subst hji; simp
      · rw [if_neg hji, h.low j hj]; simp [hji]
    · rw [c, if_neg (by omega), h.ext]
      constructor
      · rintro ⟨j, hj, hj'⟩; exact ⟨j, (hmem j).2 (Or.inl hj), hj'⟩
      · rintro ⟨j, hj, hj'⟩
        rcases (hmem j).1 hj with hm | hm
        · exact ⟨j, hm, hj'⟩
        · omega
    · intro h63; rw [cw 1 (by omega)]; exact h.cur h63
    · intro h63 j hj hw
      rw [c, if_neg (by omega), h.words h63 j hj hw, hmem]
      constructor
      · exact Or.inl
      · rintro (hm | hm)
        · exact hm
        · omega
    · intro h63 j hj hw
      rw [cw 2 (by omega)]
      rcases (hmem j).1 hj with hm | hm
      · exact h.len h63 j hm hw
      · omega
    · intro h63; rw [cw 2 (by omega)]; exact h.bound h63

theorem build_rep {p S o} (h : Build p S o) (hb : o < 2 ^ 31) : Rep p S := by
  have h63 : bitAt p 63 = true → 63 ≤ o := by
    intro he
    obtain ⟨i, hi, h63⟩ := h.ext.1 he
    have := h.le i hi
    omega
  refine ⟨h.low, fun i hi h63 => h.ext.2 ⟨i, hi, h63⟩, ?_, fun he => h.len (h63 he), ?_, ?_⟩
  · intro he i hi hw
    refine h.words (h63 he) i hi ?_
    have := h.bound (h63 he)
    omega
  · intro he i hi hw
    rw [h.cur (h63 he)]; simp
  · intro he
    have h1 := h.bound (h63 he)
    have h2 := h.cur (h63 he)
    refine ⟨?_, ?_⟩
    · have : (2:Nat) ^ 31 = 2 ^ 25 * 64 := by decide
      have : (2:Nat) ^ 26 = 2 ^ 25 * 2 := by decide
      omega
    · omega

/-! ### the scan of one object -/

/-- the offsets of the fields that must be visited -/
def visited (fields : List (Nat × Bool)) : List Nat := (fields.filter (·.2)).map (·.1)

theorem visited_snoc (L : List (Nat × Bool)) (o : Nat) (v : Bool) :
    visited (L ++ [(o, v)]) = visited L ++ (if v then [o] else []) := by
  unfold visited
  cases v <;> simp

theorem visited_mem {L : List (Nat × Bool)} {i : Nat} (h : i ∈ visited L) : ∃ f ∈ L, f.1 = i := by
  unfold visited at h
  obtain ⟨f, hf, rfl⟩ := List.mem_map.1 h
  exact ⟨f, (List.mem_filter.1 hf).1, rfl⟩

theorem build_congr {p S S' o} (h : Build p S o) (hm : ∀ i, i ∈ S ↔ i ∈ S') : Build p S' o := by
  refine ⟨?_, ?_, ?_, h.cur, ?_, ?_, h.bound⟩
  · intro i hi; rw [← hm]; exact h.low i hi
  · rw [h.ext]
    constructor
    · rintro ⟨i, h1, h2⟩; exact ⟨i, (hm i).1 h1, h2⟩
    · rintro ⟨i, h1, h2⟩; exact ⟨i, (hm i).2 h1, h2⟩
  · intro i hi; exact h.le i ((hm i).2 hi)
  · intro hl i h1 h2; rw [← hm]; exact h.words hl i h1 h2
  · intro hl i h1 h2; exact h.len hl i ((hm i).2 h1) h2

structure WInv (s : Walker) (L : List (Nat × Bool)) : Prop where
  sorted : (visited L).Pairwise (· < ·)
  total : s.total = L.length
  visits : s.visits = (visited L).length
  first : s.first = (visited L).headD 0
  early : s.total ≤ 2 ∨ s.visits ≤ 1 → s.second = (visited L).tail.headD 0 ∧ s.last = 0
  fresh : 3 ≤ s.total → s.visits ≤ 1 → Build s.bits [] 0
  late : 3 ≤ s.total → 2 ≤ s.visits → s.second = 0 ∧ Build s.bits (visited L).tail s.last ∧ ∃ f ∈ L, s.last ≤ f.1

theorem visit_winv {s L} (h : WInv s L) {o : Nat} {v : Bool} (hl : ∀ f ∈ L, f.1 < o) (hb : o < 2 ^ 31) :
    WInv (s.visit (o, v)) (L ++ [(o, v)]) := by
  obtain ⟨bits, first, second, last, visits, total⟩ := s
  obtain ⟨hso, ht, hv, hf, he, hfr, hlt⟩ := h
  simp only at ht hv hf he hfr hlt
  have hlv : ∀ i ∈ visited L, i < o := by
    intro i hi
    obtain ⟨f, hf, rfl⟩ := visited_mem hi
    exact hl f hf
  have hvl : (visited L).length ≤ L.length := by
    unfold visited
    rw [List.length_map]; exact List.length_filter_le _ _
  have hso' : (visited (L ++ [(o, v)])).Pairwise (· < ·) := by
    rw [visited_snoc]
    cases v with
    | false => simpa using hso
    | true =>
      simp only [if_true]
      rw [List.pairwise_append]
      exact ⟨hso, by simp, fun a ha b hb => by simp at hb; subst hb; exact hlv a ha⟩
  have hlen : (L ++ [(o, v)]).length = total + 1 := by rw [List.length_append, ht]; rfl
  have hlast : ∀ n, (∃ f ∈ L, n ≤ f.1) → n ≤ o := by
    rintro n ⟨f, hf, hn⟩
    have := hl f hf
    omega
  -- the map after the possible initialisation
  have hinit : 3 ≤ total + 1 → visits ≤ 1 ∨ total = 2 →
      Build (if total = 2 then init bits else bits) [] 0 := by
    intro h1 h2
    by_cases h3 : total = 2
    · rw [if_pos h3]; exact build_init _
    · rw [if_neg h3]; exact hfr (by omega) (by omega)
  cases v with
  | false =>
    have hvs : visited (L ++ [(o, false)]) = visited L := by rw [visited_snoc]; simp
    by_cases hc : visits = 2 ∧ total = 2
    · obtain ⟨h1, h2⟩ := hc
      subst h1; subst h2
      obtain ⟨e1, e2⟩ := he (Or.inl (by omega))
      match hV : visited L, hv, hso with
      | [a, b], _, hso =>
        rw [hV] at e1
        simp only [List.tail_cons, List.headD_cons] at e1
        subst e1; subst e2
        have hab : a < second := by simpa using hso
        have h0 : second ≠ 0 := by omega
        have heq : Walker.visit ⟨bits, first, second, 0, 2, 2⟩ (o, false) =
            ⟨set (clear (init bits) 0 o) second true, first, 0, o, 2, 3⟩ := by
          simp [Walker.visit, h0]
        rw [heq]
        refine ⟨hso', by rw [hlen], by rw [hvs, hV]; rfl, by rw [hvs]; exact hf, ?_, ?_, ?_⟩
        · intro hx; simp only at hx; omega
        · intro _ hx; simp only at hx; omega
        · intro _ _
          rw [hvs, hV]
          refine ⟨rfl, ?_, (o, false), by simp, Nat.le_refl _⟩
          refine build_set (S := []) (build_clear (build_init bits) (by omega)) ?_ hb
          exact Nat.le_of_lt (hlv second (by rw [hV]; simp))
    · have heq : Walker.visit ⟨bits, first, second, last, visits, total⟩ (o, false) =
            ⟨if total = 2 then init bits else bits, first, second, last, visits, total + 1⟩ := by
        have hn : ¬ (1 < visits ∧ 2 < total + 1 ∧ ¬ second = 0) := by
          rintro ⟨h1, h2, h3⟩
          exact h3 (hlt (by omega) (by omega)).1
        by_cases h2 : total = 2
        · subst h2
          simp [Walker.visit]
          intro h1 h3
          exact absurd ⟨h1, by omega, h3⟩ hn
        · have h3 : ¬ (total + 1 = 3) := by omega
          simp only [Walker.visit, h2, h3, if_false, Bool.false_eq_true, or_false]
          rw [if_neg]
          exact hn
      rw [heq]
      refine ⟨hso', by rw [hlen], by rw [hvs]; exact hv, by rw [hvs]; exact hf, ?_, ?_, ?_⟩
      · intro hx; simp only at hx ⊢
        rw [hvs]; exact he (by omega)
      · intro hx hy; simp only at hx hy ⊢
        exact hinit hx (Or.inl hy)
      · intro hx hy; simp only at hx hy ⊢
        rw [if_neg (by omega), hvs]
        obtain ⟨l1, l2, f, l3, l4⟩ := hlt (by omega) hy
        exact ⟨l1, l2, f, List.mem_append_left _ l3, l4⟩
  | true =>
    have hvs : visited (L ++ [(o, true)]) = visited L ++ [o] := by rw [visited_snoc]; simp
    match hV : visited L, hv with
    | [], hv =>
      simp only [List.length_nil] at hv
      subst hv
      have heq : Walker.visit ⟨bits, first, second, last, 0, total⟩ (o, true) =
            ⟨if total = 2 then init bits else bits, o, second, last, 1, total + 1⟩ := by
        by_cases h2 : total = 2
        · subst h2; simp [Walker.visit]
        · simp [Walker.visit, h2]
      obtain ⟨e1, e2⟩ := he (Or.inr (by omega))
      rw [hV] at e1
      rw [heq]
      refine ⟨hso', by rw [hlen], by rw [hvs, hV]; rfl, by rw [hvs, hV]; rfl, ?_, ?_, ?_⟩
      · intro _; rw [hvs, hV]; exact ⟨e1, e2⟩
      · intro hx _; exact hinit hx (Or.inl (by omega))
      · intro _ hx; simp only at hx; omega
    | [a], hv =>
      simp only [List.length_cons, List.length_nil] at hv
      subst hv
      obtain ⟨e1, e2⟩ := he (Or.inr (by omega))
      subst e2
      have ha : a < o := hlv a (by rw [hV]; simp)
      have h0 : o ≠ 0 := by omega
      rw [hV] at hf
      by_cases h1 : total ≤ 1
      · have heq : Walker.visit ⟨bits, first, second, 0, 0 + 1, total⟩ (o, true) =
            ⟨bits, first, o, 0, 2, total + 1⟩ := by
          have h2 : ¬ (total = 2) := by omega
          have h3 : ¬ (2 < total + 1) := by omega
          simp [Walker.visit, h2, h3]
        rw [heq]
        refine ⟨hso', by rw [hlen], by rw [hvs, hV]; rfl, by rw [hvs, hV]; exact hf, ?_, ?_, ?_⟩
        · intro _; rw [hvs, hV]; exact ⟨rfl, rfl⟩
        · intro hx _; simp only at hx; omega
        · intro hx _; simp only at hx; omega
      · have heq : Walker.visit ⟨bits, first, second, 0, 0 + 1, total⟩ (o, true) =
            ⟨set (set (clear (if total = 2 then init bits else bits) 0 o) o true) o true, first, 0, o, 2, total + 1⟩ := by
          by_cases h2 : total = 2
          · subst h2; simp [Walker.visit, h0]
          · have h3 : 2 < total + 1 := by omega
            simp [Walker.visit, h2, h3, h0]
        rw [heq]
        refine ⟨hso', by rw [hlen], by rw [hvs, hV]; rfl, by rw [hvs, hV]; exact hf, ?_, ?_, ?_⟩
        · intro hx; simp only at hx; omega
        · intro _ hx; simp only at hx; omega
        · intro hx _
          rw [hvs, hV]
          refine ⟨rfl, ?_, (o, true), by simp, Nat.le_refl _⟩
          refine build_congr (build_set (S := [o]) (build_set (S := []) (build_clear (hinit (by omega) (Or.inl (by omega)))
            (by omega)) (Nat.le_refl _) hb) (Nat.le_refl _) hb) ?_
          simp
    | a :: b :: V, hv =>
      have hvis : 2 ≤ visits := by simp at hv; omega
      have htot : 2 ≤ total := by rw [hV] at hvl; simp at hvl; omega
      have hb0 : b < o := hlv b (by rw [hV]; simp)
      rw [hV] at hso hf
      have hab : a < b := (List.pairwise_cons.1 hso).1 b (by simp)
      have n1 : ¬ (visits + 1 = 1) := by omega
      have n2 : ¬ (visits + 1 = 2) := by omega
      have n3 : 1 < visits + 1 := by omega
      have n4 : 2 < total + 1 := by omega
      by_cases h2 : total = 2
      · subst h2
        have hVn : V = [] := by
          rw [hV] at hvl
          cases V with
          | nil => rfl
          | cons c V => simp at hvl; omega
        subst hVn
        obtain ⟨e1, e2⟩ := he (Or.inl (by omega))
        rw [hV] at e1
        simp only [List.tail_cons, List.headD_cons] at e1
        subst e1; subst e2
        have h0 : second ≠ 0 := by omega
        have heq : Walker.visit ⟨bits, first, second, 0, visits, 2⟩ (o, true) =
            ⟨set (set (clear (init bits) 0 o) second true) o true, first, 0, o, visits + 1, 3⟩ := by
          simp [Walker.visit, h0]
          split
          · omega
          · split
            · omega
            · simp [h0, n3]
        rw [heq]
        refine ⟨hso', by rw [hlen], by rw [hvs, hV]; simp [hv], by rw [hvs, hV]; exact hf, ?_, ?_, ?_⟩
        · intro hx; simp only at hx; omega
        · intro _ hx; simp only at hx; omega
        · intro hx _
          rw [hvs, hV]
          refine ⟨rfl, ?_, (o, true), by simp, Nat.le_refl _⟩
          exact build_set (S := [second]) (build_set (S := []) (build_clear (build_init bits)
            (by omega)) (Nat.le_of_lt hb0) hb) (Nat.le_refl _) hb
      · obtain ⟨l1, l2, l3⟩ := hlt (by omega) hvis
        subst l1
        have heq : Walker.visit ⟨bits, first, 0, last, visits, total⟩ (o, true) =
            ⟨set (clear bits last o) o true, first, 0, o, visits + 1, total + 1⟩ := by
          have h3 : ¬ (total + 1 = 3) := by omega
          simp only [Walker.visit, h3, n1, n2, if_false, if_true]
          rw [if_pos ⟨n3, n4, Or.inr trivial⟩]
          simp
        rw [heq]
        refine ⟨hso', by rw [hlen], by rw [hvs, hV]; simp [hv], by rw [hvs, hV]; exact hf, ?_, ?_, ?_⟩
        · intro hx; simp only at hx; omega
        · intro _ hx; simp only at hx; omega
        · intro hx _
          rw [hvs, hV]
          refine ⟨rfl, ?_, (o, true), by simp, Nat.le_refl _⟩
          rw [hV] at l2
          exact build_set (build_clear l2 (hlast _ l3)) (Nat.le_refl _) hb

theorem scan_winv (p : Map) : ∀ (fields L : List (Nat × Bool)) (s : Walker), WInv s L →
    ((L ++ fields).map (·.1)).Pairwise (· < ·) → (∀ f ∈ fields, f.1 < 2 ^ 31) →
    WInv (fields.foldl Walker.visit s) (L ++ fields) := by
  intro fields
  induction fields with
  | nil => intro L s h _ _; simpa using h
  | cons f fs ih =>
    intro L s h hs hb
    have hl : ∀ g ∈ L, g.1 < f.1 := by
      intro g hg
      rw [List.map_append, List.pairwise_append] at hs
      exact hs.2.2 g.1 (List.mem_map.2 ⟨g, hg, rfl⟩) f.1 (by simp)
    have := ih (L ++ [f]) (s.visit f) (visit_winv h hl (hb f (by simp))) (by simpa using hs) (fun g hg => hb g (by simp [hg]))
    simpa using this

theorem scanObject_winv {p : Map} {fields : List (Nat × Bool)} (hs : (fields.map (·.1)).Pairwise (· < ·))
    (hb : ∀ f ∈ fields, f.1 < 2 ^ 31) : WInv (scanObject p fields) fields := by
  have := scan_winv p fields [] ⟨p, 0, 0, 0, 0, 0⟩
    ⟨by simp [visited], rfl, rfl, rfl, fun _ => ⟨rfl, rfl⟩, fun h => by simp at h, fun h => by simp at h⟩
    (by simpa using hs) hb
  unfold scanObject
  simpa using this

theorem take_spec : ∀ (S : List Nat) (p : Map) (n : Nat), S ≠ [] → Rep p S → S.Pairwise (· < ·) → S.length ≤ n →
    take p n = some S := by
  intro S
  induction S with
  | nil => intro p n h; exact absurd rfl h
  | cons a S ih =>
    intro p n _ hr hs hn
    cases n with
    | zero => simp at hn
    | succ n =>
      obtain ⟨p', h1, h2⟩ := next_spec hr hs
      obtain ⟨h3, h4, _⟩ := hasMore_spec h2
      simp only [take, h1]
      cases S with
      | nil =>
        rw [if_neg (by rw [h3]; simp)]
      | cons b S =>
        rw [if_pos (h3.2 (by simp))]
        rw [ih _ n (by simp) h4 (List.pairwise_cons.1 hs).2 (by simpa using hn)]
        rfl

end Avian.Bitset
