import Verif.Heap.BitsetLemmas

/-!
C33: the set of pending fields that the collector packs into the object it has copied.

The specification is the list of offsets itself: the walker reports the fields of the object in ascending
order, each with the answer whether it must be visited, and what is later taken out of the set must be
those offsets, in order, each once.
-/

namespace Avian.Bitset

open Avian.Bits

/-- Whatever the body of the copied object holds, the set enumerates exactly the fields to visit after the
first one, in ascending order, each once; the collector never aborts. -/
theorem pending_fields_exact (p : Map) (fields : List (Nat × Bool))
    (sorted : (fields.map (·.1)).Pairwise (· < ·)) (bound : ∀ f ∈ fields, f.1 < 2 ^ 31)
    (many : 3 ≤ fields.length) (first : Nat) (rest : List Nat)
    (visit : (fields.filter (·.2)).map (·.1) = first :: rest) (two : rest ≠ [])
    (n : Nat) (hn : rest.length ≤ n) :
    (scanObject p fields).first = first ∧ take (scanObject p fields).bits n = some rest := by
  have h := scanObject_winv (p := p) sorted bound
  change visited fields = first :: rest at visit
  have hv := h.visits
  have hf := h.first
  have hso := h.sorted
  rw [visit] at hv hf hso
  refine ⟨hf, ?_⟩
  have h2 : 2 ≤ (scanObject p fields).visits := by
    rw [hv]
    cases rest with
    | nil => exact absurd rfl two
    | cons b r => simp
  obtain ⟨_, hb, f, hfm, hlast⟩ := h.late (by rw [h.total]; exact many) h2
  rw [visit] at hb
  have := bound f hfm
  exact take_spec rest _ n two (build_rep hb (by omega)) (List.pairwise_cons.1 hso).2 hn

/-- An object with exactly two reference fields does without the set: the two offsets are kept directly,
and the object's body is not touched. -/
theorem two_fields_exact (p : Map) (a b : Nat) (va vb : Bool) (h : a < b) :
    (scanObject p [(a, va), (b, vb)]).bits = p ∧ (scanObject p [(a, va), (b, vb)]).total = 2 ∧
    (va = true → (scanObject p [(a, va), (b, vb)]).first = a) ∧
    (va = false → vb = true → (scanObject p [(a, va), (b, vb)]).first = b) ∧
    (va = true → vb = true → (scanObject p [(a, va), (b, vb)]).visits = 2 ∧
      (scanObject p [(a, va), (b, vb)]).second = b) := by
  cases va <;> cases vb <;> simp [scanObject, Walker.visit]

/-- The number of fields to visit is counted exactly; the collector descends only if it is not zero and
keeps the object on its stack only if it is more than one. -/
theorem visits_exact (p : Map) (fields : List (Nat × Bool)) (sorted : (fields.map (·.1)).Pairwise (· < ·))
    (bound : ∀ f ∈ fields, f.1 < 2 ^ 31) :
    (scanObject p fields).visits = (fields.filter (·.2)).length ∧ (scanObject p fields).total = fields.length := by
  have h := scanObject_winv (p := p) sorted bound
  refine ⟨?_, h.total⟩
  have := h.visits
  simpa [visited] using this

/-- Adding a member and taking one out behave like the set operations, for any set below the bound and
any member. -/
theorem next_is_minimum (p : Map) (S : List Nat) (h : Rep p S) (sorted : S.Pairwise (· < ·)) :
    (S = [] → (hasMore p).1 = false) ∧
    (∀ a T, S = a :: T → (hasMore p).1 = true ∧ ∃ p', next p = some (a, p') ∧ Rep p' T) := by
  obtain ⟨h1, _⟩ := hasMore_spec h
  constructor
  · intro e
    cases hb : (hasMore p).1 with
    | false => rfl
    | true => exact absurd e (h1.1 hb)
  · rintro a T rfl
    exact ⟨h1.2 (by simp), next_spec h sorted⟩

/-- The set never reaches outside the body of the object: two words are reserved in front of it, and
a field at offset `o ≥ 63` means that the object has more than `o` words. -/
theorem words_inside (p : Map) (o i : Nat) (w : Nat) (hi : i ≤ o) :
    (∀ l, l ≤ o → clear p l o w ≠ p w → 2 + w ≤ o) ∧ (∀ v, 2 ≤ o → set p i v w ≠ p w → 2 + w ≤ o) := by
  constructor
  · intro l _ h
    unfold clear at h
    by_cases h1 : o < 63
    · rw [if_pos h1] at h; exact absurd rfl h
    · rw [if_neg h1] at h
      have hw : wordOf (o + 129) = (o + 129) / 64 := rfl
      by_cases h2 : l < 63
      · rw [if_pos h2] at h
        by_cases h3 : 1 ≤ w ∧ w ≤ wordOf (o + 129)
        · omega
        · simp only [h3, if_false] at h; exact absurd rfl h
      · rw [if_neg h2] at h
        by_cases h3 : wordOf (l + 129) + 1 ≤ w ∧ w ≤ wordOf (o + 129)
        · omega
        · simp only [h3, if_false] at h; exact absurd rfl h
  · intro v ho h
    have hw : wordOf (i + 129) = (i + 129) / 64 := rfl
    have hz : ∀ j, wordOf j = j / 64 := fun _ => rfl
    by_cases h1 : 63 ≤ i
    · have key : w ≤ (i + 129) / 64 := by
        apply Classical.byContradiction
        intro hn
        apply h
        unfold set
        rw [if_pos h1]
        have a1 : w ≠ wordOf (i + 129) := by omega
        have a2 : w ≠ 2 := by omega
        have a3 : w ≠ 0 := by omega
        cases v
        · simp [clearBit, store, a1]
        · simp only [if_true, markBit]
          split <;> simp [store, a1, a2, a3]
      omega
    · have key : w = 0 := by
        apply Classical.byContradiction
        intro hn
        apply h
        unfold set
        rw [if_neg h1]
        have a1 : w ≠ wordOf i := by rw [hz]; omega
        cases v <;> simp [clearBit, markBit, store, a1]
      omega

/-! ### concrete cases -/

/-- memory full of ones -/
def ones : Map := fun _ => BitVec.ofNat 64 (2 ^ 64 - 1)

/-- an object with fields before and after the switch of representation -/
def someFields : List (Nat × Bool) :=
  [(0, false), (1, true), (2, true), (62, true), (63, true), (64, false), (126, true), (127, true), (400, false), (1000, true)]

example : (scanObject ones someFields).first = 1 ∧
    take (scanObject ones someFields).bits 10 = some [2, 62, 63, 126, 127, 1000] :=
  pending_fields_exact ones someFields (by decide) (by decide) (by decide) 1 [2, 62, 63, 126, 127, 1000]
    (by decide) (by decide) 10 (by decide)

example : take (scanObject ones someFields).bits 10 = some [2, 62, 63, 126, 127, 1000] := by decide +kernel

example : (scanObject ones someFields).visits = 7 := (visits_exact ones someFields (by decide) (by decide)).1

example : (scanObject ones [(1, true), (7, true)]).second = 7 :=
  ((two_fields_exact ones 1 7 true true (by decide)).2.2.2.2 rfl rfl).2

example : Rep (set (init ones) 5 true) [5] :=
  build_rep (o := 5) (build_set (S := []) (by
    have := build_clear (build_init ones) (o := 5) (by decide)
    simpa [clear] using this) (by decide) (by decide)) (by decide)

example : set ones 70 false 3 ≠ ones 3 ∧ 2 + 3 ≤ 70 := by
  constructor
  · decide
  · decide

end Avian.Bitset
