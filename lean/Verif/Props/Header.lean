import Verif.Heap.Header

/-
Properties C37 (identity hash codes never change) and C38 (cloning).
-/
namespace Avian.Header

/-! ### Specification -/

/-- Every class has room for the header; arrays also have room for their length. -/
def Sane (I : Word → Info) : Prop :=
  ∀ c, 8 ≤ (I c).fixedSize ∧ (0 < (I c).elementSize → 16 ≤ (I c).fixedSize)

/-- The marks in a header. -/
def marks (w : Word) : Word := w &&& ~~~pointerMask

/-! ### Bits of the header -/

theorem marks_or (a b : Word) : marks (a ||| b) = marks a ||| marks b := by
  simp only [marks]; rw [BitVec.and_comm, BitVec.and_or_distrib_left, BitVec.and_comm, BitVec.and_comm _ b]

theorem class_or (a b : Word) : (a ||| b) &&& pointerMask = (a &&& pointerMask) ||| (b &&& pointerMask) := by
  rw [BitVec.and_comm, BitVec.and_or_distrib_left, BitVec.and_comm, BitVec.and_comm _ b]

theorem marks_class (w : Word) : marks (w &&& pointerMask) = 0 := by
  simp only [marks, BitVec.and_assoc]
  rw [show pointerMask &&& ~~~pointerMask = 0 from by decide]
  simp

theorem class_marks (w : Word) : (marks w) &&& pointerMask = 0 := by
  simp only [marks, BitVec.and_assoc]
  rw [show ~~~pointerMask &&& pointerMask = 0 from by decide]
  simp

theorem marks_marks (w : Word) : marks (marks w) = marks w := by
  simp only [marks, BitVec.and_assoc, BitVec.and_self]

theorem class_class (w : Word) : w &&& pointerMask &&& pointerMask = w &&& pointerMask := by
  simp only [BitVec.and_assoc, BitVec.and_self]

/-- A header's marks are those the code uses. -/
def Known (w : Word) : Prop := marks w = 0 ∨ marks w = 1#64 ∨ marks w = 2#64 ∨ marks w = 3#64

theorem fixed_iff {m : Mem} {o : Nat} : fixed m o = true ↔ marks (m o) = 3#64 := by
  simp [fixed, marks, fixedMark]
theorem extended_iff {m : Mem} {o : Nat} : extended m o = true ↔ marks (m o) = 2#64 := by
  simp [extended, marks, extendedMark]
theorem taken_iff {m : Mem} {o : Nat} : taken m o = true ↔ marks (m o) = 1#64 := by
  simp [taken, marks, hashTakenMark]

/-! ### Frames -/

theorem baseSize_congr {I : Word → Info} (hI : Sane I) {m m' : Mem} {o o' : Nat}
    (hc : classOf m' o' = classOf m o)
    (h : ∀ k, 0 < k → k < baseSize I m o → m' (o' + k) = m (o + k)) :
    baseSize I m' o' = baseSize I m o := by
  unfold baseSize at *
  rw [hc]
  by_cases he : 0 < (I (classOf m o)).elementSize
  · have := (hI (classOf m o)).2 he
    simp only [if_pos he] at h ⊢
    rw [h ((I (classOf m o)).fixedSize / 8 - 1) (by omega) (by omega)]
  · simp only [if_neg he]

theorem baseSize_pos {I : Word → Info} (hI : Sane I) (m : Mem) (o : Nat) : 0 < baseSize I m o := by
  have := (hI (classOf m o)).1
  have h2 : ((I (classOf m o)).fixedSize + 7) / 8 ≤ baseSize I m o := by
    unfold baseSize
    exact Nat.le_add_right _ _
  omega

/-- The hash code that would be handed out. -/
def hashOf (I : Word → Info) (m : Mem) (o : Nat) : BitVec 32 := (objectHash I m o).2

theorem hashOf_ext {I : Word → Info} {m : Mem} {o : Nat} (h : marks (m o) = 2#64) :
    hashOf I m o = (m (o + baseSize I m o)).setWidth 32 := by
  simp only [hashOf, objectHash, extended_iff.2 h, if_true]

theorem hashOf_plain {I : Word → Info} {m : Mem} {o : Nat} (h : marks (m o) ≠ 2#64) :
    hashOf I m o = takeHash o := by
  have : extended m o = false := by
    cases he : extended m o
    · rfl
    · exact absurd (extended_iff.1 he) h
  simp only [hashOf, objectHash, this, Bool.false_eq_true, if_false]

theorem extendedSize_of {I : Word → Info} {m : Mem} {o : Nat} :
    extendedSize I m o = baseSize I m o + (if marks (m o) = 2#64 then 1 else 0) := by
  unfold extendedSize
  by_cases h : marks (m o) = 2#64
  · rw [if_pos (extended_iff.2 h), if_pos h]
  · rw [if_neg (fun he => h (extended_iff.1 he)), if_neg h]

theorem copiedSize_of {I : Word → Info} {m : Mem} {o : Nat} :
    copiedSize I m o = baseSize I m o + (if marks (m o) = 2#64 ∨ marks (m o) = 1#64 then 1 else 0) := by
  unfold copiedSize
  by_cases h : marks (m o) = 2#64 ∨ marks (m o) = 1#64
  · rw [if_pos h, if_pos]
    rcases h with h | h
    · simp [extended_iff.2 h]
    · simp [taken_iff.2 h]
  · rw [if_neg h, if_neg]
    simp only [Bool.or_eq_true, extended_iff, taken_iff]
    exact h

/-- Nothing about an object changes if the words of its block do not. -/
theorem frame {I : Word → Info} (hI : Sane I) {m m' : Mem} {a n : Nat} (hs : extendedSize I m a ≤ n)
    (h : ∀ x, a ≤ x → x < a + n → m' x = m x) :
    baseSize I m' a = baseSize I m a ∧ extendedSize I m' a = extendedSize I m a ∧
      hashOf I m' a = hashOf I m a ∧ m' a = m a := by
  have hp := baseSize_pos hI m a
  have hs' := hs
  rw [extendedSize_of] at hs'
  have h0 : m' a = m a := h a (Nat.le_refl _) (by omega)
  have hb : baseSize I m' a = baseSize I m a := by
    refine baseSize_congr hI ?_ ?_
    · simp only [classOf, h0]
    · intro k hk hk'; exact h _ (by omega) (by omega)
  refine ⟨hb, ?_, ?_, h0⟩
  · rw [extendedSize_of, extendedSize_of, hb, h0]
  · by_cases he : marks (m a) = 2#64
    · rw [hashOf_ext he, hashOf_ext (by rw [h0]; exact he), hb, h _ (by omega)]
      rw [if_pos he] at hs'
      omega
    · rw [hashOf_plain he, hashOf_plain (by rw [h0]; exact he)]

/-! ### The invariant -/

structure Inv (I : Word → Info) (s : St) (out : List (Nat × BitVec 32)) : Prop where
  apart : ∀ i j p q, i ≠ j → s.place i = some p → s.place j = some q → Apart p q
  room : ∀ i a n, s.place i = some (a, n) → extendedSize I s.mem a ≤ n
  known : ∀ i a n, s.place i = some (a, n) → Known (s.mem a)
  made : ∀ i p, s.place i = some p → i ∈ s.made
  asked : ∀ i h, (i, h) ∈ out → i ∈ s.made
  same : ∀ i h a n, (i, h) ∈ out → s.place i = some (a, n) →
    hashOf I s.mem a = h ∧ marks (s.mem a) ≠ 0

theorem takeHash_roundtrip (a : Nat) : ((takeHash a).setWidth 64).setWidth 32 = takeHash a := by
  apply BitVec.eq_of_toNat_eq
  simp only [BitVec.toNat_setWidth]
  have := (takeHash a).isLt
  omega

/-- A step that leaves the block of every object but `i` alone. -/
theorem inv_local {I : Word → Info} (hI : Sane I) {s s' : St} {out : List (Nat × BitVec 32)} {i : Nat}
    (h : Inv I s out) (hm : s'.made = s.made)
    (hpl : ∀ j, j ≠ i → s'.place j = s.place j)
    (hother : ∀ j a n, j ≠ i → s.place j = some (a, n) → ∀ x, a ≤ x → x < a + n → s'.mem x = s.mem x)
    (happ : ∀ j p q, j ≠ i → s'.place i = some p → s.place j = some q → Apart p q)
    (hmine : ∀ a n, s'.place i = some (a, n) → (∃ p, s.place i = some p) ∧ extendedSize I s'.mem a ≤ n ∧
      Known (s'.mem a) ∧ ∀ hh, (i, hh) ∈ out → hashOf I s'.mem a = hh ∧ marks (s'.mem a) ≠ 0) :
    Inv I s' out := by
  refine ⟨?_, ?_, ?_, ?_, ?_, ?_⟩
  · intro j k p q hjk hj hk
    by_cases hji : j = i
    · subst hji
      rw [hpl k (Ne.symm hjk)] at hk
      exact happ k p q (Ne.symm hjk) hj hk
    · rw [hpl j hji] at hj
      by_cases hki : k = i
      · subst hki
        rcases happ j q p hji hk hj with e | e
        · exact Or.inr e
        · exact Or.inl e
      · rw [hpl k hki] at hk
        exact h.apart j k p q hjk hj hk
  · intro j a n hj
    by_cases hji : j = i
    · subst hji; exact (hmine a n hj).2.1
    · rw [hpl j hji] at hj
      rw [(frame hI (h.room j a n hj) (hother j a n hji hj)).2.1]
      exact h.room j a n hj
  · intro j a n hj
    by_cases hji : j = i
    · subst hji; exact (hmine a n hj).2.2.1
    · rw [hpl j hji] at hj
      rw [(frame hI (h.room j a n hj) (hother j a n hji hj)).2.2.2]
      exact h.known j a n hj
  · intro j p hj
    rw [hm]
    by_cases hji : j = i
    · subst hji
      obtain ⟨q, hq⟩ := (hmine p.1 p.2 hj).1
      exact h.made j q hq
    · rw [hpl j hji] at hj; exact h.made j p hj
  · intro j hh hj; rw [hm]; exact h.asked j hh hj
  · intro j hh a n ho hj
    by_cases hji : j = i
    · subst hji; exact (hmine a n hj).2.2.2 hh ho
    · rw [hpl j hji] at hj
      have f := frame hI (h.room j a n hj) (hother j a n hji hj)
      rw [f.2.2.1, f.2.2.2]
      exact h.same j hh a n ho hj

theorem put_other {m : Mem} {a x : Nat} {v : Word} (h : x ≠ a) : put m a v x = m x := by simp [put, h]
theorem put_same {m : Mem} {a : Nat} {v : Word} : put m a v a = v := by simp [put]

theorem inv_alloc {I : Word → Info} (hI : Sane I) {s : St} {out : List (Nat × BitVec 32)} {i a : Nat}
    {words : List Word} (h : Inv I s out) (hi : i ∉ s.made)
    (happ : ∀ j p, s.place j = some p → Apart (a, words.length) p)
    (hb : baseSize I (blit s.mem a words) a = words.length)
    (hm : blit s.mem a words a &&& ~~~pointerMask = 0 ∨ fixed (blit s.mem a words) a = true) :
    Inv I { mem := blit s.mem a words
            place := fun j => if j = i then some (a, words.length) else s.place j
            made := i :: s.made } out := by
  have hne : ∀ j p, s.place j = some p → j ≠ i := fun j p hj he => hi (he ▸ h.made j p hj)
  have hframe : ∀ j b n, s.place j = some (b, n) → ∀ x, b ≤ x → x < b + n → blit s.mem a words x = s.mem x := by
    intro j b n hj x h1 h2
    have := happ j _ hj
    simp only [Apart] at this
    simp only [blit]
    rw [if_neg]
    omega
  have hmk : marks (blit s.mem a words a) ≠ 2#64 := by
    rcases hm with e | e
    · rw [show marks (blit s.mem a words a) = 0 from e]; decide
    · rw [fixed_iff.1 e]; decide
  refine ⟨?_, ?_, ?_, ?_, ?_, ?_⟩
  · intro j k p q hjk hj hk
    simp only at hj hk
    by_cases hji : j = i
    · rw [if_pos hji] at hj; cases hj
      by_cases hki : k = i
      · exact absurd (hji.trans hki.symm) hjk
      · rw [if_neg hki] at hk; exact happ k q hk
    · rw [if_neg hji] at hj
      by_cases hki : k = i
      · rw [if_pos hki] at hk; cases hk
        rcases happ j p hj with e | e
        · exact Or.inr e
        · exact Or.inl e
      · rw [if_neg hki] at hk; exact h.apart j k p q hjk hj hk
  · intro j b n hj
    simp only at hj
    by_cases hji : j = i
    · rw [if_pos hji] at hj; cases hj
      simp only
      rw [extendedSize_of, if_neg hmk, hb]; exact Nat.le_refl _
    · rw [if_neg hji] at hj
      simp only
      rw [(frame hI (h.room j b n hj) (hframe j b n hj)).2.1]; exact h.room j b n hj
  · intro j b n hj
    simp only at hj
    by_cases hji : j = i
    · rw [if_pos hji] at hj; cases hj
      rcases hm with e | e
      · exact Or.inl e
      · exact Or.inr (Or.inr (Or.inr (fixed_iff.1 e)))
    · rw [if_neg hji] at hj
      simp only
      rw [(frame hI (h.room j b n hj) (hframe j b n hj)).2.2.2]; exact h.known j b n hj
  · intro j p hj
    simp only at hj ⊢
    by_cases hji : j = i
    · rw [hji]; exact List.mem_cons_self ..
    · rw [if_neg hji] at hj; exact List.mem_cons_of_mem _ (h.made j p hj)
  · intro j hh hj; exact List.mem_cons_of_mem _ (h.asked j hh hj)
  · intro j hh b n ho hj
    simp only at hj
    by_cases hji : j = i
    · subst hji; exact absurd (h.asked j hh ho) hi
    · rw [if_neg hji] at hj
      have f := frame hI (h.room j b n hj) (hframe j b n hj)
      simp only
      rw [f.2.2.1, f.2.2.2]
      exact h.same j hh b n ho hj

/-- Changing the marks or the class pointer of a header, when the class stays of the same shape
and the extension mark is not touched. -/
theorem hash_header {I : Word → Info} (hI : Sane I) {m : Mem} {a : Nat} {w : Word}
    (hc : I (w &&& pointerMask) = I (classOf m a)) (hm : marks w = 2#64 ↔ marks (m a) = 2#64) :
    hashOf I (put m a w) a = hashOf I m a ∧ extendedSize I (put m a w) a = extendedSize I m a := by
  have hb : baseSize I (put m a w) a = baseSize I m a := by
    unfold baseSize
    simp only [classOf, put_same]
    rw [hc]
    simp only [classOf]
    by_cases he : 0 < (I (m a &&& pointerMask)).elementSize
    · have := (hI (m a &&& pointerMask)).2 he
      simp only [he, if_true]
      rw [put_other (by omega)]
    · simp only [he, if_false]
  have hp := baseSize_pos hI m a
  constructor
  · by_cases he : marks (m a) = 2#64
    · rw [hashOf_ext he, hashOf_ext (by rw [put_same]; exact hm.2 he), hb, put_other (by omega)]
    · rw [hashOf_plain he, hashOf_plain (by rw [put_same]; exact fun h => he (hm.1 h))]
  · rw [extendedSize_of, extendedSize_of, hb, put_same]
    simp only [hm]

/-- What the collector's copy of an object looks like. -/
theorem copy_spec {I : Word → Info} (hI : Sane I) {m : Mem} {a d : Nat} (hk : Known (m a))
    (hf : fixed m a = false) (hd : Apart (d, copiedSize I m a) (a, extendedSize I m a)) :
    baseSize I (copy I m a d) d = baseSize I m a ∧
    (marks (m a) = 0 → marks (copy I m a d d) = 0) ∧
    (marks (m a) ≠ 0 → marks (copy I m a d d) = 2#64 ∧ hashOf I (copy I m a d) d = hashOf I m a) ∧
    extendedSize I (copy I m a d) d = copiedSize I m a ∧
    classOf (copy I m a d) d = classOf m a ∧
    (∀ k, 0 < k → k < baseSize I m a → copy I m a d (d + k) = m (a + k)) ∧
    (∀ x, (x < d ∨ d + copiedSize I m a ≤ x) → x ≠ a → copy I m a d x = m x) := by
  have hp := baseSize_pos hI m a
  have hcs := copiedSize_of (I := I) (m := m) (o := a)
  have hes := extendedSize_of (I := I) (m := m) (o := a)
  have hn3 : marks (m a) ≠ 3#64 := fun h => by rw [fixed_iff.2 h] at hf; cases hf
  simp only [Apart] at hd
  have hda : d ≠ a := by
    intro he
    rcases hd with e | e
    · omega
    · omega
  by_cases ht : marks (m a) = 1#64
  · -- the hash code was taken: it goes into an extra word
    have htk : taken m a = true := taken_iff.2 ht
    rw [if_pos (Or.inr ht)] at hcs
    rw [if_neg (by rw [ht]; decide)] at hes
    rw [hcs, hes] at hd
    have hcopy : ∀ x, copy I m a d x =
        if x = a then BitVec.ofNat 64 (8 * d)
        else if x = d + baseSize I m a then (takeHash a).setWidth 64
        else if x = d then m a &&& pointerMask ||| extendedMark
        else if d ≤ x ∧ x < d + baseSize I m a then m (a + (x - d)) else m x := by
      intro x
      simp only [copy, htk, if_true, put, hes, Nat.add_zero, memcpy]
      by_cases h1 : x = a
      · simp only [if_pos h1]
      · simp only [if_neg h1]
        by_cases h2 : x = d + baseSize I m a
        · simp only [if_pos h2]
        · simp only [if_neg h2]
          by_cases h3 : x = d
          · simp only [if_pos h3]
            rw [if_pos (by omega)]
            simp
          · simp only [if_neg h3]
    have e0 : copy I m a d d = m a &&& pointerMask ||| extendedMark := by
      rw [hcopy, if_neg hda, if_neg (by omega), if_pos rfl]
    have ek : ∀ k, 0 < k → k < baseSize I m a → copy I m a d (d + k) = m (a + k) := by
      intro k h1 h2
      rw [hcopy, if_neg (by omega), if_neg (by omega), if_neg (by omega), if_pos (by omega)]
      rw [Nat.add_sub_cancel_left]
    have ec : classOf (copy I m a d) d = classOf m a := by
      simp only [classOf, e0]
      rw [class_or, class_class, show extendedMark &&& pointerMask = 0 from by decide]
      simp
    have em : marks (copy I m a d d) = 2#64 := by
      rw [e0, marks_or, marks_class]; decide
    have eb : baseSize I (copy I m a d) d = baseSize I m a := baseSize_congr hI ec ek
    refine ⟨eb, (fun h => by rw [ht] at h; exact absurd h (by decide)), ?_, ?_, ec, ek, ?_⟩
    · intro _
      refine ⟨em, ?_⟩
      rw [hashOf_ext em, hashOf_plain (by rw [ht]; decide), eb, hcopy, if_neg (by omega), if_pos rfl]
      exact takeHash_roundtrip a
    · rw [extendedSize_of, if_pos em, eb, hcs]
    · intro x hx hxa
      rw [hcs] at hx
      rw [hcopy, if_neg hxa, if_neg (by omega), if_neg (by omega), if_neg (by omega)]
  · have htk : taken m a = false := by
      cases he : taken m a
      · rfl
      · exact absurd (taken_iff.1 he) ht
    have hceq : copiedSize I m a = extendedSize I m a := by
      rw [hcs, hes]; simp only [ht, or_false]
    rw [hceq] at hd ⊢
    have hcopy : ∀ x, copy I m a d x =
        if x = a then BitVec.ofNat 64 (8 * d)
        else if d ≤ x ∧ x < d + extendedSize I m a then m (a + (x - d)) else m x := by
      intro x
      simp only [copy, htk, Bool.false_eq_true, if_false, put, memcpy]
    have hbe : baseSize I m a ≤ extendedSize I m a := by rw [hes]; exact Nat.le_add_right _ _
    have e0 : copy I m a d d = m a := by
      rw [hcopy, if_neg hda, if_pos (by omega)]
      simp
    have ek : ∀ k, 0 < k → k < extendedSize I m a → copy I m a d (d + k) = m (a + k) := by
      intro k h1 h2
      rw [hcopy, if_neg (by omega), if_pos (by omega), Nat.add_sub_cancel_left]
    have ec : classOf (copy I m a d) d = classOf m a := by simp only [classOf, e0]
    have eb : baseSize I (copy I m a d) d = baseSize I m a :=
      baseSize_congr hI ec (fun k h1 h2 => ek k h1 (by omega))
    refine ⟨eb, (fun h => by rw [e0]; exact h), ?_, ?_, ec, (fun k h1 h2 => ek k h1 (by omega)), ?_⟩
    · intro hne
      have h2 : marks (m a) = 2#64 := by
        rcases hk with e | e | e | e
        · exact absurd e hne
        · exact absurd e ht
        · exact e
        · exact absurd e hn3
      refine ⟨by rw [e0]; exact h2, ?_⟩
      rw [hashOf_ext h2, hashOf_ext (by rw [e0]; exact h2), eb]
      rw [ek _ hp]
      rw [hes, if_pos h2]; omega
    · rw [extendedSize_of, e0, eb, ← hes]
    · intro x hx hxa
      rw [hcopy, if_neg hxa, if_neg (by omega)]

theorem inv_step {I : Word → Info} (hI : Sane I) {s s' : St} {out : List (Nat × BitVec 32)} {op : Op}
    {r : Option (BitVec 32)} (h : Inv I s out) (hs : Step I op s r s') : Inv I s' out := by
  cases hs with
  | alloc h1 h2 h3 => exact inv_alloc hI h h1 h2 h3.1 h3.2
  | @hash _ i a n hpl =>
    have hr := h.room i a n hpl
    have hp := baseSize_pos hI s.mem a
    have hes := extendedSize_of (I := I) (m := s.mem) (o := a)
    by_cases he : marks (s.mem a) = 2#64
    · have : (objectHash I s.mem a).1 = s.mem := by simp only [objectHash, extended_iff.2 he, if_true]
      rw [this]; exact h
    · have hne : extended s.mem a = false := by
        cases hx : extended s.mem a
        · rfl
        · exact absurd (extended_iff.1 hx) he
      by_cases hf : fixed s.mem a = true
      · have : (objectHash I s.mem a).1 = s.mem := by
          simp only [objectHash, hne, Bool.false_eq_true, if_false, hf, if_true]
        rw [this]; exact h
      · have hm' : (objectHash I s.mem a).1 = put s.mem a (s.mem a ||| hashTakenMark) := by
          simp only [objectHash, hne, Bool.false_eq_true, if_false, hf]
          rfl
        rw [hm']
        have hmk : marks (s.mem a ||| hashTakenMark) = 1#64 := by
          rw [marks_or]
          rcases h.known i a n hpl with e | e | e | e
          · rw [e]; decide
          · rw [e]; decide
          · exact absurd e he
          · exact absurd (fixed_iff.2 e) hf
        have hh := hash_header hI (m := s.mem) (a := a) (w := s.mem a ||| hashTakenMark)
          (by rw [class_or, show hashTakenMark &&& pointerMask = 0 from by decide]; simp [classOf])
          (by
            constructor
            · intro h; rw [hmk] at h; exact absurd h (by decide)
            · intro h; exact absurd h he)
        refine inv_local hI (i := i) h rfl (fun _ _ => rfl) ?_ ?_ ?_
        · intro j b k hji hj x h1 h2
          have := h.apart i j _ _ (Ne.symm hji) hpl hj
          simp only [Apart] at this
          exact put_other (by omega)
        · intro j p q hji hp hq; exact h.apart i j p q (Ne.symm hji) hp hq
        · intro b k hb
          simp only at hb
          rw [hpl] at hb; cases hb
          refine ⟨⟨_, hpl⟩, by simp only; rw [hh.2]; exact hr, ?_, ?_⟩
          · simp only [put_same]; exact Or.inr (Or.inl hmk)
          · intro v hv
            simp only [put_same]
            rw [hh.1, hmk]
            exact ⟨(h.same i v a n hv hpl).1, by decide⟩
  | @write _ i a n k v hpl hk hkb hbs =>
    have hr := h.room i a n hpl
    have hes := extendedSize_of (I := I) (m := s.mem) (o := a)
    have h0 : put s.mem (a + k) v a = s.mem a := put_other (by omega)
    refine inv_local hI (i := i) h rfl (fun _ _ => rfl) ?_ ?_ ?_
    · intro j b l hji hj x h1 h2
      have := h.apart i j _ _ (Ne.symm hji) hpl hj
      simp only [Apart] at this
      exact put_other (by omega)
    · intro j p q hji hp hq; exact h.apart i j p q (Ne.symm hji) hp hq
    · intro b l hb
      simp only at hb
      rw [hpl] at hb; cases hb
      refine ⟨⟨_, hpl⟩, ?_, ?_, ?_⟩
      · simp only; rw [extendedSize_of, hbs, h0, ← hes]; exact hr
      · simp only [h0]; exact h.known i a n hpl
      · intro w hw
        simp only [h0]
        obtain ⟨g1, g2⟩ := h.same i w a n hw hpl
        refine ⟨?_, g2⟩
        by_cases he : marks (s.mem a) = 2#64
        · rw [hashOf_ext (by rw [h0]; exact he), hbs, put_other (by omega), ← hashOf_ext he]; exact g1
        · rw [hashOf_plain (by rw [h0]; exact he), ← hashOf_plain (I := I) he]; exact g1
  | @redirect _ i a n c hpl hc hinfo =>
    have hr := h.room i a n hpl
    have hp := baseSize_pos hI s.mem a
    have hes := extendedSize_of (I := I) (m := s.mem) (o := a)
    have hmk : marks (c ||| (s.mem a &&& ~~~pointerMask)) = marks (s.mem a) := by
      rw [marks_or, ← hc, marks_class]
      simp only [show s.mem a &&& ~~~pointerMask = marks (s.mem a) from rfl, marks_marks]
      simp
    have hcl : (c ||| (s.mem a &&& ~~~pointerMask)) &&& pointerMask = c := by
      rw [class_or, hc, show s.mem a &&& ~~~pointerMask = marks (s.mem a) from rfl, class_marks]
      simp
    have hh := hash_header hI (m := s.mem) (a := a) (w := c ||| (s.mem a &&& ~~~pointerMask))
      (by rw [hcl]; exact hinfo) (by rw [hmk])
    refine inv_local hI (i := i) h rfl (fun _ _ => rfl) ?_ ?_ ?_
    · intro j b k hji hj x h1 h2
      have := h.apart i j _ _ (Ne.symm hji) hpl hj
      simp only [Apart] at this
      exact put_other (by omega)
    · intro j p q hji hp hq; exact h.apart i j p q (Ne.symm hji) hp hq
    · intro b k hb
      simp only at hb
      rw [hpl] at hb; cases hb
      refine ⟨⟨_, hpl⟩, by simp only [setClass]; rw [hh.2]; exact hr, ?_, ?_⟩
      · simp only [setClass, put_same, Known, hmk]; exact h.known i a n hpl
      · intro v hv
        simp only [setClass, put_same]
        rw [hh.1, hmk]
        exact h.same i v a n hv hpl
  | @move _ i a n d hpl hf happ =>
    have hr := h.room i a n hpl
    have hp := baseSize_pos hI s.mem a
    have hes := extendedSize_of (I := I) (m := s.mem) (o := a)
    have hmine := happ i _ hpl
    have cs := copy_spec hI (d := d) (h.known i a n hpl) hf (by
      simp only [Apart] at hmine ⊢
      omega)
    obtain ⟨c1, c2, c3, c4, c5, c6, c7⟩ := cs
    refine inv_local hI (i := i) h rfl (fun j hj => by simp only [if_neg hj]) ?_ ?_ ?_
    · intro j b k hji hj x h1 h2
      have g1 := h.apart i j _ _ (Ne.symm hji) hpl hj
      have g2 := happ j _ hj
      simp only [Apart] at g1 g2
      exact c7 x (by omega) (by omega)
    · intro j p q hji hp hq
      simp only [if_true] at hp
      cases hp
      exact happ j q hq
    · intro b k hb
      simp only [if_true] at hb
      cases hb
      refine ⟨⟨_, hpl⟩, by simp only; rw [c4]; exact Nat.le_refl _, ?_, ?_⟩
      · simp only
        by_cases h0 : marks (s.mem a) = 0
        · exact Or.inl (c2 h0)
        · exact Or.inr (Or.inr (Or.inl (c3 h0).1))
      · intro v hv
        obtain ⟨g1, g2⟩ := h.same i v a n hv hpl
        obtain ⟨e1, e2⟩ := c3 g2
        simp only
        rw [e2, e1]
        exact ⟨g1, by decide⟩
  | @free _ i =>
    refine inv_local hI (i := i) h rfl (fun j hj => by simp only [if_neg hj]) (fun _ _ _ _ _ _ _ _ => rfl) ?_ ?_
    · intro j p q _ hp; simp only [if_true] at hp; cases hp
    · intro b k hb; simp only [if_true] at hb; cases hb
  | @noise _ a v happ =>
    have hfr : ∀ j b n, s.place j = some (b, n) → ∀ x, b ≤ x → x < b + n → put s.mem a v x = s.mem x := by
      intro j b n hj x h1 h2
      have := happ j _ hj
      simp only [Apart] at this
      exact put_other (by omega)
    refine ⟨h.apart, ?_, ?_, h.made, h.asked, ?_⟩
    · intro j b n hj
      simp only
      rw [(frame hI (h.room j b n hj) (hfr j b n hj)).2.1]; exact h.room j b n hj
    · intro j b n hj
      simp only
      rw [(frame hI (h.room j b n hj) (hfr j b n hj)).2.2.2]; exact h.known j b n hj
    · intro j hh b n ho hj
      have f := frame hI (h.room j b n hj) (hfr j b n hj)
      simp only
      rw [f.2.2.1, f.2.2.2]
      exact h.same j hh b n ho hj

theorem run_inv {I : Word → Info} (hI : Sane I) {s : St} {out : List (Nat × BitVec 32)}
    (h : Run I s out) : Inv I s out ∧ ∀ i v w, (i, v) ∈ out → (i, w) ∈ out → v = w := by
  induction h with
  | start =>
    refine ⟨⟨?_, ?_, ?_, ?_, ?_, ?_⟩, ?_⟩
    · intro _ _ _ _ _ h; cases h
    · intro _ _ _ h; cases h
    · intro _ _ _ h; cases h
    · intro _ _ h; cases h
    · intro _ _ h; cases h
    · intro _ _ _ _ h; cases h
    · intro _ _ _ h; cases h
  | step _ hs ih => exact ⟨inv_step hI ih.1 hs, ih.2⟩
  | @hash s out i v s' _ hs ih =>
    obtain ⟨ih, iu⟩ := ih
    have hi' := inv_step hI ih hs
    cases hs with
    | @hash _ _ a n hpl =>
      have hnow : ∀ w, (i, w) ∈ out → w = (objectHash I s.mem a).2 :=
        fun w hw => ((ih.same i w a n hw hpl).1).symm
      refine ⟨⟨hi'.apart, hi'.room, hi'.known, hi'.made, ?_, ?_⟩, ?_⟩
      · intro j w hw
        rcases List.mem_cons.1 hw with e | e
        · cases e; exact ih.made i _ hpl
        · exact hi'.asked j w e
      · intro j w b k hw hb
        rcases List.mem_cons.1 hw with e | e
        · cases e
          simp only at hb
          rw [hpl] at hb; cases hb
          simp only
          by_cases he : marks (s.mem a) = 2#64
          · have : (objectHash I s.mem a).1 = s.mem := by simp only [objectHash, extended_iff.2 he, if_true]
            rw [this, he]
            exact ⟨rfl, by decide⟩
          · have hne : extended s.mem a = false := by
              cases hx : extended s.mem a
              · rfl
              · exact absurd (extended_iff.1 hx) he
            have hval : (objectHash I s.mem a).2 = takeHash a := hashOf_plain he
            by_cases hf : fixed s.mem a = true
            · have : (objectHash I s.mem a).1 = s.mem := by
                simp only [objectHash, hne, Bool.false_eq_true, if_false, hf, if_true]
              rw [this, fixed_iff.1 hf]
              exact ⟨rfl, by decide⟩
            · have hm' : (objectHash I s.mem a).1 = put s.mem a (s.mem a ||| hashTakenMark) := by
                simp only [objectHash, hne, Bool.false_eq_true, if_false, hf]
                rfl
              have hmk : marks (s.mem a ||| hashTakenMark) = 1#64 := by
                rw [marks_or]
                rcases ih.known i a n hpl with e | e | e | e
                · rw [e]; decide
                · rw [e]; decide
                · exact absurd e he
                · exact absurd (fixed_iff.2 e) hf
              rw [hm', put_same, hmk, hashOf_plain (by rw [put_same, hmk]; decide), hval]
              exact ⟨rfl, by decide⟩
        · exact hi'.same j w b k e hb
      · intro j x y hx hy
        rcases List.mem_cons.1 hx with e1 | e1 <;> rcases List.mem_cons.1 hy with e2 | e2
        · cases e1; cases e2; rfl
        · cases e1; exact (hnow y e2).symm
        · cases e2; exact hnow x e1
        · exact iu j x y e1 e2

/-! ### C37 -/

/-- **C37.** In every history of allocations, stores, moves and hash requests, all hash codes
handed out for one object are equal. -/
theorem hash_never_changes {I : Word → Info} (hI : Sane I) {s : St} {out : List (Nat × BitVec 32)}
    (h : Run I s out) (i : Nat) (v w : BitVec 32) (hv : (i, v) ∈ out) (hw : (i, w) ∈ out) : v = w :=
  (run_inv hI h).2 i v w hv hw

/-- **C37 (room).** At any time the memory given to an object holds all of it, including the word
that keeps its hash code after a move, and no two objects overlap. -/
theorem room_for_hash {I : Word → Info} (hI : Sane I) {s : St} {out : List (Nat × BitVec 32)}
    (h : Run I s out) (i a n : Nat) (hi : s.place i = some (a, n)) :
    baseSize I s.mem a + (if extended s.mem a = true then 1 else 0) ≤ n ∧
    ∀ j p, j ≠ i → s.place j = some p → Apart (a, n) p := by
  obtain ⟨hh, _⟩ := run_inv hI h
  refine ⟨hh.room i a n hi, ?_⟩
  intro j p hj hp
  exact hh.apart i j _ _ (Ne.symm hj) hi hp

/-- **C37 (non-negative).** A hash code made from an address has its top bit clear, as the code's
comment promises. -/
theorem takeHash_nonneg (o : Nat) : (takeHash o).msb = false := by
  have : (takeHash o).toNat < 2 ^ 31 := by
    simp only [takeHash, BitVec.toNat_setWidth, BitVec.toNat_and]
    have : (BitVec.ofNat 64 (8 * o) / 8#64).toNat &&& (0x7FFFFFFF#64).toNat ≤ (0x7FFFFFFF#64).toNat :=
      Nat.and_le_right
    have h2 : (0x7FFFFFFF#64).toNat = 2 ^ 31 - 1 := by decide
    omega
  rw [BitVec.msb_eq_false_iff_two_mul_lt]
  omega

/-- **C37 (moves keep contents).** The collector's copy has the class and all the fields of the
original. -/
theorem move_keeps_contents {I : Word → Info} (hI : Sane I) {s s' : St} {out : List (Nat × BitVec 32)}
    (h : Run I s out) {i a n d : Nat} (hi : s.place i = some (a, n))
    (hs : Step I (.move i d) s none s') :
    ∃ k, s'.place i = some (d, k) ∧ classOf s'.mem d = classOf s.mem a ∧
      baseSize I s'.mem d = baseSize I s.mem a ∧
      ∀ x, 0 < x → x < baseSize I s.mem a → s'.mem (d + x) = s.mem (a + x) := by
  obtain ⟨hh, _⟩ := run_inv hI h
  cases hs with
  | @move _ _ a' n' _ hpl hf happ =>
    rw [hi] at hpl; cases hpl
    have hr := hh.room i a n hi
    have hmine := happ i _ hi
    obtain ⟨c1, _, _, _, c5, c6, _⟩ := copy_spec hI (d := d) (hh.known i a n hi) hf (by
      simp only [Apart] at hmine ⊢
      omega)
    exact ⟨copiedSize I s.mem a, by simp, c5, c1, c6⟩

/-! ### C38 -/

/-- What a clone must be: the class and contents of the original, header marks that say what is
true of the new object — no hash taken, not extended, non-moving exactly if it was allocated as
such — and the original and all other memory unchanged. -/
structure GoodClone (I : Word → Info) (m m' : Mem) (o dst : Nat) : Prop where
  sameClass : classOf m' dst = classOf m o
  contents : ∀ k, 0 < k → k < baseSize I m o → m' (dst + k) = m (o + k)
  size : extendedSize I m' dst = baseSize I m o
  header : marks (m' dst) = if threadHeapSizeInWords < baseSize I m o then fixedMark else 0
  frame : ∀ x, (x < dst ∨ dst + baseSize I m o ≤ x) → m' x = m x

/-- **C38 (instances).** Cloning an instance yields a good clone, whatever the header of the
original says. -/
theorem clone_instance {I : Word → Info} (hI : Sane I) (m : Mem) (o dst : Nat)
    (hd : Apart (dst, baseSize I m o) (o, baseSize I m o)) :
    GoodClone I m (cloneInstance I m o dst) o dst := by
  have hp := baseSize_pos hI m o
  simp only [Apart] at hd
  have hall : ∀ x, cloneInstance I m o dst x =
      if dst + 1 ≤ x ∧ x < dst + baseSize I m o then m (o + (x - dst))
      else if x = dst then classOf m o ||| marks (if threadHeapSizeInWords < baseSize I m o then fixedMark else 0)
      else m x := by
    intro x
    simp only [cloneInstance, memcpy, setClass, put, allocate, marks]
    by_cases h1 : dst + 1 ≤ x ∧ x < dst + baseSize I m o
    · rw [if_pos (by omega), if_pos h1, if_neg (by omega), if_neg (by omega), if_neg (by omega)]
      congr 1
      omega
    · rw [if_neg (by omega), if_neg h1]
      by_cases h2 : x = dst
      · simp only [h2, if_true]
      · rw [if_neg h2, if_neg h2, if_neg h2, if_neg (by omega)]
  have h0 : cloneInstance I m o dst dst =
      classOf m o ||| marks (if threadHeapSizeInWords < baseSize I m o then fixedMark else 0) := by
    rw [hall, if_neg (by omega), if_pos rfl]
  have hk : ∀ k, 0 < k → k < baseSize I m o → cloneInstance I m o dst (dst + k) = m (o + k) := by
    intro k h1 h2
    rw [hall, if_pos (by omega), Nat.add_sub_cancel_left]
  have hc : classOf (cloneInstance I m o dst) dst = classOf m o := by
    simp only [classOf, h0]
    rw [class_or, class_class, class_marks]; simp
  have hm : marks (cloneInstance I m o dst dst) =
      if threadHeapSizeInWords < baseSize I m o then fixedMark else 0 := by
    rw [h0, marks_or, classOf, marks_class, marks_marks]
    split <;> decide
  have hb := baseSize_congr hI hc hk
  refine ⟨hc, hk, ?_, hm, ?_⟩
  · rw [extendedSize_of, hb, hm, if_neg]
    · rfl
    · split <;> decide
  · intro x hx
    rw [hall, if_neg (by omega), if_neg (by omega)]

/-- The full statement for arrays. -/
def CloneArrayGood (I : Word → Info) : Prop :=
  ∀ (m : Mem) (o dst : Nat), Known (m o) → Apart (dst, baseSize I m o) (o, extendedSize I m o) →
    GoodClone I m (cloneArray I m o dst) o dst

/-- **C38 (arrays), partial.** Cloning an array yields a good clone if the original's own marks are
already those a fresh array of that size has: its hash code was never taken and it is non-moving
only if it is large.  Missing: arrays with any other header. -/
theorem clone_array_partial {I : Word → Info} (hI : Sane I) (m : Mem) (o dst : Nat)
    (hd : Apart (dst, baseSize I m o) (o, extendedSize I m o))
    (hm : marks (m o) = if threadHeapSizeInWords < baseSize I m o then fixedMark else 0) :
    GoodClone I m (cloneArray I m o dst) o dst := by
  have hp := baseSize_pos hI m o
  have hes := extendedSize_of (I := I) (m := m) (o := o)
  simp only [Apart] at hd
  have hall : ∀ x, cloneArray I m o dst x =
      if dst ≤ x ∧ x < dst + baseSize I m o then m (o + (x - dst)) else m x := by
    intro x
    have ho : memcpy m dst o (baseSize I m o) o = m o := by
      simp only [memcpy]; rw [if_neg (by omega)]
    simp only [cloneArray, setClass, put, classOf, ho]
    by_cases hx : x = o
    · rw [if_pos hx, if_neg (by omega), hx, ← BitVec.and_or_distrib_left]
      rw [show pointerMask ||| ~~~pointerMask = BitVec.allOnes 64 from by decide]
      exact BitVec.and_allOnes
    · rw [if_neg hx]; rfl
  have h0 : cloneArray I m o dst dst = m o := by
    rw [hall, if_pos (by omega)]; simp
  have hk : ∀ k, 0 < k → k < baseSize I m o → cloneArray I m o dst (dst + k) = m (o + k) := by
    intro k h1 h2
    rw [hall, if_pos (by omega), Nat.add_sub_cancel_left]
  have hc : classOf (cloneArray I m o dst) dst = classOf m o := by simp only [classOf, h0]
  refine ⟨hc, hk, ?_, by rw [h0]; exact hm, ?_⟩
  · rw [extendedSize_of, baseSize_congr hI hc hk, h0, hm, if_neg]
    · rfl
    · split <;> decide
  · intro x hx
    rw [hall, if_neg (by omega)]

/-- A class table with one array class: elements of 8 bytes. -/
def arrays : Word → Info := fun _ => { fixedSize := 16, elementSize := 8 }

theorem arrays_sane : Sane arrays := by
  intro c; simp [arrays]

/-- An array of one element at word 100, with the given marks, class pointer 64; its memory is
three words, and a fourth when extended. -/
def array1 (mk : Word) : Mem := fun x =>
  if x = 100 then 64#64 ||| mk else if x = 101 then 1#64 else if x = 102 then 7#64
  else if x = 103 then 1234#64 else 0

/-- **Finding (C38).** After the hash code of an array was taken and the array was moved by the
collector, its clone is marked as extended although it was given no extra word: it claims one word
more than it has, and its hash code is whatever the next object holds there. -/
theorem clone_extended_array_claims_memory :
    let m' := cloneArray arrays (array1 extendedMark) 100 200
    extended m' 200 = true ∧ baseSize arrays m' 200 = 3 ∧ extendedSize arrays m' 200 = 4 ∧
      ∀ v : Word, hashOf arrays (put m' 203 v) 200 = v.setWidth 32 := by
  refine ⟨by decide +kernel, by decide +kernel, by decide +kernel, ?_⟩
  intro v
  have h0 : put (cloneArray arrays (array1 extendedMark) 100 200) 203 v 200 = 66#64 := by
    rw [put_other (by decide)]; decide +kernel
  have h1 : put (cloneArray arrays (array1 extendedMark) 100 200) 203 v 201 = 1#64 := by
    rw [put_other (by decide)]; decide +kernel
  have hb : baseSize arrays (put (cloneArray arrays (array1 extendedMark) 100 200) 203 v) 200 = 3 := by
    simp only [baseSize, arrays]
    rw [show 200 + (16 / 8 - 1) = 201 from rfl, h1]; rfl
  rw [hashOf_ext (by rw [h0]; decide), hb]
  exact congrArg _ put_same

/-- **Finding (C38).** The clone of a small array that was allocated as non-moving claims to be
non-moving although it is in the moving heap. -/
theorem clone_small_fixed_array_claims_fixed :
    fixed (cloneArray arrays (array1 fixedMark) 100 200) 200 = true ∧
      ¬ threadHeapSizeInWords < baseSize arrays (array1 fixedMark) 100 := by
  refine ⟨by decide +kernel, by decide +kernel⟩

/-- **Finding (C38).** The full statement is false. -/
theorem clone_array_not_good : ¬ CloneArrayGood arrays := by
  intro h
  have := (h (array1 extendedMark) 100 200 (Or.inr (Or.inr (Or.inl (by decide +kernel)))) (Or.inr (by decide +kernel))).header
  exact absurd this (by decide +kernel)

/-! ### Examples -/

/-- Taking the hash code of an array at word 100, moving it to word 300 and asking again. -/
def sample0 : St := { mem := fun _ => 0, place := fun _ => none, made := [] }
def sample1 : St :=
  { mem := blit sample0.mem 100 [64#64, 1#64, 7#64]
    place := fun j => if j = 1 then some (100, 3) else sample0.place j
    made := 1 :: sample0.made }
def sample2 : St := { sample1 with mem := (objectHash arrays sample1.mem 100).1 }
def sample3 : St :=
  { sample2 with
    mem := copy arrays sample2.mem 100 300
    place := fun j => if j = 1 then some (300, copiedSize arrays sample2.mem 100) else sample2.place j }
def sample4 : St := { sample3 with mem := (objectHash arrays sample3.mem 300).1 }

theorem sample_run : Run arrays sample4
    [(1, (objectHash arrays sample3.mem 300).2), (1, (objectHash arrays sample1.mem 100).2)] := by
  have h0 : Run arrays sample0 [] := Run.start
  have h1 : Run arrays sample1 [] := h0.step (op := .alloc 1 100 [64#64, 1#64, 7#64])
    (Step.alloc (by decide) (by intro j p hj; cases hj) ⟨by decide +kernel, Or.inl (by decide +kernel)⟩)
  have h2 : Run arrays sample2 _ := h1.hash (i := 1) (Step.hash (a := 100) (n := 3) rfl)
  have h3 : Run arrays sample3 _ := h2.step (op := .move 1 300)
    (Step.move (a := 100) (n := 3) rfl (by decide +kernel)
      (by
        intro j p hj
        simp only [sample2, sample1, sample0] at hj
        split at hj
        · cases hj; exact Or.inr (by decide +kernel)
        · cases hj))
  exact h3.hash (i := 1) (Step.hash (a := 300) (n := 4) (by
    show some (300, copiedSize arrays sample2.mem 100) = some (300, 4)
    decide +kernel))

/-- In this history the two codes are the one made from the first address, and the object had to
grow by a word. -/
example : (objectHash arrays sample3.mem 300).2 = takeHash 100 ∧ sample4.place 1 = some (300, 4) ∧
    takeHash 100 ≠ takeHash 300 := by
  refine ⟨by decide +kernel, ?_, by decide +kernel⟩
  show some (300, copiedSize arrays sample2.mem 100) = some (300, 4)
  decide +kernel

example : (objectHash arrays sample3.mem 300).2 = (objectHash arrays sample1.mem 100).2 :=
  hash_never_changes arrays_sane sample_run 1 _ _ (by simp) (by simp)

example : GoodClone arrays (array1 extendedMark) (cloneInstance arrays (array1 extendedMark) 100 200) 100 200 :=
  clone_instance arrays_sane _ _ _ (Or.inr (by decide +kernel))

example : GoodClone arrays (array1 0) (cloneArray arrays (array1 0) 100 200) 100 200 :=
  clone_array_partial arrays_sane _ _ _ (Or.inr (by decide +kernel)) (by decide +kernel)

end Avian.Header
