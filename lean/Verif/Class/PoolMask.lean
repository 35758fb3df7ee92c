import Verif.Class.Pool

/-
The two bit sets behind the values of a constant pool: which slots hold objects, which hold floating
point numbers.
-/
namespace Avian.ClassFile
open Avian.Stream

/-- Number of value words of a pool of `n` constants: the constants and the float bits. -/
def words (n : Nat) : Nat := n + poolMaskSizeFor n

/-- The pool has room for `n` constants; its object bits are `objs`, its float bits `floats`. -/
structure Masks (n : Nat) (p : Pool) (objs floats : Nat → Bool) : Prop where
  len : p.length = words n + singletonMaskSizeFor (words n)
  maskw : ∀ j, j < singletonMaskSizeFor (words n) → ∃ w, p.body (words n + j) = .raw w ∧
    ∀ b, b < 64 → 2 ≤ 64 * j + b → w.getLsbD b = objs (64 * j + b - 2)
  floatw : ∀ j, j < poolMaskSizeFor n → ∃ w, p.body (n + j) = .raw w ∧
    ∀ b, b < 64 → w.getLsbD b = floats (64 * j + b)
  out : ∀ i, n ≤ i → objs i = false

theorem sizes (n : Nat) (hn : n ≠ 0) :
    singletonMaskSizeFor n = (n + 2 + 63) / 64 := by
  simp [singletonMaskSizeFor, ceilingDivide, hn]

/-- C52: the number of mask words is recovered from the length, whatever the count. -/
theorem maskSize_recovered (n : Nat) (p : Pool) (h : p.length = n + singletonMaskSizeFor n) :
    p.maskSize = singletonMaskSizeFor n ∧ p.count = n := by
  have : p.maskSize = singletonMaskSizeFor n := by
    unfold Pool.maskSize
    by_cases hn : n = 0
    · subst hn
      have : p.length = 0 := by rw [h]; simp [singletonMaskSizeFor]
      simp [this, singletonMaskSizeFor]
    · rw [sizes n hn] at h ⊢
      rw [if_pos (by omega)]
      unfold ceilingDivide
      omega
  exact ⟨this, by unfold Pool.count; omega⟩

theorem words_eq (n : Nat) : words n = n + (n + 63) / 64 := by
  simp [words, poolMaskSizeFor, ceilingDivide]

theorem Masks.count {n p o f} (h : Masks n p o f) : p.count = words n :=
  (maskSize_recovered _ _ h.len).2

/-- The pool size is recovered too. -/
theorem Masks.poolSize {n p o f} (h : Masks n p o f) : p.poolSize = n := by
  unfold Pool.poolSize Pool.poolMaskSize ceilingDivide
  rw [h.count, words_eq]
  omega

theorem bit_index (i : Nat) : 32 * (i / 32 % 2) + i % 32 = i % 64 := by omega

theorem mask_space {n i : Nat} (h : i < words n) : (i + 2) / 64 < singletonMaskSizeFor (words n) := by
  rw [sizes _ (by omega)]; omega

private theorem one_bit (w : BitVec 64) (k : Nat) (hk : k < 64) :
    (w &&& (1#64 <<< k) ≠ 0#64) ↔ w.getLsbD k = true := by
  constructor
  · intro h
    cases hb : w.getLsbD k with
    | true => rfl
    | false =>
      refine absurd ?_ h
      apply BitVec.eq_of_getLsbD_eq
      intro i hi
      simp only [BitVec.getLsbD_and, BitVec.getLsbD_shiftLeft, BitVec.getLsbD_one,
        BitVec.getLsbD_zero]
      by_cases hik : i = k
      · subst hik; simp [hb]
      · have : ¬ (¬ i < k ∧ i - k = 0) := by omega
        simp; intros; omega
  · intro h e
    have := congrArg (fun v => BitVec.getLsbD v k) e
    simp [h] at this
    omega

private theorem one_bit32 (w : BitVec 32) (k : Nat) (hk : k < 32) :
    (w &&& (1#32 <<< k) ≠ 0#32) ↔ w.getLsbD k = true := by
  constructor
  · intro h
    cases hb : w.getLsbD k with
    | true => rfl
    | false =>
      refine absurd ?_ h
      apply BitVec.eq_of_getLsbD_eq
      intro i hi
      simp only [BitVec.getLsbD_and, BitVec.getLsbD_shiftLeft, BitVec.getLsbD_one,
        BitVec.getLsbD_zero]
      by_cases hik : i = k
      · subst hik; simp [hb]
      · simp; intros; omega
  · intro h e
    have := congrArg (fun v => BitVec.getLsbD v k) e
    simp [h] at this
    omega

theorem set_bit (w : BitVec 64) (k b : Nat) (hb : b < 64) :
    (w ||| (1#64 <<< k)).getLsbD b = (w.getLsbD b || decide (b = k)) := by
  simp only [BitVec.getLsbD_or, BitVec.getLsbD_shiftLeft, BitVec.getLsbD_one]
  congr 1
  by_cases h : b = k
  · subst h; simp [hb]
  · simp [h]; intros; omega

theorem set_bit32 (w : BitVec 64) (k b : Nat) (hb : b < 64) :
    (w ||| ((1#32 <<< (k % 32)).setWidth 64 <<< (32 * (k / 32 % 2)))).getLsbD b =
      (w.getLsbD b || decide (b = k % 64)) := by
  simp only [BitVec.getLsbD_or, BitVec.getLsbD_shiftLeft, BitVec.getLsbD_setWidth,
    BitVec.getLsbD_one]
  congr 1
  by_cases h : b = k % 64
  · subst h
    have h1 : ¬ (k % 64 < 32 * (k / 32 % 2)) := by omega
    have h2 : k % 64 - 32 * (k / 32 % 2) = k % 32 := by omega
    have h3 : k % 32 < 32 := by omega
    have h4 : k % 32 < 64 := by omega
    simp [hb, h1, h2, h3, h4]
  · simp [h]; intros; omega

theorem Masks.isObject {n p o f} (h : Masks n p o f) {i : Nat} (hi : i < words n) :
    p.isObject i = some (o i) := by
  have hc := h.count
  obtain ⟨w, hw, hb⟩ := h.maskw _ (mask_space hi)
  unfold Pool.isObject Pool.mask Pool.word
  rw [if_pos (by omega), hc, show (i + 2) / 32 / 2 = (i + 2) / 64 by omega,
    if_pos (by rw [h.len]; have := mask_space hi; omega), hw]
  simp only [Option.map_some, Option.some.injEq]
  have h1 := hb ((i + 2) % 64) (by omega) (by omega)
  rw [show 64 * ((i + 2) / 64) + (i + 2) % 64 - 2 = i by omega] at h1
  rw [← h1]
  have h2 := one_bit32 ((w >>> (32 * ((i + 2) / 32 % 2))).setWidth 32) ((i + 2) % 32) (by omega)
  have h3 : ((w >>> (32 * ((i + 2) / 32 % 2))).setWidth 32).getLsbD ((i + 2) % 32) =
      w.getLsbD ((i + 2) % 64) := by
    simp only [BitVec.getLsbD_setWidth, BitVec.getLsbD_ushiftRight, bit_index]
    have : (i + 2) % 32 < 32 := by omega
    simp [this]
  rw [h3] at h2
  rw [Bool.eq_iff_iff]
  simp only [decide_eq_true_eq]
  exact h2

/-- A write to a constant leaves the masks alone. -/
theorem Masks.store {n p o f} (h : Masks n p o f) {i : Nat} (hi : i < n) (w : Word) :
    ∃ p', p.store i w = some p' ∧ Masks n p' o f ∧ p'.body i = w ∧
      ∀ j, j ≠ i → p'.body j = p.body j := by
  have hlen : i < p.length := by rw [h.len]; unfold words; omega
  refine ⟨{ p with body := fun j => if j = i then w else p.body j }, by rw [Pool.store, if_pos hlen],
    ⟨h.len, ?_, ?_, h.out⟩, by simp, fun j hj => by simp [hj]⟩
  · intro j hj
    obtain ⟨v, hv, hb⟩ := h.maskw j hj
    exact ⟨v, by show (if _ then _ else _) = _
                 rw [if_neg (by unfold words; omega)]; exact hv, hb⟩
  · intro j hj
    obtain ⟨v, hv, hb⟩ := h.floatw j hj
    exact ⟨v, by show (if _ then _ else _) = _
                 rw [if_neg (by omega)]; exact hv, hb⟩

theorem Masks.mark {n p o f} (h : Masks n p o f) {i : Nat} (hi : i < n) :
    ∃ p', p.markObject i = some p' ∧ Masks n p' (fun j => o j || decide (j = i)) f ∧
      ∀ j, j < n → p'.body j = p.body j := by
  have hw0 : i < words n := by unfold words; omega
  obtain ⟨w, hw, hb⟩ := h.maskw _ (mask_space hw0)
  have hsp := mask_space hw0
  have hlen : words n + (i + 2) / 64 < p.length := by rw [h.len]; omega
  refine ⟨Pool.mk p.length (fun j => if j = words n + (i + 2) / 64 then
      Word.raw (w ||| ((1#32 <<< ((i + 2) % 32)).setWidth 64 <<< (32 * ((i + 2) / 32 % 2))))
      else p.body j), ?_, ⟨h.len, ?_, ?_, ?_⟩, ?_⟩
  · unfold Pool.markObject Pool.word Pool.store
    rw [h.count, show (i + 2) / 32 / 2 = (i + 2) / 64 by omega, if_pos hlen, hw,
      Option.bind_some, if_pos hlen]
  · intro j hj
    show ∃ w', (if words n + j = words n + (i + 2) / 64 then _ else _) = _ ∧ _
    by_cases hji : j = (i + 2) / 64
    · subst hji
      rw [if_pos rfl]
      refine ⟨_, rfl, fun b hb64 h2 => ?_⟩
      rw [set_bit32 w (i + 2) b hb64, hb b hb64 h2]
      congr 1
      rw [decide_eq_decide]; omega
    · rw [if_neg (by omega)]
      obtain ⟨v, hv, hb'⟩ := h.maskw j hj
      refine ⟨v, hv, fun b hb64 h2 => ?_⟩
      rw [hb' b hb64 h2]
      have : ¬ (64 * j + b - 2 = i) := by omega
      simp [this]
  · intro j hj
    obtain ⟨v, hv, hb'⟩ := h.floatw j hj
    refine ⟨v, ?_, hb'⟩
    show (if _ then _ else _) = _
    rw [if_neg (by unfold words; omega)]; exact hv
  · intro j hj
    have : ¬ j = i := by omega
    simp [h.out j hj, this]
  · intro j hj
    show (if _ then _ else _) = _
    rw [if_neg (by unfold words; omega)]

theorem float_space {n i : Nat} (h : i < n) : i / 64 < poolMaskSizeFor n := by
  unfold poolMaskSizeFor ceilingDivide; omega

theorem Masks.value {n p o f} (h : Masks n p o f) {j : Nat} {w : BitVec 64}
    (hj : j < words n) (ho : o j = false) (hw : p.body j = .raw w) : p.value j = some w := by
  unfold Pool.value Pool.word
  rw [h.isObject hj, Option.bind_some, ho]
  simp only [Bool.false_eq_true, if_false]
  rw [if_pos (by rw [h.len]; omega), hw]

theorem Masks.setBit {n p o f} (h : Masks n p o f) {i : Nat} (hi : i < n) :
    ∃ p', p.setBit n i = some p' ∧ Masks n p' o (fun j => f j || decide (j = i)) ∧
      ∀ j, j < n → p'.body j = p.body j := by
  obtain ⟨w, hw, hb⟩ := h.floatw _ (float_space hi)
  have hsp := float_space hi
  have hwd : n + i / 64 < words n := by unfold words; omega
  have hlen : n + i / 64 < p.length := by rw [h.len]; omega
  refine ⟨Pool.mk p.length (fun j => if j = n + i / 64 then
      Word.raw (w ||| (1#64 <<< (i % 64))) else p.body j), ?_, ⟨h.len, ?_, ?_, h.out⟩, ?_⟩
  · unfold Pool.setBit
    rw [h.value hwd (h.out _ (by omega)) hw, Option.bind_some, Pool.store, if_pos hlen]
  · intro j hj
    obtain ⟨v, hv, hb'⟩ := h.maskw j hj
    refine ⟨v, ?_, hb'⟩
    show (if _ then _ else _) = _
    rw [if_neg (by omega)]; exact hv
  · intro j hj
    show ∃ w', (if n + j = n + i / 64 then _ else _) = _ ∧ _
    by_cases hji : j = i / 64
    · subst hji
      rw [if_pos rfl]
      refine ⟨_, rfl, fun b hb64 => ?_⟩
      rw [set_bit w (i % 64) b hb64, hb b hb64]
      congr 1
      rw [decide_eq_decide]; omega
    · rw [if_neg (by omega)]
      obtain ⟨v, hv, hb'⟩ := h.floatw j hj
      refine ⟨v, hv, fun b hb64 => ?_⟩
      rw [hb' b hb64]
      have : ¬ (64 * j + b = i) := by omega
      simp [this]
  · intro j hj
    show (if _ then _ else _) = _
    rw [if_neg (by omega)]

theorem Masks.bit {n p o f} (h : Masks n p o f) {i : Nat} (hi : i < n) :
    p.bit n i = some (f i) := by
  obtain ⟨w, hw, hb⟩ := h.floatw _ (float_space hi)
  have hsp := float_space hi
  have hwd : n + i / 64 < words n := by unfold words; omega
  unfold Pool.bit
  rw [h.value hwd (h.out _ (by omega)) hw]
  simp only [Option.map_some, Option.some.injEq]
  have h1 := hb (i % 64) (by omega)
  rw [show 64 * (i / 64) + i % 64 = i by omega] at h1
  rw [← h1, Bool.eq_iff_iff]
  simp only [decide_eq_true_eq]
  exact one_bit w (i % 64) (by omega)

/-- A new pool: no objects, no floats, all constants zero. -/
theorem masks_new (n : Nat) : ∃ p, makeSingletonOfSize (n + poolMaskSizeFor n) = some p ∧
    Masks n p (fun _ => false) (fun _ => false) ∧ ∀ j, j < n → p.body j = .raw 0#64 := by
  obtain ⟨o, ho⟩ : ∃ o : Pool,
      o = Pool.mk (words n + singletonMaskSizeFor (words n)) (fun _ => Word.raw 0#64) := ⟨_, rfl⟩
  have hs := maskSize_recovered (words n) o (by rw [ho])
  have hm : makeSingletonOfSize (n + poolMaskSizeFor n) =
      (if o.length = words n + o.maskSize then
        if words n ≠ 0 then (o.word o.count).bind fun w =>
          o.store o.count (.raw (w &&& 0xFFFFFFFF00000000#64 ||| 1#64))
        else some o
      else none) := by rw [ho]; rfl
  rw [hm, hs.1, hs.2, if_pos (by rw [ho])]
  have h0 : ∀ j, o.body j = .raw 0#64 := fun j => by rw [ho]
  by_cases hn : words n = 0
  · rw [if_neg (by omega)]
    refine ⟨o, rfl, ⟨by rw [ho], ?_, ?_, fun _ _ => rfl⟩, fun j _ => h0 j⟩
    · intro j hj
      exact ⟨_, h0 _, fun b _ _ => by simp⟩
    · intro j hj
      exact ⟨_, h0 _, fun b _ => by simp⟩
  · rw [if_pos hn]
    have hlen : words n < o.length := by rw [ho, sizes _ hn]; show _ < words n + _; omega
    refine ⟨_, by simp only [Pool.word, if_pos hlen, h0, Option.bind_some, Pool.store]; rfl,
      ⟨by rw [ho], ?_, ?_, fun _ _ => rfl⟩, ?_⟩
    · intro j hj
      show ∃ w', (if words n + j = words n then _ else _) = _ ∧ _
      by_cases hj0 : j = 0
      · subst hj0
        rw [if_pos (Nat.add_zero _)]
        refine ⟨_, rfl, fun b hb h2 => ?_⟩
        have : ¬ b = 0 := by omega
        simp [BitVec.getLsbD_one, this]
      · rw [if_neg (by omega)]
        exact ⟨0#64, rfl, fun b _ _ => by simp⟩
    · intro j hj
      show ∃ w', (if n + j = words n then _ else _) = _ ∧ _
      rw [if_neg (by unfold words; omega)]
      exact ⟨0#64, rfl, fun b _ => by simp⟩
    · intro j hj
      show (if j = words n then _ else _) = _
      rw [if_neg (by unfold words; omega)]

end Avian.ClassFile
