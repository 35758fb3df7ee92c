import Verif.Interp.Machine
import Verif.Interp.Spec
/-
Agreement of the machine arithmetic of the interpreter with the integer arithmetic of the
specification.
-/
namespace Avian.Interp

open Spec

section
variable {w : Nat}

theorem ofInt_add_toInt (a b : BitVec w) : BitVec.ofInt w (a.toInt + b.toInt) = a + b := by
  rw [BitVec.ofInt_add, BitVec.ofInt_toInt, BitVec.ofInt_toInt]

theorem ofInt_mul_toInt (a b : BitVec w) : BitVec.ofInt w (a.toInt * b.toInt) = a * b := by
  rw [BitVec.ofInt_mul, BitVec.ofInt_toInt, BitVec.ofInt_toInt]

theorem ofInt_neg_toInt (a : BitVec w) : BitVec.ofInt w (-a.toInt) = -a := by
  rw [BitVec.ofInt_neg, BitVec.ofInt_toInt]

theorem ofInt_sub_toInt (a b : BitVec w) : BitVec.ofInt w (a.toInt - b.toInt) = a - b := by
  rw [Int.sub_eq_add_neg, BitVec.ofInt_add, BitVec.ofInt_neg, BitVec.ofInt_toInt,
    BitVec.ofInt_toInt, BitVec.sub_eq_add_neg]

theorem ofInt_tdiv (a b : BitVec w) : BitVec.ofInt w (a.toInt.tdiv b.toInt) = a.sdiv b := by
  apply BitVec.eq_of_toInt_eq
  rw [BitVec.toInt_ofInt, BitVec.toInt_sdiv]

theorem ofInt_tmod (a b : BitVec w) : BitVec.ofInt w (a.toInt.tmod b.toInt) = a.srem b := by
  rw [← BitVec.toInt_srem, BitVec.ofInt_toInt]

theorem ofInt_shl (a : BitVec w) (k : Nat) : BitVec.ofInt w (a.toInt * 2 ^ k) = a <<< k := by
  rw [BitVec.ofInt_mul, BitVec.ofInt_toInt, BitVec.shiftLeft_eq_mul_twoPow]
  congr 1
  apply BitVec.eq_of_toNat_eq
  rw [BitVec.toNat_ofInt, BitVec.toNat_twoPow]
  have : ((2 : Int) ^ k) = ((2 ^ k : Nat) : Int) := by simp
  rw [this, ← Int.natCast_emod, Int.toNat_natCast]

theorem ofInt_sshr (a : BitVec w) (k : Nat) : BitVec.ofInt w (a.toInt / 2 ^ k) = a.sshiftRight k := by
  have : ((2 : Int) ^ k) = ((2 ^ k : Nat) : Int) := by simp
  rw [this, ← Int.shiftRight_eq_div_pow, ← BitVec.toInt_sshiftRight, BitVec.ofInt_toInt]

theorem ofNat_ushr (a : BitVec w) (k : Nat) : BitVec.ofNat w (a.toNat / 2 ^ k) = a >>> k := by
  apply BitVec.eq_of_toNat_eq
  rw [BitVec.toNat_ofNat, BitVec.toNat_ushiftRight, Nat.shiftRight_eq_div_pow,
    Nat.mod_eq_of_lt]
  exact Nat.lt_of_le_of_lt (Nat.div_le_self _ _) a.isLt

theorem and_1f (b : BitVec 32) : (b &&& 0x1F#32).toNat = b.toNat % 32 := by
  rw [BitVec.toNat_and]
  exact Nat.and_two_pow_sub_one_eq_mod _ 5

theorem and_3f (b : BitVec 32) : (b &&& 0x3F#32).toNat = b.toNat % 64 := by
  rw [BitVec.toNat_and]
  exact Nat.and_two_pow_sub_one_eq_mod _ 6

theorem toInt_eq_zero {b : BitVec w} : b.toInt = 0 ↔ b = 0#w := by
  constructor
  · intro h; apply BitVec.eq_of_toInt_eq; simpa using h
  · rintro rfl; simp

theorem fneg32_eq (a : BitVec 32) : BitVec.ofNat 32 (a.toNat + 2 ^ 31) = fneg32 a := by
  unfold fneg32
  have : BitVec.ofNat 32 (a.toNat + 2 ^ 31) = a + BitVec.intMin 32 := by
    apply BitVec.eq_of_toNat_eq
    rw [BitVec.toNat_ofNat, BitVec.toNat_add]
    rfl
  rw [this]
  apply BitVec.eq_of_getLsbD_eq
  intro i hi
  have hh : BitVec.intMin 32 = BitVec.twoPow 32 31 := rfl
  rw [hh, BitVec.getLsbD_xor, BitVec.getLsbD_twoPow]
  by_cases h : i = 31
  · subst h
    have e1 := BitVec.msb_eq_getLsbD_last a
    have e2 := BitVec.msb_eq_getLsbD_last (a + BitVec.twoPow 32 31)
    simp only [Nat.reduceSub] at e1 e2
    rw [← e1, ← e2, BitVec.msb_eq_decide, BitVec.msb_eq_decide, BitVec.toNat_add]
    have := a.isLt
    have h2 : (BitVec.twoPow 32 31).toNat = 2 ^ 31 := rfl
    rw [h2]
    simp only [Nat.reduceSub, decide_true, Bool.and_true]
    by_cases hc : 2 ^ 31 ≤ a.toNat
    · have : ¬ 2 ^ 31 ≤ (a.toNat + 2 ^ 31) % 2 ^ 32 := by omega
      simp [hc, this]
    · have : 2 ^ 31 ≤ (a.toNat + 2 ^ 31) % 2 ^ 32 := by omega
      simp [hc, this]
  · have : (a + BitVec.twoPow 32 31).getLsbD i = a.getLsbD i := by
      rw [BitVec.getLsbD, BitVec.getLsbD, BitVec.toNat_add]
      have h2 : (BitVec.twoPow 32 31).toNat = 2 ^ 31 := rfl
      rw [h2, Nat.testBit_mod_two_pow]
      simp only [hi, decide_true, Bool.true_and]
      rw [Nat.add_comm, Nat.testBit_two_pow_add_gt (by omega)]
    rw [this]
    simp [show ¬ 31 = i by omega]

theorem fneg64_eq (a : BitVec 64) : BitVec.ofNat 64 (a.toNat + 2 ^ 63) = fneg64 a := by
  unfold fneg64
  have : BitVec.ofNat 64 (a.toNat + 2 ^ 63) = a + BitVec.intMin 64 := by
    apply BitVec.eq_of_toNat_eq
    rw [BitVec.toNat_ofNat, BitVec.toNat_add]
    rfl
  rw [this]
  apply BitVec.eq_of_getLsbD_eq
  intro i hi
  have hh : BitVec.intMin 64 = BitVec.twoPow 64 63 := rfl
  rw [hh, BitVec.getLsbD_xor, BitVec.getLsbD_twoPow]
  by_cases h : i = 63
  · subst h
    have e1 := BitVec.msb_eq_getLsbD_last a
    have e2 := BitVec.msb_eq_getLsbD_last (a + BitVec.twoPow 64 63)
    simp only [Nat.reduceSub] at e1 e2
    rw [← e1, ← e2, BitVec.msb_eq_decide, BitVec.msb_eq_decide, BitVec.toNat_add]
    have := a.isLt
    have h2 : (BitVec.twoPow 64 63).toNat = 2 ^ 63 := rfl
    rw [h2]
    simp only [Nat.reduceSub, decide_true, Bool.and_true]
    by_cases hc : 2 ^ 63 ≤ a.toNat
    · have : ¬ 2 ^ 63 ≤ (a.toNat + 2 ^ 63) % 2 ^ 64 := by omega
      simp [hc, this]
    · have : 2 ^ 63 ≤ (a.toNat + 2 ^ 63) % 2 ^ 64 := by omega
      simp [hc, this]
  · have : (a + BitVec.twoPow 64 63).getLsbD i = a.getLsbD i := by
      rw [BitVec.getLsbD, BitVec.getLsbD, BitVec.toNat_add]
      have h2 : (BitVec.twoPow 64 63).toNat = 2 ^ 63 := rfl
      rw [h2, Nat.testBit_mod_two_pow]
      simp only [hi, decide_true, Bool.true_and]
      rw [Nat.add_comm, Nat.testBit_two_pow_add_gt (by omega)]
    rw [this]
    simp [show ¬ 63 = i by omega]

theorem ofInt64_i2l (a : BitVec 32) : BitVec.ofInt 64 a.toInt = a.signExtend 64 := by
  rw [BitVec.signExtend]

theorem i2b_eq (a : BitVec 32) :
    BitVec.ofInt 32 (a.toInt.bmod 256) = (a.setWidth 8).signExtend 32 := by
  rw [BitVec.signExtend, BitVec.toInt_setWidth, BitVec.toInt_eq_toNat_bmod]
  rw [Int.bmod_bmod_of_dvd (by decide)]

theorem i2s_eq (a : BitVec 32) :
    BitVec.ofInt 32 (a.toInt.bmod 65536) = (a.setWidth 16).signExtend 32 := by
  rw [BitVec.signExtend, BitVec.toInt_setWidth, BitVec.toInt_eq_toNat_bmod]
  rw [Int.bmod_bmod_of_dvd (by decide)]

theorem i2c_eq (a : BitVec 32) :
    BitVec.ofInt 32 (a.toInt % 65536) = (a.setWidth 16).setWidth 32 := by
  apply BitVec.eq_of_toNat_eq
  rw [BitVec.toNat_ofInt, BitVec.toNat_setWidth, BitVec.toNat_setWidth, BitVec.toInt_eq_toNat_cond]
  split <;> omega

theorem lcmp_eq (a b : BitVec 64) :
    BitVec.ofInt 32 (if a.toInt < b.toInt then -1 else if a.toInt = b.toInt then 0 else 1) =
      (if b.slt a then 1#32 else if a = b then 0#32 else BitVec.ofInt 32 (-1)) := by
  by_cases h1 : a.toInt < b.toInt
  · rw [if_pos h1]
    have h2 : ¬ b.slt a = true := by rw [BitVec.slt_iff_toInt_lt]; omega
    have h3 : ¬ a = b := by rintro rfl; omega
    rw [if_neg h2, if_neg h3]
  · rw [if_neg h1]
    by_cases h2 : a.toInt = b.toInt
    · rw [if_pos h2]
      have h3 : a = b := BitVec.eq_of_toInt_eq h2
      have h4 : ¬ b.slt a = true := by rw [BitVec.slt_iff_toInt_lt]; omega
      rw [if_neg h4, if_pos h3]; rfl
    · rw [if_neg h2]
      have h4 : b.slt a = true := by rw [BitVec.slt_iff_toInt_lt]; omega
      rw [if_pos h4]; rfl

end

/-! ### Conversions of floating-point values -/

theorem tdiv_ge {v k d : Int} (hd : 0 < d) (h : v ≥ k * d) (hk : 0 ≤ k) : k ≤ v.tdiv d := by
  have : 0 ≤ v := Int.le_trans (Int.mul_nonneg hk (by omega)) h
  rw [Int.tdiv_eq_ediv_of_nonneg this]
  exact Int.le_ediv_of_mul_le hd h

theorem tdiv_lt {v k d : Int} (hd : 0 < d) (h : v < k * d) (hk : 0 < k) : v.tdiv d < k := by
  by_cases hv : 0 ≤ v
  · rw [Int.tdiv_eq_ediv_of_nonneg hv]
    exact Int.ediv_lt_of_lt_mul hd h
  · have : v.tdiv d ≤ 0 := by
      have := Int.neg_tdiv (a := -v) (b := d)
      rw [Int.neg_neg] at this
      rw [this]
      have : 0 ≤ (-v).tdiv d := Int.tdiv_nonneg (by omega) (by omega)
      omega
    omega

theorem tdiv_le_neg {v k d : Int} (hd : 0 < d) (h : v ≤ -k * d) (hk : 0 ≤ k) : v.tdiv d ≤ -k := by
  have h1 : k ≤ (-v).tdiv d := tdiv_ge hd (by rw [Int.neg_mul] at h; omega) hk
  rw [Int.neg_tdiv] at h1
  omega

theorem tdiv_gt_neg {v k d : Int} (hd : 0 < d) (h : -k * d < v) (hk : 0 < k) : -k < v.tdiv d := by
  have h1 : (-v).tdiv d < k := tdiv_lt hd (by rw [Int.neg_mul] at h; omega) hk
  rw [Int.neg_tdiv] at h1
  omega

theorem pow_scale_pos (s : Nat) : (0 : Int) < 2 ^ s := Int.pow_pos (by decide)

theorem d2i_eq (f : FVal) : d2iC f = some (toInteger 32 dscale f) := by
  unfold d2iC toInteger
  cases f with
  | nan => rfl
  | inf n => cases n <;> rfl
  | fin v =>
    have hd := pow_scale_pos dscale
    simp only
    split
    · rename_i h
      have := tdiv_ge hd h (by decide)
      rw [show max (-(2 ^ (32 - 1)) : Int) (min (2 ^ (32 - 1) - 1) (v.tdiv (2 ^ dscale))) =
        2 ^ 31 - 1 by omega]
      rfl
    · split
      · rename_i h1 h
        have := tdiv_le_neg hd h (by decide)
        rw [show max (-(2 ^ (32 - 1)) : Int) (min (2 ^ (32 - 1) - 1) (v.tdiv (2 ^ dscale))) =
          -(2 ^ 31) by omega]
        rfl
      · rename_i h1 h2
        have a1 := tdiv_lt (v := v) (k := 2 ^ 31 - 1) hd (by omega) (by decide)
        have a2 := tdiv_gt_neg (v := v) (k := 2 ^ 31) hd (by omega) (by decide)
        unfold castInt
        simp only
        rw [if_pos (by omega)]
        rw [show max (-(2 ^ (32 - 1)) : Int) (min (2 ^ (32 - 1) - 1) (v.tdiv (2 ^ dscale))) =
          v.tdiv (2 ^ dscale) by omega]

theorem d2l_eq (f : FVal) : d2lC f = some (toInteger 64 dscale f) := by
  unfold d2lC toInteger
  cases f with
  | nan => rfl
  | inf n => cases n <;> rfl
  | fin v =>
    have hd := pow_scale_pos dscale
    simp only
    split
    · rename_i h
      have := tdiv_ge hd h (by decide)
      rw [show max (-(2 ^ (64 - 1)) : Int) (min (2 ^ (64 - 1) - 1) (v.tdiv (2 ^ dscale))) =
        2 ^ 63 - 1 by omega]
      rfl
    · split
      · rename_i h1 h
        have := tdiv_le_neg hd h (by decide)
        rw [show max (-(2 ^ (64 - 1)) : Int) (min (2 ^ (64 - 1) - 1) (v.tdiv (2 ^ dscale))) =
          -(2 ^ 63) by omega]
        rfl
      · rename_i h1 h2
        have a1 := tdiv_lt (v := v) (k := 2 ^ 63) hd (by omega) (by decide)
        have a2 := tdiv_gt_neg (v := v) (k := 2 ^ 63) hd (by omega) (by decide)
        unfold castInt
        simp only
        rw [if_pos (by omega)]
        rw [show max (-(2 ^ (64 - 1)) : Int) (min (2 ^ (64 - 1) - 1) (v.tdiv (2 ^ dscale))) =
          v.tdiv (2 ^ dscale) by omega]

theorem f2i_eq (f : FVal) : f2iC f = some (toInteger 32 fscale f) := by
  unfold f2iC toInteger
  cases f with
  | nan => rfl
  | inf n => cases n <;> rfl
  | fin v =>
    have hd := pow_scale_pos fscale
    simp only
    split
    · rename_i h
      have := tdiv_ge hd h (by decide)
      rw [show max (-(2 ^ (32 - 1)) : Int) (min (2 ^ (32 - 1) - 1) (v.tdiv (2 ^ fscale))) =
        2 ^ 31 - 1 by omega]
      rfl
    · split
      · rename_i h1 h
        have := tdiv_le_neg hd h (by decide)
        rw [show max (-(2 ^ (32 - 1)) : Int) (min (2 ^ (32 - 1) - 1) (v.tdiv (2 ^ fscale))) =
          -(2 ^ 31) by omega]
        rfl
      · rename_i h1 h2
        have a1 := tdiv_lt (v := v) (k := 2 ^ 31) hd (by omega) (by decide)
        have a2 := tdiv_gt_neg (v := v) (k := 2 ^ 31) hd (by omega) (by decide)
        unfold castInt
        simp only
        rw [if_pos (by omega)]
        rw [show max (-(2 ^ (32 - 1)) : Int) (min (2 ^ (32 - 1) - 1) (v.tdiv (2 ^ fscale))) =
          v.tdiv (2 ^ fscale) by omega]

theorem f2l_eq (f : FVal) (h : ∀ v, f = .fin v →
      -(2 ^ 63) ≤ v.tdiv (2 ^ fscale) ∧ v.tdiv (2 ^ fscale) < 2 ^ 63) :
    f2lC f = some (toInteger 64 fscale f) := by
  unfold f2lC toInteger
  cases f with
  | nan => rfl
  | inf n => cases n <;> rfl
  | fin v =>
    have := h v rfl
    simp only [castInt]
    rw [if_pos (by omega)]
    rw [show max (-(2 ^ (64 - 1)) : Int) (min (2 ^ (64 - 1) - 1) (v.tdiv (2 ^ fscale))) =
      v.tdiv (2 ^ fscale) by omega]

/-- Comparison of numbers pushes exactly one result. -/
theorem cmpPushes_eq {n : BitVec 32} {u : Int} {a b : FVal} (ha : a ≠ .nan) (hb : b ≠ .nan) :
    cmpPushes n a b = [BitVec.ofInt 32 (compareFP u a b)] := by
  unfold cmpPushes compareFP
  cases a with
  | nan => exact absurd rfl ha
  | inf na =>
    cases b with
    | nan => exact absurd rfl hb
    | inf nb => cases na <;> cases nb <;> simp [FVal.isNaN, FVal.lt, FVal.gt, FVal.eq]
    | fin v => cases na <;> simp [FVal.isNaN, FVal.lt, FVal.gt, FVal.eq]
  | fin v =>
    cases b with
    | nan => exact absurd rfl hb
    | inf nb => cases nb <;> simp [FVal.isNaN, FVal.lt, FVal.gt, FVal.eq]
    | fin u =>
      simp only [FVal.isNaN, FVal.lt, FVal.gt, FVal.eq, Bool.or_self, Bool.false_eq_true, if_false,
        List.nil_append, decide_eq_true_eq, reduceCtorEq, or_self, FVal.fin.injEq]
      by_cases h1 : v < u
      · simp [h1]
      · by_cases h2 : v = u
        · simp [h2]
        · simp [h1, h2, show u < v by omega]

end Avian.Interp
