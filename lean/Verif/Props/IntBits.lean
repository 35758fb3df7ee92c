import Verif.Lib.Numbers

/-
Properties C55 (the natural order of numbers) and C56 (counting bits).
-/
namespace Avian.Numbers

/-! ### C55: the natural order -/

/-- The sign of the result of a comparison says which number is smaller. -/
def Compares (c a b : Int) : Prop := (c < 0 ↔ a < b) ∧ (c = 0 ↔ a = b) ∧ (0 < c ↔ b < a)

/-- C55: `Long.compareTo` is the order of the numbers. -/
theorem compareLong_order (a b : Int) : Compares (compareLong a b) a b := by
  unfold Compares compareLong
  split
  · omega
  · split <;> omega

/-- C55: `compareTo` of `Short`, `Byte`, `Character` and of the constants of an enumeration is the
order of the numbers. -/
theorem compareSmall_order (a b : Int) (ha : -2 ^ 15 ≤ a ∧ a < 2 ^ 16) (hb : -2 ^ 15 ≤ b ∧ b < 2 ^ 16) :
    Compares (compareSmall a b) a b := by
  unfold compareSmall wrap32
  rw [Int.bmod_eq_of_le (by omega) (by omega)]
  unfold Compares
  omega

/-- C55: `Boolean.compareTo` puts false before true. -/
theorem compareBool_order (a b : Bool) :
    Compares (compareBool a b) (if a then 1 else 0) (if b then 1 else 0) := by
  unfold Compares
  cases a <;> cases b <;> simp [compareBool]

/-- C55 (what holds of the code): `Integer.compareTo` tells the order exactly of those pairs of
numbers whose distance is less than 2^31. -/
theorem compareInt_order_partial (a b : Int) (ha : -2 ^ 31 ≤ a ∧ a < 2 ^ 31)
    (hb : -2 ^ 31 ≤ b ∧ b < 2 ^ 31) :
    Compares (compareInt a b) a b ↔ -2 ^ 31 ≤ a - b ∧ a - b < 2 ^ 31 := by
  unfold compareInt wrap32
  constructor
  · intro h
    unfold Compares at h
    by_cases h1 : a - b < -2 ^ 31
    · rw [← Int.add_bmod_right, Int.bmod_eq_of_le (by omega) (by omega)] at h
      omega
    · by_cases h2 : a - b < 2 ^ 31
      · omega
      · rw [← Int.sub_bmod_right, Int.bmod_eq_of_le (by omega) (by omega)] at h
        omega
  · intro h
    rw [Int.bmod_eq_of_le (by omega) (by omega)]
    unfold Compares
    omega

/-- C55 (limit of the code): `Integer.compareTo` is not an order. -/
theorem compareInt_not_transitive :
    compareInt (-2000000000) 0 < 0 ∧ compareInt 0 2000000000 < 0 ∧
      0 < compareInt (-2000000000) 2000000000 := by decide

example : Compares (compareInt (-5) 7) (-5) 7 :=
  (compareInt_order_partial _ _ (by decide) (by decide)).2 (by decide)

/-! ### C56: counting bits -/

/-- The number of bits that are set. -/
def ones (v : BitVec 32) : Nat := (List.range 32).countP fun i => v.getLsbD i

private def pop8 (x : Nat) : Nat := (List.range 8).countP fun i => x.testBit i

private def f1 (x : Nat) : Nat := x - ((x / 2) &&& 0x55)
private def f2 (y : Nat) : Nat := (y &&& 0x33) + ((y / 4) &&& 0x33)
private def f3 (z : Nat) : Nat := (z + z / 16) &&& 0x0F

private theorem and_split (a b m n : Nat) (hb : b < 256) (hn : n < 256) :
    (a * 256 + b) &&& (m * 256 + n) = (a &&& m) * 256 + (b &&& n) := by
  have h1 : ((a * 256 + b) &&& (m * 256 + n)) / 2 ^ 8 = a &&& m := by
    rw [Nat.and_div_two_pow]
    congr 1 <;> omega
  have h2 : ((a * 256 + b) &&& (m * 256 + n)) % 2 ^ 8 = b &&& n := by
    rw [Nat.and_mod_two_pow]
    congr 1 <;> omega
  omega

private def join (a b c d : Nat) : Nat := ((a * 256 + b) * 256 + c) * 256 + d

private theorem and_join (a b c d m : Nat) (hb : b < 256) (hc : c < 256) (hd : d < 256)
    (hm : m < 256) :
    join a b c d &&& join m m m m = join (a &&& m) (b &&& m) (c &&& m) (d &&& m) := by
  unfold join
  rw [and_split _ _ _ _ hd hm, and_split _ _ _ _ hc hm, and_split _ _ _ _ hb hm]

/-- An arithmetic shift under a mask whose upper bits are clear. -/
private theorem masked_shift (v c : BitVec 32) (n : Nat) (hn : n ≤ 32) (h : c.toNat < 2 ^ (32 - n)) :
    (v.sshiftRight n &&& c).toNat = v.toNat / 2 ^ n &&& c.toNat := by
  have : v.sshiftRight n &&& c = v >>> n &&& c := by
    apply BitVec.eq_of_getLsbD_eq
    intro i hi
    rw [BitVec.getLsbD_and, BitVec.getLsbD_and, BitVec.getLsbD_sshiftRight, BitVec.getLsbD_ushiftRight]
    by_cases h1 : n + i < 32
    · simp [h1, show ¬ 32 ≤ i by omega]
    · have : c.getLsbD i = false := by
        rw [BitVec.getLsbD]
        apply Nat.testBit_lt_two_pow
        calc c.toNat < 2 ^ (32 - n) := h
          _ ≤ 2 ^ i := Nat.pow_le_pow_right (by omega) (by omega)
      simp [this]
  rw [this, BitVec.toNat_and, BitVec.toNat_ushiftRight, Nat.shiftRight_eq_div_pow]

private theorem byte1 : ∀ x < 256, (x / 2 &&& 0x55) ≤ x ∧ f1 x < 256 ∧
    ((128 + x / 2) &&& 0x55) = (x / 2 &&& 0x55) := by decide +kernel
private theorem byte2 : ∀ x < 256, f2 x < 256 ∧
    ∀ k < 4, ((k * 64 + x / 4) &&& 0x33) = (x / 4 &&& 0x33) := by decide +kernel
private theorem byte3 : ∀ x < 256, f2 (f1 x) ≤ 0x44 ∧ f2 (f1 x) % 16 ≤ 4 ∧ f3 (f2 (f1 x)) = pop8 x ∧
    pop8 x ≤ 8 := by decide +kernel
private theorem nibble : ∀ x ≤ 0x48, ∀ k ≤ 4, ((x + k * 16) &&& 0x0F) = (x &&& 0x0F) := by
  decide +kernel

private theorem testBit_join (a b c d : Nat) (hb : b < 256) (hc : c < 256) (hd : d < 256) :
    (List.range 32).countP (fun i => (join a b c d).testBit i) =
      pop8 (a % 256) + pop8 b + pop8 c + pop8 d := by
  have low : ∀ x y i, y < 256 → i < 8 → (x * 256 + y).testBit i = y.testBit i := by
    intro x y i hy hi
    rw [show x * 256 = 2 ^ 8 * x by omega, Nat.testBit_two_pow_mul_add _ (by simpa using hy)]
    simp [hi]
  have high : ∀ x y i, y < 256 → (x * 256 + y).testBit (i + 8) = x.testBit i := by
    intro x y i hy
    rw [show x * 256 = 2 ^ 8 * x by omega, Nat.testBit_two_pow_mul_add _ (by simpa using hy)]
    simp [show ¬ i + 8 < 8 by omega]
  have ma : ∀ i, i < 8 → (a % 256).testBit i = a.testBit i := by
    intro i hi
    rw [show 256 = 2 ^ 8 by rfl, Nat.testBit_mod_two_pow]
    simp [hi]
  have e : List.range 32 = List.range 8 ++ (List.range 8).map (· + 8) ++ (List.range 8).map (· + 8 + 8) ++
      (List.range 8).map (· + 8 + 8 + 8) := by decide
  rw [e]
  simp only [List.countP_append, List.countP_map, pop8]
  have w : ∀ (p q : Nat → Bool), (∀ i, i < 8 → p i = q i) →
      (List.range 8).countP p = (List.range 8).countP q := by
    intro p q h
    apply List.countP_congr
    intro i hi
    rw [h i (List.mem_range.1 hi)]
  have h0 := w (fun i => (join a b c d).testBit i) (fun i => d.testBit i)
    (fun i hi => low _ _ _ hd hi)
  have h1 := w ((fun i => (join a b c d).testBit i) ∘ fun x => x + 8) (fun i => c.testBit i)
    (fun i hi => by
      show (join a b c d).testBit (i + 8) = _
      rw [join, high _ _ _ hd, low _ _ _ hc hi])
  have h2 := w ((fun i => (join a b c d).testBit i) ∘ fun x => x + 8 + 8) (fun i => b.testBit i)
    (fun i hi => by
      show (join a b c d).testBit (i + 8 + 8) = _
      rw [join, high _ _ _ hd, high _ _ _ hc, low _ _ _ hb hi])
  have h3 := w ((fun i => (join a b c d).testBit i) ∘ fun x => x + 8 + 8 + 8)
    (fun i => (a % 256).testBit i)
    (fun i hi => by
      show (join a b c d).testBit (i + 8 + 8 + 8) = _
      rw [join, high _ _ _ hd, high _ _ _ hc, high _ _ _ hb, ma i hi])
  rw [h0, h1, h2, h3]
  omega

private theorem bitCount_join (v : BitVec 32) (a b c d : Nat) (ha : a < 256) (hb : b < 256)
    (hc : c < 256) (hd : d < 256) (hv : v.toNat = join a b c d) :
    (bitCount v).toNat = pop8 a + pop8 b + pop8 c + pop8 d := by
  -- first step
  let v1 := v - (v.sshiftRight 1 &&& 0x55555555#32)
  have s1 : v1.toNat = join (f1 a) (f1 b) (f1 c) (f1 d) := by
    have hm : (v.sshiftRight 1 &&& 0x55555555#32).toNat =
        join (a / 2 &&& 0x55) (b / 2 &&& 0x55) (c / 2 &&& 0x55) (d / 2 &&& 0x55) := by
      rw [masked_shift v _ 1 (by omega) (by decide), hv]
      have e : join a b c d / 2 ^ 1 =
          join (a / 2) (a % 2 * 128 + b / 2) (b % 2 * 128 + c / 2) (c % 2 * 128 + d / 2) := by
        unfold join; omega
      rw [e, show (0x55555555#32).toNat = join 0x55 0x55 0x55 0x55 by decide,
        and_join _ _ _ _ _ (by omega) (by omega) (by omega) (by omega)]
      have k : ∀ x y, y < 256 → ((x % 2 * 128 + y / 2) &&& 0x55) = (y / 2 &&& 0x55) := by
        intro x y hy
        rcases Nat.mod_two_eq_zero_or_one x with h | h
        · rw [h]; simp
        · rw [h]; exact (byte1 y hy).2.2
      rw [k _ _ hb, k _ _ hc, k _ _ hd]
    have b1 := byte1 a ha
    have b2 := byte1 b hb
    have b3 := byte1 c hc
    have b4 := byte1 d hd
    show (v - _).toNat = _
    rw [BitVec.toNat_sub_of_le (by
      rw [BitVec.le_def, hm, hv]; unfold join; omega), hm, hv]
    unfold join f1
    omega
  have l1 := (byte1 a ha).2.1
  have l2 := (byte1 b hb).2.1
  have l3 := (byte1 c hc).2.1
  have l4 := (byte1 d hd).2.1
  -- second step
  let v2 := (v1 &&& 0x33333333#32) + (v1.sshiftRight 2 &&& 0x33333333#32)
  have s2 : v2.toNat = join (f2 (f1 a)) (f2 (f1 b)) (f2 (f1 c)) (f2 (f1 d)) := by
    have hm : (v1.sshiftRight 2 &&& 0x33333333#32).toNat =
        join (f1 a / 4 &&& 0x33) (f1 b / 4 &&& 0x33) (f1 c / 4 &&& 0x33) (f1 d / 4 &&& 0x33) := by
      rw [masked_shift v1 _ 2 (by omega) (by decide), s1]
      have e : ∀ a b c d, d < 256 → c < 256 → b < 256 → join a b c d / 2 ^ 2 =
          join (a / 4) (a % 4 * 64 + b / 4) (b % 4 * 64 + c / 4) (c % 4 * 64 + d / 4) := by
        intro a b c d _ _ _
        unfold join; omega
      rw [e _ _ _ _ l4 l3 l2, show (0x33333333#32).toNat = join 0x33 0x33 0x33 0x33 by decide,
        and_join _ _ _ _ _ (by omega) (by omega) (by omega) (by omega)]
      rw [(byte2 _ l2).2 _ (Nat.mod_lt _ (by omega)), (byte2 _ l3).2 _ (Nat.mod_lt _ (by omega)),
        (byte2 _ l4).2 _ (Nat.mod_lt _ (by omega))]
    have hn : (v1 &&& 0x33333333#32).toNat =
        join (f1 a &&& 0x33) (f1 b &&& 0x33) (f1 c &&& 0x33) (f1 d &&& 0x33) := by
      rw [BitVec.toNat_and, s1, show (0x33333333#32).toNat = join 0x33 0x33 0x33 0x33 by decide,
        and_join _ _ _ _ _ (by omega) (by omega) (by omega) (by omega)]
    have b1 := (byte2 _ l1).1
    have b2 := (byte2 _ l2).1
    have b3 := (byte2 _ l3).1
    have b4 := (byte2 _ l4).1
    show (_ + _ : BitVec 32).toNat = _
    rw [BitVec.toNat_add_of_lt (by
      rw [hm, hn]; unfold f2 at b1 b2 b3 b4; unfold join; omega), hm, hn]
    unfold join f2
    omega
  obtain ⟨m1, n1, p1, q1⟩ := byte3 a ha
  obtain ⟨m2, n2, p2, q2⟩ := byte3 b hb
  obtain ⟨m3, n3, p3, q3⟩ := byte3 c hc
  obtain ⟨m4, n4, p4, q4⟩ := byte3 d hd
  rw [← p1, ← p2, ← p3, ← p4]
  rw [← p1] at q1
  rw [← p2] at q2
  rw [← p3] at q3
  rw [← p4] at q4
  generalize f2 (f1 a) = a2 at *
  generalize f2 (f1 b) = b2 at *
  generalize f2 (f1 c) = c2 at *
  generalize f2 (f1 d) = d2 at *
  -- third step
  have hpos : v2.msb = false := by
    rw [BitVec.msb_eq_false_iff_two_mul_lt, s2]; unfold join; omega
  have s3 : ((v2 + v2.sshiftRight 4) &&& 0x0F0F0F0F#32).toNat = join (f3 a2) (f3 b2) (f3 c2) (f3 d2) := by
    have e0 : v2.sshiftRight 4 = v2 >>> 4 := BitVec.sshiftRight_eq_of_msb_false hpos
    have e1 : (v2 + v2 >>> 4).toNat = join (a2 + a2 / 16) (b2 + b2 / 16 + a2 % 16 * 16)
        (c2 + c2 / 16 + b2 % 16 * 16) (d2 + d2 / 16 + c2 % 16 * 16) := by
      have : (v2 >>> 4).toNat = join a2 b2 c2 d2 / 16 := by
        rw [BitVec.toNat_ushiftRight, Nat.shiftRight_eq_div_pow, s2]
      rw [BitVec.toNat_add_of_lt (by rw [this, s2]; unfold join; omega), this, s2]
      unfold join; omega
    rw [e0, BitVec.toNat_and, e1, show (0x0F0F0F0F#32).toNat = join 0x0F 0x0F 0x0F 0x0F by decide,
      and_join _ _ _ _ _ (by omega) (by omega) (by omega) (by omega)]
    rw [nibble _ (by omega) _ n1, nibble _ (by omega) _ n2, nibble _ (by omega) _ n3]
    rfl
  show ((((v2 + v2.sshiftRight 4) &&& 0x0F0F0F0F#32) * 0x01010101#32).sshiftRight 24).toNat = _
  have s4 : (((v2 + v2.sshiftRight 4) &&& 0x0F0F0F0F#32) * 0x01010101#32).toNat =
      join (f3 a2 + f3 b2 + f3 c2 + f3 d2) (f3 b2 + f3 c2 + f3 d2) (f3 c2 + f3 d2) (f3 d2) := by
    rw [BitVec.toNat_mul, s3]
    show join _ _ _ _ * 16843009 % 2 ^ 32 = _
    generalize f3 a2 = a3 at *
    generalize f3 b2 = b3 at *
    generalize f3 c2 = c3 at *
    generalize f3 d2 = d3 at *
    unfold join
    omega
  rw [BitVec.sshiftRight_eq_of_msb_false (by
    rw [BitVec.msb_eq_false_iff_two_mul_lt, s4]; unfold join; omega), BitVec.toNat_ushiftRight,
    Nat.shiftRight_eq_div_pow, s4]
  unfold join
  omega

/-- C56: `Integer.bitCount` counts the bits that are set. -/
theorem bitCount_ones (v : BitVec 32) : (bitCount v).toNat = ones v := by
  have hlt := v.isLt
  have e : v.toNat = join (v.toNat / 2 ^ 24) (v.toNat / 2 ^ 16 % 256) (v.toNat / 2 ^ 8 % 256)
      (v.toNat % 256) := by
    unfold join; omega
  rw [bitCount_join v _ _ _ _ (by omega) (by omega) (by omega) (by omega) e]
  unfold ones
  show _ = (List.range 32).countP (fun i => v.toNat.testBit i)
  rw [e, testBit_join _ _ _ _ (by omega) (by omega) (by omega), ← e]
  rw [Nat.mod_eq_of_lt (show v.toNat / 2 ^ 24 < 256 by omega)]

/-- The bytes of the number, the lowest first. -/
def byteOf (v : BitVec 32) (k : Nat) : BitVec 8 := v.extractLsb' (8 * k) 8

/-- C56 (what holds of the code): `Integer.reverseBytes` should make byte `k` of the result byte
`3 - k` of the argument.  The outer bytes are exchanged; but byte 2 of the result is always zero and
byte 1 mixes bytes 2 and 0 of the argument. -/
theorem reverseBytes_bytes_partial (v : BitVec 32) :
    byteOf (reverseBytes v) 0 = byteOf v 3 ∧ byteOf (reverseBytes v) 3 = byteOf v 0 ∧
    byteOf (reverseBytes v) 2 = 0 ∧ byteOf (reverseBytes v) 1 = byteOf v 0 ||| byteOf v 2 := by
  refine ⟨?_, ?_, ?_, ?_⟩
  all_goals
    apply BitVec.eq_of_getLsbD_eq
    intro i hi
    simp only [byteOf, BitVec.getLsbD_extractLsb', BitVec.getLsbD_or]
    simp only [hi, decide_true, Bool.true_and, reverseBytes, BitVec.getLsbD_or, BitVec.getLsbD_and,
      BitVec.getLsbD_shiftLeft, BitVec.getLsbD_ushiftRight]
    have hm : ∀ j, j < 32 → (0xFF00#32).getLsbD j = (decide (8 ≤ j) && decide (j < 16)) := by
      decide
    rw [hm _ (by omega)]
    have : i = 0 ∨ i = 1 ∨ i = 2 ∨ i = 3 ∨ i = 4 ∨ i = 5 ∨ i = 6 ∨ i = 7 := by omega
    rcases this with rfl | rfl | rfl | rfl | rfl | rfl | rfl | rfl <;> simp

/-- C56 (limit of the code): the bytes of 0x12345678 are not reversed. -/
theorem reverseBytes_wrong : reverseBytes 0x12345678#32 = 0x78007C12#32 := by decide

/-- Bit `k` of the number extended by its sign. -/
private def bitAt (v : BitVec 32) (k : Nat) : Bool := if k < 32 then v.getLsbD k else v.getLsbD 31

private def Smeared (v : BitVec 32) (w : Nat) (x : BitVec 32) : Prop :=
  ∀ i, i < 32 → (x.getLsbD i = true ↔ ∃ k, i ≤ k ∧ k < i + w ∧ bitAt v k = true)

private theorem smear_step {v x : BitVec 32} {w : Nat} (hw : 1 ≤ w) (h : Smeared v w x) :
    Smeared v (2 * w) (x ||| x.sshiftRight w) := by
  intro i hi
  rw [BitVec.getLsbD_or, Bool.or_eq_true, h i hi, BitVec.getLsbD_sshiftRight]
  have e31 : ∀ k, 31 ≤ k → bitAt v k = v.getLsbD 31 := by
    intro k hk
    unfold bitAt
    split
    · have : k = 31 := by omega
      rw [this]
    · rfl
  constructor
  · rintro (⟨k, h1, h2, h3⟩ | h1)
    · exact ⟨k, h1, by omega, h3⟩
    · simp only [show ¬ 32 ≤ i by omega, decide_false, Bool.not_false, Bool.true_and] at h1
      split at h1
      · rename_i hlt
        obtain ⟨k, k1, k2, k3⟩ := (h (w + i) hlt).1 h1
        exact ⟨k, by omega, by omega, k3⟩
      · rename_i hge
        have : x.getLsbD 31 = true := by
          simpa [BitVec.msb_eq_getLsbD_last] using h1
        obtain ⟨k, k1, k2, k3⟩ := (h 31 (by omega)).1 this
        refine ⟨i + w, by omega, by omega, ?_⟩
        rw [e31 _ (by omega), ← e31 k k1]; exact k3
  · rintro ⟨k, k1, k2, k3⟩
    by_cases hk : k < i + w
    · exact Or.inl ⟨k, k1, hk, k3⟩
    · right
      simp only [show ¬ 32 ≤ i by omega, decide_false, Bool.not_false, Bool.true_and]
      split
      · rename_i hlt
        exact (h (w + i) hlt).2 ⟨k, by omega, by omega, k3⟩
      · have : x.getLsbD 31 = true := (h 31 (by omega)).2 ⟨31, by omega, by omega, by
          rw [e31 _ (by omega), ← e31 k (by omega)]; exact k3⟩
        simpa [BitVec.msb_eq_getLsbD_last] using this

private theorem count_from (m : Nat) (hm : m ≤ 32) (p : Nat → Bool)
    (hp : ∀ i, i < 32 → (p i = true ↔ m ≤ i)) : (List.range 32).countP p = 32 - m := by
  have : (List.range 32).countP p = (List.range 32).countP (fun i => decide (m ≤ i)) := by
    apply List.countP_congr
    intro i hi
    rw [hp i (List.mem_range.1 hi)]; simp
  rw [this]
  have : ∀ m ≤ 32, (List.range 32).countP (fun i => decide (m ≤ i)) = 32 - m := by decide
  exact this m hm

/-- C56: `Integer.numberOfLeadingZeros` is the number of zero bits above the highest bit set: the
number fits in the rest, and not in one bit less. -/
theorem numberOfLeadingZeros_spec (v : BitVec 32) :
    (numberOfLeadingZeros v).toNat ≤ 32 ∧
    v.toNat < 2 ^ (32 - (numberOfLeadingZeros v).toNat) ∧
    ∀ m, v.toNat < 2 ^ m → 32 - (numberOfLeadingZeros v).toNat ≤ m := by
  have h0 : Smeared v 1 v := by
    intro i hi
    constructor
    · intro h
      exact ⟨i, by omega, by omega, by unfold bitAt; rw [if_pos hi]; exact h⟩
    · rintro ⟨k, h1, h2, h3⟩
      have : k = i := by omega
      subst this
      unfold bitAt at h3
      rw [if_pos hi] at h3; exact h3
  have h1 := smear_step (by omega) h0
  have h2 := smear_step (by omega) h1
  have h3 := smear_step (by omega) h2
  have h4 := smear_step (by omega) h3
  have h5 := smear_step (by omega) h4
  simp only [Nat.reduceMul] at h1 h2 h3 h4 h5
  -- the number of bits of the number
  let m := (List.range 33).find? (fun m => decide (v.toNat < 2 ^ m))
  obtain ⟨m, hm, hlt, hmin⟩ : ∃ m, m ≤ 32 ∧ v.toNat < 2 ^ m ∧ ∀ n, v.toNat < 2 ^ n → m ≤ n := by
    have ex : ∃ m, v.toNat < 2 ^ m := ⟨32, v.isLt⟩
    have gen : ∀ k, v.toNat < 2 ^ k → ∃ m, m ≤ k ∧ v.toNat < 2 ^ m ∧ ∀ n, v.toNat < 2 ^ n → m ≤ n := by
      intro k
      induction k with
      | zero => intro h; exact ⟨0, by omega, h, fun n _ => by omega⟩
      | succ k ih =>
        intro h
        by_cases hk : v.toNat < 2 ^ k
        · obtain ⟨m, h1, h2, h3⟩ := ih hk
          exact ⟨m, by omega, h2, h3⟩
        · refine ⟨k + 1, Nat.le_refl _, h, fun n hn => ?_⟩
          refine Nat.lt_of_not_le fun hle => hk ?_
          exact Nat.lt_of_lt_of_le hn (Nat.pow_le_pow_right (by omega) hle)
    exact gen 32 v.isLt
  have key : (numberOfLeadingZeros v).toNat = 32 - m := by
    show (bitCount _).toNat = _
    rw [bitCount_ones]
    unfold ones
    apply count_from m hm
    intro i hi
    rw [BitVec.getLsbD_not]
    simp only [hi, decide_true, Bool.true_and, Bool.not_eq_true']
    constructor
    · intro hf
      refine Nat.le_of_not_lt fun hlt2 => ?_
      -- there is a bit at or above `i`
      have : 2 ^ (m - 1) ≤ v.toNat := Nat.le_of_not_lt fun h => by
        have := hmin _ h; omega
      have hb : v.getLsbD (m - 1) = true := by
        rw [BitVec.getLsbD]
        exact Nat.testBit_of_two_pow_le_and_two_pow_add_one_gt this
          (by rw [show m - 1 + 1 = m by omega]; exact hlt)
      have := (h5 i hi).2 ⟨m - 1, by omega, by omega, by unfold bitAt; rw [if_pos (by omega)]; exact hb⟩
      rw [hf] at this
      exact absurd this (by simp)
    · intro hle
      rw [← Bool.not_eq_true]
      intro ht
      obtain ⟨k, k1, k2, k3⟩ := (h5 i hi).1 ht
      have z : ∀ j, m ≤ j → v.getLsbD j = false := by
        intro j hj
        rw [BitVec.getLsbD]
        exact Nat.testBit_lt_two_pow (Nat.lt_of_lt_of_le hlt (Nat.pow_le_pow_right (by omega) hj))
      unfold bitAt at k3
      split at k3
      · rw [z k (by omega)] at k3; exact absurd k3 (by simp)
      · rw [z 31 (by omega)] at k3; exact absurd k3 (by simp)
  rw [key]
  refine ⟨by omega, ?_, ?_⟩
  · rw [show 32 - (32 - m) = m by omega]; exact hlt
  · intro n hn
    have := hmin n hn
    omega

/-- A negative number, one with mixed bits, and zero. -/
example : bitCount 0x80F0000F#32 = 9 ∧ numberOfLeadingZeros 0x00F0000F#32 = 8 ∧
    numberOfLeadingZeros 0x80000000#32 = 0 ∧ numberOfLeadingZeros 0#32 = 32 := by decide

end Avian.Numbers
