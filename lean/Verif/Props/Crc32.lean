import Verif.Lib.Crc32

/-
C105: checksums.

Numbers are taken as polynomials with coefficients 0 and 1: bit `i` is the coefficient of `x ^ i`, exclusive or is addition, a shift by one is the
product with `x`.
-/
namespace Avian.Crc32

/-! ## Specification -/

/-- x^32 + x^26 + x^23 + x^22 + x^16 + x^12 + x^11 + x^10 + x^8 + x^7 + x^5 + x^4 + x^2 + x + 1. -/
def generator : Nat :=
  2 ^ 32 + 2 ^ 26 + 2 ^ 23 + 2 ^ 22 + 2 ^ 16 + 2 ^ 12 + 2 ^ 11 + 2 ^ 10 + 2 ^ 8 + 2 ^ 7 + 2 ^ 5 + 2 ^ 4 + 2 ^ 2 + 2 + 1

/-- The multiples of the generator. -/
inductive Multiple : Nat → Prop where
  | zero : Multiple 0
  | step {n : Nat} (b : Bool) : Multiple n → Multiple ((n <<< 1) ^^^ (if b then generator else 0))

/-- The bits of a byte in the order in which they are sent, the lowest first. -/
def byteBits (b : BitVec 8) : List Bool := (List.range 8).map fun i => b.getLsbD i

/-- The bits of a message. -/
def bits (message : List (BitVec 8)) : List Bool := message.flatMap byteBits

/-- The polynomial of bits, the first one the highest. -/
def poly (l : List Bool) : Nat := l.foldl (fun v b => (v <<< 1) ^^^ (if b then 1 else 0)) 0

/-- The remainder of a message in the sense of the standard: of the message times x^32, with its first 32 bits complemented. -/
def Remainder (message : List (BitVec 8)) (r : Nat) : Prop :=
  r < 2 ^ 32 ∧ Multiple (((2 ^ 32 - 1) <<< (bits message).length) ^^^ (poly (bits message) <<< 32) ^^^ r)

/-- The checksum belonging to a remainder: all bits complemented, the highest one last. -/
def IsChecksum (v : BitVec 64) (r : Nat) : Prop := ∀ i : Nat, v.getLsbD i = (decide (i < 32) && !r.testBit (31 - i))

/-! ## Multiples -/

theorem multiple_xor {a : Nat} (ha : Multiple a) : ∀ {b : Nat}, Multiple b → Multiple (a ^^^ b) := by
  induction ha with
  | zero => intro b hb; rwa [Nat.zero_xor]
  | @step n x hn ih =>
    intro b hb
    cases hb with
    | zero => rw [Nat.xor_zero]; exact .step x hn
    | @step m y hm =>
      have := Multiple.step (x ^^ y) (ih hm)
      have e : ((n ^^^ m) <<< 1) ^^^ (if (x ^^ y) = true then generator else 0) =
          ((n <<< 1) ^^^ (if x = true then generator else 0)) ^^^ ((m <<< 1) ^^^ (if y = true then generator else 0)) := by
        rw [Nat.shiftLeft_xor_distrib]
        generalize n <<< 1 = n'
        generalize m <<< 1 = m'
        apply Nat.eq_of_testBit_eq
        intro i
        cases x <;> cases y <;> simp [Nat.testBit_xor]
        all_goals cases n'.testBit i <;> cases m'.testBit i <;> cases generator.testBit i <;> rfl
      rw [← e]
      exact this

theorem xor_lt_iff {n : Nat} (h : 2 ^ 32 ≤ n) : 2 ^ 32 ≤ (n <<< 1) ^^^ generator := by
  have h1 : ∃ k, 33 ≤ k ∧ (n <<< 1).testBit k = true := by
    have hn : 2 ^ 33 ≤ n <<< 1 := by rw [Nat.shiftLeft_eq]; omega
    obtain ⟨k, hk, hb⟩ := Nat.exists_ge_and_testBit_of_ge_two_pow hn
    exact ⟨k, hk, hb⟩
  obtain ⟨k, hk, hb⟩ := h1
  have hg : generator.testBit k = false := by
    apply Nat.testBit_lt_two_pow
    exact Nat.lt_of_lt_of_le (show generator < 2 ^ 33 by decide) (Nat.pow_le_pow_right (by omega) hk)
  have : ((n <<< 1) ^^^ generator).testBit k = true := by rw [Nat.testBit_xor, hb, hg]; rfl
  have := Nat.ge_two_pow_of_testBit this
  have h2 : 2 ^ 32 ≤ 2 ^ k := Nat.pow_le_pow_right (by omega) (by omega)
  omega

/-- A multiple of a polynomial of degree 32 that is not zero is of degree 32 or more. -/
theorem multiple_small {n : Nat} (h : Multiple n) : n < 2 ^ 32 → n = 0 := by
  induction h with
  | zero => intro _; rfl
  | @step n b hn ih =>
    intro hlt
    by_cases h : n < 2 ^ 32
    · have := ih h
      subst this
      cases b with
      | false => rfl
      | true => exact absurd hlt (by decide)
    · exfalso
      cases b with
      | false => simp [Nat.shiftLeft_eq] at hlt; omega
      | true =>
        have := xor_lt_iff (n := n) (by omega)
        simp at hlt
        simp at this
        omega

/-- A remainder is the only one. -/
theorem remainder_unique (message : List (BitVec 8)) (r r' : Nat) (h : Remainder message r) (h' : Remainder message r') : r = r' := by
  have hm := multiple_xor h.2 h'.2
  generalize ((2 ^ 32 - 1) <<< (bits message).length) ^^^ (poly (bits message) <<< 32) = a at hm
  have e : (a ^^^ r) ^^^ (a ^^^ r') = r ^^^ r' := by
    apply Nat.eq_of_testBit_eq
    intro i
    simp only [Nat.testBit_xor]
    cases a.testBit i <;> cases r.testBit i <;> cases r'.testBit i <;> rfl
  rw [e] at hm
  have h0 := multiple_small hm (Nat.xor_lt_two_pow h.1 h'.1)
  apply Nat.eq_of_testBit_eq
  intro i
  have hi := congrArg (fun z => Nat.testBit z i) h0
  simp only [Nat.testBit_xor, Nat.zero_testBit] at hi
  cases hr : r.testBit i <;> cases hr' : r'.testBit i <;> simp_all

/-- The generator does not divide x. -/
theorem multiple_half {n : Nat} (h : Multiple (n <<< 1)) : Multiple n := by
  generalize hm : n <<< 1 = m at h
  cases h with
  | zero =>
    have : n = 0 := by rw [Nat.shiftLeft_eq] at hm; omega
    subst this
    exact .zero
  | @step k b hk =>
    have hb : b = false := by
      cases b with
      | false => rfl
      | true =>
        exfalso
        have h0 := congrArg (fun z => Nat.testBit z 0) hm
        simp [Nat.testBit_xor, Nat.testBit_shiftLeft] at h0
        revert h0
        decide
    subst hb
    have : n = k := by simp [Nat.shiftLeft_eq] at hm; omega
    rw [this]
    exact hk

theorem multiple_shift {n : Nat} (k : Nat) (h : Multiple (n <<< k)) : Multiple n := by
  induction k with
  | zero => simpa using h
  | succ k ih =>
    apply ih
    apply multiple_half
    rw [← Nat.shiftLeft_add]
    exact h

/-! ## Rounds -/

theorem highest (j : Nat) : (1#32 <<< 31).getLsbD j = decide (j = 31) := by
  rw [BitVec.getLsbD_shiftLeft, BitVec.getLsbD_one]
  by_cases h : j = 31
  · subst h; decide
  · by_cases h1 : j < 31
    · simp [h1, h]
    · have : ¬ j < 32 := by omega
      simp [this, h]

theorem round_eq (r : Word) : round r = (r <<< 1) ^^^ (if r.msb then polynomial else 0#32) := by
  have : (r &&& (1#32 <<< 31) ≠ 0) ↔ r.msb = true := by
    have hm : r.msb = r.getLsbD 31 := BitVec.msb_eq_getLsbD_last r
    rw [hm]
    constructor
    · intro h
      cases hb : r.getLsbD 31 with
      | true => rfl
      | false =>
        exfalso
        apply h
        apply BitVec.eq_of_getLsbD_eq
        intro i hi
        rw [BitVec.getLsbD_and, highest]
        by_cases h31 : i = 31
        · subst h31; rw [hb]; rfl
        · rw [decide_eq_false h31, Bool.and_false]
          exact BitVec.getLsbD_zero.symm
    · intro hb h
      have := congrArg (fun z => BitVec.getLsbD z 31) h
      simp only [BitVec.getLsbD_and, highest, hb] at this
      exact absurd this (by decide)
  unfold round
  by_cases h : r.msb = true
  · rw [if_pos (this.mpr h), if_pos h]
  · rw [if_neg (fun x => h (this.mp x)), if_neg h, BitVec.xor_zero]

theorem round_xor (a b : Word) : round (a ^^^ b) = round a ^^^ round b := by
  rw [round_eq, round_eq, round_eq, BitVec.shiftLeft_xor_distrib, BitVec.msb_xor]
  generalize a <<< 1 = x
  generalize b <<< 1 = y
  cases a.msb <;> cases b.msb <;> apply BitVec.eq_of_getLsbD_eq <;> intro i _ <;> simp <;>
    cases x.getLsbD i <;> cases y.getLsbD i <;> cases polynomial.getLsbD i <;> rfl

theorem rounds_xor (n : Nat) (a b : Word) : rounds n (a ^^^ b) = rounds n a ^^^ rounds n b := by
  induction n generalizing a b with
  | zero => rfl
  | succ n ih => rw [rounds, round_xor, ih]; rfl

/-- One bit of a message. -/
def feed (r : Word) (m : Bool) : Word := round (r ^^^ (if m then 1#32 <<< 31 else 0#32))

/-- Bits from the top of a word on. -/
def top : List Bool → Word
  | [] => 0
  | m :: ms => (if m then 1#32 <<< 31 else 0#32) ^^^ (top ms >>> 1)

theorem top_getLsbD (ms : List Bool) (j : Nat) (hj : j < 32) : (top ms).getLsbD j = ms.getD (31 - j) false := by
  induction ms generalizing j with
  | nil => simp [top]
  | cons m ms ih =>
    rw [top, BitVec.getLsbD_xor, BitVec.getLsbD_ushiftRight]
    by_cases h31 : j = 31
    · subst h31
      rw [BitVec.getLsbD_of_ge _ (1 + 31) (by omega), Bool.xor_false]
      cases m
      · rfl
      · rw [if_pos rfl, highest]; rfl
    · have hl : (if m = true then 1#32 <<< 31 else 0#32).getLsbD j = false := by
        cases m
        · exact BitVec.getLsbD_zero
        · rw [if_pos rfl, highest, decide_eq_false h31]
      rw [hl, Bool.false_xor, ih (1 + j) (by omega), show 31 - j = (31 - (1 + j)) + 1 by omega, List.getD_cons_succ]

theorem round_low (x : Word) (h : x.getLsbD 0 = false) : round (x >>> 1) = x := by
  rw [round_eq]
  have hm : (x >>> 1).msb = false := by
    rw [BitVec.msb_eq_getLsbD_last, BitVec.getLsbD_ushiftRight]
    exact BitVec.getLsbD_of_ge _ _ (by omega)
  rw [hm, if_neg (by simp), BitVec.xor_zero]
  apply BitVec.eq_of_getLsbD_eq
  intro i hi
  rw [BitVec.getLsbD_shiftLeft, BitVec.getLsbD_ushiftRight]
  by_cases h0 : i = 0
  · subst h0; rw [h]; rfl
  · have : ¬ i < 1 := by omega
    rw [show 1 + (i - 1) = i by omega]
    simp [hi, this]

theorem feed_all (ms : List Bool) (r : Word) (h : ms.length ≤ 32) : ms.foldl feed r = rounds ms.length (r ^^^ top ms) := by
  induction ms generalizing r with
  | nil => simp [rounds, top]
  | cons m ms ih =>
    simp only [List.length_cons] at h
    rw [List.foldl_cons, ih _ (by omega), List.length_cons, rounds, top, ← BitVec.xor_assoc, round_xor (r ^^^ _) (top ms >>> 1), round_low, feed]
    rw [top_getLsbD ms 0 (by omega)]
    rw [List.getD_eq_getElem?_getD, List.getElem?_eq_none (by omega)]
    rfl

theorem rounds_low (n : Nat) (x : Word) (h : x.toNat < 2 ^ (32 - n)) (hn : n ≤ 32) : rounds n x = x <<< n := by
  induction n generalizing x with
  | zero => simp [rounds]
  | succ n ih =>
    have hp : 2 ^ (32 - n) = 2 * 2 ^ (32 - (n + 1)) := by
      rw [show 32 - n = (32 - (n + 1)) + 1 by omega, Nat.pow_succ]
      omega
    have hmax : 2 ^ (32 - (n + 1)) ≤ 2 ^ 31 := Nat.pow_le_pow_right (by omega) (by omega)
    have hm : x.msb = false := by
      rw [BitVec.msb_eq_decide]
      simp
      omega
    rw [rounds, round_eq, hm, if_neg (by simp), BitVec.xor_zero, ih _ ?_ (by omega), ← BitVec.shiftLeft_add, Nat.add_comm]
    rw [BitVec.toNat_shiftLeft, Nat.shiftLeft_eq, Nat.mod_eq_of_lt (by omega)]
    omega

/-! ## Reflection -/

theorem and_one (x : Word) : (x &&& 1#32 ≠ 0) ↔ x.getLsbD 0 = true := by
  constructor
  · intro h
    cases hb : x.getLsbD 0 with
    | true => rfl
    | false =>
      exfalso
      apply h
      apply BitVec.eq_of_getLsbD_eq
      intro i hi
      rw [BitVec.getLsbD_and, BitVec.getLsbD_one]
      by_cases h0 : i = 0
      · subst h0; rw [hb]; rfl
      · simp [Ne.symm h0, h0]
  · intro hb h
    have := congrArg (fun z => BitVec.getLsbD z 0) h
    simp only [BitVec.getLsbD_and, hb] at this
    exact absurd this (by decide)

theorem reflectLoop_getLsbD (n : Nat) (x acc : Word) (hn : n ≤ 32) (j : Nat) :
    (reflectLoop n x acc).getLsbD j = (acc.getLsbD j || (decide (j < n) && x.getLsbD (n - 1 - j))) := by
  induction n generalizing x acc with
  | zero => simp [reflectLoop]
  | succ n ih =>
    rw [reflectLoop, ih _ _ (by omega)]
    have hacc : (if x &&& 1#32 ≠ 0 then acc ||| (1#32 <<< n) else acc).getLsbD j = (acc.getLsbD j || (decide (j = n) && x.getLsbD 0)) := by
      by_cases hx : x.getLsbD 0 = true
      · rw [if_pos ((and_one x).mpr hx), BitVec.getLsbD_or, BitVec.getLsbD_shiftLeft, BitVec.getLsbD_one, hx]
        by_cases hj : j = n
        · subst hj
          have : j < 32 := by omega
          simp [this]
        · by_cases hlt : j < n
          · simp [hlt, hj]
          · have : j - n ≠ 0 := by omega
            simp [hj, this]
      · rw [if_neg (fun h => hx ((and_one x).mp h))]
        simp at hx
        simp [hx]
    rw [hacc, BitVec.getLsbD_ushiftRight]
    by_cases h1 : j < n
    · have h2 : j < n + 1 := by omega
      have h3 : j ≠ n := by omega
      have h4 : 1 + (n - 1 - j) = n + 1 - 1 - j := by omega
      simp [h1, h2, h3]
      rw [show 1 + (n - 1 - j) = n - j by omega]
    · by_cases h3 : j = n
      · subst h3
        simp
      · have h2 : ¬ j < n + 1 := by omega
        simp [h1, h2, h3]

/-- `reflect` reverses the lowest bits. -/
theorem reflect_getLsbD (x : Word) (n : Nat) (hn : n ≤ 32) (j : Nat) : (reflect x n).getLsbD j = (decide (j < n) && x.getLsbD (n - 1 - j)) := by
  rw [reflect, reflectLoop_getLsbD n x 0 hn j]
  simp

example : reflect 0x0B#32 8 = 0xD0#32 := by decide

/-! ## One byte -/

theorem low_bits (b : BitVec 8) (i : Nat) (hi : i < 8) : (b.signExtend 32 &&& 0xFF#32).getLsbD i = b.getLsbD i := by
  have h3 : (255#32).getLsbD i = true := by
    have : i = 0 ∨ i = 1 ∨ i = 2 ∨ i = 3 ∨ i = 4 ∨ i = 5 ∨ i = 6 ∨ i = 7 := by omega
    rcases this with h | h | h | h | h | h | h | h <;> subst h <;> rfl
  rw [BitVec.getLsbD_and, BitVec.getLsbD_signExtend, h3]
  have : i < 32 := by omega
  simp [hi, this]

/-- The lowest eight bits of an `int`, the lowest first. -/
def lowBits (b : Word) : List Bool := (List.range 8).map fun i => b.getLsbD i

theorem lowBits_byte (b : BitVec 8) : lowBits (b.signExtend 32 &&& 0xFF#32) = byteBits b := by
  apply List.map_congr_left
  intro i hi
  exact low_bits b i (List.mem_range.mp hi)

theorem top_reflect (b : Word) : top (lowBits b) = reflect b 8 <<< 24 := by
  apply BitVec.eq_of_getLsbD_eq
  intro i hi
  rw [top_getLsbD _ _ hi, BitVec.getLsbD_shiftLeft, reflect_getLsbD _ _ (by omega), List.getD_eq_getElem?_getD, lowBits, List.getElem?_map]
  by_cases h : 31 - i < 8
  · rw [List.getElem?_range h]
    have h1 : ¬ i < 24 := by omega
    have h2 : i - 24 < 8 := by omega
    simp [hi, h1, h2]
    congr 1
    omega
  · rw [List.getElem?_eq_none (by simp only [List.length_range]; omega)]
    have : i < 24 := by omega
    simp [this]

/-- `update` feeds the lowest eight bits of its argument, the lowest first, and never leaves the table. -/
theorem update_eq (r b : Word) : update r b = some ((lowBits b).foldl feed r) := by
  have hx : (reflect b 8 ^^^ (r >>> 24)).toNat < 256 := by
    rw [BitVec.toNat_xor]
    have h1 : (reflect b 8).toNat < 2 ^ 8 := by
      apply Nat.lt_of_not_le
      intro hge
      obtain ⟨k, hk, hb⟩ := Nat.exists_ge_and_testBit_of_ge_two_pow hge
      have := reflect_getLsbD b 8 (by omega) k
      rw [BitVec.getLsbD, hb] at this
      have hk' : ¬ k < 8 := by omega
      simp [hk'] at this
    have h2 : (r >>> 24).toNat < 2 ^ 8 := by
      rw [BitVec.toNat_ushiftRight, Nat.shiftRight_eq_div_pow]
      have := r.isLt
      omega
    exact Nat.xor_lt_two_pow h1 h2
  have hi : (reflect b 8 ^^^ (r >>> 24)).toInt = (reflect b 8 ^^^ (r >>> 24)).toNat := BitVec.toInt_eq_toNat_of_lt (by omega)
  unfold update
  simp only
  rw [if_neg (by omega), feed_all _ _ (by simp [lowBits])]
  congr 1
  have hlen : (lowBits b).length = 8 := by simp [lowBits]
  have hr : r ^^^ (reflect b 8 <<< 24) = ((reflect b 8 ^^^ (r >>> 24)) <<< 24) ^^^ (r &&& 0xFFFFFF#32) := by
    apply BitVec.eq_of_getLsbD_eq
    intro i hi
    have hmask : (0xFFFFFF#32).getLsbD i = decide (i < 24) := by
      rw [BitVec.getLsbD_ofNat, show (0xFFFFFF : Nat) = 2 ^ 24 - 1 from rfl, Nat.testBit_two_pow_sub_one]
      simp [hi]
    rw [BitVec.getLsbD_xor, BitVec.getLsbD_xor, BitVec.getLsbD_shiftLeft, BitVec.getLsbD_shiftLeft, BitVec.getLsbD_xor, BitVec.getLsbD_ushiftRight,
      BitVec.getLsbD_and, hmask]
    by_cases h : i < 24
    · simp [h]
    · rw [show 24 + (i - 24) = i by omega]
      simp [h, hi, Bool.xor_comm]
  rw [hlen, top_reflect, hr, rounds_xor, table]
  congr 1
  have hlow : (r &&& 0xFFFFFF#32).toNat < 2 ^ 24 := by
    rw [BitVec.toNat_and]
    exact Nat.lt_of_le_of_lt Nat.and_le_right (by decide)
  rw [rounds_low 8 _ hlow (by omega)]
  apply BitVec.eq_of_getLsbD_eq
  intro i hi
  have hmask : (0xFFFFFF#32).getLsbD (i - 8) = true := by
    rw [BitVec.getLsbD_ofNat, show (0xFFFFFF : Nat) = 2 ^ 24 - 1 from rfl, Nat.testBit_two_pow_sub_one]
    simp
    omega
  rw [BitVec.getLsbD_shiftLeft, BitVec.getLsbD_shiftLeft, BitVec.getLsbD_and, hmask]
  simp

/-! ## Messages -/

theorem updateAll_eq (message : List (BitVec 8)) (r : Word) : updateAll r message = some ((bits message).foldl feed r) := by
  induction message generalizing r with
  | nil => rfl
  | cons b bs ih =>
    rw [updateAll, update_eq, Option.bind_some, ih, lowBits_byte]
    rw [show bits (b :: bs) = byteBits b ++ bits bs from rfl, List.foldl_append]

theorem generator_testBit (i : Nat) : generator.testBit i = (decide (i = 32) ^^ polynomial.getLsbD i) := by
  by_cases h : i < 32
  · have : polynomial.getLsbD i = polynomial.toNat.testBit i := rfl
    rw [this, show polynomial.toNat = generator % 2 ^ 32 by decide, Nat.testBit_mod_two_pow]
    have h' : i ≠ 32 := by omega
    simp [h, h']
  · rw [BitVec.getLsbD_of_ge _ _ (by omega), Bool.xor_false]
    by_cases h' : i = 32
    · subst h'; decide
    · rw [Nat.testBit_lt_two_pow (Nat.lt_of_lt_of_le (show generator < 2 ^ 33 by decide) (Nat.pow_le_pow_right (by omega) (by omega)))]
      simp [h']

theorem feed_toNat (r : Word) (m : Bool) :
    ∃ b : Bool, (feed r m).toNat = (r.toNat <<< 1) ^^^ ((if m then 1 else 0) <<< 32) ^^^ (if b then generator else 0) := by
  generalize hu : r ^^^ (if m then 1#32 <<< 31 else 0#32) = u
  have e : (r.toNat <<< 1) ^^^ ((if m then 1 else 0) <<< 32) = u.toNat <<< 1 := by
    have hm : (if m then 1 else 0) <<< 32 = (if m then 1#32 <<< 31 else 0#32).toNat <<< 1 := by
      cases m
      · simp
      · simp
    rw [← hu, BitVec.toNat_xor, Nat.shiftLeft_xor_distrib, hm]
  refine ⟨u.msb, ?_⟩
  rw [e, feed, hu, round_eq]
  apply Nat.eq_of_testBit_eq
  intro i
  have hl : (u <<< 1 ^^^ (if u.msb = true then polynomial else 0#32)).toNat.testBit i =
      (u <<< 1 ^^^ (if u.msb = true then polynomial else 0#32)).getLsbD i := rfl
  have hu2 : u.toNat.testBit (i - 1) = u.getLsbD (i - 1) := rfl
  have hg : (if u.msb = true then generator else 0).testBit i = (u.msb && (decide (i = 32) ^^ polynomial.getLsbD i)) := by
    cases u.msb
    · simp
    · simp [generator_testBit]
  have hp : (if u.msb = true then polynomial else 0#32).getLsbD i = (u.msb && polynomial.getLsbD i) := by cases u.msb <;> simp
  rw [hl, BitVec.getLsbD_xor, BitVec.getLsbD_shiftLeft, hp, Nat.testBit_xor, Nat.testBit_shiftLeft, hg, hu2]
  by_cases h32 : i = 32
  · subst h32
    rw [BitVec.msb_eq_getLsbD_last]
    simp
  · by_cases hi : i < 32
    · by_cases h0 : i = 0
      · subst h0; simp
      · have h1 : ¬ i < 1 := by omega
        have h2 : 1 ≤ i := by omega
        simp [h1, h2, hi, h32]
    · have : u.getLsbD (i - 1) = false := BitVec.getLsbD_of_ge _ _ (by omega)
      simp [h32, hi, this]

theorem feed_remainder (ms : List Bool) (r : Word) :
    ∃ q : Nat, Multiple q ∧ (ms.foldl feed r).toNat = (r.toNat <<< ms.length) ^^^ (poly ms <<< 32) ^^^ q := by
  rw [← List.reverse_reverse ms]
  generalize ms.reverse = l
  induction l with
  | nil => exact ⟨0, .zero, by simp [poly]⟩
  | cons m l ih =>
    rw [List.reverse_cons]
    generalize l.reverse = ms at ih
    obtain ⟨q, hq, he⟩ := ih
    obtain ⟨b, hb⟩ := feed_toNat (ms.foldl feed r) m
    refine ⟨_, .step b hq, ?_⟩
    rw [List.foldl_append, List.foldl_cons, List.foldl_nil, hb, he, List.length_append, List.length_singleton, Nat.shiftLeft_add r.toNat]
    rw [show poly (ms ++ [m]) = (poly ms <<< 1) ^^^ (if m then 1 else 0) by simp [poly, List.foldl_append]]
    rw [Nat.shiftLeft_xor_distrib, Nat.shiftLeft_xor_distrib, Nat.shiftLeft_xor_distrib, ← Nat.shiftLeft_add (poly ms) 32 1,
      ← Nat.shiftLeft_add (poly ms) 1 32]
    apply Nat.eq_of_testBit_eq
    intro i
    simp only [Nat.testBit_xor]
    generalize Nat.testBit _ i = a1
    generalize Nat.testBit _ i = a2
    generalize Nat.testBit _ i = a3
    generalize Nat.testBit _ i = a4
    generalize Nat.testBit _ i = a5
    cases a1 <;> cases a2 <;> cases a3 <;> cases a4 <;> cases a5 <;> rfl

theorem getValue_bits (r : Word) : IsChecksum (getValue r) r.toNat := by
  intro i
  have hx : resultXor.getLsbD i = decide (i < 32) := by
    by_cases h : i < 64
    · rw [resultXor, BitVec.getLsbD_ofNat, show (0xFFFFFFFF : Nat) = 2 ^ 32 - 1 from rfl, Nat.testBit_two_pow_sub_one]
      simp [h]
    · rw [BitVec.getLsbD_of_ge _ _ (by omega)]
      have : ¬ i < 32 := by omega
      simp [this]
  have hr : r.toNat.testBit (31 - i) = r.getLsbD (31 - i) := rfl
  rw [getValue, BitVec.getLsbD_and, BitVec.getLsbD_xor, BitVec.getLsbD_signExtend, show (0xFFFFFFFF#64) = resultXor from rfl, hx, hr,
    reflect_getLsbD _ _ (by omega)]
  by_cases h : i < 32
  · have : i < 64 := by omega
    simp [h, this]
  · simp [h]

/-- The value after any message is the checksum of its remainder in the sense of the standard. -/
theorem crc_ok (message : List (BitVec 8)) :
    ∃ (w : Word) (r : Nat), updateAll initialRemainder message = some w ∧ Remainder message r ∧ IsChecksum (getValue w) r := by
  refine ⟨_, _, updateAll_eq message _, ?_, getValue_bits _⟩
  refine ⟨BitVec.isLt _, ?_⟩
  obtain ⟨q, hq, he⟩ := feed_remainder (bits message) initialRemainder
  rw [he]
  have e : ∀ a b : Nat, a ^^^ b ^^^ (a ^^^ b ^^^ q) = q := by
    intro a b
    apply Nat.eq_of_testBit_eq
    intro i
    simp only [Nat.testBit_xor]
    cases a.testBit i <;> cases b.testBit i <;> cases q.testBit i <;> rfl
  rw [show initialRemainder.toNat = 2 ^ 32 - 1 by decide, e]
  exact hq

/-- The checksum of "123456789" given by the standard. -/
example : (updateAll initialRemainder [0x31, 0x32, 0x33, 0x34, 0x35, 0x36, 0x37, 0x38, 0x39]).map getValue = some 0xCBF43926#64 := by decide +kernel

/-- A message may be given in parts, by bytes or by `int`s, of which the lowest eight bits count. -/
theorem parts (m1 m2 : List (BitVec 8)) (r b b' : Word) :
    updateAll r (m1 ++ m2) = (updateAll r m1).bind (fun r => updateAll r m2) ∧ (lowBits b = lowBits b' → update r b = update r b') := by
  constructor
  · rw [updateAll_eq, updateAll_eq, Option.bind_some, updateAll_eq]
    rw [show bits (m1 ++ m2) = bits m1 ++ bits m2 by simp [bits], List.foldl_append]
  · intro h
    rw [update_eq, update_eq, h]

/-- The value of a message. -/
def crc (message : List (BitVec 8)) : Option (BitVec 64) := (updateAll initialRemainder message).map getValue

/-- Changes within 32 bits following one another are always noticed. -/
theorem burst_noticed (a b : List (BitVec 8)) (hl : a.length = b.length) (e k : Nat) (he : 0 < e) (he' : e < 2 ^ 32)
    (h : poly (bits a) ^^^ poly (bits b) = e <<< k) : crc a ≠ crc b := by
  intro hc
  obtain ⟨wa, ra, hua, hra, hca⟩ := crc_ok a
  obtain ⟨wb, rb, hub, hrb, hcb⟩ := crc_ok b
  unfold crc at hc
  rw [hua, hub] at hc
  simp only [Option.map_some, Option.some.injEq] at hc
  have hr : ra = rb := by
    apply Nat.eq_of_testBit_eq
    intro i
    by_cases hi : i < 32
    · have h1 := hca (31 - i)
      have h2 := hcb (31 - i)
      rw [hc, h2, show 31 - (31 - i) = i by omega] at h1
      have : 31 - i < 32 := by omega
      simp [this] at h1
      exact h1.symm
    · rw [Nat.testBit_lt_two_pow (Nat.lt_of_lt_of_le hra.1 (Nat.pow_le_pow_right (by omega) (by omega))),
        Nat.testBit_lt_two_pow (Nat.lt_of_lt_of_le hrb.1 (Nat.pow_le_pow_right (by omega) (by omega)))]
  have hlen : ∀ m : List (BitVec 8), (bits m).length = 8 * m.length := by
    intro m
    induction m with
    | nil => rfl
    | cons x xs ih =>
      rw [show bits (x :: xs) = byteBits x ++ bits xs from rfl, List.length_append, ih, List.length_cons]
      simp [byteBits]
      omega
  have hm := multiple_xor hra.2 hrb.2
  rw [hr, hlen a, hlen b, hl] at hm
  have hx : ∀ i p q r : Nat, (i ^^^ p ^^^ r) ^^^ (i ^^^ q ^^^ r) = p ^^^ q := by
    intro i p q r
    apply Nat.eq_of_testBit_eq
    intro j
    simp only [Nat.testBit_xor]
    cases i.testBit j <;> cases p.testBit j <;> cases q.testBit j <;> cases r.testBit j <;> rfl
  rw [hx, ← Nat.shiftLeft_xor_distrib, h, ← Nat.shiftLeft_add] at hm
  have := multiple_small (multiple_shift _ hm) he'
  omega

/-- For instance all changes of up to four bytes following one another. -/
example : poly (bits [1, 2, 3]) ^^^ poly (bits [1, 7, 3]) = 0xA0 <<< 8 := by decide

end Avian.Crc32
