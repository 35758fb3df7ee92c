import Verif.Util.Bits

/-
Property C02: packed bit records read back what was written and disturb nothing else.
Also the enumeration of a segment map (used by C34).
-/
namespace Avian.Bits

/-! ### Specification: the map as a set of bit numbers -/

/-- Bit number `i` of the map. -/
def bitAt (m : Map) (i : Nat) : Bool := (m (i / 64)).getLsbD (i % 64)

/-! ### Single bits -/

private theorem shl_one_getLsbD (k j : Nat) (hj : j < 64) :
    (1#64 <<< k).getLsbD j = decide (j = k) := by
  rw [BitVec.getLsbD_shiftLeft]
  simp only [BitVec.getLsbD_one, hj, decide_true, Bool.true_and]
  by_cases h : j < k
  · simp [h]; omega
  · by_cases h2 : j = k
    · subst h2; simp
    · have : ¬ (j - k = 0) := by omega
      simp [h, h2, this]

private theorem split_eq {i j : Nat} (h1 : i / 64 = j / 64) (h2 : i % 64 = j % 64) : i = j := by
  have := Nat.div_add_mod i 64; have := Nat.div_add_mod j 64; omega

/-- C02: marking a bit sets exactly that bit. -/
theorem bitAt_markBit (m : Map) (i j : Nat) :
    bitAt (markBit m i) j = (decide (j = i) || bitAt m j) := by
  unfold bitAt markBit store wordOf bitOf
  have hj : j % 64 < 64 := Nat.mod_lt _ (by decide)
  by_cases hw : j / 64 = i / 64
  · rw [if_pos hw, BitVec.getLsbD_or, shl_one_getLsbD _ _ hj, hw]
    by_cases hb : j % 64 = i % 64
    · have := split_eq hw hb; subst this; simp
    · have : j ≠ i := by intro h; subst h; exact hb rfl
      simp [this, hb]
  · rw [if_neg hw]
    have : j ≠ i := by intro h; subst h; exact hw rfl
    simp [this]

example : bitAt (markBit (fun _ => 0#64) 70) 70 = true ∧
    bitAt (markBit (fun _ => 0#64) 70) 6 = false := by
  constructor <;> rw [bitAt_markBit] <;> decide

/-- C02: clearing a bit clears exactly that bit. -/
theorem bitAt_clearBit (m : Map) (i j : Nat) :
    bitAt (clearBit m i) j = (!decide (j = i) && bitAt m j) := by
  unfold bitAt clearBit store wordOf bitOf
  have hj : j % 64 < 64 := Nat.mod_lt _ (by decide)
  by_cases hw : j / 64 = i / 64
  · rw [if_pos hw, BitVec.getLsbD_and, BitVec.getLsbD_not, shl_one_getLsbD _ _ hj, hw]
    by_cases hb : j % 64 = i % 64
    · have := split_eq hw hb; subst this; simp
    · have : j ≠ i := by intro h; subst h; exact hb rfl
      simp [this, hb, hj]
  · rw [if_neg hw]
    have : j ≠ i := by intro h; subst h; exact hw rfl
    simp [this]

example : bitAt (clearBit (fun _ => -1#64) 70) 70 = false ∧
    bitAt (clearBit (fun _ => -1#64) 70) 134 = true := by
  constructor <;> rw [bitAt_clearBit] <;> decide

/-- C02: reading a bit returns it. -/
theorem getBit_eq (m : Map) (i : Nat) : getBit m i = if bitAt m i then 1#32 else 0#32 := by
  unfold getBit bitAt wordOf bitOf
  have hi : i % 64 < 64 := Nat.mod_lt _ (by decide)
  apply BitVec.eq_of_getLsbD_eq
  intro j hj
  rw [BitVec.getLsbD_setWidth, BitVec.getLsbD_ushiftRight, BitVec.getLsbD_and]
  by_cases hlt : i % 64 + j < 64
  · rw [shl_one_getLsbD _ _ hlt]
    by_cases hj0 : j = 0
    · subst hj0
      cases hb : (m (i / 64)).getLsbD (i % 64) <;> simp [hb]
    · have : ¬ (i % 64 + j = i % 64) := by omega
      cases (m (i / 64)).getLsbD (i % 64) <;> simp [this, hj0, BitVec.getLsbD_one]
  · have : ¬ j = 0 := by omega
    cases (m (i / 64)).getLsbD (i % 64) <;>
      simp [this, BitVec.getLsbD_one, BitVec.getLsbD_of_ge _ _ (Nat.le_of_not_lt hlt)]

example : getBit (fun _ => 0x40#64) 6 = 1#32 := by decide

/-! ### Records -/

private theorem and_one (v : BitVec 32) : (v &&& 1#32 ≠ 0#32) ↔ v.getLsbD 0 = true := by
  rw [Ne, ← BitVec.toNat_inj, BitVec.toNat_and, ← BitVec.testBit_toNat]
  simp only [BitVec.toNat_ofNat]
  rw [show (1 % 2 ^ 32 : Nat) = 1 by rfl, Nat.and_one_is_mod, Nat.testBit_zero]
  simp only [Nat.zero_mod]
  simp

/-- C02: what a record store does to every bit: bit `index + k` of an `n`-bit record
becomes bit `n - 1 - k` of the value, all other bits stay. -/
theorem bitAt_setBits (m : Map) (n index : Nat) (v : BitVec 32) (j : Nat) :
    bitAt (setBits m n index v) j =
      if index ≤ j ∧ j < index + n then v.getLsbD (index + n - 1 - j) else bitAt m j := by
  unfold setBits
  induction n generalizing m v with
  | zero => simp [setBitsLoop]; intros; omega
  | succ n ih =>
    unfold setBitsLoop
    simp only
    rw [ih]
    by_cases hin : index ≤ j ∧ j < index + n
    · have h2 : index ≤ j ∧ j < index + (n + 1) := by omega
      rw [if_pos hin, if_pos h2, BitVec.getLsbD_ushiftRight]
      congr 1; omega
    · rw [if_neg hin]
      by_cases hj : j = index + n
      · subst hj
        have h2 : index ≤ index + n ∧ index + n < index + (n + 1) := by omega
        rw [if_pos h2]
        have h0 : index + (n + 1) - 1 - (index + n) = 0 := by omega
        rw [h0]
        by_cases hv : v &&& 1#32 ≠ 0#32
        · rw [if_pos hv, bitAt_markBit]; simp [(and_one v).1 hv]
        · rw [if_neg hv, bitAt_clearBit]
          have := mt (and_one v).2 hv
          rw [Bool.not_eq_true] at this
          rw [this]; simp
      · have h2 : ¬ (index ≤ j ∧ j < index + (n + 1)) := by omega
        rw [if_neg h2]
        by_cases hv : v &&& 1#32 ≠ 0#32
        · rw [if_pos hv, bitAt_markBit]; simp [hj]
        · rw [if_neg hv, bitAt_clearBit]; simp [hj]

example : bitAt (setBits (fun _ => 0#64) 2 63 2#32) 63 = true ∧
    bitAt (setBits (fun _ => 0#64) 2 63 2#32) 64 = false := by
  constructor <;> rw [bitAt_setBits] <;> decide

private theorem getBitsLoop_testBit (m : Map) : ∀ (n i : Nat) (v : BitVec 32) (k : Nat), k < 32 →
    (getBitsLoop m i n v).getLsbD k =
      if k < n then bitAt m (i + n - 1 - k) else v.getLsbD (k - n) := by
  intro n
  induction n with
  | zero => intro i v k hk; simp [getBitsLoop]
  | succ n ih =>
    intro i v k hk
    unfold getBitsLoop
    rw [ih _ _ k hk]
    by_cases h : k < n
    · rw [if_pos h, if_pos (by omega)]
      congr 1; omega
    · rw [if_neg h, BitVec.getLsbD_or, getBit_eq, BitVec.getLsbD_shiftLeft]
      by_cases hk2 : k = n
      · subst hk2
        rw [if_pos (by omega : k < k + 1)]
        have : i + (k + 1) - 1 - k = i := by omega
        rw [this]
        cases bitAt m i <;> simp
      · rw [if_neg (by omega : ¬ k < n + 1)]
        have h0 : k - n ≠ 0 := by omega
        have h1 : ¬ (k - n < 1) := by omega
        have h2 : k - n < 32 := by omega
        have h3 : k - n - 1 = k - (n + 1) := by omega
        cases bitAt m i <;> simp [h0, h2, h3]

/-- C02: what a record load returns. -/
theorem getBits_getLsbD (m : Map) (n index k : Nat) (hk : k < 32) :
    (getBits m n index).getLsbD k = (decide (k < n) && bitAt m (index + n - 1 - k)) := by
  unfold getBits
  rw [getBitsLoop_testBit m n index _ k hk]
  by_cases h : k < n <;> simp [h]

example : getBits (fun _ => 0xC0#64) 3 6 = 6#32 := by decide

/-- C02: a record reads back the value written to it (truncated to the record width). -/
theorem getBits_setBits_same (m : Map) (n index : Nat) (v : BitVec 32) (hv : v.toNat < 2 ^ n) :
    getBits (setBits m n index v) n index = v := by
  apply BitVec.eq_of_getLsbD_eq
  intro k hk
  rw [getBits_getLsbD _ _ _ _ hk, bitAt_setBits]
  by_cases h : k < n
  · have h1 : index ≤ index + n - 1 - k ∧ index + n - 1 - k < index + n := by omega
    have h2 : index + n - 1 - (index + n - 1 - k) = k := by omega
    rw [if_pos h1, h2]; simp [h]
  · have : v.getLsbD k = false := by
      rw [← BitVec.testBit_toNat]
      apply Nat.testBit_lt_two_pow
      exact Nat.lt_of_lt_of_le hv (Nat.pow_le_pow_right (by omega) (by omega))
    simp [h, this]

example : getBits (setBits (fun _ => -1#64) 2 63 2#32) 2 63 = 2#32 :=
  getBits_setBits_same _ 2 63 2#32 (by decide)

/-- C02: a record that does not overlap the written one is unchanged. -/
theorem getBits_setBits_other (m : Map) (n n' index index' : Nat) (v : BitVec 32)
    (h : index + n ≤ index' ∨ index' + n' ≤ index) :
    getBits (setBits m n index v) n' index' = getBits m n' index' := by
  apply BitVec.eq_of_getLsbD_eq
  intro k hk
  rw [getBits_getLsbD _ _ _ _ hk, getBits_getLsbD _ _ _ _ hk, bitAt_setBits]
  by_cases hkn : k < n'
  · rw [if_neg (by omega)]
  · simp [hkn]

example : getBits (setBits (fun _ => 0x6#64) 2 2 3#32) 2 0 = 1#32 := by
  rw [getBits_setBits_other _ 2 2 2 0 _ (by omega)]; decide

/-- C02: clearing a record clears exactly its bits. -/
theorem bitAt_clearBits (m : Map) (n index j : Nat) :
    bitAt (clearBits m n index) j =
      (!decide (index ≤ j ∧ j < index + n) && bitAt m j) := by
  unfold clearBits
  induction n generalizing m index with
  | zero => simp [clearBitsLoop]; intros; omega
  | succ n ih =>
    unfold clearBitsLoop
    rw [ih, bitAt_clearBit]
    by_cases h1 : index + 1 ≤ j ∧ j < index + 1 + n <;>
    by_cases h2 : index ≤ j ∧ j < index + (n + 1) <;>
    by_cases h3 : j = index <;> simp [h1, h2, h3] <;> omega

example : bitAt (clearBits (fun _ => -1#64) 3 62) 64 = false ∧
    bitAt (clearBits (fun _ => -1#64) 3 62) 65 = true := by
  constructor <;> rw [bitAt_clearBits] <;> decide

/-! ### Segment maps (records indexed by heap word) -/

/-- C02: age records: reading the record of a heap word returns the value last stored for its
granule. -/
theorem segMap_get_setOnly_same (m : SegMap) (a b : Nat) (v : BitVec 32)
    (hv : v.toNat < 2 ^ m.bitsPerRecord) (hab : a / m.scale = b / m.scale) :
    (m.setOnly a v).get b = v := by
  unfold SegMap.setOnly SegMap.get SegMap.indexOf
  simp only [hab]
  exact getBits_setBits_same _ _ _ _ hv

example : (SegMap.get (SegMap.setOnly ⟨fun _ => 0#64, 2, 1⟩ 100 3#32) 100) = 3#32 :=
  segMap_get_setOnly_same _ _ _ _ (by decide) rfl

/-- C02: the record of any other granule is unchanged. -/
theorem segMap_get_setOnly_other (m : SegMap) (a b : Nat) (v : BitVec 32)
    (hab : a / m.scale ≠ b / m.scale) :
    (m.setOnly a v).get b = m.get b := by
  unfold SegMap.setOnly SegMap.get SegMap.indexOf
  apply getBits_setBits_other
  rcases Nat.lt_or_gt_of_ne hab with h | h
  · left
    have := Nat.mul_le_mul_right m.bitsPerRecord (Nat.succ_le_of_lt h)
    rw [Nat.succ_mul] at this; omega
  · right
    have := Nat.mul_le_mul_right m.bitsPerRecord (Nat.succ_le_of_lt h)
    rw [Nat.succ_mul] at this; omega

example : (SegMap.get (SegMap.setOnly ⟨fun _ => 0#64, 2, 1⟩ 100 3#32) 101) = 0#32 := by
  rw [segMap_get_setOnly_other _ _ _ _ (by decide)]; decide

/-! ### Enumeration -/

private theorem mask_ne (w : BitVec 64) (b : Nat) (hb : b < 64) :
    (w &&& (1#64 <<< b) ≠ 0#64) ↔ w.getLsbD b = true := by
  constructor
  · intro h
    cases hw : w.getLsbD b with
    | true => rfl
    | false =>
      exfalso; apply h
      apply BitVec.eq_of_getLsbD_eq
      intro j hj
      rw [BitVec.getLsbD_and, shl_one_getLsbD _ _ hj]
      by_cases hjb : j = b
      · subst hjb; simp [hw]
      · simp [hjb]
  · intro h hz
    have : (w &&& (1#64 <<< b)).getLsbD b = false := by rw [hz]; simp
    rw [BitVec.getLsbD_and, shl_one_getLsbD _ _ hb, h] at this
    simp at this

private theorem scanBits_spec (w : BitVec 64) (word wl bl bit : Nat) :
    match scanBits w word wl bl bit with
    | some b => bit ≤ b ∧ b < 64 ∧ (word < wl ∨ b < bl) ∧ w.getLsbD b = true ∧
        ∀ k, bit ≤ k → k < b → w.getLsbD k = false
    | none => ∀ k, bit ≤ k → k < 64 → (word < wl ∨ k < bl) → w.getLsbD k = false := by
  fun_induction scanBits w word wl bl bit with
  | case1 bit h hm =>
    refine ⟨Nat.le_refl _, h.1, h.2, (mask_ne _ _ h.1).1 hm, ?_⟩
    intros; omega
  | case2 bit h hm ih =>
    have hf : w.getLsbD bit = false := by
      have := mt (mask_ne w bit h.1).2 hm
      simpa using this
    split at ih
    · obtain ⟨h1, h2, h3, h4, h5⟩ := ih
      refine ⟨by omega, h2, h3, h4, ?_⟩
      intro k hk1 hk2
      rcases Nat.eq_or_lt_of_le hk1 with he | hl
      · rw [← he]; exact hf
      · exact h5 k hl hk2
    · intro k hk1 hk2 hk3
      rcases Nat.eq_or_lt_of_le hk1 with he | hl
      · rw [← he]; exact hf
      · exact ih k hl hk2 hk3
  | case3 bit h =>
    intro k hk1 hk2 hk3
    exfalso; apply h
    refine ⟨by omega, ?_⟩
    rcases hk3 with h' | h'
    · exact Or.inl h'
    · exact Or.inr (by omega)

private theorem scanWords_spec (data : Map) (wl bl word bit : Nat) (hbl : bl < 64) (hbit : bit < 64) :
    match scanWords data wl bl word bit with
    | some i => indexOf word bit ≤ i ∧ i < indexOf wl bl ∧ bitAt data i = true ∧
        ∀ k, indexOf word bit ≤ k → k < i → bitAt data k = false
    | none => ∀ k, indexOf word bit ≤ k → k < indexOf wl bl → bitAt data k = false := by
  unfold indexOf
  fun_induction scanWords data wl bl word bit with
  | case1 word bit h b hb =>
    have hs := scanBits_spec (data word) word wl bl bit
    rw [hb] at hs
    obtain ⟨h1, h2, h3, h4, h5⟩ := hs
    unfold indexOf
    refine ⟨by omega, by omega, ?_, ?_⟩
    · unfold bitAt
      rw [show (word * 64 + b) / 64 = word by omega, show (word * 64 + b) % 64 = b by omega]
      exact h4
    · intro k hk1 hk2
      unfold bitAt
      have hkw : k / 64 = word := by omega
      rw [hkw]
      apply h5 <;> omega
  | case2 word bit h hb ih =>
    have hs := scanBits_spec (data word) word wl bl bit
    rw [hb] at hs
    have hword : ∀ k, word * 64 + bit ≤ k → k < (word + 1) * 64 + 0 → k < wl * 64 + bl →
        bitAt data k = false := by
      intro k hk1 hk2 hk3
      unfold bitAt
      have hkw : k / 64 = word := by omega
      rw [hkw]
      apply hs <;> omega
    have ih := ih (by decide)
    split at ih
    · obtain ⟨h1, h2, h3, h4⟩ := ih
      refine ⟨by omega, h2, h3, ?_⟩
      intro k hk1 hk2
      rcases Nat.lt_or_ge k ((word + 1) * 64 + 0) with hl | hl
      · exact hword k hk1 hl (by omega)
      · exact h4 k hl hk2
    · intro k hk1 hk2
      rcases Nat.lt_or_ge k ((word + 1) * 64 + 0) with hl | hl
      · exact hword k hk1 hl hk2
      · exact ih k hl hk2
  | case3 word bit h =>
    intro k hk1 hk2
    exfalso; apply h
    omega

private theorem indexOf_split (i : Nat) : indexOf (wordOf i) (bitOf i) = i := by
  unfold indexOf wordOf bitOf; omega

/-- C02/C34: `hasMore` moves to the least marked index in `[index, limit)`, or to the limit. -/
theorem hasMore_spec (m : SegMap) (it : Iter) :
    match hasMore m it with
    | (true, it') => it'.limit = it.limit ∧ it.index ≤ it'.index ∧ it'.index < it.limit ∧
        bitAt m.data it'.index = true ∧
        ∀ k, it.index ≤ k → k < it'.index → bitAt m.data k = false
    | (false, it') => it'.limit = it.limit ∧ it'.index = it.limit ∧
        ∀ k, it.index ≤ k → k < it.limit → bitAt m.data k = false := by
  have h := scanWords_spec m.data (wordOf it.limit) (bitOf it.limit) (wordOf it.index)
    (bitOf it.index) (Nat.mod_lt _ (by decide)) (Nat.mod_lt _ (by decide))
  rw [indexOf_split, indexOf_split] at h
  unfold hasMore
  cases hs : scanWords m.data (wordOf it.limit) (bitOf it.limit) (wordOf it.index)
      (bitOf it.index) with
  | some i => rw [hs] at h; exact ⟨rfl, h.1, h.2.1, h.2.2.1, h.2.2.2⟩
  | none => rw [hs] at h; exact ⟨rfl, rfl, h⟩

example : hasMore ⟨markBit (fun _ => 0#64) 130, 1, 1⟩ ⟨3, 200⟩ = (true, ⟨130, 200⟩) := by
  have h := hasMore_spec ⟨markBit (fun _ => 0#64) 130, 1, 1⟩ ⟨3, 200⟩
  have hb : ∀ k, bitAt (markBit (fun _ => 0#64) 130) k = decide (k = 130) := by
    intro k; rw [bitAt_markBit]; simp [bitAt]
  cases hm : hasMore ⟨markBit (fun _ => 0#64) 130, 1, 1⟩ ⟨3, 200⟩ with
  | mk b it' =>
    rw [hm] at h
    cases b with
    | true =>
      obtain ⟨h1, h2, h3, h4, h5⟩ := h
      rw [hb] at h4
      cases it'; simp_all
    | false =>
      have := h.2.2 130 (by simp) (by simp)
      rw [hb] at this; simp at this

/-- C02/C34: the iteration loop yields exactly the marked granules of the range, each once,
in increasing order, and it ends. -/
theorem drain_spec (m : SegMap) (it : Iter) (fuel : Nat) (hf : it.limit < fuel + it.index) :
    drain m fuel it =
      ((List.range' it.index (it.limit - it.index)).filter (fun k => bitAt m.data k)).map
        (fun k => k * m.scale) := by
  induction fuel generalizing it with
  | zero =>
    have : it.limit - it.index = 0 := by omega
    simp [drain, this]
  | succ fuel ih =>
    have h := hasMore_spec m it
    unfold drain
    cases hm : hasMore m it with
    | mk b it' =>
      rw [hm] at h
      cases b with
      | false =>
        simp only at h ⊢
        symm
        rw [List.map_eq_nil_iff, List.filter_eq_nil_iff]
        intro k hk
        rw [List.mem_range'_1] at hk
        simp [h.2.2 k hk.1 (by omega)]
      | true =>
        simp only at h ⊢
        obtain ⟨h1, h2, h3, h4, h5⟩ := h
        have hsplit : List.range' it.index (it.limit - it.index) =
            List.range' it.index (it'.index - it.index) ++
              it'.index :: List.range' (it'.index + 1) (it.limit - (it'.index + 1)) := by
          have e1 : it.limit - it.index =
              (it'.index - it.index) + (it.limit - (it'.index + 1) + 1) := by omega
          rw [e1, ← List.range'_append_1]
          have e2 : it.index + (it'.index - it.index) = it'.index := by omega
          rw [e2, List.range'_succ]
        have hnil : (List.range' it.index (it'.index - it.index)).filter
            (fun k => bitAt m.data k) = [] := by
          rw [List.filter_eq_nil_iff]
          intro k hk
          rw [List.mem_range'_1] at hk
          simp [h5 k hk.1 (by omega)]
        rw [hsplit, List.filter_append, hnil, List.nil_append, List.filter_cons, h4]
        simp only [if_true, List.map_cons, next]
        congr 1
        rw [ih]
        · simp only [h1]
        · simp only [h1]; omega

example : drain ⟨markBit (markBit (fun _ => 0#64) 5) 130, 1, 4⟩ 201 ⟨0, 200⟩ = [20, 520] := by
  rw [drain_spec _ _ _ (by decide)]
  decide

/-- C34: for an aligned range the enumeration covers exactly the granules meeting
`[start, stop)`: the reported segment offsets are the granule starts of the marked granules. -/
theorem iterInit_covers (m : SegMap) (h1 : m.bitsPerRecord = 1) (hs : 0 < m.scale)
    (position start stop : Nat) (hal : m.scale ∣ start) (hle : start ≤ stop)
    (hpos : stop ≤ position) (k : Nat) :
    ((m.iterInit position start stop).index ≤ k ∧ k < (m.iterInit position start stop).limit) ↔
      ∃ w, start ≤ w ∧ w < stop ∧ w / m.scale = k := by
  obtain ⟨q, rfl⟩ := hal
  unfold SegMap.iterInit SegMap.indexOf
  have hnp : ¬ stop > position := by omega
  simp only [hnp, if_false, h1, Nat.mul_one]
  have e1 : m.scale * q / m.scale = q := Nat.mul_div_cancel_left _ hs
  have e2 : (stop - m.scale * q) % m.scale = stop % m.scale := by
    have : stop = (stop - m.scale * q) + m.scale * q := by omega
    conv => rhs; rw [this]
    rw [Nat.add_mul_mod_self_left]
  rw [e1, e2]
  have hdm := Nat.div_add_mod stop m.scale
  have hml := Nat.mod_lt stop hs
  constructor
  · rintro ⟨hk1, hk2⟩
    refine ⟨max (m.scale * q) (m.scale * k), Nat.le_max_left _ _, ?_, ?_⟩
    · have hq : m.scale * q ≤ m.scale * k := Nat.mul_le_mul_left _ hk1
      rw [Nat.max_eq_right hq]
      by_cases hz : stop % m.scale = 0
      · simp only [hz, ne_eq, not_true_eq_false, if_false] at hk2
        have := Nat.mul_le_mul_left m.scale (Nat.succ_le_of_lt hk2)
        rw [Nat.mul_succ] at this; omega
      · simp only [hz, ne_eq, not_false_eq_true, if_true] at hk2
        have := Nat.mul_le_mul_left m.scale (Nat.le_of_lt_succ hk2)
        omega
    · have hq : m.scale * q ≤ m.scale * k := Nat.mul_le_mul_left _ hk1
      rw [Nat.max_eq_right hq, Nat.mul_div_cancel_left _ hs]
  · rintro ⟨w, hw1, hw2, rfl⟩
    constructor
    · rw [Nat.le_div_iff_mul_le hs, Nat.mul_comm]; exact hw1
    · by_cases hz : stop % m.scale = 0
      · simp only [hz, ne_eq, not_true_eq_false, if_false]
        rw [Nat.div_lt_iff_lt_mul hs, Nat.mul_comm]; omega
      · simp only [hz, ne_eq, not_false_eq_true, if_true]
        have := Nat.div_le_div_right (c := m.scale) (Nat.le_of_lt hw2)
        omega

example : (SegMap.iterInit ⟨fun _ => 0#64, 1, 8⟩ 100 16 50) = ⟨2, 7⟩ := by decide

/-- C34 (limit of the code): when the range does not start on a granule boundary the rounding
of the limit uses the range length instead of its end, and the last granule is skipped: the
word 8 lies in `[1, 9)` and its granule 1 is not enumerated. -/
theorem iterInit_unaligned_misses :
    ¬ (1 < (SegMap.iterInit ⟨fun _ => 0#64, 1, 8⟩ 100 1 9).limit) ∧ (8 : Nat) / 8 = 1 := by decide

end Avian.Bits
