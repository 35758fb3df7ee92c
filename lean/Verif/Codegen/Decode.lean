import Verif.Codegen.X86

/-
What the processor reads in the bytes that the assembler writes.
-/
namespace Avian.X86

open Cpu (Byte Width Rex Rm R State Fpu Next Out Instr)

/-- The number of a register in its bank. -/
def num4 (a : Register) : R := a.extractLsb' 0 4

/-- The three bits of a register that are in an operand byte. -/
def low3 (a : Register) : BitVec 3 := a.extractLsb' 0 3

theorem num_low3 : ∀ a : Register, Cpu.num (bit8 (some a)) (low3 a) = num4 a := by decide +kernel

theorem num_low3' (a : Register) : Cpu.num (a &&& 8#5 != 0#5) (low3 a) = num4 a := num_low3 a

/-- The prefix that `maybeRex` makes. -/
def rexOf (size : Width) (a index base : Option Register) (always : Bool) : Rex :=
  ⟨always || size == .q || bit8 a || bit8 index || bit8 base, size == .q, bit8 a, bit8 index, bit8 base⟩

/-- Bytes that are neither a prefix nor the first byte of a longer opcode. -/
def plain (v : Byte) : Bool :=
  v.extractLsb' 4 4 != 4#4 && v != 0x66#8 && v != 0xf2#8 && v != 0xf3#8

theorem maybeRex_eq (size : Width) (a index base : Option Register) (always : Bool) :
    ∃ l, maybeRex size a index base always = l ∧
      ((l = [] ∧ rexOf size a index base always = ⟨false, false, false, false, false⟩) ∨
       ∃ v : Byte, l = [v] ∧ v.extractLsb' 4 4 = 4#4 ∧
        rexOf size a index base always = ⟨true, v.getLsbD 3, v.getLsbD 2, v.getLsbD 1, v.getLsbD 0⟩) := by
  refine ⟨_, rfl, ?_⟩
  unfold maybeRex rexOf
  generalize bit8 a = x
  generalize bit8 index = y
  generalize bit8 base = z
  cases size <;> cases x <;> cases y <;> cases z <;> cases always <;>
    first
      | exact .inl ⟨rfl, rfl⟩
      | exact .inr ⟨_, rfl, by decide, by decide⟩

theorem takeRex_maybe (size : Width) (a index base : Option Register) (always : Bool) (v : Byte) (rest : List Byte)
    (hv : plain v = true) :
    Cpu.takeRex (maybeRex size a index base always ++ v :: rest) = (rexOf size a index base always, v :: rest) := by
  obtain ⟨l, hl, h | ⟨u, hu, hn, hr⟩⟩ := maybeRex_eq size a index base always
  · have : v.extractLsb' 4 4 ≠ 4#4 := by
      intro h; simp [plain, h] at hv
    rw [hl, h.1, h.2, List.nil_append, Cpu.takeRex]
    simp [this]
  · rw [hl, hu, hr, List.singleton_append, Cpu.takeRex]
    simp [hn]

theorem takePfx_maybe (size : Width) (a index base : Option Register) (always : Bool) (v : Byte) (rest : List Byte)
    (hv : plain v = true) :
    Cpu.takePfx (maybeRex size a index base always ++ v :: rest) = (.no, maybeRex size a index base always ++ v :: rest) := by
  obtain ⟨l, hl, h | ⟨u, hu, hn, hr⟩⟩ := maybeRex_eq size a index base always
  · rw [hl, h.1, List.nil_append, Cpu.takePfx]
    simp only [plain, Bool.and_eq_true, bne_iff_ne, ne_eq] at hv
    simp [hv.1.1.2, hv.1.2, hv.2]
  · rw [hl, hu, List.singleton_append, Cpu.takePfx]
    have : ∀ u : Byte, u.extractLsb' 4 4 = 4#4 → u ≠ 0x66#8 ∧ u ≠ 0xf2#8 ∧ u ≠ 0xf3#8 := by
      intro u hu
      refine ⟨?_, ?_, ?_⟩ <;> (intro h; rw [h] at hu; revert hu; decide)
    obtain ⟨h1, h2, h3⟩ := this u hn
    simp [h1, h2, h3]

/-- An instruction with a one-byte opcode. -/
theorem decode_one (size : Width) (a index base : Option Register) (always : Bool) (v : Byte) (rest : List Byte)
    (hv : plain v = true) (h0 : v ≠ 0x0f#8) :
    Cpu.decode (maybeRex size a index base always ++ v :: rest) = Cpu.decode1 .no (rexOf size a index base always) v rest := by
  unfold Cpu.decode
  rw [takePfx_maybe _ _ _ _ _ _ _ hv]
  simp only
  rw [takeRex_maybe _ _ _ _ _ _ _ hv]
  simp [h0]

theorem decode_66 (size : Width) (a index base : Option Register) (always : Bool) (v : Byte) (rest : List Byte)
    (hv : plain v = true) (h0 : v ≠ 0x0f#8) :
    Cpu.decode (0x66#8 :: (maybeRex size a index base always ++ v :: rest)) =
      Cpu.decode1 .p66 (rexOf size a index base always) v rest := by
  unfold Cpu.decode
  simp only [Cpu.takePfx, if_true]
  rw [takeRex_maybe _ _ _ _ _ _ _ hv]
  simp [h0]

/-- An instruction with a two-byte opcode. -/
theorem decode_0f (size : Width) (a index base : Option Register) (always : Bool) (v : Byte) (rest : List Byte) :
    Cpu.decode (maybeRex size a index base always ++ 0x0f#8 :: v :: rest) =
      Cpu.decode2 .no (rexOf size a index base always) v rest := by
  unfold Cpu.decode
  rw [takePfx_maybe _ _ _ _ _ _ _ (by decide)]
  simp only
  rw [takeRex_maybe _ _ _ _ _ _ _ (by decide)]
  simp

theorem decode_66_0f (size : Width) (a index base : Option Register) (always : Bool) (v : Byte) (rest : List Byte) :
    Cpu.decode (0x66#8 :: (maybeRex size a index base always ++ 0x0f#8 :: v :: rest)) =
      Cpu.decode2 .p66 (rexOf size a index base always) v rest := by
  unfold Cpu.decode
  simp only [Cpu.takePfx, if_true]
  rw [takeRex_maybe _ _ _ _ _ _ _ (by decide)]
  simp

theorem decode_f3_0f (size : Width) (a index base : Option Register) (always : Bool) (v : Byte) (rest : List Byte) :
    Cpu.decode (0xf3#8 :: (maybeRex size a index base always ++ 0x0f#8 :: v :: rest)) =
      Cpu.decode2 .pF3 (rexOf size a index base always) v rest := by
  unfold Cpu.decode
  have : Cpu.takePfx (0xf3#8 :: (maybeRex size a index base always ++ 0x0f#8 :: v :: rest)) =
    (.pF3, maybeRex size a index base always ++ 0x0f#8 :: v :: rest) := rfl
  rw [this]
  simp only
  rw [takeRex_maybe _ _ _ _ _ _ _ (by decide)]
  simp

theorem decode_f2_0f (size : Width) (a index base : Option Register) (always : Bool) (v : Byte) (rest : List Byte) :
    Cpu.decode (0xf2#8 :: (maybeRex size a index base always ++ 0x0f#8 :: v :: rest)) =
      Cpu.decode2 .pF2 (rexOf size a index base always) v rest := by
  unfold Cpu.decode
  have : Cpu.takePfx (0xf2#8 :: (maybeRex size a index base always ++ 0x0f#8 :: v :: rest)) =
    (.pF2, maybeRex size a index base always ++ 0x0f#8 :: v :: rest) := rfl
  rw [this]
  simp only
  rw [takeRex_maybe _ _ _ _ _ _ _ (by decide)]
  simp

/-! ### Numbers -/

theorem le4_append4 (v : BitVec 64) (rest : List Byte) : Cpu.le4 (append4 v ++ rest) = some (v.setWidth 32, rest) := by
  simp only [append4, List.cons_append, List.nil_append, Cpu.le4, Option.some.injEq, Prod.mk.injEq, and_true]
  apply BitVec.eq_of_getLsbD_eq
  intro i hi
  simp only [BitVec.getLsbD_append, BitVec.getLsbD_extractLsb', BitVec.getLsbD_setWidth]
  by_cases h1 : i < 8
  · simp [h1, hi, show i < 16 by omega, show i < 24 by omega]
  · by_cases h2 : i < 16
    · simp [h1, h2, hi, show i < 24 by omega, show i - 8 < 8 by omega, show 8 + (i - 8) = i by omega]
    · by_cases h3 : i < 24
      · simp [h2, h3, hi, show i - 16 < 8 by omega, show 16 + (i - 16) = i by omega]
      · simp [h3, hi, show i - 24 < 8 by omega, show 24 + (i - 24) = i by omega]

theorem le2_append2 (v : BitVec 64) (rest : List Byte) : Cpu.le2 (append2 v ++ rest) = some (v.setWidth 16, rest) := by
  simp only [append2, List.cons_append, List.nil_append, Cpu.le2, Option.some.injEq, Prod.mk.injEq, and_true]
  apply BitVec.eq_of_getLsbD_eq
  intro i hi
  simp only [BitVec.getLsbD_append, BitVec.getLsbD_extractLsb', BitVec.getLsbD_setWidth]
  by_cases h1 : i < 8
  · simp [h1, hi]
  · simp [h1, hi, show i - 8 < 8 by omega, show 8 + (i - 8) = i by omega]

theorem le8_append8 (v : BitVec 64) (rest : List Byte) : Cpu.le8 (append8 v ++ rest) = some (v, rest) := by
  have e : append8 v ++ rest = append4 v ++ (append4 (v >>> 32) ++ rest) := by
    simp only [append8, append4, List.append_assoc]
    have h : ∀ k, (v >>> 32).extractLsb' k 8 = v.extractLsb' (32 + k) 8 := by
      intro k
      apply BitVec.eq_of_getLsbD_eq
      intro i hi
      simp only [BitVec.getLsbD_extractLsb', BitVec.getLsbD_ushiftRight]
      rw [show 32 + (k + i) = 32 + k + i by omega]
    simp [h]
  rw [e, Cpu.le8, le4_append4]
  simp only
  rw [le4_append4]
  simp only [Option.some.injEq, Prod.mk.injEq, and_true]
  apply BitVec.eq_of_getLsbD_eq
  intro i hi
  simp only [BitVec.getLsbD_append, BitVec.getLsbD_setWidth, BitVec.getLsbD_ushiftRight]
  by_cases h : i < 32
  · simp [h]
  · simp [h, show i - 32 < 32 by omega, show 32 + (i - 32) = i by omega]

theorem fits8 {v : BitVec 64} (h : fitsInInt8 v = true) : (v.setWidth 8).signExtend 64 = v := by
  simpa [fitsInInt8] using (beq_iff_eq.1 h).symm

theorem fits32 {v : BitVec 64} (h : fitsInInt32 v = true) : (v.setWidth 32).signExtend 64 = v := by
  simpa [fitsInInt32] using (beq_iff_eq.1 h).symm

theorem low_signExtend32 (o : BitVec 32) : (o.signExtend 64).setWidth 32 = o := by
  apply BitVec.eq_of_getLsbD_eq
  intro i hi
  simp only [BitVec.getLsbD_setWidth, BitVec.getLsbD_signExtend]
  simp [hi, show i < 64 by omega]

/-! ### Operands -/

theorem modrm_fields : ∀ (a b : Register),
    (0xc0#8 ||| (regCode b <<< 3) ||| regCode a).extractLsb' 0 3 = low3 a ∧
    (0xc0#8 ||| (regCode b <<< 3) ||| regCode a).extractLsb' 3 3 = low3 b ∧
    (0xc0#8 ||| (regCode b <<< 3) ||| regCode a).extractLsb' 6 2 = 3#2 := by decide +kernel

/-- A register as operand. -/
theorem modrm_reg (rex : Rex) (a b : Register) (rest : List Byte) :
    Cpu.modrm rex (modrm 0xc0#8 a b ++ rest) =
      some (low3 b, Cpu.num rex.r (low3 b), .reg (Cpu.num rex.b (low3 a)), rest) := by
  obtain ⟨h1, h2, h3⟩ := modrm_fields a b
  simp only [modrm, List.singleton_append, Cpu.modrm, h1, h2, h3, if_true]

/-- Opcode extensions: `type + regCode b` is an operand byte with a register. -/
theorem ext_fields : ∀ (b : Register),
    ((0xc0#8 + regCode b).extractLsb' 0 3 = low3 b ∧ (0xc0#8 + regCode b).extractLsb' 3 3 = 0#3 ∧ (0xc0#8 + regCode b).extractLsb' 6 2 = 3#2) ∧
    ((0xc8#8 + regCode b).extractLsb' 0 3 = low3 b ∧ (0xc8#8 + regCode b).extractLsb' 3 3 = 1#3 ∧ (0xc8#8 + regCode b).extractLsb' 6 2 = 3#2) ∧
    ((0xd0#8 + regCode b).extractLsb' 0 3 = low3 b ∧ (0xd0#8 + regCode b).extractLsb' 3 3 = 2#3 ∧ (0xd0#8 + regCode b).extractLsb' 6 2 = 3#2) ∧
    ((0xd8#8 + regCode b).extractLsb' 0 3 = low3 b ∧ (0xd8#8 + regCode b).extractLsb' 3 3 = 3#3 ∧ (0xd8#8 + regCode b).extractLsb' 6 2 = 3#2) ∧
    ((0xe0#8 + regCode b).extractLsb' 0 3 = low3 b ∧ (0xe0#8 + regCode b).extractLsb' 3 3 = 4#3 ∧ (0xe0#8 + regCode b).extractLsb' 6 2 = 3#2) ∧
    ((0xe8#8 + regCode b).extractLsb' 0 3 = low3 b ∧ (0xe8#8 + regCode b).extractLsb' 3 3 = 5#3 ∧ (0xe8#8 + regCode b).extractLsb' 6 2 = 3#2) ∧
    ((0xf0#8 + regCode b).extractLsb' 0 3 = low3 b ∧ (0xf0#8 + regCode b).extractLsb' 3 3 = 6#3 ∧ (0xf0#8 + regCode b).extractLsb' 6 2 = 3#2) ∧
    ((0xf8#8 + regCode b).extractLsb' 0 3 = low3 b ∧ (0xf8#8 + regCode b).extractLsb' 3 3 = 7#3 ∧ (0xf8#8 + regCode b).extractLsb' 6 2 = 3#2) := by
  decide +kernel

theorem modrm_ext (rex : Rex) (k : BitVec 3) (v : Byte) (b : Register) (rest : List Byte)
    (h : v.extractLsb' 0 3 = low3 b ∧ v.extractLsb' 3 3 = k ∧ v.extractLsb' 6 2 = 3#2) :
    Cpu.modrm rex (v :: rest) = some (k, Cpu.num rex.r k, .reg (Cpu.num rex.b (low3 b)), rest) := by
  simp only [Cpu.modrm, h.1, h.2.1, h.2.2, if_true]

/-- The scales of operands in memory. -/
def scaleBits : Nat → Option (BitVec 2)
  | 1 => some 0 | 2 => some 1 | 4 => some 2 | 8 => some 3 | _ => none

/-- Operands in memory that can be expressed: the index is a general register other than rsp, the scale 1, 2, 4 or 8. -/
def Good (m : Memory) : Prop :=
  match m.index with
  | none => True
  | some i => num4 i ≠ 4#4 ∧ (scaleBits m.scale).isSome

instance (m : Memory) : Decidable (Good m) := by unfold Good; split <;> infer_instance

/-- The operand that is meant. -/
def rmOf (m : Memory) : Rm :=
  .mem (some (num4 m.base))
    (match m.index, scaleBits m.scale with
      | some i, some k => some (num4 i, k)
      | _, _ => none)
    (m.offset.signExtend 64)

theorem modrm_width_fields : ∀ (a b : Register),
    ((0x00#8 ||| (regCode b <<< 3) ||| regCode a).extractLsb' 0 3 = low3 a ∧
     (0x00#8 ||| (regCode b <<< 3) ||| regCode a).extractLsb' 3 3 = low3 b ∧
     (0x00#8 ||| (regCode b <<< 3) ||| regCode a).extractLsb' 6 2 = 0#2) ∧
    ((0x40#8 ||| (regCode b <<< 3) ||| regCode a).extractLsb' 0 3 = low3 a ∧
     (0x40#8 ||| (regCode b <<< 3) ||| regCode a).extractLsb' 3 3 = low3 b ∧
     (0x40#8 ||| (regCode b <<< 3) ||| regCode a).extractLsb' 6 2 = 1#2) ∧
    ((0x80#8 ||| (regCode b <<< 3) ||| regCode a).extractLsb' 0 3 = low3 a ∧
     (0x80#8 ||| (regCode b <<< 3) ||| regCode a).extractLsb' 3 3 = low3 b ∧
     (0x80#8 ||| (regCode b <<< 3) ||| regCode a).extractLsb' 6 2 = 2#2) := by decide +kernel

theorem sib_fields : ∀ (i b : Register) (k : BitVec 2),
    (BitVec.ofNat 8 (k.toNat <<< 6) ||| (regCode i <<< 3) ||| regCode b).extractLsb' 0 3 = low3 b ∧
    (BitVec.ofNat 8 (k.toNat <<< 6) ||| (regCode i <<< 3) ||| regCode b).extractLsb' 3 3 = low3 i ∧
    (BitVec.ofNat 8 (k.toNat <<< 6) ||| (regCode i <<< 3) ||| regCode b).extractLsb' 6 2 = k := by decide +kernel

theorem log_scale {n : Nat} {k : BitVec 2} (h : scaleBits n = some k) : log n = k.toNat := by
  unfold scaleBits at h
  split at h <;> first | (cases h; decide) | cases h

theorem regCode_low3 : ∀ (a : Register), (regCode a = 4#8 ↔ low3 a = 4#3) ∧ (regCode a = 5#8 ↔ low3 a = 5#3) := by decide +kernel

theorem low3_rsp : low3 rsp = 4#3 := by decide

theorem sib_rsp : ∀ b : Register, low3 b = 4#3 →
    sib 0 rsp rsp = [0x24#8] := by intro _ _; decide

/-- The operand byte, the SIB byte and the displacement, for each of the three forms. -/
theorem modrmSib_ok (width : Byte) (mod : BitVec 2) (a : Register) (m : Memory) (rex : Rex) (tail rest : List Byte)
    (d : BitVec 64)
    (hw : ∀ (a b : Register), (width ||| (regCode b <<< 3) ||| regCode a).extractLsb' 0 3 = low3 a ∧
      (width ||| (regCode b <<< 3) ||| regCode a).extractLsb' 3 3 = low3 b ∧
      (width ||| (regCode b <<< 3) ||| regCode a).extractLsb' 6 2 = mod)
    (h3 : mod ≠ 3#2) (h5 : mod = 0#2 → low3 m.base ≠ 5#3)
    (hd : Cpu.disp mod (tail ++ rest) = some (d, rest))
    (hg : Good m) (hx : rex.x = bit8 m.index) (hb : rex.b = bit8 (some m.base)) (ho : d = m.offset.signExtend 64) :
    Cpu.modrm rex (modrmSib width a m.scale m.index m.base ++ tail ++ rest) =
      some (low3 a, Cpu.num rex.r (low3 a), rmOf m, rest) := by
  obtain ⟨base, offset, index, scale⟩ := m
  simp only at hb hx ho h5 hg
  cases index with
  | none =>
    simp only [modrmSib]
    obtain ⟨w1, w2, w3⟩ := hw base a
    by_cases h4 : regCode base = 4#8
    · have l4 := (regCode_low3 base).1.1 h4
      have e : modrm width base a ++ (if regCode base = 4#8 then sib 0 rsp rsp else []) ++ tail ++ rest =
          (width ||| (regCode a <<< 3) ||| regCode base) :: 0x24#8 :: (tail ++ rest) := by
        rw [if_pos h4, sib_rsp base l4]; simp [modrm]
      rw [e, Cpu.modrm]
      simp only [w1, w2, w3, if_neg h3, l4, if_true, Cpu.sibOperand]
      rw [hx]
      simp only [show (0x24#8 : Byte).extractLsb' 3 3 = 4#3 from by decide, show (0x24#8 : Byte).extractLsb' 0 3 = 4#3 from by decide]
      have : Cpu.num (bit8 none) 4#3 = 4#4 := by decide
      simp only [this, if_true, show ((4#3 : BitVec 3) = 5#3 ∧ mod = 0#2) ↔ False from by simp, if_false, hd]
      rw [← l4, hb, num_low3]
      simp [rmOf, ho]
    · have l4 : low3 base ≠ 4#3 := fun h => h4 ((regCode_low3 base).1.2 h)
      have e : modrm width base a ++ (if regCode base = 4#8 then sib 0 rsp rsp else []) ++ tail ++ rest =
          (width ||| (regCode a <<< 3) ||| regCode base) :: (tail ++ rest) := by
        rw [if_neg h4]; simp [modrm]
      rw [e, Cpu.modrm]
      have h5' : ¬ (low3 base = 5#3 ∧ mod = 0#2) := fun h => h5 h.2 h.1
      simp only [w1, w2, w3, if_neg h3, if_neg l4, if_neg h5', hd]
      rw [hb, num_low3]
      simp [rmOf, ho]
  | some i =>
    simp only [modrmSib]
    obtain ⟨w1, w2, w3⟩ := hw rsp a
    simp only [Good] at hg
    obtain ⟨hi, hs⟩ := hg
    obtain ⟨k, hk⟩ := Option.isSome_iff_exists.1 hs
    obtain ⟨s1, s2, s3⟩ := sib_fields i base k
    have e : modrm width rsp a ++ sib scale i base ++ tail ++ rest =
        (width ||| (regCode a <<< 3) ||| regCode rsp) ::
        (BitVec.ofNat 8 (k.toNat <<< 6) ||| (regCode i <<< 3) ||| regCode base) :: (tail ++ rest) := by
      simp [modrm, sib, log_scale hk]
    rw [e, Cpu.modrm]
    simp only [w1, w2, w3, if_neg h3, low3_rsp, if_true, Cpu.sibOperand, s1, s2, s3]
    have h5' : ¬ (low3 base = 5#3 ∧ mod = 0#2) := fun h => h5 h.2 h.1
    rw [hx, num_low3, hb, num_low3]
    simp only [if_neg h5', hd, if_neg hi]
    simp [rmOf, ho, hk]

/-- **An operand in memory is read as it is meant**: base, index, scale and offset. -/
theorem modrm_mem (a : Register) (m : Memory) (rex : Rex) (rest : List Byte) (hg : Good m)
    (hx : rex.x = bit8 m.index) (hb : rex.b = bit8 (some m.base)) :
    Cpu.modrm rex (modrmSibImm a m ++ rest) = some (low3 a, Cpu.num rex.r (low3 a), rmOf m, rest) := by
  unfold modrmSibImm
  simp only
  split
  · rename_i h
    have h5 : low3 m.base ≠ 5#3 := fun e => h.2 ((regCode_low3 m.base).2.2 e)
    have := modrmSib_ok 0x00#8 0#2 a m rex [] rest 0 (fun a b => (modrm_width_fields a b).1) (by decide) (fun _ => h5) rfl
      hg hx hb (by rw [h.1]; decide)
    simpa using this
  · split
    · rename_i h8
      refine modrmSib_ok 0x40#8 1#2 a m rex _ rest _ (fun a b => (modrm_width_fields a b).2.1) (by decide) (fun h => absurd h (by decide)) ?_ hg hx hb rfl
      show Cpu.disp 1#2 (append _ ++ rest) = _
      simp only [append, List.singleton_append, Cpu.disp, fits8 h8]
    · refine modrmSib_ok 0x80#8 2#2 a m rex _ rest _ (fun a b => (modrm_width_fields a b).2.2) (by decide) (fun h => absurd h (by decide)) ?_ hg hx hb rfl
      show Cpu.disp 2#2 (append4 _ ++ rest) = _
      have : ∀ l, Cpu.disp 2#2 l = (Cpu.le4 l).map fun p => (p.1.signExtend 64, p.2) := fun _ => rfl
      simp only [this, le4_append4, low_signExtend32, Option.map_some]

end Avian.X86
