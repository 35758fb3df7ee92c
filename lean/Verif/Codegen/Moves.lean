import Verif.Codegen.Exec

/-
What the processor reads in instructions with an operand that is a register or in memory.
-/
namespace Avian.X86

open Cpu (Byte Width Rex Rm R State Fpu Next Out Instr)

/-- Bytes that stand for the operand `m`, with the registers `i` and `b` as index and base (or as the operand itself). -/
def Opd (i b : Option Register) (l : Register → List Byte) (m : Rm) : Prop :=
  ∀ (rex : Rex) (r : Register) (rest : List Byte), rex.x = bit8 i → rex.b = bit8 b →
    Cpu.modrm rex (l r ++ rest) = some (low3 r, Cpu.num rex.r (low3 r), m, rest)

theorem opd_reg (a : Register) : Opd none (some a) (fun r => modrm 0xc0#8 a r) (.reg (num4 a)) := by
  intro rex r rest _ hb
  rw [modrm_reg, hb, num_low3]

theorem opd_mem (m : Memory) (hg : Good m) : Opd m.index (some m.base) (fun r => modrmSibImm r m) (rmOf m) := by
  intro rex r rest hx hb
  exact modrm_mem r m rex rest hg hx hb

theorem opd_rex {i b : Option Register} {l : Register → List Byte} {m : Rm} (h : Opd i b l m) (w : Width) (r : Register)
    (always : Bool) (rest : List Byte) :
    Cpu.modrm (rexOf w (some r) i b always) (l r ++ rest) = some (low3 r, num4 r, m, rest) := by
  rw [h (rexOf w (some r) i b always) r rest rfl rfl]
  have : (rexOf w (some r) i b always).r = bit8 (some r) := rfl
  rw [this, num_low3]

theorem opd_rex0 {i b : Option Register} {l : Register → List Byte} {m : Rm} (h : Opd i b l m) (w : Width) (r : Register)
    (always : Bool) (rest : List Byte) :
    Cpu.modrm (rexOf w none i b always) (l r ++ rest) = some (low3 r, Cpu.num false (low3 r), m, rest) := by
  rw [h (rexOf w none i b always) r rest rfl rfl]
  rfl

theorem osize_66 (w : Width) (hw : w ≠ .q) (a i b : Option Register) (x : Bool) : Cpu.osize .p66 (rexOf w a i b x) = .w := by
  cases w <;> first | exact absurd rfl hw | rfl

theorem osize_nq (w : Width) (hw : w ≠ .q) (a i b : Option Register) (x : Bool) : Cpu.osize .no (rexOf w a i b x) = .d := by
  cases w <;> first | exact absurd rfl hw | rfl

section
variable {i b : Option Register} {l : Register → List Byte} {m : Rm}

theorem decode_89 (h : Opd i b l m) (w : Width) (hw : Full w) (r : Register) (always : Bool) (rest : List Byte) :
    Cpu.decode (maybeRex w (some r) i b always ++ 0x89#8 :: (l r ++ rest)) = some (.store w m (.reg (num4 r)), rest) := by
  rw [decode_one _ _ _ _ _ _ _ (by decide) (by decide)]
  have ho := osize_no hw (some r) i b always
  have hm := opd_rex h w r always rest
  generalize rexOf w (some r) i b always = rex at *
  simp [Cpu.decode1, Cpu.decodeM, hm, ho, Cpu.aluOf]

theorem decode_8b (h : Opd i b l m) (w : Width) (hw : Full w) (r : Register) (always : Bool) (rest : List Byte) :
    Cpu.decode (maybeRex w (some r) i b always ++ 0x8b#8 :: (l r ++ rest)) = some (.load w (num4 r) m, rest) := by
  rw [decode_one _ _ _ _ _ _ _ (by decide) (by decide)]
  have ho := osize_no hw (some r) i b always
  have hm := opd_rex h w r always rest
  generalize rexOf w (some r) i b always = rex at *
  simp [Cpu.decode1, Cpu.decodeM, hm, ho, Cpu.aluOf]

theorem decode_63 (h : Opd i b l m) (w : Width) (hw : Full w) (r : Register) (always : Bool) (rest : List Byte) :
    Cpu.decode (maybeRex w (some r) i b always ++ 0x63#8 :: (l r ++ rest)) = some (.movsx w .d (num4 r) m, rest) := by
  rw [decode_one _ _ _ _ _ _ _ (by decide) (by decide)]
  have ho := osize_no hw (some r) i b always
  have hm := opd_rex h w r always rest
  generalize rexOf w (some r) i b always = rex at *
  simp [Cpu.decode1, Cpu.decodeM, hm, ho, Cpu.aluOf]

theorem decode_87 (h : Opd i b l m) (w : Width) (hw : Full w) (r : Register) (always : Bool) (rest : List Byte) :
    Cpu.decode (maybeRex w (some r) i b always ++ 0x87#8 :: (l r ++ rest)) = some (.xchg w m (num4 r), rest) := by
  rw [decode_one _ _ _ _ _ _ _ (by decide) (by decide)]
  have ho := osize_no hw (some r) i b always
  have hm := opd_rex h w r always rest
  generalize rexOf w (some r) i b always = rex at *
  simp [Cpu.decode1, Cpu.decodeM, hm, ho, Cpu.aluOf]

theorem decode_39 (h : Opd i b l m) (w : Width) (hw : Full w) (r : Register) (always : Bool) (rest : List Byte) :
    Cpu.decode (maybeRex w (some r) i b always ++ 0x39#8 :: (l r ++ rest)) = some (.alu .cmp w m (num4 r), rest) := by
  rw [decode_one _ _ _ _ _ _ _ (by decide) (by decide)]
  have ho := osize_no hw (some r) i b always
  have hm := opd_rex h w r always rest
  generalize rexOf w (some r) i b always = rex at *
  simp [Cpu.decode1, Cpu.decodeM, hm, ho, Cpu.aluOf]

theorem decode_0fbf (h : Opd i b l m) (w : Width) (r : Register) (always : Bool) (rest : List Byte) :
    Cpu.decode (maybeRex w (some r) i b always ++ 0x0f#8 :: 0xbf#8 :: (l r ++ rest)) =
      some (.movsx (Cpu.osize .no (rexOf w (some r) i b always)) .w (num4 r) m, rest) := by
  rw [decode_0f]
  have hm := opd_rex h w r always rest
  generalize rexOf w (some r) i b always = rex at *
  simp [Cpu.decode2, hm]

theorem decode_0fbe (h : Opd i b l m) (w : Width) (r : Register) (always : Bool) (rest : List Byte) :
    Cpu.decode (maybeRex w (some r) i b always ++ 0x0f#8 :: 0xbe#8 :: (l r ++ rest)) =
      some (.movsx (Cpu.osize .no (rexOf w (some r) i b always)) .b (num4 r) (Cpu.byteRm (rexOf w (some r) i b always) m), rest) := by
  rw [decode_0f]
  have hm := opd_rex h w r always rest
  generalize rexOf w (some r) i b always = rex at *
  simp [Cpu.decode2, hm]

theorem decode_0fb7 (h : Opd i b l m) (w : Width) (r : Register) (always : Bool) (rest : List Byte) :
    Cpu.decode (maybeRex w (some r) i b always ++ 0x0f#8 :: 0xb7#8 :: (l r ++ rest)) =
      some (.movzx (Cpu.osize .no (rexOf w (some r) i b always)) .w (num4 r) m, rest) := by
  rw [decode_0f]
  have hm := opd_rex h w r always rest
  generalize rexOf w (some r) i b always = rex at *
  simp [Cpu.decode2, hm]

theorem decode_0f2e (h : Opd i b l m) (w : Width) (r : Register) (always : Bool) (rest : List Byte) :
    Cpu.decode (maybeRex w (some r) i b always ++ 0x0f#8 :: 0x2e#8 :: (l r ++ rest)) =
      some (.ucomis .d (num4 r) m, rest) := by
  rw [decode_0f]
  have hm := opd_rex h w r always rest
  generalize rexOf w (some r) i b always = rex at *
  simp [Cpu.decode2, hm]

theorem decode_0f57 (h : Opd i b l m) (w : Width) (r : Register) (always : Bool) (rest : List Byte) :
    Cpu.decode (maybeRex w (some r) i b always ++ 0x0f#8 :: 0x57#8 :: (l r ++ rest)) =
      some (.xorps (num4 r) m, rest) := by
  rw [decode_0f]
  have hm := opd_rex h w r always rest
  generalize rexOf w (some r) i b always = rex at *
  simp [Cpu.decode2, hm]

theorem decode_0f54 (h : Opd i b l m) (w : Width) (r : Register) (always : Bool) (rest : List Byte) :
    Cpu.decode (maybeRex w (some r) i b always ++ 0x0f#8 :: 0x54#8 :: (l r ++ rest)) =
      some (.andps (num4 r) m, rest) := by
  rw [decode_0f]
  have hm := opd_rex h w r always rest
  generalize rexOf w (some r) i b always = rex at *
  simp [Cpu.decode2, hm]

theorem decode_66_0f6e (h : Opd i b l m) (w : Width) (r : Register) (always : Bool) (rest : List Byte) :
    Cpu.decode (0x66#8 :: (maybeRex w (some r) i b always ++ 0x0f#8 :: 0x6e#8 :: (l r ++ rest))) =
      some (.toXmm (Cpu.gsize (rexOf w (some r) i b always)) (num4 r) m, rest) := by
  rw [decode_66_0f]
  have hm := opd_rex h w r always rest
  generalize rexOf w (some r) i b always = rex at *
  simp [Cpu.decode2, hm]

theorem decode_66_0f7e (h : Opd i b l m) (w : Width) (r : Register) (always : Bool) (rest : List Byte) :
    Cpu.decode (0x66#8 :: (maybeRex w (some r) i b always ++ 0x0f#8 :: 0x7e#8 :: (l r ++ rest))) =
      some (.fromXmm (Cpu.gsize (rexOf w (some r) i b always)) m (num4 r), rest) := by
  rw [decode_66_0f]
  have hm := opd_rex h w r always rest
  generalize rexOf w (some r) i b always = rex at *
  simp [Cpu.decode2, hm]

theorem decode_66_0f2e (h : Opd i b l m) (w : Width) (r : Register) (always : Bool) (rest : List Byte) :
    Cpu.decode (0x66#8 :: (maybeRex w (some r) i b always ++ 0x0f#8 :: 0x2e#8 :: (l r ++ rest))) =
      some (.ucomis .q (num4 r) m, rest) := by
  rw [decode_66_0f]
  have hm := opd_rex h w r always rest
  generalize rexOf w (some r) i b always = rex at *
  simp [Cpu.decode2, hm]

theorem decode_f3_0f10 (h : Opd i b l m) (w : Width) (r : Register) (always : Bool) (rest : List Byte) :
    Cpu.decode (0xf3#8 :: (maybeRex w (some r) i b always ++ 0x0f#8 :: 0x10#8 :: (l r ++ rest))) =
      some (.movs .d (num4 r) m, rest) := by
  rw [decode_f3_0f]
  have hm := opd_rex h w r always rest
  generalize rexOf w (some r) i b always = rex at *
  simp [Cpu.decode2, Cpu.decodeS, hm]

theorem decode_f3_0f2a (h : Opd i b l m) (w : Width) (r : Register) (always : Bool) (rest : List Byte) :
    Cpu.decode (0xf3#8 :: (maybeRex w (some r) i b always ++ 0x0f#8 :: 0x2a#8 :: (l r ++ rest))) =
      some (.cvtsi .d (Cpu.gsize (rexOf w (some r) i b always)) (num4 r) m, rest) := by
  rw [decode_f3_0f]
  have hm := opd_rex h w r always rest
  generalize rexOf w (some r) i b always = rex at *
  simp [Cpu.decode2, Cpu.decodeS, hm]

theorem decode_f3_sse (h : Opd i b l m) (w : Width) (r : Register) (always : Bool) (op : Byte) (rest : List Byte)
    (hop : op ∈ [0x51#8, 0x58#8, 0x59#8, 0x5a#8, 0x5c#8, 0x5e#8]) :
    Cpu.decode (0xf3#8 :: (maybeRex w (some r) i b always ++ 0x0f#8 :: op :: (l r ++ rest))) =
      some (.sse op .d (num4 r) m, rest) := by
  rw [decode_f3_0f]
  have hm := opd_rex h w r always rest
  generalize rexOf w (some r) i b always = rex at *
  simp only [List.mem_cons, List.not_mem_nil, or_false] at hop
  rcases hop with rfl | rfl | rfl | rfl | rfl | rfl <;> simp [Cpu.decode2, Cpu.decodeS, hm]

theorem decode_f2_0f10 (h : Opd i b l m) (w : Width) (r : Register) (always : Bool) (rest : List Byte) :
    Cpu.decode (0xf2#8 :: (maybeRex w (some r) i b always ++ 0x0f#8 :: 0x10#8 :: (l r ++ rest))) =
      some (.movs .q (num4 r) m, rest) := by
  rw [decode_f2_0f]
  have hm := opd_rex h w r always rest
  generalize rexOf w (some r) i b always = rex at *
  simp [Cpu.decode2, Cpu.decodeS, hm]

theorem decode_f2_0f2a (h : Opd i b l m) (w : Width) (r : Register) (always : Bool) (rest : List Byte) :
    Cpu.decode (0xf2#8 :: (maybeRex w (some r) i b always ++ 0x0f#8 :: 0x2a#8 :: (l r ++ rest))) =
      some (.cvtsi .q (Cpu.gsize (rexOf w (some r) i b always)) (num4 r) m, rest) := by
  rw [decode_f2_0f]
  have hm := opd_rex h w r always rest
  generalize rexOf w (some r) i b always = rex at *
  simp [Cpu.decode2, Cpu.decodeS, hm]

theorem decode_f2_sse (h : Opd i b l m) (w : Width) (r : Register) (always : Bool) (op : Byte) (rest : List Byte)
    (hop : op ∈ [0x51#8, 0x58#8, 0x59#8, 0x5a#8, 0x5c#8, 0x5e#8]) :
    Cpu.decode (0xf2#8 :: (maybeRex w (some r) i b always ++ 0x0f#8 :: op :: (l r ++ rest))) =
      some (.sse op .q (num4 r) m, rest) := by
  rw [decode_f2_0f]
  have hm := opd_rex h w r always rest
  generalize rexOf w (some r) i b always = rex at *
  simp only [List.mem_cons, List.not_mem_nil, or_false] at hop
  rcases hop with rfl | rfl | rfl | rfl | rfl | rfl <;> simp [Cpu.decode2, Cpu.decodeS, hm]

theorem decode_66_89 (h : Opd i b l m) (w : Width) (hw : w ≠ .q) (r : Register) (always : Bool) (rest : List Byte) :
    Cpu.decode (0x66#8 :: (maybeRex w (some r) i b always ++ 0x89#8 :: (l r ++ rest))) = some (.store .w m (.reg (num4 r)), rest) := by
  rw [decode_66 _ _ _ _ _ _ _ (by decide) (by decide)]
  have ho := osize_66 w hw (some r) i b always
  have hm := opd_rex h w r always rest
  generalize rexOf w (some r) i b always = rex at *
  simp [Cpu.decode1, Cpu.decodeM, hm, ho]

theorem decode_88 (h : Opd i b l m) (w : Width) (r : Register) (always : Bool) (rest : List Byte) :
    Cpu.decode (maybeRex w (some r) i b always ++ 0x88#8 :: (l r ++ rest)) =
      some (.store .b (Cpu.byteRm (rexOf w (some r) i b always) m) (Cpu.byteReg (rexOf w (some r) i b always) (num4 r)), rest) := by
  rw [decode_one _ _ _ _ _ _ _ (by decide) (by decide)]
  have hm := opd_rex h w r always rest
  generalize rexOf w (some r) i b always = rex at *
  simp [Cpu.decode1, Cpu.decodeM, hm]

theorem low3_rax : low3 rax = 0#3 := by decide
theorem low3_rdx : low3 rdx = 2#3 := by decide
theorem low3_rdi : low3 rdi = 7#3 := by decide

theorem decode_c6 (h : Opd i b l m) (w : Width) (v : BitVec 64) (rest : List Byte) :
    Cpu.decode (maybeRex w none i b false ++ 0xc6#8 :: (l rax ++ (append v ++ rest))) =
      some (.storeI .b (Cpu.byteRm (rexOf w none i b false) m) ((v.setWidth 8).signExtend 64), rest) := by
  rw [decode_one _ _ _ _ _ _ _ (by decide) (by decide)]
  have hm := opd_rex0 h w rax false (append v ++ rest)
  rw [low3_rax] at hm
  generalize rexOf w none i b false = rex at *
  have hi : Cpu.immOf .b (append v ++ rest) = some ((v.setWidth 8).signExtend 64, rest) := rfl
  simp [Cpu.decode1, Cpu.decodeM, hm, hi]

theorem decode_c7 (h : Opd i b l m) (w : Width) (hw : Full w) (v : BitVec 64) (rest : List Byte) :
    Cpu.decode (maybeRex w none i b false ++ 0xc7#8 :: (l rax ++ (append4 v ++ rest))) =
      some (.storeI w m ((v.setWidth 32).signExtend 64), rest) := by
  rw [decode_one _ _ _ _ _ _ _ (by decide) (by decide)]
  have hm := opd_rex0 h w rax false (append4 v ++ rest)
  have ho := osize_no hw none i b false
  rw [low3_rax] at hm
  generalize rexOf w none i b false = rex at *
  have hi : Cpu.immOf w (append4 v ++ rest) = some ((v.setWidth 32).signExtend 64, rest) := by
    rcases hw with rfl | rfl <;> simp [Cpu.immOf, le4_append4]
  simp [Cpu.decode1, Cpu.decodeM, hm, ho, hi]

theorem decode_66_c7 (h : Opd i b l m) (w : Width) (hw : w ≠ .q) (v : BitVec 64) (rest : List Byte) :
    Cpu.decode (0x66#8 :: (maybeRex w none i b false ++ 0xc7#8 :: (l rax ++ (append2 v ++ rest)))) =
      some (.storeI .w m ((v.setWidth 16).signExtend 64), rest) := by
  rw [decode_66 _ _ _ _ _ _ _ (by decide) (by decide)]
  have hm := opd_rex0 h w rax false (append2 v ++ rest)
  have ho := osize_66 w hw none i b false
  rw [low3_rax] at hm
  generalize rexOf w none i b false = rex at *
  simp [Cpu.decode1, Cpu.decodeM, hm, ho, Cpu.immOf, le2_append2]

theorem decode_83 (h : Opd i b l m) (w : Width) (hw : Full w) (v : BitVec 64) (rest : List Byte) :
    Cpu.decode (maybeRex w none i b false ++ 0x83#8 :: (l rdi ++ (append v ++ rest))) =
      some (.aluI .cmp w m ((v.setWidth 8).signExtend 64), rest) := by
  rw [decode_one _ _ _ _ _ _ _ (by decide) (by decide)]
  have hm := opd_rex0 h w rdi false (append v ++ rest)
  have ho := osize_no hw none i b false
  rw [low3_rdi] at hm
  generalize rexOf w none i b false = rex at *
  have hi : Cpu.immOf .b (append v ++ rest) = some ((v.setWidth 8).signExtend 64, rest) := rfl
  simp [Cpu.decode1, Cpu.decodeM, hm, ho, hi, Cpu.aluOf]

theorem decode_81 (h : Opd i b l m) (w : Width) (hw : Full w) (v : BitVec 64) (rest : List Byte) :
    Cpu.decode (maybeRex w none i b false ++ 0x81#8 :: (l rdi ++ (append4 v ++ rest))) =
      some (.aluI .cmp w m ((v.setWidth 32).signExtend 64), rest) := by
  rw [decode_one _ _ _ _ _ _ _ (by decide) (by decide)]
  have hm := opd_rex0 h w rdi false (append4 v ++ rest)
  have ho := osize_no hw none i b false
  rw [low3_rdi] at hm
  generalize rexOf w none i b false = rex at *
  have hi : Cpu.immOf w (append4 v ++ rest) = some ((v.setWidth 32).signExtend 64, rest) := by
    rcases hw with rfl | rfl <;> simp [Cpu.immOf, le4_append4]
  simp [Cpu.decode1, Cpu.decodeM, hm, ho, hi, Cpu.aluOf]

theorem decode_ff2 (h : Opd i b l m) (w : Width) (rest : List Byte) :
    Cpu.decode (maybeRex w none i b false ++ 0xff#8 :: (l rdx ++ rest)) = some (.callM m, rest) := by
  rw [decode_one _ _ _ _ _ _ _ (by decide) (by decide)]
  have hm := opd_rex0 h w rdx false rest
  rw [low3_rdx] at hm
  generalize rexOf w none i b false = rex at *
  simp [Cpu.decode1, Cpu.decodeM, hm]

theorem decode_ff4 (h : Opd i b l m) (w : Width) (rest : List Byte) :
    Cpu.decode (maybeRex w none i b false ++ 0xff#8 :: (l rsp ++ rest)) = some (.jmpM m, rest) := by
  rw [decode_one _ _ _ _ _ _ _ (by decide) (by decide)]
  have hm := opd_rex0 h w rsp false rest
  rw [low3_rsp] at hm
  generalize rexOf w none i b false = rex at *
  simp [Cpu.decode1, Cpu.decodeM, hm]

end

/-! ### Registers in opcodes -/

theorem opcode_regs : ∀ b : Register,
    (plain (0xb8#8 + regCode b) = true ∧ (0xb8#8 + regCode b) ≠ 0x0f#8 ∧ (0xb8#8 + regCode b).extractLsb' 3 5 = 0x17#5 ∧
      (0xb8#8 + regCode b).extractLsb' 0 3 = low3 b) ∧
    (plain (0x50#8 + regCode b) = true ∧ (0x50#8 + regCode b) ≠ 0x0f#8 ∧ (0x50#8 + regCode b).extractLsb' 3 5 = 0x0a#5 ∧
      (0x50#8 + regCode b).extractLsb' 0 3 = low3 b) ∧
    (plain (0x58#8 + regCode b) = true ∧ (0x58#8 + regCode b) ≠ 0x0f#8 ∧ (0x58#8 + regCode b).extractLsb' 3 5 = 0x0b#5 ∧
      (0x58#8 + regCode b).extractLsb' 0 3 = low3 b) := by decide +kernel

theorem decode_mov64 (v : BitVec 64) (b : Register) (rest : List Byte) :
    Cpu.decode (maybeRexR .q b ++ [0xb8#8 + regCode b] ++ append8 v ++ rest) = some (.movI .q (num4 b) v, rest) := by
  obtain ⟨h1, h2, h3, h4⟩ := (opcode_regs b).1
  have e : maybeRexR .q b ++ [0xb8#8 + regCode b] ++ append8 v ++ rest =
    maybeRex .q none none (some b) false ++ (0xb8#8 + regCode b) :: (append8 v ++ rest) := by simp [maybeRexR]
  rw [e, decode_one _ _ _ _ _ _ _ h1 h2]
  have hw : (rexOf .q none none (some b) false).w = true := rfl
  have hb : (rexOf .q none none (some b) false).b = bit8 (some b) := rfl
  simp [Cpu.decode1, h3, h4, hw, hb, num_low3, le8_append8]

theorem decode_push (b : Register) (rest : List Byte) :
    Cpu.decode (pushR b ++ rest) = some (.push (num4 b), rest) := by
  obtain ⟨h1, h2, h3, h4⟩ := (opcode_regs b).2.1
  have e : pushR b ++ rest = maybeRex .d none none (some b) false ++ (0x50#8 + regCode b) :: rest := by simp [pushR, maybeRexR]
  rw [e, decode_one _ _ _ _ _ _ _ h1 h2]
  have hb : (rexOf .d none none (some b) false).b = bit8 (some b) := rfl
  simp [Cpu.decode1, h3, h4, hb, num_low3]

theorem decode_pop (b : Register) (rest : List Byte) :
    Cpu.decode (maybeRexR .d b ++ [0x58#8 + regCode b] ++ rest) = some (.pop (num4 b), rest) := by
  obtain ⟨h1, h2, h3, h4⟩ := (opcode_regs b).2.2
  have e : maybeRexR .d b ++ [0x58#8 + regCode b] ++ rest = maybeRex .d none none (some b) false ++ (0x58#8 + regCode b) :: rest := by
    simp [maybeRexR]
  rw [e, decode_one _ _ _ _ _ _ _ h1 h2]
  have hb : (rexOf .d none none (some b) false).b = bit8 (some b) := rfl
  simp [Cpu.decode1, h3, h4, hb, num_low3]

theorem decode_callR (a : Register) (rest : List Byte) :
    Cpu.decode (callR a ++ rest) = some (.callM (.reg (num4 a)), rest) := by
  have m := modrm_ext (rexOf .d none none (some a) false) 2#3 _ a rest (ext_fields a).2.2.1
  have e2 : (rexOf .d none none (some a) false).b = bit8 (some a) := rfl
  rw [e2, num_low3] at m
  have e : callR a ++ rest = maybeRex .d none none (some a) false ++ 0xff#8 :: (0xd0#8 + regCode a) :: rest := by
    simp [callR, maybeRexR]
  rw [e, decode_one _ _ _ _ _ _ _ (by decide) (by decide)]
  generalize rexOf .d none none (some a) false = rex at *
  simp [Cpu.decode1, Cpu.decodeM, m]

theorem decode_jumpR (a : Register) (rest : List Byte) :
    Cpu.decode (jumpR a ++ rest) = some (.jmpM (.reg (num4 a)), rest) := by
  have m := modrm_ext (rexOf .d none none (some a) false) 4#3 _ a rest (ext_fields a).2.2.2.2.1
  have e2 : (rexOf .d none none (some a) false).b = bit8 (some a) := rfl
  rw [e2, num_low3] at m
  have e : jumpR a ++ rest = maybeRex .d none none (some a) false ++ 0xff#8 :: (0xe0#8 + regCode a) :: rest := by
    simp [jumpR, maybeRexR]
  rw [e, decode_one _ _ _ _ _ _ _ (by decide) (by decide)]
  generalize rexOf .d none none (some a) false = rex at *
  simp [Cpu.decode1, Cpu.decodeM, m]

end Avian.X86
