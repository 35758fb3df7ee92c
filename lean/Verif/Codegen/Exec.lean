import Verif.Codegen.Decode

/-
How pieces of machine code are executed, one after the other.
-/
namespace Avian.X86

open Cpu (Byte Width Rex Rm R State Fpu Next Out Instr)

/-- The address behind a piece of code. -/
def behind (pc : BitVec 64) (code : List Byte) : BitVec 64 := pc + BitVec.ofNat 64 code.length

/-- Executing the code at `pc` leads to its end, with the state `s'`, whatever code follows. -/
def Runs (fpu : Fpu) (code : List Byte) (pc : BitVec 64) (s s' : State) : Prop :=
  ∃ k, ∀ n rest, Cpu.run fpu (k + n) (code ++ rest) pc s = Cpu.run fpu n rest (behind pc code) s'

/-- Executing the code at `pc` leads to the address `a`, which need not be behind the code. -/
def Goes (fpu : Fpu) (code : List Byte) (pc : BitVec 64) (s : State) (a : BitVec 64) (s' : State) : Prop :=
  ∃ k, ∀ n, Cpu.run fpu (k + n) code pc s = .at a s'

/-- Executing the code raises an exception of the processor. -/
def Faults (fpu : Fpu) (code : List Byte) (pc : BitVec 64) (s : State) : Prop :=
  ∃ k, ∀ n rest, Cpu.run fpu (k + n) (code ++ rest) pc s = .fault

theorem behind_append (pc : BitVec 64) (c d : List Byte) : behind pc (c ++ d) = behind (behind pc c) d := by
  simp [behind, BitVec.ofNat_add, BitVec.add_assoc]

theorem runs_nil (fpu : Fpu) (pc : BitVec 64) (s : State) : Runs fpu [] pc s s := by
  refine ⟨0, fun n rest => ?_⟩
  simp [behind]

theorem runs_append {fpu : Fpu} {c d : List Byte} {pc : BitVec 64} {s t u : State}
    (h : Runs fpu c pc s t) (g : Runs fpu d (behind pc c) t u) : Runs fpu (c ++ d) pc s u := by
  obtain ⟨k, hk⟩ := h
  obtain ⟨m, hm⟩ := g
  refine ⟨k + m, fun n rest => ?_⟩
  rw [List.append_assoc, Nat.add_assoc, hk, hm, behind_append]

theorem runs_goes {fpu : Fpu} {c d : List Byte} {pc : BitVec 64} {s t u : State} {a : BitVec 64}
    (h : Runs fpu c pc s t) (g : Goes fpu d (behind pc c) t a u) : Goes fpu (c ++ d) pc s a u := by
  obtain ⟨k, hk⟩ := h
  obtain ⟨m, hm⟩ := g
  refine ⟨k + m, fun n => ?_⟩
  rw [Nat.add_assoc, hk, hm]

theorem runs_faults {fpu : Fpu} {c d : List Byte} {pc : BitVec 64} {s t : State}
    (h : Runs fpu c pc s t) (g : Faults fpu d (behind pc c) t) : Faults fpu (c ++ d) pc s := by
  obtain ⟨k, hk⟩ := h
  obtain ⟨m, hm⟩ := g
  refine ⟨k + m, fun n rest => ?_⟩
  rw [List.append_assoc, Nat.add_assoc, hk, hm]

theorem runs_end {fpu : Fpu} {c : List Byte} {pc : BitVec 64} {s t : State} (h : Runs fpu c pc s t) :
    Goes fpu c pc s (behind pc c) t := by
  obtain ⟨k, hk⟩ := h
  refine ⟨k, fun n => ?_⟩
  have := hk n []
  rw [List.append_nil] at this
  rw [this, Cpu.run]

/-- One step of the processor. -/
theorem run_step (fpu : Fpu) (n : Nat) (code rest : List Byte) (pc : BitVec 64) (s : State) (i : Instr)
    (hc : code ≠ []) (hd : Cpu.decode (code ++ rest) = some (i, rest)) :
    Cpu.run fpu (1 + n) (code ++ rest) pc s =
      match Cpu.exec fpu i (behind pc code) s with
      | .next s => Cpu.run fpu n rest (behind pc code) s
      | .jump a s => .at a s
      | .fault => .fault := by
  cases code with
  | nil => exact absurd rfl hc
  | cons v l =>
    rw [Nat.add_comm]
    simp only [List.cons_append] at hd ⊢
    have : (v :: (l ++ rest)).length - rest.length = (v :: l).length := by
      simp only [List.length_cons, List.length_append]; omega
    rw [Cpu.run]
    · rw [hd]
      simp only
      rw [this]
      rfl
    · intro h; cases h

theorem runs_one {fpu : Fpu} {code : List Byte} {pc : BitVec 64} {s s' : State} (i : Instr)
    (hc : code ≠ []) (hd : ∀ rest, Cpu.decode (code ++ rest) = some (i, rest))
    (he : Cpu.exec fpu i (behind pc code) s = .next s') : Runs fpu code pc s s' := by
  refine ⟨1, fun n rest => ?_⟩
  rw [run_step fpu n code rest pc s i hc (hd rest), he]

theorem goes_one {fpu : Fpu} {code : List Byte} {pc : BitVec 64} {s s' : State} {a : BitVec 64} (i : Instr) (rest : List Byte)
    (hc : code ≠ []) (hd : Cpu.decode (code ++ rest) = some (i, rest))
    (he : Cpu.exec fpu i (behind pc code) s = .jump a s') : Goes fpu (code ++ rest) pc s a s' := by
  refine ⟨1, fun n => ?_⟩
  rw [run_step fpu n code rest pc s i hc hd, he]

theorem faults_one {fpu : Fpu} {code : List Byte} {pc : BitVec 64} {s : State} (i : Instr)
    (hc : code ≠ []) (hd : ∀ rest, Cpu.decode (code ++ rest) = some (i, rest))
    (he : Cpu.exec fpu i (behind pc code) s = .fault) : Faults fpu code pc s := by
  refine ⟨1, fun n rest => ?_⟩
  rw [run_step fpu n code rest pc s i hc (hd rest), he]

/-! ### The bytes of integer instructions -/

/-- The width of an operation that is on 4 or 8 bytes. -/
def Full (w : Width) : Prop := w = .d ∨ w = .q

theorem osize_no {w : Width} (hw : Full w) (a i b : Option Register) (x : Bool) : Cpu.osize .no (rexOf w a i b x) = w := by
  rcases hw with rfl | rfl <;> simp [Cpu.osize, rexOf] <;> decide

theorem gsize_rex {w : Width} (hw : Full w) (a i b : Option Register) (x : Bool) : Cpu.gsize (rexOf w a i b x) = w := by
  rcases hw with rfl | rfl <;> simp [Cpu.gsize, rexOf] <;> decide

/-- The operations `op r/m, r`. -/
theorem decode_aluRR (op : Byte) (o : Cpu.Alu) (w : Width) (hw : Full w) (a b : Register) (rest : List Byte)
    (h : (op, o) ∈ [(0x01#8, .add), (0x09#8, .or), (0x11#8, .adc), (0x19#8, .sbb), (0x21#8, .and), (0x29#8, .sub),
      (0x31#8, Cpu.Alu.xor), (0x39#8, .cmp)]) :
    Cpu.decode (maybeRexRR w a b ++ [op] ++ modrm 0xc0#8 b a ++ rest) = some (.alu o w (.reg (num4 b)) (num4 a), rest) := by
  have e : maybeRexRR w a b ++ [op] ++ modrm 0xc0#8 b a ++ rest =
    maybeRex w (some a) none (some b) false ++ op :: (modrm 0xc0#8 b a ++ rest) := by simp [maybeRexRR]
  have hp : plain op = true ∧ op ≠ 0x0f#8 := by
    simp only [List.mem_cons, Prod.mk.injEq, List.not_mem_nil, or_false] at h
    rcases h with ⟨rfl, _⟩ | ⟨rfl, _⟩ | ⟨rfl, _⟩ | ⟨rfl, _⟩ | ⟨rfl, _⟩ | ⟨rfl, _⟩ | ⟨rfl, _⟩ | ⟨rfl, _⟩ <;> decide
  rw [e, decode_one _ _ _ _ _ _ _ hp.1 hp.2]
  have ho := osize_no hw (some a) none (some b) false
  have m := modrm_reg (rexOf w (some a) none (some b) false) b a rest
  have e1 : (rexOf w (some a) none (some b) false).r = bit8 (some a) := rfl
  have e2 : (rexOf w (some a) none (some b) false).b = bit8 (some b) := rfl
  rw [e1, e2, num_low3, num_low3] at m
  generalize rexOf w (some a) none (some b) false = rex at *
  simp only [List.mem_cons, Prod.mk.injEq, List.not_mem_nil, or_false] at h
  rcases h with ⟨rfl, rfl⟩ | ⟨rfl, rfl⟩ | ⟨rfl, rfl⟩ | ⟨rfl, rfl⟩ | ⟨rfl, rfl⟩ | ⟨rfl, rfl⟩ | ⟨rfl, rfl⟩ | ⟨rfl, rfl⟩ <;>
    simp [Cpu.decode1, Cpu.decodeM, m, ho, Cpu.aluOf]

/-- The operations `op r/m, constant`. -/
theorem decode_aluI (type : Byte) (o : Cpu.Alu) (w : Width) (hw : Full w) (v : BitVec 64) (hv : fitsInInt32 v = true) (b : Register)
    (rest : List Byte)
    (h : (type, o) ∈ [(0xc0#8, .add), (0xc8#8, .or), (0xe0#8, .and), (0xe8#8, .sub), (0xf0#8, Cpu.Alu.xor), (0xf8#8, .cmp)]) :
    Cpu.decode (immediateR w type v b ++ rest) = some (.aluI o w (.reg (num4 b)) v, rest) := by
  have ho := osize_no hw none none (some b) false
  have hb : (rexOf w none none (some b) false).b = bit8 (some b) := rfl
  obtain ⟨k, hk, hf⟩ : ∃ k : BitVec 3, Cpu.aluOf k = o ∧ ((type + regCode b).extractLsb' 0 3 = low3 b ∧
      (type + regCode b).extractLsb' 3 3 = k ∧ (type + regCode b).extractLsb' 6 2 = 3#2) := by
    obtain ⟨f0, f1, f2, f3, f4, f5, f6, f7⟩ := ext_fields b
    simp only [List.mem_cons, Prod.mk.injEq, List.not_mem_nil, or_false] at h
    rcases h with ⟨rfl, rfl⟩ | ⟨rfl, rfl⟩ | ⟨rfl, rfl⟩ | ⟨rfl, rfl⟩ | ⟨rfl, rfl⟩ | ⟨rfl, rfl⟩
    · exact ⟨_, rfl, f0⟩
    · exact ⟨_, rfl, f1⟩
    · exact ⟨_, rfl, f4⟩
    · exact ⟨_, rfl, f5⟩
    · exact ⟨_, rfl, f6⟩
    · exact ⟨_, rfl, f7⟩
  have m : ∀ l, Cpu.modrm (rexOf w none none (some b) false) ((type + regCode b) :: l) = _ := fun l => modrm_ext _ k _ b l hf
  simp only [hb, num_low3] at m
  unfold immediateR maybeRexR
  split
  · rename_i h8
    have e : maybeRex w none none (some b) false ++ ([0x83#8, type + regCode b] ++ append v) ++ rest =
      maybeRex w none none (some b) false ++ 0x83#8 :: ((type + regCode b) :: (append v ++ rest)) := by simp
    rw [e, decode_one _ _ _ _ _ _ _ (by decide) (by decide)]
    generalize rexOf w none none (some b) false = rex at *
    simp [Cpu.decode1, Cpu.decodeM, m, ho, hk, append, Cpu.immOf, fits8 h8]
  · have e : maybeRex w none none (some b) false ++ ([0x81#8, type + regCode b] ++ append4 v) ++ rest =
      maybeRex w none none (some b) false ++ 0x81#8 :: ((type + regCode b) :: (append4 v ++ rest)) := by simp
    rw [e, decode_one _ _ _ _ _ _ _ (by decide) (by decide)]
    generalize rexOf w none none (some b) false = rex at *
    have hi : Cpu.immOf w (append4 v ++ rest) = some (v, rest) := by
      rcases hw with rfl | rfl <;> simp [Cpu.immOf, le4_append4, fits32 hv]
    simp [Cpu.decode1, Cpu.decodeM, m, ho, hk, hi]

/-- imul -/
theorem decode_imul (w : Width) (hw : Full w) (a b : Register) (rest : List Byte) :
    Cpu.decode (multiplyRR w a b ++ rest) = some (.imul w (num4 b) (.reg (num4 a)), rest) := by
  have ho := osize_no hw (some b) none (some a) false
  have m := modrm_reg (rexOf w (some b) none (some a) false) a b rest
  have e1 : (rexOf w (some b) none (some a) false).r = bit8 (some b) := rfl
  have e2 : (rexOf w (some b) none (some a) false).b = bit8 (some a) := rfl
  rw [e1, e2, num_low3, num_low3] at m
  have e : multiplyRR w a b ++ rest = maybeRex w (some b) none (some a) false ++ 0x0f#8 :: 0xaf#8 :: (modrm 0xc0#8 a b ++ rest) := by
    simp [multiplyRR, maybeRexRR]
  rw [e, decode_0f]
  simp [Cpu.decode2, m, ho]

/-- imul with a constant -/
theorem decode_imulI (w : Width) (hw : Full w) (v : BitVec 64) (hv : fitsInInt32 v = true) (b : Register) (rest : List Byte) :
    Cpu.decode (maybeRexRR w b b ++
      (if fitsInInt8 v then [0x6b#8] ++ modrm 0xc0#8 b b ++ append v else [0x69#8] ++ modrm 0xc0#8 b b ++ append4 v) ++ rest) =
      some (.imulI w (num4 b) (.reg (num4 b)) v, rest) := by
  have ho := osize_no hw (some b) none (some b) false
  have m : ∀ l, _ = _ := fun l => modrm_reg (rexOf w (some b) none (some b) false) b b l
  have e1 : (rexOf w (some b) none (some b) false).r = bit8 (some b) := rfl
  have e2 : (rexOf w (some b) none (some b) false).b = bit8 (some b) := rfl
  simp only [e1, e2, num_low3] at m
  split
  · rename_i h8
    have e : maybeRexRR w b b ++ ([0x6b#8] ++ modrm 0xc0#8 b b ++ append v) ++ rest =
      maybeRex w (some b) none (some b) false ++ 0x6b#8 :: (modrm 0xc0#8 b b ++ (append v ++ rest)) := by
      simp [maybeRexRR]
    rw [e, decode_one _ _ _ _ _ _ _ (by decide) (by decide)]
    generalize rexOf w (some b) none (some b) false = rex at *
    simp [Cpu.decode1, Cpu.decodeM, m, ho, append, Cpu.immOf, fits8 h8]
  · have e : maybeRexRR w b b ++ ([0x69#8] ++ modrm 0xc0#8 b b ++ append4 v) ++ rest =
      maybeRex w (some b) none (some b) false ++ 0x69#8 :: (modrm 0xc0#8 b b ++ (append4 v ++ rest)) := by
      simp [maybeRexRR]
    rw [e, decode_one _ _ _ _ _ _ _ (by decide) (by decide)]
    generalize rexOf w (some b) none (some b) false = rex at *
    have hi : Cpu.immOf w (append4 v ++ rest) = some (v, rest) := by
      rcases hw with rfl | rfl <;> simp [Cpu.immOf, le4_append4, fits32 hv]
    simp [Cpu.decode1, Cpu.decodeM, m, ho, hi]

/-- neg -/
theorem decode_neg (w : Width) (hw : Full w) (a : Register) (rest : List Byte) :
    Cpu.decode (negateRR w a ++ rest) = some (.neg w (.reg (num4 a)), rest) := by
  have ho := osize_no hw none none (some a) false
  have m := modrm_ext (rexOf w none none (some a) false) 3#3 _ a rest (ext_fields a).2.2.2.1
  have e2 : (rexOf w none none (some a) false).b = bit8 (some a) := rfl
  rw [e2, num_low3] at m
  have e : negateRR w a ++ rest = maybeRex w none none (some a) false ++ 0xf7#8 :: (0xd8#8 + regCode a) :: rest := by
    simp [negateRR, maybeRexR]
  rw [e, decode_one _ _ _ _ _ _ _ (by decide) (by decide)]
  generalize rexOf w none none (some a) false = rex at *
  simp [Cpu.decode1, Cpu.decodeM, m, ho]

/-- cdq, cqo -/
theorem decode_cwd (w : Width) (hw : Full w) (a b : Register) (rest : List Byte) :
    Cpu.decode (maybeRexRR w a b ++ [0x99#8] ++ rest) = some (.cwd w, rest) := by
  have ho := osize_no hw (some a) none (some b) false
  have e : maybeRexRR w a b ++ [0x99#8] ++ rest = maybeRex w (some a) none (some b) false ++ 0x99#8 :: rest := by
    simp [maybeRexRR]
  rw [e, decode_one _ _ _ _ _ _ _ (by decide) (by decide)]
  simp [Cpu.decode1, ho]

/-- idiv -/
theorem decode_idiv (w : Width) (hw : Full w) (a b : Register) (rest : List Byte) :
    Cpu.decode (maybeRexRR w b a ++ [0xf7#8, 0xf8#8 + regCode a] ++ rest) = some (.idiv w (.reg (num4 a)), rest) := by
  have ho := osize_no hw (some b) none (some a) false
  have m := modrm_ext (rexOf w (some b) none (some a) false) 7#3 _ a rest (ext_fields a).2.2.2.2.2.2.2
  have e2 : (rexOf w (some b) none (some a) false).b = bit8 (some a) := rfl
  rw [e2, num_low3] at m
  have e : maybeRexRR w b a ++ [0xf7#8, 0xf8#8 + regCode a] ++ rest =
    maybeRex w (some b) none (some a) false ++ 0xf7#8 :: (0xf8#8 + regCode a) :: rest := by
    simp [maybeRexRR]
  rw [e, decode_one _ _ _ _ _ _ _ (by decide) (by decide)]
  generalize rexOf w (some b) none (some a) false = rex at *
  simp [Cpu.decode1, Cpu.decodeM, m, ho]

/-- The shifts. -/
def IsShift (type : Byte) (o : Cpu.Shift) : Prop :=
  (type = 0xe0#8 ∧ o = .shl) ∨ (type = 0xe8#8 ∧ o = .shr) ∨ (type = 0xf8#8 ∧ o = .sar)

theorem shift_modrm {type : Byte} {o : Cpu.Shift} (h : IsShift type o) (rex : Rex) (b : Register) (hb : rex.b = bit8 (some b))
    (rest : List Byte) : ∃ k r, Cpu.modrm rex ((type + regCode b) :: rest) = some (k, r, .reg (num4 b), rest) ∧
      Cpu.shiftOf k = some o := by
  obtain ⟨f0, f1, f2, f3, f4, f5, f6, f7⟩ := ext_fields b
  rcases h with ⟨rfl, rfl⟩ | ⟨rfl, rfl⟩ | ⟨rfl, rfl⟩
  · exact ⟨_, _, by rw [modrm_ext rex _ _ b rest f4, hb, num_low3], rfl⟩
  · exact ⟨_, _, by rw [modrm_ext rex _ _ b rest f5, hb, num_low3], rfl⟩
  · exact ⟨_, _, by rw [modrm_ext rex _ _ b rest f7, hb, num_low3], rfl⟩

theorem decode_shiftR {type : Byte} {o : Cpu.Shift} (h : IsShift type o) (w : Width) (hw : Full w) (a b : Register) (rest : List Byte) :
    Cpu.decode (shiftRR type w a b ++ rest) = some (.shift o w (.reg (num4 b)) none, rest) := by
  have ho := osize_no hw (some a) none (some b) false
  obtain ⟨k, r, m, hk⟩ := shift_modrm h (rexOf w (some a) none (some b) false) b rfl rest
  have e : shiftRR type w a b ++ rest = maybeRex w (some a) none (some b) false ++ 0xd3#8 :: (type + regCode b) :: rest := by
    simp [shiftRR, maybeRexRR]
  rw [e, decode_one _ _ _ _ _ _ _ (by decide) (by decide)]
  generalize rexOf w (some a) none (some b) false = rex at *
  simp only [Cpu.decode1, Cpu.decodeM, m, ho, hk]
  simp

theorem decode_shiftC {type : Byte} {o : Cpu.Shift} (h : IsShift type o) (w : Width) (hw : Full w) (v : BitVec 64) (b : Register)
    (code rest : List Byte) (hc : doShift type v w b = some code) :
    Cpu.decode (code ++ rest) = some (.shift o w (.reg (num4 b)) (some (v.setWidth 8)), rest) ∧ code ≠ [] ∧ fitsInInt8 v = true := by
  have ho := osize_no hw none none (some b) false
  have M : ∀ l, _ := fun l => shift_modrm h (rexOf w none none (some b) false) b rfl l
  unfold doShift at hc
  split at hc
  · rename_i h1
    injection hc with hc
    obtain ⟨k, r, m, hk⟩ := M rest
    have e : code ++ rest = maybeRex w none none (some b) false ++ 0xd1#8 :: (type + regCode b) :: rest := by
      rw [← hc]; simp [maybeRexR]
    refine ⟨?_, ?_, ?_⟩
    · rw [e, decode_one _ _ _ _ _ _ _ (by decide) (by decide)]
      generalize rexOf w none none (some b) false = rex at *
      simp only [Cpu.decode1, Cpu.decodeM, m, ho, hk, h1]
      simp
    · rw [← hc]; simp
    · rw [h1]; decide
  · split at hc
    · rename_i h8
      injection hc with hc
      obtain ⟨k, r, m, hk⟩ := M (append v ++ rest)
      have e : code ++ rest = maybeRex w none none (some b) false ++ 0xc1#8 :: (type + regCode b) :: (append v ++ rest) := by
        rw [← hc]; simp [maybeRexR]
      refine ⟨?_, ?_, h8⟩
      · rw [e, decode_one _ _ _ _ _ _ _ (by decide) (by decide)]
        generalize rexOf w none none (some b) false = rex at *
        simp only [Cpu.decode1, Cpu.decodeM, m, ho, hk]
        simp [append]
      · rw [← hc]; simp
    · cases hc

end Avian.X86
