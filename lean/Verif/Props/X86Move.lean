import Verif.Props.X86Int

/-
**C86.** The machine code that moves values between registers, memory and constants moves them, for all registers, all
addresses (base, index, scale, offset) and all sizes, with the sign where Java has a narrower type.
-/
namespace Avian.X86

open Cpu (Byte Width Rex Rm R State Fpu Next Out Instr)

/-! ### Specification -/

/-- At the address there are the bytes of `v`, the lowest first. -/
def Holds (mem : BitVec 64 → Byte) (a : BitVec 64) (w : Width) (v : BitVec w.bits) : Prop :=
  ∀ i, i < w.bytes → v.extractLsb' (8 * i) 8 = mem (a + BitVec.ofNat 64 i)

/-- The address that an operand in memory stands for. -/
def addressOf (s : State) (m : Memory) : BitVec 64 :=
  s.gpr (num4 m.base) + (match m.index with | none => 0 | some i => s.gpr (num4 i) * BitVec.ofNat 64 m.scale) + m.offset.signExtend 64

/-- The memory holds `v` at `a`, other bytes are as before; no register is changed. -/
structure Stored (s s' : State) (w : Width) (a : BitVec 64) (v : BitVec w.bits) (scratch : List R) : Prop where
  value : Holds s'.mem a w v
  others : ∀ x, (∀ i, i < w.bytes → x ≠ a + BitVec.ofNat 64 i) → s'.mem x = s.mem x
  gpr : ∀ r, r ∉ scratch → s'.gpr r = s.gpr r
  xmm : s'.xmm = s.xmm

/-- A floating point register holds `v` in its low part; all else is as before. -/
structure FEffect (s s' : State) (w : Width) (b : R) (v : BitVec w.bits) (scratch : List R) : Prop where
  value : lo w (s'.xmm b) = v
  others : ∀ r, r ≠ b → s'.xmm r = s.xmm r
  gpr : ∀ r, r ∉ scratch → s'.gpr r = s.gpr r
  mem : s'.mem = s.mem

/-! ### Memory -/

theorem byte_readMem (m : BitVec 64 → Byte) (a : BitVec 64) (w : Width) (i : Nat) (hi : i < w.bytes) :
    (lo w (Cpu.readMem m a w)).extractLsb' (8 * i) 8 = m (a + BitVec.ofNat 64 i) := by
  apply BitVec.eq_of_getLsbD_eq
  intro j hj
  cases w with
  | b =>
    have : i = 0 := by simp only [Cpu.Width.bytes] at hi; omega
    subst this
    simp only [lo, Cpu.Width.bits, Cpu.readMem, BitVec.getLsbD_extractLsb', BitVec.getLsbD_setWidth]
    simp [hj, show j < 64 by omega]
  | w =>
    simp only [Cpu.Width.bytes] at hi
    simp only [lo, Cpu.Width.bits, Cpu.readMem, BitVec.getLsbD_extractLsb', BitVec.getLsbD_setWidth, BitVec.getLsbD_append]
    obtain rfl | rfl : i = 0 ∨ i = 1 := by omega
    · simp [hj, show j < 16 by omega, show j < 64 by omega]
    · simp [hj, show 8 + j < 16 by omega, show 8 + j < 64 by omega]
  | d =>
    simp only [Cpu.Width.bytes] at hi
    simp only [lo, Cpu.Width.bits, Cpu.readMem, BitVec.getLsbD_extractLsb', BitVec.getLsbD_setWidth, BitVec.getLsbD_append]
    obtain rfl | rfl | rfl | rfl : i = 0 ∨ i = 1 ∨ i = 2 ∨ i = 3 := by omega
    · simp [hj, show j < 16 by omega, show j < 24 by omega, show j < 32 by omega, show j < 64 by omega]
    · simp [hj, show 8 + j < 16 by omega, show 8 + j < 24 by omega, show 8 + j < 32 by omega, show 8 + j < 64 by omega]
    · simp [hj, show ¬ 16 + j < 16 by omega, show 16 + j < 24 by omega, show 16 + j < 32 by omega, show 16 + j < 64 by omega]
    · simp [hj, show ¬ 24 + j < 16 by omega, show ¬ 24 + j < 24 by omega, show 24 + j < 32 by omega, show 24 + j < 64 by omega]
  | q =>
    simp only [Cpu.Width.bytes] at hi
    simp only [lo, Cpu.Width.bits, Cpu.readMem, BitVec.getLsbD_extractLsb', BitVec.getLsbD_setWidth, BitVec.getLsbD_append]
    obtain rfl | rfl | rfl | rfl | rfl | rfl | rfl | rfl :
      i = 0 ∨ i = 1 ∨ i = 2 ∨ i = 3 ∨ i = 4 ∨ i = 5 ∨ i = 6 ∨ i = 7 := by omega
    · simp [hj, show j < 16 by omega, show j < 24 by omega, show j < 32 by omega, show j < 64 by omega]
    · simp [hj, show 8 + j < 16 by omega, show 8 + j < 24 by omega, show 8 + j < 32 by omega, show 8 + j < 64 by omega]
    · simp [hj, show ¬ 16 + j < 16 by omega, show 16 + j < 24 by omega, show 16 + j < 32 by omega, show 16 + j < 64 by omega]
    · simp [hj, show ¬ 24 + j < 16 by omega, show ¬ 24 + j < 24 by omega, show 24 + j < 32 by omega, show 24 + j < 64 by omega]
    · simp [hj, show ¬ 32 + j < 32 by omega, show 32 + j < 64 by omega, show 32 + j - 32 = j by omega, show j < 16 by omega, show j < 24 by omega]
    · simp [hj, show ¬ 40 + j < 32 by omega, show 40 + j < 64 by omega, show 40 + j - 32 = 8 + j by omega, show 8 + j < 16 by omega,
        show 8 + j < 24 by omega]
    · simp [hj, show ¬ 48 + j < 32 by omega, show 48 + j < 64 by omega, show 48 + j - 32 = 16 + j by omega, show 16 + j < 24 by omega,
        show ¬ 16 + j < 16 by omega]
    · simp [hj, show ¬ 56 + j < 32 by omega, show 56 + j < 64 by omega, show 56 + j - 32 = 24 + j by omega, show ¬ 24 + j < 24 by omega]

theorem bits_bytes (w : Width) : w.bits = 8 * w.bytes := by cases w <;> rfl

/-- The bytes determine the value. -/
theorem holds_unique {mem : BitVec 64 → Byte} {a : BitVec 64} {w : Width} {v v' : BitVec w.bits} (h : Holds mem a w v)
    (h' : Holds mem a w v') : v = v' := by
  apply BitVec.eq_of_getLsbD_eq
  intro i hi
  have hb := bits_bytes w
  have e := (h (i / 8) (by omega)).trans (h' (i / 8) (by omega)).symm
  have e := congrArg (fun x => x.getLsbD (i % 8)) e
  simp only [BitVec.getLsbD_extractLsb', show i % 8 < 8 by omega, decide_true, Bool.true_and, show 8 * (i / 8) + i % 8 = i by omega] at e
  exact e

theorem holds_read (mem : BitVec 64 → Byte) (a : BitVec 64) (w : Width) : Holds mem a w (lo w (Cpu.readMem mem a w)) :=
  fun i hi => byte_readMem mem a w i hi

theorem offset_toNat (a : BitVec 64) (i : Nat) (hi : i < 8) : (a + BitVec.ofNat 64 i - a).toNat = i := by
  have : a + BitVec.ofNat 64 i - a = BitVec.ofNat 64 i := by
    rw [BitVec.add_comm, BitVec.add_sub_cancel]
  rw [this, BitVec.toNat_ofNat]
  omega

theorem bytes_le (w : Width) : w.bytes ≤ 8 := by cases w <;> decide

theorem holds_write (mem : BitVec 64 → Byte) (a : BitVec 64) (w : Width) (v : BitVec 64) :
    Holds (Cpu.writeMem mem a w v) a w (lo w v) := by
  intro i hi
  have := bytes_le w
  unfold Cpu.writeMem
  rw [offset_toNat a i (by omega), if_pos hi]
  apply BitVec.eq_of_getLsbD_eq
  intro j hj
  have hb := bits_bytes w
  simp [lo, BitVec.getLsbD_extractLsb', BitVec.getLsbD_setWidth, show 8 * i + j < w.bits by omega]

theorem write_others (mem : BitVec 64 → Byte) (a : BitVec 64) (w : Width) (v : BitVec 64) (x : BitVec 64)
    (h : ∀ i, i < w.bytes → x ≠ a + BitVec.ofNat 64 i) : Cpu.writeMem mem a w v x = mem x := by
  unfold Cpu.writeMem
  rw [if_neg]
  intro hi
  refine h _ hi ?_
  rw [BitVec.ofNat_toNat, BitVec.setWidth_eq, BitVec.add_comm, BitVec.sub_add_cancel]

theorem address_ok (s : State) (next : BitVec 64) (m : Memory) (hg : Good m) : Cpu.address s next (rmOf m) = addressOf s m := by
  obtain ⟨base, offset, index, scale⟩ := m
  cases index with
  | none => simp [Cpu.address, rmOf, addressOf]
  | some i =>
    simp only [Good] at hg
    obtain ⟨_, hs⟩ := hg
    obtain ⟨k, hk⟩ := Option.isSome_iff_exists.1 hs
    simp only [Cpu.address, rmOf, addressOf, hk]
    congr 2
    unfold scaleBits at hk
    split at hk <;> cases hk
    · simp
    · rw [show (1 : BitVec 2).toNat = 1 from rfl, BitVec.shiftLeft_eq_mul_twoPow]; rfl
    · rw [show (2 : BitVec 2).toNat = 2 from rfl, BitVec.shiftLeft_eq_mul_twoPow]; rfl
    · rw [show (3 : BitVec 2).toNat = 3 from rfl, BitVec.shiftLeft_eq_mul_twoPow]; rfl

theorem get_mem (s : State) (next : BitVec 64) (w : Width) (m : Memory) (hg : Good m) :
    Cpu.get s next w (rmOf m) = Cpu.readMem s.mem (addressOf s m) w := by
  rw [← address_ok s next m hg]; rfl

theorem put_mem (s : State) (next : BitVec 64) (w : Width) (v : BitVec 64) (m : Memory) (hg : Good m) :
    Cpu.put s next w v (rmOf m) = { s with mem := Cpu.writeMem s.mem (addressOf s m) w v } := by
  rw [← address_ok s next m hg]; rfl

theorem lo_get_mem {s : State} (next : BitVec 64) {w : Width} {m : Memory} (hg : Good m) {v : BitVec w.bits}
    (h : Holds s.mem (addressOf s m) w v) : lo w (Cpu.get s next w (rmOf m)) = v := by
  rw [get_mem s next w m hg]
  exact holds_unique (holds_read _ _ _) h

theorem stored_ok (s : State) (next : BitVec 64) (w : Width) (v : BitVec 64) (m : Memory) (hg : Good m) :
    Stored s (Cpu.put s next w v (rmOf m)) w (addressOf s m) (lo w v) [] := by
  rw [put_mem s next w v m hg]
  exact ⟨holds_write _ _ _ _, fun x hx => write_others _ _ _ _ x hx, fun _ _ => rfl, rfl⟩

/-! ### Sign extension -/

/-- The low part of the sign extension is the sign extension. -/
theorem lo_sext (w f : Width) (v : BitVec 64) : lo w (Cpu.sext f v) = (lo f v).signExtend w.bits := by
  unfold Cpu.sext lo
  apply BitVec.eq_of_getLsbD_eq
  intro i hi
  have := bits_le w
  rw [BitVec.getLsbD_setWidth, BitVec.getLsbD_signExtend, BitVec.getLsbD_signExtend]
  simp only [hi, show i < 64 by omega, decide_true, Bool.true_and]

theorem put_sext {w : Width} (hw : Full w) (f : Width) (s : State) (next : BitVec 64) (b : R) (v : BitVec 64) :
    Effect s (Cpu.put s next w (Cpu.sext f v) (.reg b)) w b ((lo f v).signExtend w.bits) [] := by
  have := put_effect hw s next b (Cpu.sext f v)
  rw [lo_sext] at this
  exact this

/-! ### From memory to registers -/

/-- **C86.** Loads into general registers: the value is extended with its sign to the size of the destination. -/
theorem load_ok (aSize : Width) (m : Memory) (hg : Good m) {bSize : Width} (hb : bSize = .d ∨ bSize = .q)
    (hab : aSize = .q → bSize = .q) (b : Register) (hf : isFloatReg b = false) (fpu : Fpu) (pc : BitVec 64) (s : State)
    (v : BitVec aSize.bits) (hv : Holds s.mem (addressOf s m) aSize v) :
    ∃ s', Runs fpu (moveMR aSize m bSize b) pc s s' ∧ Effect s s' bSize (num4 b) (v.signExtend bSize.bits) [] := by
  have ho := osize_no hb (some b) m.index (some m.base) (bSize == .b && b &&& 4#5 != 0#5)
  have key : ∀ (f : Width) (u : BitVec f.bits), Holds s.mem (addressOf s m) f u → ∀ next,
      Effect s (Cpu.put s next bSize (Cpu.sext f (Cpu.get s next f (rmOf m))) (.reg (num4 b))) bSize (num4 b) (u.signExtend bSize.bits) [] := by
    intro f u hu next
    have := put_sext hb f s next (num4 b) (Cpu.get s next f (rmOf m))
    rw [lo_get_mem next hg hu] at this
    exact this
  unfold moveMR
  rw [if_neg (by simp [hf])]
  cases aSize with
  | b =>
    refine ⟨_, runs_one (.movsx bSize .b (num4 b) (rmOf m)) (by simp) (fun rest => ?_) rfl, key .b v hv _⟩
    have := decode_0fbe (opd_mem m hg) bSize b (bSize == .b && b &&& 4#5 != 0#5) rest
    rw [ho] at this
    simpa [maybeRexRM, rmOf, Cpu.byteRm] using this
  | w =>
    refine ⟨_, runs_one (.movsx bSize .w (num4 b) (rmOf m)) (by simp) (fun rest => ?_) rfl, key .w v hv _⟩
    have := decode_0fbf (opd_mem m hg) bSize b (bSize == .b && b &&& 4#5 != 0#5) rest
    rw [ho] at this
    simpa [maybeRexRM] using this
  | d =>
    refine ⟨_, runs_one (.movsx bSize .d (num4 b) (rmOf m)) (by simp) (fun rest => ?_) rfl, key .d v hv _⟩
    have := decode_63 (opd_mem m hg) bSize hb b (bSize == .b && b &&& 4#5 != 0#5) rest
    simpa [maybeRexRM] using this
  | q =>
    have hq := hab rfl
    subst hq
    refine ⟨_, runs_one (.load .q (num4 b) (rmOf m)) (by simp) (fun rest => ?_) rfl, ?_⟩
    · have := decode_8b (opd_mem m hg) .q hb b false rest
      simpa [maybeRexRM, show (Width.q == Width.b) = false from rfl] using this
    · have e := fun next => put_effect hb s next (num4 b) (Cpu.get s next .q (rmOf m))
      have : v.signExtend Width.q.bits = v := BitVec.signExtend_eq v
      rw [this]
      have e := fun next => (lo_get_mem next hg hv ▸ e next)
      exact e _

/-- The state of `exState` with an int 0xfffffff6 (-10) at the address r9 * 4 + rax + 0x100. -/
def exMem : State := { exState with mem := Cpu.writeMem exState.mem 0x101 .d 0xfffffff6 }

example : Good ⟨rax, 0x100, some 9, 4⟩ ∧ addressOf exMem ⟨rax, 0x100, some 9, 4⟩ = 0x101 ∧
    Holds exMem.mem (addressOf exMem ⟨rax, 0x100, some 9, 4⟩) .d 0xfffffff6 ∧
    (0xfffffff6 : BitVec 32).signExtend 64 = -10 := by
  refine ⟨by decide, by decide, ?_, by decide⟩
  have : addressOf exMem ⟨rax, 0x100, some 9, 4⟩ = 0x101 := by decide
  rw [this]
  exact holds_write _ _ .d 0xfffffff6

/-- **C86.** Loads into floating point registers. -/
theorem load_float_ok {w : Width} (hw : w = .d ∨ w = .q) (m : Memory) (hg : Good m) (bSize : Width) (b : Register)
    (hf : isFloatReg b = true) (fpu : Fpu) (pc : BitVec 64) (s : State)
    (v : BitVec w.bits) (hv : Holds s.mem (addressOf s m) w v) :
    ∃ s', Runs fpu (moveMR w m bSize b) pc s s' ∧ FEffect s s' w (num4 b) v [] := by
  unfold moveMR
  rw [if_pos hf]
  have hwb : (w == .b) = false := by rcases hw with rfl | rfl <;> rfl
  refine ⟨_, runs_one (.toXmm w (num4 b) (rmOf m)) (by simp [sseMoveMR]) (fun rest => ?_) rfl, ?_⟩
  · have := decode_66_0f6e (opd_mem m hg) w b false rest
    rw [gsize_rex hw] at this
    simpa [maybeRexRM, sseMoveMR, hwb] using this
  · refine ⟨?_, ?_, fun _ _ => rfl, rfl⟩
    · simp only [Cpu.setReg, if_true]
      exact lo_get_mem _ hg hv
    · intro r hr
      simp [Cpu.setReg, hr]

example : isFloatReg 25 = true ∧ num4 25 = 9 ∧ Holds exMem.mem 0x101 .d 0xfffffff6 := ⟨by decide, by decide, holds_write _ _ .d 0xfffffff6⟩

/-- **C86.** Characters: two bytes without sign. -/
theorem load_char_ok (m : Memory) (hg : Good m) (b : Register) (fpu : Fpu) (pc : BitVec 64) (s : State)
    (v : BitVec Width.w.bits) (hv : Holds s.mem (addressOf s m) .w v) :
    ∃ s', Runs fpu (moveZMR m b) pc s s' ∧ Effect s s' .q (num4 b) (v.setWidth 64) [] := by
  refine ⟨_, runs_one (.movzx .q .w (num4 b) (rmOf m)) (by simp [moveZMR]) (fun rest => ?_) rfl, ?_⟩
  · have := decode_0fb7 (opd_mem m hg) .q b false rest
    rw [osize_no (Or.inr rfl)] at this
    simpa [maybeRexRM, moveZMR, show (Width.q == Width.b) = false from rfl] using this
  · have e := fun next => put_effect (w := .q) (Or.inr rfl) s next (num4 b) (Cpu.get s next .w (rmOf m))
    have h : ∀ next, lo .q (Cpu.get s next .w (rmOf m)) = v.setWidth 64 := by
      intro next
      rw [← lo_get_mem next hg hv, get_mem s next .w m hg]
      simp [lo, Cpu.readMem, Cpu.Width.bits]
    have e := fun next => (h next ▸ e next)
    exact e _

example : (0xfff6 : BitVec Width.w.bits).setWidth 64 = 0xfff6#64 := by decide

/-! ### From registers to memory -/

theorem byteReg_ok (a : Register) (i bb : Option Register) :
    Cpu.byteReg (rexOf .b (some a) i bb (Width.b == .b && a &&& 4#5 != 0#5)) (num4 a) = .reg (num4 a) := by
  have h : ∀ a : Register, (a &&& 4#5 != 0#5) = (num4 a).getLsbD 2 := by decide +kernel
  rw [h]
  unfold Cpu.byteReg rexOf
  cases (num4 a).getLsbD 2 <;> simp [show (Width.b == Width.b) = true from rfl]

/-- **C86.** Stores from general registers. -/
theorem store_ok (w : Width) (a : Register) (hf : isFloatReg a = false) (m : Memory) (hg : Good m) (fpu : Fpu) (pc : BitVec 64)
    (s : State) :
    ∃ s', Runs fpu (moveRM w a m) pc s s' ∧ Stored s s' w (addressOf s m) (lo w (s.gpr (num4 a))) [] := by
  have key : ∀ next, Stored s (Cpu.put s next w (Cpu.get s next w (.reg (num4 a))) (rmOf m)) w (addressOf s m) (lo w (s.gpr (num4 a))) [] := by
    intro next
    have := stored_ok s next w (Cpu.get s next w (.reg (num4 a))) m hg
    rw [lo_get] at this
    exact this
  unfold moveRM
  rw [if_neg (by simp [hf])]
  cases w with
  | b =>
    refine ⟨_, runs_one (.store .b (rmOf m) (.reg (num4 a))) (by simp) (fun rest => ?_) rfl, key _⟩
    have := decode_88 (opd_mem m hg) .b a (Width.b == .b && a &&& 4#5 != 0#5) rest
    rw [byteReg_ok] at this
    simpa [maybeRexRM, rmOf, Cpu.byteRm] using this
  | w =>
    refine ⟨_, runs_one (.store .w (rmOf m) (.reg (num4 a))) (by simp) (fun rest => ?_) rfl, key _⟩
    have := decode_66_89 (opd_mem m hg) .w (by decide) a false rest
    simpa [maybeRexRM, show (Width.w == Width.b) = false from rfl] using this
  | d =>
    refine ⟨_, runs_one (.store .d (rmOf m) (.reg (num4 a))) (by simp) (fun rest => ?_) rfl, key _⟩
    have := decode_89 (opd_mem m hg) .d (Or.inl rfl) a false rest
    simpa [maybeRexRM, show (Width.d == Width.b) = false from rfl] using this
  | q =>
    refine ⟨_, runs_one (.store .q (rmOf m) (.reg (num4 a))) (by simp) (fun rest => ?_) rfl, key _⟩
    have := decode_89 (opd_mem m hg) .q (Or.inr rfl) a false rest
    simpa [maybeRexRM, show (Width.q == Width.b) = false from rfl] using this

/-- A byte from sil, which needs a prefix. -/
example : moveRM .b 6 ⟨rax, 0, none, 0⟩ = [0x40#8, 0x88#8, 0x30#8] ∧ isFloatReg 6 = false ∧ Good ⟨rax, 0, none, 0⟩ := by decide

/-- **C86.** Stores from floating point registers. -/
theorem store_float_ok {w : Width} (hw : w = .d ∨ w = .q) (a : Register) (hf : isFloatReg a = true) (m : Memory) (hg : Good m)
    (fpu : Fpu) (pc : BitVec 64) (s : State) :
    ∃ s', Runs fpu (moveRM w a m) pc s s' ∧ Stored s s' w (addressOf s m) (lo w (s.xmm (num4 a))) [] := by
  unfold moveRM
  rw [if_pos hf]
  have hwb : (w == .b) = false := by rcases hw with rfl | rfl <;> rfl
  refine ⟨_, runs_one (.fromXmm w (rmOf m) (num4 a)) (by simp [sseMoveRM]) (fun rest => ?_) rfl, ?_⟩
  · have := decode_66_0f7e (opd_mem m hg) w a false rest
    rw [gsize_rex hw] at this
    simpa [maybeRexRM, sseMoveRM, hwb] using this
  · have := fun next => stored_ok s next w (((s.xmm (num4 a)).setWidth w.bits).setWidth 64) m hg
    simp only [lo_ext] at this
    exact this _

example : moveRM .q 31 ⟨rsp, -8, none, 0⟩ = [0x66#8, 0x4c#8, 0x0f#8, 0x7e#8, 0x7c#8, 0x24#8, 0xf8#8] ∧ isFloatReg 31 = true := by decide

theorem lo_sext_same (w : Width) (v : BitVec 64) : lo w ((v.setWidth w.bits).signExtend 64) = lo w v := by
  have := lo_sext w w v
  unfold Cpu.sext at this
  rw [this, BitVec.signExtend_eq]

/-- **C86.** Constants stored to memory; those that do not fit need a register. -/
theorem store_const_ok (v : BitVec 64) (w : Width) (m : Memory) (hg : Good m) (tmp : Register) (ht : isFloatReg tmp = false)
    (hb : num4 m.base ≠ num4 tmp) (hi : ∀ i, m.index = some i → num4 i ≠ num4 tmp) (fpu : Fpu) (pc : BitVec 64) (s : State) :
    ∃ s', Runs fpu (moveCM v w m tmp) pc s s' ∧ Stored s s' w (addressOf s m) (lo w v) [num4 tmp] := by
  have weaken : ∀ {s s' : State} {a : BitVec 64} {u : BitVec w.bits}, Stored s s' w a u [] → Stored s s' w a u [num4 tmp] :=
    fun h => ⟨h.value, h.others, fun r _ => h.gpr r (by simp), h.xmm⟩
  unfold moveCM
  cases w with
  | b =>
    refine ⟨_, runs_one (.storeI .b (rmOf m) ((v.setWidth 8).signExtend 64)) (by simp) (fun rest => ?_) rfl, weaken ?_⟩
    · have := decode_c6 (opd_mem m hg) .b v rest
      simpa [maybeRexM, rmOf, Cpu.byteRm] using this
    · have := fun next => stored_ok s next .b ((v.setWidth 8).signExtend 64) m hg
      simp only [show lo Width.b ((v.setWidth 8).signExtend 64) = lo .b v from lo_sext_same .b v] at this
      exact this _
  | w =>
    refine ⟨_, runs_one (.storeI .w (rmOf m) ((v.setWidth 16).signExtend 64)) (by simp) (fun rest => ?_) rfl, weaken ?_⟩
    · have := decode_66_c7 (opd_mem m hg) .w (by decide) v rest
      simpa [maybeRexM] using this
    · have := fun next => stored_ok s next .w ((v.setWidth 16).signExtend 64) m hg
      simp only [show lo Width.w ((v.setWidth 16).signExtend 64) = lo .w v from lo_sext_same .w v] at this
      exact this _
  | d =>
    refine ⟨_, runs_one (.storeI .d (rmOf m) ((v.setWidth 32).signExtend 64)) (by simp) (fun rest => ?_) rfl, weaken ?_⟩
    · have := decode_c7 (opd_mem m hg) .d (Or.inl rfl) v rest
      simpa [maybeRexM] using this
    · have := fun next => stored_ok s next .d ((v.setWidth 32).signExtend 64) m hg
      simp only [show lo Width.d ((v.setWidth 32).signExtend 64) = lo .d v from lo_sext_same .d v] at this
      exact this _
  | q =>
    simp only
    split
    · rename_i h32
      refine ⟨_, runs_one (.storeI .q (rmOf m) v) (by simp) (fun rest => ?_) rfl, weaken (stored_ok s _ .q v m hg)⟩
      have := decode_c7 (opd_mem m hg) .q (Or.inr rfl) v rest
      rw [fits32 h32] at this
      simpa [maybeRexM] using this
    · have r1 := moveCR_ok .q v tmp tmp ht fpu pc s
      obtain ⟨s', r2, e2⟩ := store_ok .q tmp ht m hg fpu (behind pc (moveCR .q v tmp tmp))
        { s with gpr := Cpu.setReg s.gpr (num4 tmp) (signExtend .q v) }
      have ha : addressOf { s with gpr := Cpu.setReg s.gpr (num4 tmp) (signExtend .q v) } m = addressOf s m := by
        unfold addressOf
        simp only [Cpu.setReg, if_neg hb]
        cases hm : m.index with
        | none => rfl
        | some i => simp only [if_neg (hi i hm)]
      rw [ha] at e2
      refine ⟨s', runs_append r1 r2, ?_, e2.others, ?_, e2.xmm⟩
      · have := e2.value
        simp only [Cpu.setReg, if_true] at this
        exact this
      · intro r hr
        rw [e2.gpr r (by simp)]
        simp only [List.mem_singleton] at hr
        simp [Cpu.setReg, hr]

example : isFloatReg 11 = false ∧ num4 rax ≠ num4 11 ∧ (∀ i, (some 9 : Option Register) = some i → num4 i ≠ num4 11) ∧
    fitsInInt32 0x123456789 = false := by
  refine ⟨by decide, by decide, ?_, by decide⟩
  intro i h
  cases h
  decide

/-! ### Between registers -/

/-- The size that a value of a narrow type has in a register: an int. -/
def widened (aSize bSize : Width) : Width :=
  match aSize with
  | .b => .d
  | .w => .d
  | _ => bSize

theorem rr_bytes (size : Width) (r b : Register) (always : Bool) (op : Byte) (rest : List Byte) :
    maybeRex size (some r) none (some b) always ++ [op] ++ modrm 0xc0#8 b r ++ rest =
      maybeRex size (some r) none (some b) always ++ op :: (modrm 0xc0#8 b r ++ rest) := by simp

theorem store_reg_effect {w : Width} (hw : Full w) (a b : Register) (always : Bool) (fpu : Fpu) (pc : BitVec 64) (s : State) :
    ∃ s', Runs fpu (maybeRex w (some a) none (some b) always ++ [0x89#8] ++ modrm 0xc0#8 b a) pc s s' ∧
      Effect s s' w (num4 b) (lo w (s.gpr (num4 a))) [] := by
  refine ⟨_, runs_one (.store w (.reg (num4 b)) (.reg (num4 a))) (by simp) (fun rest => ?_) rfl, ?_⟩
  · rw [rr_bytes]
    exact decode_89 (opd_reg b) w hw a always rest
  · have := fun next => put_effect hw s next (num4 b) (Cpu.get s next w (.reg (num4 a)))
    simp only [lo_get] at this
    exact this _

/-- **C86.** Moves between general registers: bytes and shorts become ints with their sign, ints become longs with their sign. -/
theorem move_ok (aSize : Width) (a : Register) {bSize : Width} (hb : bSize = .d ∨ bSize = .q) (hab : aSize = .q → bSize = .q)
    (b : Register) (hfa : isFloatReg a = false) (hfb : isFloatReg b = false) (fpu : Fpu) (pc : BitVec 64) (s : State) :
    ∃ s', Runs fpu (moveRR aSize a bSize b) pc s s' ∧
      Effect s s' (widened aSize bSize) (num4 b) ((lo aSize (s.gpr (num4 a))).signExtend (widened aSize bSize).bits) [] := by
  have key : ∀ (f w : Width), Full w → ∀ next,
      Effect s (Cpu.put s next w (Cpu.sext f (Cpu.get s next f (.reg (num4 a)))) (.reg (num4 b))) w (num4 b)
        ((lo f (s.gpr (num4 a))).signExtend w.bits) [] := by
    intro f w hw next
    have := put_sext hw f s next (num4 b) (Cpu.get s next f (.reg (num4 a)))
    rw [lo_get] at this
    exact this
  unfold moveRR
  rw [if_neg (by simp [hfa, hfb])]
  cases aSize with
  | b =>
    refine ⟨_, runs_one (.movsx .d .b (num4 b) (.reg (num4 a))) (by simp) (fun rest => ?_) rfl, key .b .d (Or.inl rfl) _⟩
    have := decode_0fbe (opd_reg a) .b b true rest
    rw [osize_nq .b (by decide)] at this
    simpa [alwaysRex, Cpu.byteRm, Cpu.byteReg, rexOf] using this
  | w =>
    refine ⟨_, runs_one (.movsx .d .w (num4 b) (.reg (num4 a))) (by simp) (fun rest => ?_) rfl, key .w .d (Or.inl rfl) _⟩
    have := decode_0fbf (opd_reg a) .w b true rest
    rw [osize_nq .w (by decide)] at this
    simpa [alwaysRex] using this
  | d =>
    simp only [widened]
    split
    · rename_i hq
      subst hq
      refine ⟨_, runs_one (.movsx .q .d (num4 b) (.reg (num4 a))) (by simp) (fun rest => ?_) rfl, key .d .q (Or.inr rfl) _⟩
      have := decode_63 (opd_reg a) .q (Or.inr rfl) b true rest
      simpa [alwaysRex] using this
    · rename_i hq
      have hd : bSize = .d := by rcases hb with h | h; exact h; exact absurd h hq
      subst hd
      have e : (lo .d (s.gpr (num4 a))).signExtend Width.d.bits = lo .d (s.gpr (num4 a)) := BitVec.signExtend_eq _
      rw [e]
      split
      · exact store_reg_effect (Or.inl rfl) a b true fpu pc s
      · rename_i h
        simp only [ne_eq, Decidable.not_not] at h
        subst h
        exact nothing_ok _ fpu pc s _ _ rfl
  | q =>
    have hq := hab rfl
    subst hq
    simp only [widened]
    have e : (lo .q (s.gpr (num4 a))).signExtend Width.q.bits = lo .q (s.gpr (num4 a)) := BitVec.signExtend_eq _
    rw [e]
    split
    · exact store_reg_effect (Or.inr rfl) a b false fpu pc s
    · rename_i h
      simp only [ne_eq, Decidable.not_not] at h
      subst h
      exact nothing_ok _ fpu pc s _ _ rfl

/-- -7 as a byte becomes -7 as an int. -/
example : isFloatReg rax = false ∧ isFloatReg 9 = false ∧ widened .b .q = .d ∧
    (lo .b (exState.gpr (num4 rax))).signExtend 32 = -7 := by decide

/-- Bytes and shorts are not extended to longs, even if the destination is said to be of 8 bytes: the upper half is zero. -/
theorem move_narrow_upper (aSize : Width) (ha : aSize = .b ∨ aSize = .w) (a : Register) (bSize : Width)
    (b : Register) (hfa : isFloatReg a = false) (hfb : isFloatReg b = false) (fpu : Fpu) (pc : BitVec 64) (s : State) :
    ∃ s', Runs fpu (moveRR aSize a bSize b) pc s s' ∧
      s'.gpr (num4 b) = ((lo aSize (s.gpr (num4 a))).signExtend 32).setWidth 64 := by
  have key : ∀ (f : Width), (Cpu.merge .d (s.gpr (num4 b)) (Cpu.sext f (((s.gpr (num4 a)).setWidth f.bits).setWidth 64))) =
      ((lo f (s.gpr (num4 a))).signExtend 32).setWidth 64 := by
    intro f
    have h1 : lo f (((s.gpr (num4 a)).setWidth f.bits).setWidth 64) = lo f (s.gpr (num4 a)) := lo_ext _
    have := lo_sext .d f (((s.gpr (num4 a)).setWidth f.bits).setWidth 64)
    rw [h1] at this
    exact congrArg (fun x : BitVec 32 => x.setWidth 64) this
  unfold moveRR
  rw [if_neg (by simp [hfa, hfb])]
  rcases ha with rfl | rfl
  · refine ⟨_, runs_one (.movsx .d .b (num4 b) (.reg (num4 a))) (by simp) (fun rest => ?_) rfl, ?_⟩
    · have := decode_0fbe (opd_reg a) .b b true rest
      rw [osize_nq .b (by decide)] at this
      simpa [alwaysRex, Cpu.byteRm, Cpu.byteReg, rexOf] using this
    · simp only [Cpu.put, Cpu.setReg, if_true, Cpu.get]
      exact key .b
  · refine ⟨_, runs_one (.movsx .d .w (num4 b) (.reg (num4 a))) (by simp) (fun rest => ?_) rfl, ?_⟩
    · have := decode_0fbf (opd_reg a) .w b true rest
      rw [osize_nq .w (by decide)] at this
      simpa [alwaysRex] using this
    · simp only [Cpu.put, Cpu.setReg, if_true, Cpu.get]
      exact key .w

example : ((lo .b (exState.gpr (num4 rax))).signExtend 32).setWidth 64 = (0xfffffff9 : BitVec 64) := by decide

/-- **C86.** Characters: two bytes without sign; the whole register is written. -/
theorem move_char_ok (a b : Register) (fpu : Fpu) (pc : BitVec 64) (s : State) :
    ∃ s', Runs fpu (moveZRR a b) pc s s' ∧ Effect s s' .q (num4 b) (((s.gpr (num4 a)).setWidth 16).setWidth 64) [] := by
  refine ⟨_, runs_one (.movzx .d .w (num4 b) (.reg (num4 a))) (by simp [moveZRR]) (fun rest => ?_) rfl, ?_⟩
  · have := decode_0fb7 (opd_reg a) .w b true rest
    rw [osize_nq .w (by decide)] at this
    simpa [alwaysRex, moveZRR] using this
  · refine ⟨?_, ?_, rfl, rfl⟩
    · simp only [Cpu.put, Cpu.setReg, if_true, Cpu.get, Cpu.merge, lo, Cpu.Width.bits]
      apply BitVec.eq_of_toNat_eq
      simp only [BitVec.toNat_setWidth]
      omega
    · intro r hr _
      simp [Cpu.put, Cpu.setReg, hr]

example : ((exState.gpr (num4 rax)).setWidth 16).setWidth 64 = (0xfff9 : BitVec 64) := by decide

/-- **C86.** Constants; the whole register is written, with the sign of the constant. -/
theorem const_move_ok (w : Width) (v : BitVec 64) (b tmp : Register) (hb : isFloatReg b = false) (fpu : Fpu) (pc : BitVec 64) (s : State) :
    ∃ s', Runs fpu (moveCR w v b tmp) pc s s' ∧ Effect s s' .q (num4 b) ((lo w v).signExtend 64) [] := by
  refine ⟨_, moveCR_ok w v b tmp hb fpu pc s, ?_, ?_, rfl, rfl⟩
  · simp only [Cpu.setReg, if_true, lo]
    cases w
    · exact BitVec.setWidth_eq _
    · exact BitVec.setWidth_eq _
    · exact BitVec.setWidth_eq _
    · show BitVec.setWidth 64 v = (BitVec.setWidth 64 v).signExtend 64
      rw [BitVec.setWidth_eq]
      exact (BitVec.signExtend_eq v).symm
  · intro r hr _
    simp [Cpu.setReg, hr]

example : (lo .d 0xfffffff9).signExtend 64 = (-7 : BitVec 64) := by decide

theorem const_char_ok (v : BitVec 64) (b : Register) (fpu : Fpu) (pc : BitVec 64) (s : State) :
    ∃ s', Runs fpu (moveZCR v b) pc s s' ∧ Effect s s' .q (num4 b) ((v.setWidth 16).setWidth 64) [] := by
  refine ⟨_, runs_one (.movI .q (num4 b) ((v.setWidth 16).setWidth 64)) (by simp [moveZCR]) (decode_mov64 _ b) rfl, ?_⟩
  have := fun next => put_effect (w := .q) (Or.inr rfl) s next (num4 b) ((v.setWidth 16).setWidth 64)
  simp only [show ∀ x : BitVec 64, lo Width.q x = x from fun x => BitVec.setWidth_eq x] at this
  exact this _

example : ((0x1ffff : BitVec 64).setWidth 16).setWidth 64 = 0xffff#64 := by decide

/-- **C86.** The contents of two registers are exchanged. -/
theorem swap_ok (a b : Register) (fpu : Fpu) (pc : BitVec 64) (s : State) :
    ∃ s', Runs fpu (swapRR a b) pc s s' ∧ s'.gpr (num4 a) = s.gpr (num4 b) ∧ s'.gpr (num4 b) = s.gpr (num4 a) ∧
      (∀ r, r ≠ num4 a → r ≠ num4 b → s'.gpr r = s.gpr r) ∧ s'.xmm = s.xmm ∧ s'.mem = s.mem := by
  refine ⟨_, runs_one (.xchg .q (.reg (num4 b)) (num4 a)) (by simp [swapRR]) (fun rest => ?_) rfl, ?_⟩
  · have := decode_87 (opd_reg b) .q (Or.inr rfl) a true rest
    simpa [alwaysRex, swapRR] using this
  · simp only [Cpu.put, Cpu.get, Cpu.setReg, Cpu.merge, Cpu.Width.bits, BitVec.setWidth_eq]
    refine ⟨by simp, ?_, ?_, trivial, trivial⟩
    · by_cases h : num4 b = num4 a
      · simp [h]
      · simp [h]
    · intro r h1 h2
      simp [h1, h2]

example : exState.gpr (num4 rax) = -7 ∧ exState.gpr (num4 9) = 2 := by decide

/-- **C86.** A value at a fixed address. -/
theorem load_absolute_ok (v : BitVec 64) {w : Width} (hw : w = .d ∨ w = .q) (b tmp : Register) (hf : isFloatReg b = false) (fpu : Fpu)
    (pc : BitVec 64) (s : State) (u : BitVec w.bits) (hu : Holds s.mem v w u) :
    ∃ s', Runs fpu (moveAR .q v w b tmp) pc s s' ∧ Effect s s' w (num4 b) u [] := by
  have r1 := moveCR_ok .q v b tmp hf fpu pc s
  have ha : addressOf { s with gpr := Cpu.setReg s.gpr (num4 b) (signExtend .q v) } ⟨b, 0, none, 0⟩ = v := by
    simp [addressOf, Cpu.setReg, signExtend]
  obtain ⟨s', r2, e2⟩ := load_ok w ⟨b, 0, none, 0⟩ trivial hw (fun h => h) b hf fpu (behind pc (moveCR .q v b tmp))
    { s with gpr := Cpu.setReg s.gpr (num4 b) (signExtend .q v) } u (by rw [ha]; exact hu)
  refine ⟨s', runs_append r1 r2, ?_, ?_, e2.xmm, e2.mem⟩
  · rw [e2.value, BitVec.signExtend_eq]
  · intro r hr _
    rw [e2.others r hr (by simp)]
    simp [Cpu.setReg, hr]

example : Holds exMem.mem 0x101 .d 0xfffffff6 ∧ isFloatReg 9 = false := ⟨holds_write _ _ .d 0xfffffff6, by decide⟩

/-! ### The stack -/

/-- **C86.** A push: the register's old value is below the old top of the stack. -/
theorem push_ok (a : Register) (fpu : Fpu) (pc : BitVec 64) (s : State) :
    ∃ s', Runs fpu (pushR a) pc s s' ∧ Stored s s' .q (s.gpr (num4 rsp) - 8) (s.gpr (num4 a)) [num4 rsp] ∧
      s'.gpr (num4 rsp) = s.gpr (num4 rsp) - 8 := by
  refine ⟨_, runs_one (.push (num4 a)) (by simp [pushR]) (decode_push a) rfl, ⟨?_, ?_, ?_, rfl⟩, rfl⟩
  · have := holds_write s.mem (s.gpr (num4 rsp) - 8) .q (s.gpr (num4 a))
    rw [show lo Width.q (s.gpr (num4 a)) = s.gpr (num4 a) from BitVec.setWidth_eq _] at this
    exact this
  · intro x hx
    exact write_others _ _ _ _ x hx
  · intro r hr
    have : ¬ r = 4 := fun h => hr (by rw [h]; decide)
    simp only [Cpu.setReg]
    rw [if_neg this]

example : exState.gpr (num4 rsp) - 8 = 0x1122334455667780 := by decide

/-- **C86.** A pop of a long, or of an int, that is extended with its sign. -/
theorem pop_ok {w : Width} (hw : w = .d ∨ w = .q) (a : Register) (hf : isFloatReg a = false) (ha : num4 a ≠ num4 rsp) (fpu : Fpu)
    (pc : BitVec 64) (s : State) (v : BitVec 64) (hv : Holds s.mem (s.gpr (num4 rsp)) .q v) :
    ∃ s', Runs fpu (popR w a) pc s s' ∧ s'.gpr (num4 a) = (lo w v).signExtend 64 ∧ s'.gpr (num4 rsp) = s.gpr (num4 rsp) + 8 ∧
      (∀ r, r ≠ num4 a → r ≠ num4 rsp → s'.gpr r = s.gpr r) ∧ s'.xmm = s.xmm ∧ s'.mem = s.mem := by
  have hr : Cpu.readMem s.mem (s.gpr 4) .q = v := by
    have := holds_unique (holds_read s.mem (s.gpr (num4 rsp)) .q) hv
    rw [show ∀ x : BitVec 64, lo Width.q x = x from fun x => BitVec.setWidth_eq x] at this
    exact this
  have r1 : Runs fpu (maybeRexR .d a ++ [0x58#8 + regCode a]) pc s
      { s with gpr := Cpu.setReg (Cpu.setReg s.gpr 4 (s.gpr 4 + 8)) (num4 a) v } := by
    refine runs_one (.pop (num4 a)) (by simp) (decode_pop a) ?_
    simp only [Cpu.exec, hr]
  have g4 : (num4 rsp : R) = 4 := rfl
  have ha' : ¬ (4 : R) = num4 a := fun h => ha (g4 ▸ h.symm)
  unfold popR
  rcases hw with rfl | rfl
  · rw [if_pos rfl]
    obtain ⟨s', r2, e2⟩ := move_ok .d a (bSize := .q) (Or.inr rfl) (fun _ => rfl) a hf hf fpu (behind pc (maybeRexR .d a ++ [0x58#8 + regCode a]))
      { s with gpr := Cpu.setReg (Cpu.setReg s.gpr 4 (s.gpr 4 + 8)) (num4 a) v }
    refine ⟨s', runs_append r1 r2, ?_, ?_, ?_, e2.xmm, e2.mem⟩
    · have := e2.value
      simp only [widened, Cpu.setReg, if_true] at this
      rw [show ∀ x : BitVec 64, lo Width.q x = x from fun x => BitVec.setWidth_eq x] at this
      exact this
    · rw [e2.others _ ha.symm (by simp), g4]
      simp only [Cpu.setReg, if_neg ha', if_true]
    · intro r h1 h2
      rw [e2.others _ h1 (by simp)]
      rw [g4] at h2
      simp only [Cpu.setReg, if_neg h1, if_neg h2]
  · rw [if_neg (by decide), List.append_nil]
    refine ⟨_, r1, ?_, ?_, ?_, rfl, rfl⟩
    · simp only [Cpu.setReg, if_true]
      rw [show lo Width.q v = v from BitVec.setWidth_eq _]
      exact (BitVec.signExtend_eq v).symm
    · rw [g4]
      simp only [Cpu.setReg, if_neg ha', if_true]
    · intro r h1 h2
      rw [g4] at h2
      simp only [Cpu.setReg, if_neg h1, if_neg h2]

example : num4 9 ≠ num4 rsp ∧ isFloatReg 9 = false ∧
    Holds (Cpu.writeMem exState.mem (exState.gpr (num4 rsp)) .q 0x80000000) (exState.gpr (num4 rsp)) .q 0x80000000 ∧
    (lo .d 0x80000000).signExtend 64 = (0xffffffff80000000 : BitVec 64) :=
  ⟨by decide, by decide, holds_write _ _ .q 0x80000000, by decide⟩

/-! ### Floating point registers -/

theorem general_to_float_ok {w : Width} (hw : w = .d ∨ w = .q) (a b : Register) (bSize : Width) (hfa : isFloatReg a = false)
    (hfb : isFloatReg b = true) (fpu : Fpu) (pc : BitVec 64) (s : State) :
    ∃ s', Runs fpu (moveRR w a bSize b) pc s s' ∧ FEffect s s' w (num4 b) (lo w (s.gpr (num4 a))) [] := by
  have e : moveRR w a bSize b = [0x66#8] ++ maybeRexRR w b a ++ [0x0f#8, 0x6e#8] ++ modrm 0xc0#8 a b := by
    simp [moveRR, sseMoveRR, hfa, hfb]
  rw [e]
  refine ⟨_, runs_one (.toXmm w (num4 b) (.reg (num4 a))) (by simp) (fun rest => ?_) rfl, ?_⟩
  · have := decode_66_0f6e (opd_reg a) w b false rest
    rw [gsize_rex hw] at this
    simpa [maybeRexRR] using this
  · refine ⟨?_, ?_, fun _ _ => rfl, rfl⟩
    · simp only [Cpu.setReg, if_true]
      exact lo_get _ _ _ _
    · intro r hr
      simp [Cpu.setReg, hr]

example : isFloatReg 9 = false ∧ isFloatReg 25 = true := by decide

theorem float_to_general_ok {w : Width} (hw : w = .d ∨ w = .q) (a b : Register) (bSize : Width) (hfa : isFloatReg a = true)
    (hfb : isFloatReg b = false) (fpu : Fpu) (pc : BitVec 64) (s : State) :
    ∃ s', Runs fpu (moveRR w a bSize b) pc s s' ∧ Effect s s' w (num4 b) (lo w (s.xmm (num4 a))) [] := by
  have e : moveRR w a bSize b = [0x66#8] ++ maybeRexRR w a b ++ [0x0f#8, 0x7e#8] ++ modrm 0xc0#8 b a := by
    simp [moveRR, sseMoveRR, hfa, hfb]
  rw [e]
  refine ⟨_, runs_one (.fromXmm w (.reg (num4 b)) (num4 a)) (by simp) (fun rest => ?_) rfl, ?_⟩
  · have := decode_66_0f7e (opd_reg b) w a false rest
    rw [gsize_rex hw] at this
    simpa [maybeRexRR] using this
  · have := fun next => put_effect hw s next (num4 b) (((s.xmm (num4 a)).setWidth w.bits).setWidth 64)
    simp only [lo_ext] at this
    exact this _

theorem lo_mergeX {w : Width} (hw : Full w) (old v : BitVec 64) : lo w (Cpu.mergeX w old v) = lo w v := by
  rcases hw with rfl | rfl
  · simp only [lo, Cpu.mergeX, Cpu.Width.bits]
    apply BitVec.eq_of_getLsbD_eq
    intro i hi
    rw [BitVec.getLsbD_setWidth, BitVec.getLsbD_setWidth]
    have := BitVec.getLsbD_append (x := old.extractLsb' 32 32) (y := v.setWidth 32) (i := i)
    simp only [hi, decide_true, Bool.true_and, if_true, BitVec.getLsbD_setWidth] at this ⊢
    exact this
  · rfl

theorem movs_effect {w : Width} (hw : Full w) (s : State) (next : BitVec 64) (a b : R) :
    FEffect s { s with xmm := Cpu.setReg s.xmm b (Cpu.mergeX w (s.xmm b) (Cpu.getX s next w (.reg a))) } w b (lo w (s.xmm a)) [] := by
  refine ⟨?_, ?_, fun _ _ => rfl, rfl⟩
  · simp only [Cpu.setReg, if_true]
    rw [lo_mergeX hw]
    exact lo_ext _
  · intro r hr
    simp [Cpu.setReg, hr]

/-- The bytes of the move between floating point registers, as they should be. -/
theorem float_move_right {w : Width} (hw : Full w) (a b : Register) (fpu : Fpu) (pc : BitVec 64) (s : State) :
    ∃ s', Runs fpu ([if w = .d then 0xf3#8 else 0xf2#8] ++ maybeRexRR .d b a ++ [0x0f#8, 0x10#8] ++ modrm 0xc0#8 a b) pc s s' ∧
      FEffect s s' w (num4 b) (lo w (s.xmm (num4 a))) [] := by
  refine ⟨_, runs_one (.movs w (num4 b) (.reg (num4 a))) (by simp) (fun rest => ?_) rfl, movs_effect hw s _ _ _⟩
  rcases hw with rfl | rfl
  · have := decode_f3_0f10 (opd_reg a) .d b false rest
    simpa [maybeRexRR] using this
  · have := decode_f2_0f10 (opd_reg a) .d b false rest
    simpa [maybeRexRR] using this

/-- **C86.** Moves between floating point registers: doubles always, floats if both registers are below xmm8 or both are not.
Missing for the full statement, because it is false: floats between a register below xmm8 and another one
(`float_move_wrong`). -/
theorem float_move_partial {w : Width} (hw : w = .d ∨ w = .q) (a b : Register) (bSize : Width) (hfa : isFloatReg a = true)
    (hfb : isFloatReg b = true) (h8 : w = .d → (num4 a).getLsbD 3 = (num4 b).getLsbD 3) (fpu : Fpu) (pc : BitVec 64) (s : State) :
    ∃ s', Runs fpu (moveRR w a bSize b) pc s s' ∧ FEffect s s' w (num4 b) (lo w (s.xmm (num4 a))) [] := by
  have e : moveRR w a bSize b = [if w = .d then 0xf3#8 else 0xf2#8] ++ maybeRexRR .d b a ++ [0x0f#8, 0x10#8] ++ modrm 0xc0#8 a b := by
    have hr : ∀ a b : Register, (num4 a).getLsbD 3 = (num4 b).getLsbD 3 → maybeRexRR .d a b = maybeRexRR .d b a := by decide +kernel
    rcases hw with rfl | rfl
    · simp [moveRR, sseMoveRR, hfa, hfb, hr a b (h8 rfl)]
    · simp [moveRR, sseMoveRR, hfa, hfb]
  rw [e]
  exact float_move_right hw a b fpu pc s

example : isFloatReg 24 = true ∧ isFloatReg 31 = true ∧ (num4 24).getLsbD 3 = (num4 31).getLsbD 3 := by decide

/-- **C86, a disagreement.** A float moved between a register below xmm8 and one that is not: the destination does not change,
and another register, which is not an operand, does. -/
theorem float_move_wrong (a b : Register) (bSize : Width) (hfa : isFloatReg a = true) (hfb : isFloatReg b = true)
    (h8 : (num4 a).getLsbD 3 ≠ (num4 b).getLsbD 3) (fpu : Fpu) (pc : BitVec 64) (s : State) :
    ∃ s', Runs fpu (moveRR .d a bSize b) pc s s' ∧ s'.xmm (num4 b) = s.xmm (num4 b) ∧
      lo .d (s'.xmm (num4 b ^^^ 8)) = lo .d (s.xmm (num4 a ^^^ 8)) := by
  have hr : ∀ a b : Register, (num4 a).getLsbD 3 ≠ (num4 b).getLsbD 3 →
      maybeRexRR .d a b = maybeRexRR .d (b ^^^ 8) (a ^^^ 8) ∧ modrm 0xc0#8 a b = modrm 0xc0#8 (a ^^^ 8) (b ^^^ 8) := by decide +kernel
  have hn : ∀ b : Register, num4 (b ^^^ 8) = num4 b ^^^ 8 ∧ num4 b ≠ num4 b ^^^ 8 := by decide +kernel
  have e : moveRR .d a bSize b = [if Width.d = .d then 0xf3#8 else 0xf2#8] ++ maybeRexRR .d (b ^^^ 8) (a ^^^ 8) ++ [0x0f#8, 0x10#8] ++
      modrm 0xc0#8 (a ^^^ 8) (b ^^^ 8) := by
    rw [← (hr a b h8).1, ← (hr a b h8).2]
    simp [moveRR, sseMoveRR, hfa, hfb]
  rw [e]
  obtain ⟨s', hr, he⟩ := float_move_right (w := .d) (Or.inl rfl) (a ^^^ 8) (b ^^^ 8) fpu pc s
  refine ⟨s', hr, he.others _ ?_, ?_⟩
  · rw [(hn b).1]; exact (hn b).2
  · rw [← (hn b).1, ← (hn a).1]
    exact he.value

/-- From xmm1 to xmm8: xmm0 is changed instead, to the value of xmm9. -/
example : isFloatReg 17 = true ∧ isFloatReg 24 = true ∧ (num4 17).getLsbD 3 ≠ (num4 24).getLsbD 3 ∧
    num4 24 ^^^ 8 = 0 ∧ num4 17 ^^^ 8 = 9 := by decide

/-- **C86.** Constants in floating point registers, by way of a general one. -/
theorem const_float_ok {w : Width} (hw : w = .d ∨ w = .q) (v : BitVec 64) (b tmp : Register) (hb : isFloatReg b = true)
    (ht : isFloatReg tmp = false) (fpu : Fpu) (pc : BitVec 64) (s : State) :
    ∃ s', Runs fpu (moveCR w v b tmp) pc s s' ∧ FEffect s s' w (num4 b) (lo w v) [num4 tmp] := by
  have e : moveCR w v b tmp = moveCR w v tmp tmp ++ moveRR w tmp w b := by
    simp [moveCR, hb, ht, sseMoveCR, moveRR]
  rw [e]
  have r1 := moveCR_ok w v tmp tmp ht fpu pc s
  obtain ⟨s', r2, e2⟩ := general_to_float_ok hw tmp b w ht hb fpu (behind pc (moveCR w v tmp tmp))
    { s with gpr := Cpu.setReg s.gpr (num4 tmp) (signExtend w v) }
  refine ⟨s', runs_append r1 r2, ?_, e2.others, ?_, e2.mem⟩
  · have := e2.value
    simp only [Cpu.setReg, if_true, lo_signExtend hw] at this
    exact this
  · intro r hr
    rw [e2.gpr r (by simp)]
    simp only [List.mem_singleton] at hr
    simp [Cpu.setReg, hr]

/-- 1.5 in xmm12. -/
example : lo .q 0x3ff8000000000000 = 0x3ff8000000000000#64 ∧ isFloatReg 28 = true ∧ isFloatReg 3 = false := ⟨rfl, by decide, by decide⟩

end Avian.X86
