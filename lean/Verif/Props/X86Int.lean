import Verif.Codegen.Moves

/-
**C85.** The machine code for the integer operations of the Java virtual machine computes these operations, in all registers,
for all values and constants.

The specification is `java`, on integers of 32 or 64 bits, and `Effect`: what may differ after the code.
-/
namespace Avian.X86

open Cpu (Byte Width Rex Rm R State Fpu Next Out Instr)

/-! ### Specification -/

inductive IntOp where
  | add | sub | mul | div | rem | and | or | xor | shl | shr | ushr
deriving DecidableEq

/-- The operation of the Java virtual machine on two ints or two longs; `none` stands for the exception. -/
def java (op : IntOp) {n : Nat} (x y : BitVec n) : Option (BitVec n) :=
  match op with
  | .add => some (BitVec.ofInt n (x.toInt + y.toInt))
  | .sub => some (BitVec.ofInt n (x.toInt - y.toInt))
  | .mul => some (BitVec.ofInt n (x.toInt * y.toInt))
  | .div => if y = 0 then none else some (BitVec.ofInt n (x.toInt.tdiv y.toInt))
  | .rem => if y = 0 then none else some (BitVec.ofInt n (x.toInt.tmod y.toInt))
  | .and => some (x &&& y)
  | .or => some (x ||| y)
  | .xor => some (x ^^^ y)
  | .shl => some (x <<< (y.toNat % n))
  | .shr => some (x.sshiftRight (y.toNat % n))
  | .ushr => some (x >>> (y.toNat % n))

/-- The part of a register that holds an int (`.d`) or a long (`.q`). -/
def lo (w : Width) (v : BitVec 64) : BitVec w.bits := v.setWidth w.bits

/-- The register `b` holds `v`; other registers, except those in `scratch`, and the memory are as before. -/
structure Effect (s s' : State) (w : Width) (b : R) (v : BitVec w.bits) (scratch : List R) : Prop where
  value : lo w (s'.gpr b) = v
  others : ∀ r, r ≠ b → r ∉ scratch → s'.gpr r = s.gpr r
  xmm : s'.xmm = s.xmm
  mem : s'.mem = s.mem

/-- The code for `b = b op a`. -/
def emitRR (op : IntOp) (w : Width) (a b : Register) : List Byte :=
  match op with
  | .add => addRR w a b
  | .sub => subtractRR w a b
  | .mul => multiplyRR w a b
  | .div => divideRR w a b
  | .rem => remainderRR w a b
  | .and => andRR w a b
  | .or => orRR w a b
  | .xor => xorRR w a b
  | .shl => shiftLeftRR w a b
  | .shr => shiftRightRR w a b
  | .ushr => unsignedShiftRightRR w a b

/-- src/codegen/target/x86/assembler.cpp:737-815 `planSource`: the registers that the operations are given. -/
def Allowed (op : IntOp) (a b : Register) : Prop :=
  match op with
  | .div => b = rax ∧ num4 a ≠ num4 rax ∧ num4 a ≠ num4 rdx
  | .rem => b = rax ∧ num4 a ≠ num4 rax ∧ num4 a ≠ num4 rdx
  | .shl => a = rcx
  | .shr => a = rcx
  | .ushr => a = rcx
  | _ => True

def scratchOf (op : IntOp) : List R :=
  match op with
  | .div => [num4 rdx]
  | .rem => [num4 rdx]
  | _ => []

/-! ### Values -/

theorem lo_merge {w : Width} (hw : Full w) (old v : BitVec 64) : lo w (Cpu.merge w old v) = lo w v := by
  rcases hw with rfl | rfl
  · simp [lo, Cpu.merge, Cpu.Width.bits]
  · rfl

theorem bits_le (w : Width) : w.bits ≤ 64 := by cases w <;> decide

theorem lo_ext {w : Width} (x : BitVec w.bits) : lo w (x.setWidth 64) = x := by
  unfold lo
  rw [BitVec.setWidth_setWidth_of_le _ (bits_le w), BitVec.setWidth_eq]

theorem lo_get (s : State) (next : BitVec 64) (w : Width) (r : R) : lo w (Cpu.get s next w (.reg r)) = lo w (s.gpr r) := by
  simp only [Cpu.get]
  exact lo_ext _

theorem lo_add (w : Width) (a b : BitVec 64) : lo w (a + b) = lo w a + lo w b := BitVec.setWidth_add a b (bits_le w)

theorem lo_mul (w : Width) (a b : BitVec 64) : lo w (a * b) = lo w a * lo w b := BitVec.setWidth_mul a b (bits_le w)

theorem lo_neg (w : Width) (a : BitVec 64) : lo w (-a) = - lo w a := BitVec.setWidth_neg_of_le (bits_le w)

theorem lo_sub (w : Width) (a b : BitVec 64) : lo w (a - b) = lo w a - lo w b := by
  rw [BitVec.sub_eq_add_neg, lo_add, lo_neg, ← BitVec.sub_eq_add_neg]

theorem lo_and (w : Width) (a b : BitVec 64) : lo w (a &&& b) = lo w a &&& lo w b := BitVec.setWidth_and

theorem lo_or (w : Width) (a b : BitVec 64) : lo w (a ||| b) = lo w a ||| lo w b := BitVec.setWidth_or

theorem lo_xor (w : Width) (a b : BitVec 64) : lo w (a ^^^ b) = lo w a ^^^ lo w b := BitVec.setWidth_xor

theorem java_add {n : Nat} (x y : BitVec n) : java .add x y = some (x + y) := by
  simp only [java, BitVec.ofInt_add, BitVec.ofInt_toInt]

theorem java_sub {n : Nat} (x y : BitVec n) : java .sub x y = some (x - y) := by
  simp only [java, Int.sub_eq_add_neg, BitVec.ofInt_add, BitVec.ofInt_neg, BitVec.ofInt_toInt, BitVec.sub_eq_add_neg]

theorem java_mul {n : Nat} (x y : BitVec n) : java .mul x y = some (x * y) := by
  simp only [java, BitVec.ofInt_mul, BitVec.ofInt_toInt]

/-- The operations that are a single instruction `op r/m, r`. -/
def aluSpec (o : Cpu.Alu) {n : Nat} (x y : BitVec n) : BitVec n :=
  match o with
  | .add => x + y
  | .sub => x - y
  | .and => x &&& y
  | .or => x ||| y
  | .xor => x ^^^ y
  | _ => x

theorem alu_value (o : Cpu.Alu) (ho : o ∈ [.add, .sub, .and, .or, Cpu.Alu.xor]) (w : Width) (f : Cpu.Flags) (a b : BitVec 64) :
    lo w (Cpu.aluRes o w f a b) = aluSpec o (lo w a) (lo w b) := by
  unfold Cpu.aluRes
  simp only
  rw [lo_ext]
  simp only [List.mem_cons, List.not_mem_nil, or_false] at ho
  rcases ho with rfl | rfl | rfl | rfl | rfl
  · exact lo_add w a b
  · exact lo_sub w a b
  · exact lo_and w a b
  · exact lo_or w a b
  · exact lo_xor w a b

/-- The effect of an instruction on a register. -/
theorem alu_effect (o : Cpu.Alu) (ho : o ∈ [.add, .sub, .and, .or, Cpu.Alu.xor]) {w : Width} (hw : Full w) (s : State)
    (next : BitVec 64) (b : R) (v : BitVec 64) :
    Effect s (Cpu.exAlu o w s next (.reg b) v) w b (aluSpec o (lo w (s.gpr b)) (lo w v)) [] := by
  have hc : o ≠ .cmp := by
    rintro rfl
    revert ho; decide
  unfold Cpu.exAlu
  simp only [if_neg hc, Cpu.put]
  refine ⟨?_, ?_, rfl, rfl⟩
  · simp only [Cpu.setReg, if_true]
    rw [lo_merge hw, alu_value o ho, lo_get]
  · intro r hr _
    simp [Cpu.setReg, hr]

theorem put_effect {w : Width} (hw : Full w) (s : State) (next : BitVec 64) (b : R) (v : BitVec 64) :
    Effect s (Cpu.put s next w v (.reg b)) w b (lo w v) [] := by
  refine ⟨?_, ?_, rfl, rfl⟩
  · simp only [Cpu.put, Cpu.setReg, if_true]
    exact lo_merge hw _ _
  · intro r hr _
    simp [Cpu.put, Cpu.setReg, hr]

theorem aluRR_ok (op : Byte) (o : Cpu.Alu) {w : Width} (hw : Full w) (a b : Register) (fpu : Fpu) (pc : BitVec 64) (s : State)
    (h : (op, o) ∈ [(0x01#8, .add), (0x09#8, .or), (0x21#8, .and), (0x29#8, .sub), (0x31#8, Cpu.Alu.xor)]) :
    ∃ s', Runs fpu (maybeRexRR w a b ++ [op] ++ modrm 0xc0#8 b a) pc s s' ∧
      Effect s s' w (num4 b) (aluSpec o (lo w (s.gpr (num4 b))) (lo w (s.gpr (num4 a)))) [] := by
  refine ⟨_, runs_one (.alu o w (.reg (num4 b)) (num4 a)) (by simp) ?_ rfl, ?_⟩
  · intro rest
    refine decode_aluRR op o w hw a b rest ?_
    simp only [List.mem_cons, Prod.mk.injEq, List.not_mem_nil, or_false] at h ⊢
    rcases h with h | h | h | h | h <;> simp [h]
  · have := alu_effect o ?_ hw s (behind pc (maybeRexRR w a b ++ [op] ++ modrm 0xc0#8 b a)) (num4 b)
      (Cpu.get s (behind pc (maybeRexRR w a b ++ [op] ++ modrm 0xc0#8 b a)) w (.reg (num4 a)))
    · rw [lo_get] at this
      exact this
    · simp only [List.mem_cons, Prod.mk.injEq, List.not_mem_nil, or_false] at h ⊢
      rcases h with h | h | h | h | h <;> simp [h]

/-! ### Shifts -/

theorem lo_shl {w : Width} (x : BitVec w.bits) (n : Nat) : lo w (x.setWidth 64 <<< n) = x <<< n := by
  apply BitVec.eq_of_getLsbD_eq
  intro i hi
  have := bits_le w
  simp only [lo, BitVec.getLsbD_setWidth, BitVec.getLsbD_shiftLeft, hi, decide_true, Bool.true_and]
  simp [show i < 64 by omega, show i - n < 64 by omega]

theorem lo_shr {w : Width} (x : BitVec w.bits) (n : Nat) : lo w (x.setWidth 64 >>> n) = x >>> n := by
  apply BitVec.eq_of_getLsbD_eq
  intro i hi
  have := bits_le w
  simp only [lo, BitVec.getLsbD_setWidth, BitVec.getLsbD_ushiftRight, hi, decide_true, Bool.true_and]
  by_cases h : n + i < 64
  · simp [h]
  · simp only [h, decide_false, Bool.false_and]
    exact (BitVec.getLsbD_of_ge x (n + i) (by omega)).symm

theorem lo_sar {w : Width} (x : BitVec w.bits) (n : Nat) : lo w ((x.signExtend 64).sshiftRight n) = x.sshiftRight n := by
  apply BitVec.eq_of_getLsbD_eq
  intro i hi
  have hw := bits_le w
  have hm : (x.signExtend 64).msb = x.msb := by
    rw [BitVec.msb_eq_getLsbD_last, BitVec.getLsbD_signExtend]
    by_cases h : 64 - 1 < w.bits
    · simp only [h, if_true]
      rw [BitVec.msb_eq_getLsbD_last, show w.bits - 1 = 64 - 1 by omega]
      simp
    · simp [h]
  simp only [lo, BitVec.getLsbD_setWidth, BitVec.getLsbD_sshiftRight, hi, decide_true, Bool.true_and, hm,
    BitVec.getLsbD_signExtend]
  by_cases h : n + i < w.bits
  · simp [h, show n + i < 64 by omega, show ¬ 64 ≤ i by omega, show ¬ w.bits ≤ i by omega]
  · by_cases h2 : n + i < 64
    · simp [h, h2, show ¬ 64 ≤ i by omega, show ¬ w.bits ≤ i by omega]
    · simp [h, h2, show ¬ 64 ≤ i by omega, show ¬ w.bits ≤ i by omega]

/-- What a shift instruction does with `n` places. -/
def shiftSpec (o : Cpu.Shift) {k : Nat} (x : BitVec k) (n : Nat) : BitVec k :=
  match o with
  | .shl => x <<< n
  | .shr => x >>> n
  | .sar => x.sshiftRight n

theorem shift_value (o : Cpu.Shift) (s : State) (next : BitVec 64) (w : Width) (b : R) (n : Nat) :
    lo w (Cpu.exShift o w (Cpu.get s next w (.reg b)) n) = shiftSpec o (lo w (s.gpr b)) n := by
  simp only [Cpu.get, Cpu.exShift, shiftSpec]
  cases o with
  | shl => exact lo_shl _ n
  | shr => exact lo_shr _ n
  | sar =>
    simp only [Cpu.sext]
    have e : ((((s.gpr b).setWidth w.bits).setWidth 64).setWidth w.bits) = lo w (s.gpr b) := lo_ext (w := w) _
    rw [e]
    exact lo_sar _ n

theorem places_ok {w : Width} (hw : Full w) (y : BitVec 64) : Cpu.places w (y.setWidth 8) = (lo w y).toNat % w.bits := by
  rcases hw with rfl | rfl
  · simp only [Cpu.places, lo, Cpu.Width.bits, BitVec.toNat_setWidth]
    simp
  · simp only [Cpu.places, lo, Cpu.Width.bits, BitVec.toNat_setWidth]
    simp

theorem shiftRR_ok {type : Byte} {o : Cpu.Shift} (h : IsShift type o) {w : Width} (hw : Full w) (b : Register) (fpu : Fpu)
    (pc : BitVec 64) (s : State) :
    ∃ s', Runs fpu (shiftRR type w rcx b) pc s s' ∧
      Effect s s' w (num4 b) (shiftSpec o (lo w (s.gpr (num4 b))) ((lo w (s.gpr (num4 rcx))).toNat % w.bits)) [] := by
  refine ⟨_, runs_one (.shift o w (.reg (num4 b)) none) (by simp [shiftRR]) (fun rest => decode_shiftR h w hw rcx b rest) rfl, ?_⟩
  have := put_effect hw s (behind pc (shiftRR type w rcx b)) (num4 b)
    (Cpu.exShift o w (Cpu.get s (behind pc (shiftRR type w rcx b)) w (.reg (num4 b))) (Cpu.places w ((s.gpr 1).setWidth 8)))
  rw [shift_value] at this
  conv at this => arg 5; rw [places_ok hw]
  exact this

theorem shiftCR_ok {type : Byte} {o : Cpu.Shift} (h : IsShift type o) {w : Width} (hw : Full w) (v : BitVec 64) (b : Register)
    (code : List Byte) (hc : doShift type v w b = some code) (fpu : Fpu) (pc : BitVec 64) (s : State) :
    ∃ s', Runs fpu code pc s s' ∧
      Effect s s' w (num4 b) (shiftSpec o (lo w (s.gpr (num4 b))) ((lo w v).toNat % w.bits)) [] := by
  have hd := fun rest => decode_shiftC h w hw v b code rest hc
  refine ⟨_, runs_one (.shift o w (.reg (num4 b)) (some (v.setWidth 8))) (hd []).2.1 (fun rest => (hd rest).1) rfl, ?_⟩
  have := put_effect hw s (behind pc code) (num4 b)
    (Cpu.exShift o w (Cpu.get s (behind pc code) w (.reg (num4 b))) (Cpu.places w (v.setWidth 8)))
  rw [shift_value] at this
  conv at this => arg 5; rw [places_ok hw]
  exact this

/-! ### Multiplication and negation -/

theorem mulRR_ok {w : Width} (hw : Full w) (a b : Register) (fpu : Fpu) (pc : BitVec 64) (s : State) :
    ∃ s', Runs fpu (multiplyRR w a b) pc s s' ∧
      Effect s s' w (num4 b) (lo w (s.gpr (num4 b)) * lo w (s.gpr (num4 a))) [] := by
  refine ⟨_, runs_one (.imul w (num4 b) (.reg (num4 a))) (by simp [multiplyRR]) (decode_imul w hw a b) rfl, ?_⟩
  have := put_effect hw s (behind pc (multiplyRR w a b)) (num4 b)
    (Cpu.get s (behind pc (multiplyRR w a b)) w (.reg (num4 b)) * Cpu.get s (behind pc (multiplyRR w a b)) w (.reg (num4 a)))
  rw [lo_mul, lo_get, lo_get] at this
  exact this

theorem mulI_ok {w : Width} (hw : Full w) (v : BitVec 64) (hv : fitsInInt32 v = true) (b : Register) (code : List Byte)
    (hc : code = maybeRexRR w b b ++
      (if fitsInInt8 v then [0x6b#8] ++ modrm 0xc0#8 b b ++ append v else [0x69#8] ++ modrm 0xc0#8 b b ++ append4 v))
    (fpu : Fpu) (pc : BitVec 64) (s : State) :
    ∃ s', Runs fpu code pc s s' ∧ Effect s s' w (num4 b) (lo w (s.gpr (num4 b)) * lo w v) [] := by
  subst hc
  refine ⟨_, runs_one (.imulI w (num4 b) (.reg (num4 b)) v) ?_ (decode_imulI w hw v hv b) rfl, ?_⟩
  · split <;> simp
  · have := fun next => put_effect hw s next (num4 b) (Cpu.get s next w (.reg (num4 b)) * v)
    simp only [lo_mul, lo_get] at this
    exact this _

theorem aluI_ok (type : Byte) (o : Cpu.Alu) {w : Width} (hw : Full w) (v : BitVec 64) (hv : fitsInInt32 v = true) (b : Register)
    (h : (type, o) ∈ [(0xc0#8, .add), (0xc8#8, .or), (0xe0#8, .and), (0xe8#8, .sub), (0xf0#8, Cpu.Alu.xor)])
    (fpu : Fpu) (pc : BitVec 64) (s : State) :
    ∃ s', Runs fpu (immediateR w type v b) pc s s' ∧
      Effect s s' w (num4 b) (aluSpec o (lo w (s.gpr (num4 b))) (lo w v)) [] := by
  refine ⟨_, runs_one (.aluI o w (.reg (num4 b)) v) ?_ (fun rest => decode_aluI type o w hw v hv b rest ?_) rfl, ?_⟩
  · unfold immediateR
    split <;> simp
  · simp only [List.mem_cons, Prod.mk.injEq, List.not_mem_nil, or_false] at h ⊢
    rcases h with h | h | h | h | h <;> simp [h]
  · refine alu_effect o ?_ hw s _ (num4 b) v
    simp only [List.mem_cons, Prod.mk.injEq, List.not_mem_nil, or_false] at h ⊢
    rcases h with h | h | h | h | h <;> simp [h]

/-! ### Constants that do not fit -/

theorem lo_signExtend {w : Width} (hw : Full w) (v : BitVec 64) : lo w (signExtend w v) = lo w v := by
  rcases hw with rfl | rfl
  · exact low_signExtend32 _
  · rfl

/-- A constant in a register. -/
theorem moveCR_ok (w : Width) (v : BitVec 64) (b tmp : Register) (hb : isFloatReg b = false) (fpu : Fpu) (pc : BitVec 64) (s : State) :
    Runs fpu (moveCR w v b tmp) pc s { s with gpr := Cpu.setReg s.gpr (num4 b) (signExtend w v) } := by
  have e : moveCR w v b tmp = moveCR2 w v b := by simp [moveCR, hb]
  rw [e]
  exact runs_one (.movI .q (num4 b) (signExtend w v)) (by simp [moveCR2]) (decode_mov64 (signExtend w v) b) rfl

theorem const_ok {w : Width} (hw : Full w) (v : BitVec 64) (b tmp : Register) (ht : isFloatReg tmp = false)
    (hn : num4 tmp ≠ num4 b) (f : BitVec w.bits → BitVec w.bits → BitVec w.bits) (code : List Byte) (fpu : Fpu)
    (hrr : ∀ pc s, ∃ s', Runs fpu code pc s s' ∧ Effect s s' w (num4 b) (f (lo w (s.gpr (num4 b))) (lo w (s.gpr (num4 tmp)))) [])
    (pc : BitVec 64) (s : State) :
    ∃ s', Runs fpu (moveCR w v tmp tmp ++ code) pc s s' ∧
      Effect s s' w (num4 b) (f (lo w (s.gpr (num4 b))) (lo w v)) [num4 tmp] := by
  have h1 := moveCR_ok w v tmp tmp ht fpu pc s
  obtain ⟨s', hr, he⟩ := hrr (behind pc (moveCR w v tmp tmp)) { s with gpr := Cpu.setReg s.gpr (num4 tmp) (signExtend w v) }
  refine ⟨s', runs_append h1 hr, ?_, ?_, he.xmm, he.mem⟩
  · have := he.value
    simp only [Cpu.setReg, if_true, if_neg hn.symm, lo_signExtend hw] at this
    exact this
  · intro r hr ht
    rw [he.others r hr (by simp)]
    simp only [List.mem_singleton] at ht
    simp [Cpu.setReg, ht]

theorem Effect.scratch {s s' : State} {w : Width} {b : R} {v : BitVec w.bits} {l : List R} (h : Effect s s' w b v [])
    : Effect s s' w b v l := ⟨h.value, fun r hr _ => h.others r hr (by simp), h.xmm, h.mem⟩

/-! ### Division -/

theorem sext_toInt (w : Width) (v : BitVec 64) : (Cpu.sext w v).toInt = (lo w v).toInt := by
  unfold Cpu.sext lo
  exact BitVec.toInt_signExtend_of_le (bits_le w)

theorem lo_ofInt {w : Width} (hw : Full w) (i : Int) : lo w (BitVec.ofInt 64 i) = BitVec.ofInt w.bits i := by
  rcases hw with rfl | rfl
  · apply BitVec.eq_of_toNat_eq
    simp only [lo, Cpu.Width.bits, BitVec.toNat_setWidth, BitVec.toNat_ofInt]
    omega
  · exact BitVec.setWidth_eq _

theorem msb_lo {w : Width} (hw : Full w) (v : BitVec 64) : Cpu.msbOf w v = (lo w v).msb := by
  rcases hw with rfl | rfl <;> simp [Cpu.msbOf, lo, Cpu.Width.bits, BitVec.msb_eq_getLsbD_last]

/-- rdx:rax is the sign extension of rax. -/
theorem dividend {w : Width} (hw : Full w) (x : BitVec 64) (old : BitVec 64) :
    (Cpu.sext w (Cpu.merge w old (if Cpu.msbOf w x then -1 else 0))).toInt * 2 ^ w.bits + (x.setWidth w.bits).toNat = (lo w x).toInt := by
  rw [sext_toInt, lo_merge hw, msb_lo hw, BitVec.toInt_eq_msb_cond (lo w x)]
  have e : x.setWidth w.bits = lo w x := rfl
  rw [e]
  cases (lo w x).msb with
  | true =>
    have : (lo w (-1 : BitVec 64)).toInt = -1 := by rcases hw with rfl | rfl <;> decide
    simp only [if_true, this]
    push_cast
    omega
  | false =>
    have : (lo w (0 : BitVec 64)).toInt = 0 := by rcases hw with rfl | rfl <;> decide
    rw [if_neg (by simp), this]
    simp

theorem quotient_fits {n : Nat} (x y : BitVec n) (ho : ¬ (x = BitVec.intMin n ∧ y = -1#n)) :
    ¬ (x.toInt.tdiv y.toInt < -(2 ^ (n - 1)) ∨ 2 ^ (n - 1) ≤ x.toInt.tdiv y.toInt) := by
  have h : x ≠ BitVec.intMin n ∨ y ≠ -1#n := by
    by_cases hx : x = BitVec.intMin n
    · right; intro hy; exact ho ⟨hx, hy⟩
    · left; exact hx
  rw [← BitVec.toInt_sdiv_of_ne_or_ne x y h]
  have h1 := BitVec.le_toInt (x.sdiv y)
  have h2 := BitVec.toInt_lt (x := x.sdiv y)
  omega

theorem toInt_zero_iff {n : Nat} (y : BitVec n) : y.toInt = 0 ↔ y = 0 := by
  constructor
  · intro h
    apply BitVec.eq_of_toInt_eq
    simpa using h
  · rintro rfl; simp

/-- The state after the sign extension. -/
def cwdState (w : Width) (s : State) : State :=
  { s with gpr := Cpu.setReg s.gpr 2 (Cpu.merge w (s.gpr 2) (if Cpu.msbOf w (s.gpr 0) then -1 else 0)) }

/-- What `idiv` does after the sign extension. -/
theorem exDiv_ok {w : Width} (hw : Full w) (s : State) (next : BitVec 64) (a : R) (s1 : State) (h1 : s1 = cwdState w s)
    (ha : a ≠ 2#4) :
    Cpu.exDiv w s1 (Cpu.get s1 next w (.reg a)) =
      if lo w (s.gpr a) = 0 then none
      else if lo w (s.gpr 0) = BitVec.intMin w.bits ∧ lo w (s.gpr a) = -1#w.bits then none
      else some { s1 with
        gpr := Cpu.setReg (Cpu.setReg s1.gpr 0 (Cpu.merge w (s1.gpr 0)
            (BitVec.ofInt 64 ((lo w (s.gpr 0)).toInt.tdiv (lo w (s.gpr a)).toInt)))) 2
          (Cpu.merge w (s1.gpr 2) (BitVec.ofInt 64 ((lo w (s.gpr 0)).toInt.tmod (lo w (s.gpr a)).toInt))) } := by
  have g0 : s1.gpr 0 = s.gpr 0 := by rw [h1]; simp [cwdState, Cpu.setReg]
  have ga : s1.gpr a = s.gpr a := by rw [h1]; simp [cwdState, Cpu.setReg, ha]
  have g2 : s1.gpr 2 = Cpu.merge w (s.gpr 2) (if Cpu.msbOf w (s.gpr 0) then -1 else 0) := by rw [h1]; simp [cwdState, Cpu.setReg]
  have hd : (Cpu.sext w (Cpu.get s1 next w (.reg a))).toInt = (lo w (s.gpr a)).toInt := by rw [sext_toInt, lo_get, ga]
  have hx : (Cpu.sext w (s1.gpr 2)).toInt * 2 ^ w.bits + ((s1.gpr 0).setWidth w.bits).toNat = (lo w (s.gpr 0)).toInt := by
    rw [g0, g2]
    exact dividend hw (s.gpr 0) (s.gpr 2)
  unfold Cpu.exDiv
  simp only [hd, hx, toInt_zero_iff]
  split
  · rfl
  · split
    · rename_i hy hq
      by_cases ho : lo w (s.gpr 0) = BitVec.intMin w.bits ∧ lo w (s.gpr a) = -1#w.bits
      · rw [if_pos ho]
      · exact absurd hq (quotient_fits _ _ ho)
    · rename_i hy hq
      have ho : ¬ (lo w (s.gpr 0) = BitVec.intMin w.bits ∧ lo w (s.gpr a) = -1#w.bits) := by
        rintro ⟨e1, e2⟩
        apply hq
        right
        rw [e1, e2]
        rcases hw with rfl | rfl <;> decide
      rw [if_neg ho]

/-- The code before the quotient and the remainder are in rax and rdx. -/
def divCode (w : Width) (a : Register) : List Byte :=
  (maybeRexRR w a rax ++ [0x99#8]) ++ (maybeRexRR w rax a ++ [0xf7#8, 0xf8#8 + regCode a])

theorem div_runs {w : Width} (hw : Full w) (a : Register) (ha : num4 a ≠ num4 rdx) (fpu : Fpu)
    (pc : BitVec 64) (s : State) (hy : lo w (s.gpr (num4 a)) ≠ 0)
    (ho : ¬ (lo w (s.gpr 0) = BitVec.intMin w.bits ∧ lo w (s.gpr (num4 a)) = -1#w.bits)) :
    ∃ s', Runs fpu (divCode w a) pc s s' ∧
      lo w (s'.gpr 0) = BitVec.ofInt w.bits ((lo w (s.gpr 0)).toInt.tdiv (lo w (s.gpr (num4 a))).toInt) ∧
      lo w (s'.gpr 2) = BitVec.ofInt w.bits ((lo w (s.gpr 0)).toInt.tmod (lo w (s.gpr (num4 a))).toInt) ∧
      (∀ r, r ≠ 0 → r ≠ 2 → s'.gpr r = s.gpr r) ∧ s'.xmm = s.xmm ∧ s'.mem = s.mem := by
  have r1 : Runs fpu (maybeRexRR w a rax ++ [0x99#8]) pc s (cwdState w s) :=
    runs_one (.cwd w) (by simp) (decode_cwd w hw a rax) rfl
  have hx := exDiv_ok hw s (behind (behind pc (maybeRexRR w a rax ++ [0x99#8])) (maybeRexRR w rax a ++ [0xf7#8, 0xf8#8 + regCode a]))
    (num4 a) _ rfl ha
  rw [if_neg hy, if_neg ho] at hx
  have r2 := runs_one (fpu := fpu) (pc := behind pc (maybeRexRR w a rax ++ [0x99#8])) (.idiv w (.reg (num4 a)))
    (by simp) (decode_idiv w hw a rax) (by simp only [Cpu.exec]; rw [hx])
  refine ⟨_, runs_append r1 r2, ?_⟩
  simp only [Cpu.setReg]
  refine ⟨?_, ?_, ?_, rfl, rfl⟩
  · simp [lo_merge hw, lo_ofInt hw]
  · simp [lo_merge hw, lo_ofInt hw]
  · intro r h0 h2
    have h0 : ¬ r = 0#4 := h0
    have h2 : ¬ r = 2#4 := h2
    simp [h0, h2, cwdState, Cpu.setReg]

theorem div_faults {w : Width} (hw : Full w) (a : Register) (ha : num4 a ≠ num4 rdx) (fpu : Fpu)
    (pc : BitVec 64) (s : State)
    (hy : lo w (s.gpr (num4 a)) = 0 ∨ (lo w (s.gpr 0) = BitVec.intMin w.bits ∧ lo w (s.gpr (num4 a)) = -1#w.bits)) (rest : List Byte) :
    Faults fpu (divCode w a ++ rest) pc s := by
  have r1 : Runs fpu (maybeRexRR w a rax ++ [0x99#8]) pc s (cwdState w s) :=
    runs_one (.cwd w) (by simp) (decode_cwd w hw a rax) rfl
  have hx := exDiv_ok hw s (behind (behind pc (maybeRexRR w a rax ++ [0x99#8])) (maybeRexRR w rax a ++ [0xf7#8, 0xf8#8 + regCode a]))
    (num4 a) _ rfl ha
  have hn := hx.trans (b := _) (c := none) (by
    rcases hy with h | h
    · rw [if_pos h]
    · rw [if_pos h]
      split <;> rfl)
  have r2 := faults_one (fpu := fpu) (pc := behind pc (maybeRexRR w a rax ++ [0x99#8])) (s := cwdState w s) (.idiv w (.reg (num4 a)))
    (by simp) (decode_idiv w hw a rax) (by simp only [Cpu.exec]; rw [hn])
  obtain ⟨k, hk⟩ := runs_faults r1 r2
  refine ⟨k, fun n l => ?_⟩
  have := hk n (rest ++ l)
  rw [← List.append_assoc] at this
  exact this

/-! ### The operations on registers -/

theorem java_div {n : Nat} (x y : BitVec n) (hy : y ≠ 0) : java .div x y = some (BitVec.ofInt n (x.toInt.tdiv y.toInt)) := by
  simp only [java, if_neg hy]

theorem java_rem {n : Nat} (x y : BitVec n) (hy : y ≠ 0) : java .rem x y = some (BitVec.ofInt n (x.toInt.tmod y.toInt)) := by
  simp only [java, if_neg hy]

/-- The quotient that does not fit: the least integer divided by -1. -/
def Overflows (op : IntOp) {n : Nat} (x y : BitVec n) : Prop :=
  (op = .div ∨ op = .rem) ∧ x = BitVec.intMin n ∧ y = -1#n

theorem divideRR_code (w : Width) (a : Register) : divideRR w a rax = divCode w a := by simp [divideRR, divCode]

theorem remainderRR_code (w : Width) (a : Register) :
    remainderRR w a rax = divCode w a ++ (maybeRexRR .q rdx rax ++ [0x89#8] ++ modrm 0xc0#8 rax rdx) := by
  have : moveRR .q rdx .q rax = maybeRexRR .q rdx rax ++ [0x89#8] ++ modrm 0xc0#8 rax rdx := by decide
  simp only [remainderRR, divCode, this, List.append_assoc]

/-- **C85.** The code for an operation on two registers puts the result of Java's operation into the second, changes nothing else
but the registers it is known to change and the flags, and raises the processor's exception for a division by zero.  Missing for
the full statement, because it is false: the least integer divided by -1 (`int_rr_overflow`). -/
theorem int_rr_partial (op : IntOp) {w : Width} (hw : w = .d ∨ w = .q) (a b : Register) (hab : Allowed op a b) (fpu : Fpu)
    (pc : BitVec 64) (s : State) (ho : ¬ Overflows op (lo w (s.gpr (num4 b))) (lo w (s.gpr (num4 a)))) :
    match java op (lo w (s.gpr (num4 b))) (lo w (s.gpr (num4 a))) with
    | some v => ∃ s', Runs fpu (emitRR op w a b) pc s s' ∧ Effect s s' w (num4 b) v (scratchOf op)
    | none => Faults fpu (emitRR op w a b) pc s := by
  cases op with
  | add =>
    rw [java_add]
    exact aluRR_ok 0x01#8 .add hw a b fpu pc s (by simp)
  | sub =>
    rw [java_sub]
    exact aluRR_ok 0x29#8 .sub hw a b fpu pc s (by simp)
  | and => exact aluRR_ok 0x21#8 .and hw a b fpu pc s (by simp)
  | or => exact aluRR_ok 0x09#8 .or hw a b fpu pc s (by simp)
  | xor => exact aluRR_ok 0x31#8 .xor hw a b fpu pc s (by simp)
  | mul =>
    rw [java_mul]
    exact mulRR_ok hw a b fpu pc s
  | shl => subst hab; exact shiftRR_ok (Or.inl ⟨rfl, rfl⟩) hw b fpu pc s
  | shr => subst hab; exact shiftRR_ok (Or.inr (Or.inr ⟨rfl, rfl⟩)) hw b fpu pc s
  | ushr => subst hab; exact shiftRR_ok (Or.inr (Or.inl ⟨rfl, rfl⟩)) hw b fpu pc s
  | div =>
    obtain ⟨rfl, h0, h2⟩ := hab
    have ho : ¬ (lo w (s.gpr 0) = BitVec.intMin w.bits ∧ lo w (s.gpr (num4 a)) = -1#w.bits) := fun h => ho ⟨Or.inl rfl, h⟩
    simp only [emitRR]
    rw [divideRR_code]
    by_cases hy : lo w (s.gpr (num4 a)) = 0
    · have e : java .div (lo w (s.gpr (num4 rax))) (lo w (s.gpr (num4 a))) = none := by simp only [java, if_pos hy]
      rw [e]
      have := div_faults hw a h2 fpu pc s (Or.inl hy) []
      rw [List.append_nil] at this
      exact this
    · rw [java_div _ _ hy]
      obtain ⟨s', hr, hq, _, hg, hx, hm⟩ := div_runs hw a h2 fpu pc s hy ho
      refine ⟨s', hr, hq, ?_, hx, hm⟩
      intro r h0 h2
      exact hg r h0 (fun h => h2 (by simp only [scratchOf]; rw [h]; decide))
  | rem =>
    obtain ⟨rfl, h0, h2⟩ := hab
    have ho : ¬ (lo w (s.gpr 0) = BitVec.intMin w.bits ∧ lo w (s.gpr (num4 a)) = -1#w.bits) := fun h => ho ⟨Or.inr rfl, h⟩
    simp only [emitRR]
    rw [remainderRR_code]
    by_cases hy : lo w (s.gpr (num4 a)) = 0
    · have e : java .rem (lo w (s.gpr (num4 rax))) (lo w (s.gpr (num4 a))) = none := by simp only [java, if_pos hy]
      rw [e]
      exact div_faults hw a h2 fpu pc s (Or.inl hy) _
    · rw [java_rem _ _ hy]
      obtain ⟨s', hr, _, hq, hg, hx, hm⟩ := div_runs hw a h2 fpu pc s hy ho
      have r2 : Runs fpu (maybeRexRR .q rdx rax ++ [0x89#8] ++ modrm 0xc0#8 rax rdx) (behind pc (divCode w a)) s'
          { s' with gpr := Cpu.setReg s'.gpr 0 (s'.gpr 2) } := by
        refine runs_one (.store .q (.reg 0) (.reg 2)) (by simp) (fun rest => ?_) ?_
        · have e := decode_89 (opd_reg rax) .q (Or.inr rfl) rdx false rest
          have e' : maybeRexRR .q rdx rax ++ [0x89#8] ++ modrm 0xc0#8 rax rdx ++ rest =
            maybeRex .q (some rdx) none (some rax) false ++ 0x89#8 :: (modrm 0xc0#8 rax rdx ++ rest) := by simp [maybeRexRR]
          rw [e']
          exact e
        · simp [Cpu.exec, Cpu.put, Cpu.get, Cpu.merge, Cpu.Width.bits]
      refine ⟨_, runs_append hr r2, ?_, ?_, hx, hm⟩
      · have e : Cpu.setReg s'.gpr 0 (s'.gpr 2) (num4 rax) = s'.gpr 2 := rfl
        simp only [e]
        exact hq
      · intro r h0 h2
        have h0 : ¬ r = 0 := h0
        have h2 : ¬ r = 2 := fun h => h2 (by simp only [scratchOf]; rw [h]; decide)
        simp only [Cpu.setReg]
        rw [if_neg h0]
        exact hg r h0 h2

/-- A processor with -7 in rax and 2 in r9. -/
def exState : State :=
  { gpr := fun r => if r = 0 then -7 else if r = 9 then 2 else 0x1122334455667788
    xmm := fun _ => 0
    mem := fun _ => 0
    flags := ⟨false, false, false, false, false⟩ }

example : Allowed .div 9 rax ∧ ¬ Overflows .div (lo .d (exState.gpr (num4 rax))) (lo .d (exState.gpr (num4 9))) ∧
    java .div (lo .d (exState.gpr (num4 rax))) (lo .d (exState.gpr (num4 9))) = some (-3) ∧
    java .rem (lo .q (exState.gpr (num4 rax))) (lo .q (exState.gpr (num4 9))) = some (-1) ∧
    java .ushr (lo .d (exState.gpr (num4 rax))) 33#32 = some 0x7ffffffc := by
  refine ⟨⟨rfl, by decide, by decide⟩, ?_, ?_, ?_, ?_⟩
  · rintro ⟨-, h, -⟩
    exact absurd h (by decide)
  · decide +kernel
  · decide +kernel
  · decide +kernel

/-- Division by zero. -/
example : Allowed .rem 3 rax ∧ java .rem (5 : BitVec 32) 0 = none := ⟨⟨rfl, by decide, by decide⟩, rfl⟩

/-- **C85, a disagreement.** The least integer divided by -1 gives the least integer, and the remainder 0, in Java.  The code
raises the exception of the processor that stands for a division by zero. -/
theorem int_rr_overflow (op : IntOp) (hop : op = .div ∨ op = .rem) {w : Width} (hw : w = .d ∨ w = .q) (a b : Register)
    (hab : Allowed op a b) (fpu : Fpu) (pc : BitVec 64) (s : State) (hx : lo w (s.gpr (num4 b)) = BitVec.intMin w.bits)
    (hy : lo w (s.gpr (num4 a)) = -1#w.bits) :
    java op (lo w (s.gpr (num4 b))) (lo w (s.gpr (num4 a))) = some (if op = .div then BitVec.intMin w.bits else 0) ∧
      Faults fpu (emitRR op w a b) pc s := by
  rw [hx, hy]
  rcases hop with rfl | rfl
  · obtain ⟨rfl, h0, h2⟩ := hab
    refine ⟨by rcases hw with rfl | rfl <;> decide +kernel, ?_⟩
    simp only [emitRR]
    rw [divideRR_code]
    have := div_faults hw a h2 fpu pc s (Or.inr ⟨hx, hy⟩) []
    rw [List.append_nil] at this
    exact this
  · obtain ⟨rfl, h0, h2⟩ := hab
    refine ⟨by rcases hw with rfl | rfl <;> decide +kernel, ?_⟩
    simp only [emitRR]
    rw [remainderRR_code]
    exact div_faults hw a h2 fpu pc s (Or.inr ⟨hx, hy⟩) _

example : lo .d (BitVec.ofNat 64 0x80000000) = BitVec.intMin 32 ∧ lo .d (BitVec.ofNat 64 0xffffffff) = -1#32 ∧
    lo .q (BitVec.ofNat 64 0x8000000000000000) = BitVec.intMin 64 := ⟨rfl, rfl, rfl⟩

/-! ### The operations with constants -/

/-- The code for `b = b op v`; `none`: the assembler has no such code, or aborts. -/
def emitCR (op : IntOp) (w : Width) (v : BitVec 64) (b tmp : Register) : Option (List Byte) :=
  match op with
  | .add => some (addCR w v b tmp)
  | .sub => some (subtractCR w v b tmp)
  | .mul => some (multiplyCR w v b tmp)
  | .div => none
  | .rem => none
  | .and => some (andCR w v b tmp)
  | .or => some (orCR w v b tmp)
  | .xor => some (xorCR w v b tmp)
  | .shl => shiftLeftCR v w b
  | .shr => shiftRightCR v w b
  | .ushr => unsignedShiftRightCR v w b

theorem nothing_ok {w : Width} (b : R) (fpu : Fpu) (pc : BitVec 64) (s : State) (v : BitVec w.bits) (l : List R)
    (hv : lo w (s.gpr b) = v) : ∃ s', Runs fpu [] pc s s' ∧ Effect s s' w b v l :=
  ⟨s, runs_nil fpu pc s, hv, fun _ _ _ => rfl, rfl, rfl⟩

theorem aluCR_ok (type op : Byte) (o : Cpu.Alu) {w : Width} (hw : Full w) (v : BitVec 64) (b tmp : Register)
    (ht : isFloatReg tmp = false) (hn : num4 tmp ≠ num4 b)
    (h : (type, o) ∈ [(0xc0#8, .add), (0xc8#8, .or), (0xe0#8, .and), (0xe8#8, .sub), (0xf0#8, Cpu.Alu.xor)])
    (h' : (op, o) ∈ [(0x01#8, .add), (0x09#8, .or), (0x21#8, .and), (0x29#8, .sub), (0x31#8, Cpu.Alu.xor)])
    (fpu : Fpu) (pc : BitVec 64) (s : State) :
    ∃ s', Runs fpu (if fitsInInt32 v then immediateR w type v b
        else moveCR w v tmp tmp ++ (maybeRexRR w tmp b ++ [op] ++ modrm 0xc0#8 b tmp)) pc s s' ∧
      Effect s s' w (num4 b) (aluSpec o (lo w (s.gpr (num4 b))) (lo w v)) [num4 tmp] := by
  split
  · rename_i hv
    obtain ⟨s', hr, he⟩ := aluI_ok type o hw v hv b h fpu pc s
    exact ⟨s', hr, he.scratch⟩
  · exact const_ok hw v b tmp ht hn (aluSpec o) _ fpu (fun pc s => aluRR_ok op o hw tmp b fpu pc s h') pc s

/-- **C85.** The code for an operation with a constant, whatever its size, does the same, and may change the temporary register. -/
theorem int_cr (op : IntOp) {w : Width} (hw : w = .d ∨ w = .q) (v : BitVec 64) (b tmp : Register) (ht : isFloatReg tmp = false)
    (hn : num4 tmp ≠ num4 b) (code : List Byte) (hc : emitCR op w v b tmp = some code) (fpu : Fpu) (pc : BitVec 64) (s : State) :
    ∃ r s', java op (lo w (s.gpr (num4 b))) (lo w v) = some r ∧ Runs fpu code pc s s' ∧
      Effect s s' w (num4 b) r [num4 tmp] := by
  have z : ∀ x : BitVec w.bits, x + lo w (0 : BitVec 64) = x ∧ x - lo w (0 : BitVec 64) = x ∧ x ||| lo w (0 : BitVec 64) = x ∧
      x ^^^ lo w (0 : BitVec 64) = x := by
    intro x
    have : lo w (0 : BitVec 64) = 0#w.bits := by simp [lo]
    rw [this]
    simp
  have one : lo w (1 : BitVec 64) = 1#w.bits := by rcases hw with rfl | rfl <;> decide
  cases op with
  | add =>
    injection hc with hc
    subst hc
    unfold addCR
    refine ⟨lo w (s.gpr (num4 b)) + lo w v, ?_⟩
    rw [java_add]
    split
    · rename_i h0
      subst h0
      obtain ⟨s', h⟩ := nothing_ok (num4 b) fpu pc s _ [num4 tmp] (z _).1.symm
      exact ⟨s', rfl, h⟩
    · obtain ⟨s', h⟩ := aluCR_ok 0xc0#8 0x01#8 .add hw v b tmp ht hn (by simp) (by simp) fpu pc s
      exact ⟨s', rfl, h⟩
  | sub =>
    injection hc with hc
    subst hc
    unfold subtractCR
    refine ⟨lo w (s.gpr (num4 b)) - lo w v, ?_⟩
    rw [java_sub]
    split
    · rename_i h0
      subst h0
      obtain ⟨s', h⟩ := nothing_ok (num4 b) fpu pc s _ [num4 tmp] (z _).2.1.symm
      exact ⟨s', rfl, h⟩
    · obtain ⟨s', h⟩ := aluCR_ok 0xe8#8 0x29#8 .sub hw v b tmp ht hn (by simp) (by simp) fpu pc s
      exact ⟨s', rfl, h⟩
  | or =>
    injection hc with hc
    subst hc
    unfold orCR
    refine ⟨lo w (s.gpr (num4 b)) ||| lo w v, ?_⟩
    split
    · rename_i h0
      subst h0
      obtain ⟨s', h⟩ := nothing_ok (num4 b) fpu pc s _ [num4 tmp] (z _).2.2.1.symm
      exact ⟨s', rfl, h⟩
    · obtain ⟨s', h⟩ := aluCR_ok 0xc8#8 0x09#8 .or hw v b tmp ht hn (by simp) (by simp) fpu pc s
      exact ⟨s', rfl, h⟩
  | xor =>
    injection hc with hc
    subst hc
    unfold xorCR
    refine ⟨lo w (s.gpr (num4 b)) ^^^ lo w v, ?_⟩
    split
    · rename_i h0
      subst h0
      obtain ⟨s', h⟩ := nothing_ok (num4 b) fpu pc s _ [num4 tmp] (z _).2.2.2.symm
      exact ⟨s', rfl, h⟩
    · obtain ⟨s', h⟩ := aluCR_ok 0xf0#8 0x31#8 .xor hw v b tmp ht hn (by simp) (by simp) fpu pc s
      exact ⟨s', rfl, h⟩
  | and =>
    injection hc with hc
    subst hc
    unfold andCR
    obtain ⟨s', h⟩ := aluCR_ok 0xe0#8 0x21#8 .and hw v b tmp ht hn (by simp) (by simp) fpu pc s
    exact ⟨_, s', rfl, h⟩
  | mul =>
    injection hc with hc
    subst hc
    unfold multiplyCR
    refine ⟨lo w (s.gpr (num4 b)) * lo w v, ?_⟩
    rw [java_mul]
    split
    · rename_i h0
      subst h0
      obtain ⟨s', h⟩ := nothing_ok (num4 b) fpu pc s (lo w (s.gpr (num4 b)) * lo w (1 : BitVec 64)) [num4 tmp] (by rw [one]; simp)
      exact ⟨s', rfl, h⟩
    · split
      · rename_i hv
        obtain ⟨s', hr, he⟩ := mulI_ok hw v hv b _ rfl fpu pc s
        exact ⟨s', rfl, hr, he.scratch⟩
      · obtain ⟨s', h⟩ := const_ok hw v b tmp ht hn (· * ·) _ fpu (fun pc s => mulRR_ok hw tmp b fpu pc s) pc s
        exact ⟨s', rfl, h⟩
  | div => cases hc
  | rem => cases hc
  | shl =>
    obtain ⟨s', hr, he⟩ := shiftCR_ok (Or.inl ⟨rfl, rfl⟩) hw v b code hc fpu pc s
    exact ⟨_, s', rfl, hr, he.scratch⟩
  | shr =>
    obtain ⟨s', hr, he⟩ := shiftCR_ok (Or.inr (Or.inr ⟨rfl, rfl⟩)) hw v b code hc fpu pc s
    exact ⟨_, s', rfl, hr, he.scratch⟩
  | ushr =>
    obtain ⟨s', hr, he⟩ := shiftCR_ok (Or.inr (Or.inl ⟨rfl, rfl⟩)) hw v b code hc fpu pc s
    exact ⟨_, s', rfl, hr, he.scratch⟩

/-- A constant of 64 bits, and one of 8. -/
example : isFloatReg 10 = false ∧ num4 10 ≠ num4 rax ∧ (emitCR .add .q 0x123456789abcdef rax 10).isSome ∧
    (emitCR .shl .d 35 rax 10).isSome ∧ java .shl (1 : BitVec 32) (lo .d 35) = some 8 ∧
    java .add (lo .q (exState.gpr 0)) (lo .q 0x123456789abcdef) = some 0x123456789abcde8 := by decide +kernel

/-- Which constants there is code for. -/
theorem int_cr_defined (op : IntOp) (w : Width) (v : BitVec 64) (b tmp : Register) :
    (emitCR op w v b tmp).isSome ↔
      (op ∈ [.add, .sub, .mul, .and, .or, .xor]) ∨ (op ∈ [.shl, .shr, IntOp.ushr] ∧ -128 ≤ v.toInt ∧ v.toInt ≤ 127) := by
  have f : fitsInInt8 v = true ↔ -128 ≤ v.toInt ∧ v.toInt ≤ 127 := by
    unfold fitsInInt8
    rw [beq_iff_eq]
    have hv := v.isLt
    constructor
    · intro h
      rw [h, BitVec.toInt_signExtend_of_le (by decide)]
      have h1 := BitVec.le_toInt (v.setWidth 8)
      have h2 := BitVec.toInt_lt (x := v.setWidth 8)
      simp only [Nat.reduceSub, Int.reducePow, Int.reduceNeg] at h1 h2
      omega
    · rintro ⟨h1, h2⟩
      apply BitVec.eq_of_toInt_eq
      rw [BitVec.toInt_signExtend_of_le (by decide)]
      rw [BitVec.toInt_eq_toNat_cond] at h1 h2 ⊢
      rw [BitVec.toInt_eq_toNat_cond, BitVec.toNat_setWidth]
      split at h1 <;> simp_all <;> split <;> omega
  have d : ∀ t, (doShift t v w b).isSome ↔ -128 ≤ v.toInt ∧ v.toInt ≤ 127 := by
    intro t
    unfold doShift
    split
    · rename_i h
      subst h
      simp
    · rw [← f]
      split <;> simp_all
  cases op <;> simp [emitCR, shiftLeftCR, shiftRightCR, unsignedShiftRightCR, d]

/-- **C85, a disagreement.** A shift by a constant outside of -128..127 is an operation of Java like any other; the assembler
aborts. -/
theorem shift_constant_aborts :
    (∀ (n : Nat) (x y : BitVec n), (java .shl x y).isSome) ∧
      ∀ (w : Width) (b tmp : Register), emitCR .shl w 300 b tmp = none := by
  refine ⟨fun n x y => rfl, fun w b tmp => ?_⟩
  have : fitsInInt8 300#64 = false := by decide
  simp [emitCR, shiftLeftCR, doShift, this]

/-! ### Negation and absolute value -/

/-- **C85.** Negation. -/
theorem int_neg {w : Width} (hw : w = .d ∨ w = .q) (a : Register) (fpu : Fpu) (pc : BitVec 64) (s : State) :
    ∃ s', Runs fpu (negateRR w a) pc s s' ∧
      Effect s s' w (num4 a) (BitVec.ofInt w.bits (- (lo w (s.gpr (num4 a))).toInt)) [] := by
  refine ⟨_, runs_one (.neg w (.reg (num4 a))) (by simp [negateRR]) (decode_neg w hw a) rfl, ?_⟩
  have := fun next => put_effect hw s next (num4 a) (- Cpu.get s next w (.reg (num4 a)))
  simp only [lo_neg, lo_get] at this
  rw [BitVec.ofInt_neg, BitVec.ofInt_toInt]
  exact this _

example : BitVec.ofInt 32 (- (lo .d (exState.gpr 0)).toInt) = 7 := by decide +kernel

/-- **C85.** The absolute value; the register is rax, and rdx is changed. -/
theorem int_abs {w : Width} (hw : w = .d ∨ w = .q) (fpu : Fpu) (pc : BitVec 64) (s : State) :
    ∃ s', Runs fpu (absoluteRR w rax rax) pc s s' ∧
      Effect s s' w (num4 rax) (BitVec.ofInt w.bits (lo w (s.gpr (num4 rax))).toInt.natAbs) [num4 rdx] := by
  have r1 : Runs fpu (maybeRexRR w rax rax ++ [0x99#8]) pc s (cwdState w s) :=
    runs_one (.cwd w) (by simp) (decode_cwd w hw rax rax) rfl
  obtain ⟨s2, r2, e2⟩ := aluRR_ok 0x31#8 .xor hw rdx rax fpu (behind pc (maybeRexRR w rax rax ++ [0x99#8])) (cwdState w s) (by simp)
  obtain ⟨s3, r3, e3⟩ := aluRR_ok 0x29#8 .sub hw rdx rax fpu
    (behind pc (maybeRexRR w rax rax ++ [0x99#8] ++ (maybeRexRR w rdx rax ++ [0x31#8] ++ modrm 0xc0#8 rax rdx))) s2 (by simp)
  refine ⟨s3, runs_append (runs_append r1 r2) r3, ?_, ?_, ?_, ?_⟩
  · have h0 : num4 rax = 0#4 := by decide
    have h2 : num4 rdx = 2#4 := by decide
    have v2 := e2.value
    have v3 := e3.value
    have g2 : s2.gpr (num4 rdx) = (cwdState w s).gpr (num4 rdx) := e2.others _ (by decide) (by simp)
    rw [g2, v2] at v3
    rw [v3, h0, h2]
    simp only [cwdState, Cpu.setReg, aluSpec]
    simp only [show ¬ (0#4 = (2 : R)) by decide, if_false, show (2#4 = (2 : R)) from rfl, if_true, lo_merge hw, msb_lo hw,
      show (s.gpr 0) = s.gpr 0#4 from rfl]
    have hm : (lo w (-1 : BitVec 64)) = BitVec.allOnes w.bits := by rcases hw with rfl | rfl <;> decide
    have hz : (lo w (0 : BitVec 64)) = 0#w.bits := by simp [lo]
    generalize lo w (s.gpr 0#4) = x
    by_cases h : x.msb = true
    · have hneg : x.toInt < 0 := by
        rw [BitVec.msb_eq_toInt] at h
        exact of_decide_eq_true h
      simp only [h, if_true, hm]
      have e : (x.toInt.natAbs : Int) = - x.toInt := by omega
      rw [e, BitVec.ofInt_neg, BitVec.ofInt_toInt, BitVec.xor_allOnes, ← BitVec.neg_one_eq_allOnes, BitVec.sub_neg,
        BitVec.neg_eq_not_add]
    · have hpos : 0 ≤ x.toInt := by
        rw [BitVec.msb_eq_toInt] at h
        simp only [decide_eq_true_eq] at h
        omega
      rw [if_neg h, hz]
      have e : (x.toInt.natAbs : Int) = x.toInt := by omega
      rw [e, BitVec.ofInt_toInt]
      simp
  · intro r h0 h2
    have h2 : ¬ r = 2#4 := fun h => h2 (by rw [h]; decide)
    rw [e3.others r h0 (by simp), e2.others r h0 (by simp)]
    simp [cwdState, Cpu.setReg, h2]
  · rw [e3.xmm, e2.xmm]; rfl
  · rw [e3.mem, e2.mem]; rfl

example : BitVec.ofInt 64 (lo .q (exState.gpr (num4 rax))).toInt.natAbs = 7 := by decide +kernel

end Avian.X86
