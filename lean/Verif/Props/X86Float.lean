import Verif.Props.X86Move

/-
**C92.** Compiled floating point arithmetic.

The specification is `Arith`, an arithmetic of floats and doubles of which nothing is assumed, and `Follows`, which says what
the instructions of the processor compute, as Intel's manual does: which opcode adds, which divides, and which operand is
which.  The theorems say that the code of an operation leaves its result in the destination register and changes nothing
else.
-/
namespace Avian.X86

open Cpu (Byte Width Rex Rm R State Fpu Next Out Instr)

/-! ### Specification -/

/-- An arithmetic of floats (`.d`) and doubles (`.q`), as bits. -/
structure Arith where
  add : (w : Width) → BitVec w.bits → BitVec w.bits → BitVec w.bits
  sub : (w : Width) → BitVec w.bits → BitVec w.bits → BitVec w.bits
  mul : (w : Width) → BitVec w.bits → BitVec w.bits → BitVec w.bits
  div : (w : Width) → BitVec w.bits → BitVec w.bits → BitVec w.bits
  sqrt : (w : Width) → BitVec w.bits → BitVec w.bits
  widen : BitVec 32 → BitVec 64
  narrow : BitVec 64 → BitVec 32
  ofInt : (w : Width) → Int → BitVec w.bits

/-- The processor has this arithmetic: `addss`, `addsd` are the opcode 58, `mulss` 59, `subss` 5c, `divss` 5e, `sqrtss` 51,
`cvtss2sd` and `cvtsd2ss` 5a; the destination is the first operand, and `sqrt` and the conversions are of the second. -/
structure Follows (fpu : Fpu) (A : Arith) : Prop where
  add : ∀ (w : Width) (x y : BitVec 64), lo w (fpu.op 0x58#8 w x y) = A.add w (lo w x) (lo w y)
  mul : ∀ (w : Width) (x y : BitVec 64), lo w (fpu.op 0x59#8 w x y) = A.mul w (lo w x) (lo w y)
  sub : ∀ (w : Width) (x y : BitVec 64), lo w (fpu.op 0x5c#8 w x y) = A.sub w (lo w x) (lo w y)
  div : ∀ (w : Width) (x y : BitVec 64), lo w (fpu.op 0x5e#8 w x y) = A.div w (lo w x) (lo w y)
  sqrt : ∀ (w : Width) (x y : BitVec 64), lo w (fpu.op 0x51#8 w x y) = A.sqrt w (lo w y)
  widen : ∀ (x y : BitVec 64), lo .q (fpu.op 0x5a#8 .d x y) = A.widen (lo .d y)
  narrow : ∀ (x y : BitVec 64), lo .d (fpu.op 0x5a#8 .q x y) = A.narrow (lo .q y)
  ofInt : ∀ (w : Width) (i : Int), lo w (fpu.cvt w i) = A.ofInt w i

/-- There are such processors: for any arithmetic. -/
def fpuOf (A : Arith) : Fpu where
  compare := fun _ _ _ => none
  op := fun o w x y =>
    if o = 0x58#8 then (A.add w (lo w x) (lo w y)).setWidth 64
    else if o = 0x59#8 then (A.mul w (lo w x) (lo w y)).setWidth 64
    else if o = 0x5c#8 then (A.sub w (lo w x) (lo w y)).setWidth 64
    else if o = 0x5e#8 then (A.div w (lo w x) (lo w y)).setWidth 64
    else if o = 0x51#8 then (A.sqrt w (lo w y)).setWidth 64
    else if w = .d then A.widen (lo .d y)
    else (A.narrow (lo .q y)).setWidth 64
  cvt := fun w i => (A.ofInt w i).setWidth 64

theorem follows_exists (A : Arith) : Follows (fpuOf A) A := by
  constructor
  all_goals intros
  all_goals first
    | exact lo_ext _
    | rfl
    | (simp only [fpuOf]; exact lo_ext (w := .d) _)

/-! ### What the instructions do -/

theorem getX_mem (s : State) (next : BitVec 64) (w : Width) (m : Memory) : Cpu.getX s next w (rmOf m) = Cpu.get s next w (rmOf m) := rfl

theorem lo_getX_reg (s : State) (next : BitVec 64) (w : Width) (r : R) : lo w (Cpu.getX s next w (.reg r)) = lo w (s.xmm r) := lo_ext _

/-- A register of which the low part is written. -/
theorem merged {w : Width} (hw : Full w) (s : State) (b : R) (v : BitVec 64) (x : BitVec w.bits) (h : lo w v = x) :
    FEffect s { s with xmm := Cpu.setReg s.xmm b (Cpu.mergeX w (s.xmm b) v) } w b x [] := by
  refine ⟨?_, ?_, fun _ _ => rfl, rfl⟩
  · simp only [Cpu.setReg, if_true]
    rw [lo_mergeX hw]
    exact h
  · intro r hr
    simp [Cpu.setReg, hr]

def sseOps : List Byte := [0x51#8, 0x58#8, 0x59#8, 0x5a#8, 0x5c#8, 0x5e#8]

theorem sse_reg {w : Width} (hw : Full w) (a b : Register) (op : Byte) (hop : op ∈ sseOps) (fpu : Fpu) (pc : BitVec 64) (s : State) :
    ∃ next, Runs fpu (floatRegOp w a .d b op) pc s
      { s with xmm := Cpu.setReg s.xmm (num4 b) (Cpu.mergeX (Cpu.resultWidth op w) (s.xmm (num4 b))
        (fpu.op op w (Cpu.getX s next w (.reg (num4 b))) (Cpu.getX s next w (.reg (num4 a))))) } := by
  refine ⟨_, runs_one (.sse op w (num4 b) (.reg (num4 a))) (by simp [floatRegOp]) (fun rest => ?_) rfl⟩
  rcases hw with rfl | rfl
  · have := decode_f3_sse (opd_reg a) .d b false op rest hop
    simpa [maybeRexRR, floatRegOp] using this
  · have := decode_f2_sse (opd_reg a) .d b false op rest hop
    simpa [maybeRexRR, floatRegOp] using this

theorem sse_mem {w : Width} (hw : Full w) (m : Memory) (hg : Good m) (b : Register) (op : Byte) (hop : op ∈ sseOps) (fpu : Fpu)
    (pc : BitVec 64) (s : State) :
    ∃ next, Runs fpu (floatMemOp w m .d b op) pc s
      { s with xmm := Cpu.setReg s.xmm (num4 b) (Cpu.mergeX (Cpu.resultWidth op w) (s.xmm (num4 b))
        (fpu.op op w (Cpu.getX s next w (.reg (num4 b))) (Cpu.getX s next w (rmOf m)))) } := by
  refine ⟨_, runs_one (.sse op w (num4 b) (rmOf m)) (by simp [floatMemOp]) (fun rest => ?_) rfl⟩
  rcases hw with rfl | rfl
  · have := decode_f3_sse (opd_mem m hg) .d b false op rest hop
    simpa [maybeRexRM, floatMemOp, show (Width.d == Width.b) = false from rfl] using this
  · have := decode_f2_sse (opd_mem m hg) .d b false op rest hop
    simpa [maybeRexRM, floatMemOp, show (Width.d == Width.b) = false from rfl] using this

/-! ### Arithmetic -/

section
variable {w : Width} (hw : w = .d ∨ w = .q) {fpu : Fpu} {A : Arith} (hA : Follows fpu A) (b : Register) (pc : BitVec 64) (s : State)
include hw hA

/-- **C92.** Registers: `b` becomes `b + a`, `b - a`, `b * a`, `b / a`, for any two of the sixteen registers, also the same. -/
theorem float_arith_ok (a : Register) :
    (∃ s', Runs fpu (floatAddRR w a b) pc s s' ∧
      FEffect s s' w (num4 b) (A.add w (lo w (s.xmm (num4 b))) (lo w (s.xmm (num4 a)))) []) ∧
    (∃ s', Runs fpu (floatSubtractRR w a b) pc s s' ∧
      FEffect s s' w (num4 b) (A.sub w (lo w (s.xmm (num4 b))) (lo w (s.xmm (num4 a)))) []) ∧
    (∃ s', Runs fpu (floatMultiplyRR w a b) pc s s' ∧
      FEffect s s' w (num4 b) (A.mul w (lo w (s.xmm (num4 b))) (lo w (s.xmm (num4 a)))) []) ∧
    (∃ s', Runs fpu (floatDivideRR w a b) pc s s' ∧
      FEffect s s' w (num4 b) (A.div w (lo w (s.xmm (num4 b))) (lo w (s.xmm (num4 a)))) []) := by
  refine ⟨?_, ?_, ?_, ?_⟩
  · obtain ⟨n, h⟩ := sse_reg hw a b 0x58#8 (by decide) fpu pc s
    exact ⟨_, h, merged hw s _ _ _ (by rw [hA.add, lo_getX_reg, lo_getX_reg])⟩
  · obtain ⟨n, h⟩ := sse_reg hw a b 0x5c#8 (by decide) fpu pc s
    exact ⟨_, h, merged hw s _ _ _ (by rw [hA.sub, lo_getX_reg, lo_getX_reg])⟩
  · obtain ⟨n, h⟩ := sse_reg hw a b 0x59#8 (by decide) fpu pc s
    exact ⟨_, h, merged hw s _ _ _ (by rw [hA.mul, lo_getX_reg, lo_getX_reg])⟩
  · obtain ⟨n, h⟩ := sse_reg hw a b 0x5e#8 (by decide) fpu pc s
    exact ⟨_, h, merged hw s _ _ _ (by rw [hA.div, lo_getX_reg, lo_getX_reg])⟩

/-- **C92.** The same with the second operand in memory. -/
theorem float_arith_mem_ok (m : Memory) (hg : Good m) (v : BitVec w.bits) (hv : Holds s.mem (addressOf s m) w v) :
    (∃ s', Runs fpu (floatAddMR w m b) pc s s' ∧ FEffect s s' w (num4 b) (A.add w (lo w (s.xmm (num4 b))) v) []) ∧
    (∃ s', Runs fpu (floatSubtractMR w m b) pc s s' ∧ FEffect s s' w (num4 b) (A.sub w (lo w (s.xmm (num4 b))) v) []) ∧
    (∃ s', Runs fpu (floatMultiplyMR w m b) pc s s' ∧ FEffect s s' w (num4 b) (A.mul w (lo w (s.xmm (num4 b))) v) []) ∧
    (∃ s', Runs fpu (floatDivideMR w m b) pc s s' ∧ FEffect s s' w (num4 b) (A.div w (lo w (s.xmm (num4 b))) v) []) := by
  refine ⟨?_, ?_, ?_, ?_⟩
  · obtain ⟨n, h⟩ := sse_mem hw m hg b 0x58#8 (by decide) fpu pc s
    exact ⟨_, h, merged hw s _ _ _ (by rw [hA.add, lo_getX_reg, getX_mem, lo_get_mem n hg hv])⟩
  · obtain ⟨n, h⟩ := sse_mem hw m hg b 0x5c#8 (by decide) fpu pc s
    exact ⟨_, h, merged hw s _ _ _ (by rw [hA.sub, lo_getX_reg, getX_mem, lo_get_mem n hg hv])⟩
  · obtain ⟨n, h⟩ := sse_mem hw m hg b 0x59#8 (by decide) fpu pc s
    exact ⟨_, h, merged hw s _ _ _ (by rw [hA.mul, lo_getX_reg, getX_mem, lo_get_mem n hg hv])⟩
  · obtain ⟨n, h⟩ := sse_mem hw m hg b 0x5e#8 (by decide) fpu pc s
    exact ⟨_, h, merged hw s _ _ _ (by rw [hA.div, lo_getX_reg, getX_mem, lo_get_mem n hg hv])⟩

/-- **C92.** Square roots, of a register and of memory. -/
theorem float_sqrt_ok (a : Register) :
    ∃ s', Runs fpu (floatSqrtRR w a b) pc s s' ∧ FEffect s s' w (num4 b) (A.sqrt w (lo w (s.xmm (num4 a)))) [] := by
  obtain ⟨n, h⟩ := sse_reg hw a b 0x51#8 (by decide) fpu pc s
  exact ⟨_, h, merged hw s _ _ _ (by rw [hA.sqrt, lo_getX_reg])⟩

theorem float_sqrt_mem_ok (m : Memory) (hg : Good m) (v : BitVec w.bits) (hv : Holds s.mem (addressOf s m) w v) :
    ∃ s', Runs fpu (floatSqrtMR w m b) pc s s' ∧ FEffect s s' w (num4 b) (A.sqrt w v) [] := by
  obtain ⟨n, h⟩ := sse_mem hw m hg b 0x51#8 (by decide) fpu pc s
  exact ⟨_, h, merged hw s _ _ _ (by rw [hA.sqrt, getX_mem, lo_get_mem n hg hv])⟩

end

/-! ### Conversions -/

section
variable {fpu : Fpu} {A : Arith} (hA : Follows fpu A) (b : Register) (pc : BitVec 64) (s : State)
include hA

/-- **C92.** `f2d` and `d2f`. -/
theorem float_convert_ok (a : Register) :
    (∃ s', Runs fpu (float2FloatRR .d a b) pc s s' ∧ FEffect s s' .q (num4 b) (A.widen (lo .d (s.xmm (num4 a)))) []) ∧
    (∃ s', Runs fpu (float2FloatRR .q a b) pc s s' ∧ FEffect s s' .d (num4 b) (A.narrow (lo .q (s.xmm (num4 a)))) []) := by
  refine ⟨?_, ?_⟩
  · obtain ⟨n, h⟩ := sse_reg (w := .d) (Or.inl rfl) a b 0x5a#8 (by decide) fpu pc s
    exact ⟨_, h, merged (w := .q) (Or.inr rfl) s _ _ _ (by rw [hA.widen, lo_getX_reg])⟩
  · obtain ⟨n, h⟩ := sse_reg (w := .q) (Or.inr rfl) a b 0x5a#8 (by decide) fpu pc s
    exact ⟨_, h, merged (w := .d) (Or.inl rfl) s _ _ _ (by rw [hA.narrow, lo_getX_reg])⟩

theorem float_convert_mem_ok (m : Memory) (hg : Good m) :
    (∀ v : BitVec 32, Holds s.mem (addressOf s m) .d v →
      ∃ s', Runs fpu (float2FloatMR .d m b) pc s s' ∧ FEffect s s' .q (num4 b) (A.widen v) []) ∧
    (∀ v : BitVec 64, Holds s.mem (addressOf s m) .q v →
      ∃ s', Runs fpu (float2FloatMR .q m b) pc s s' ∧ FEffect s s' .d (num4 b) (A.narrow v) []) := by
  refine ⟨fun v hv => ?_, fun v hv => ?_⟩
  · obtain ⟨n, h⟩ := sse_mem (w := .d) (Or.inl rfl) m hg b 0x5a#8 (by decide) fpu pc s
    exact ⟨_, h, merged (w := .q) (Or.inr rfl) s _ _ _ (by rw [hA.widen, getX_mem, lo_get_mem (w := .d) n hg hv])⟩
  · obtain ⟨n, h⟩ := sse_mem (w := .q) (Or.inr rfl) m hg b 0x5a#8 (by decide) fpu pc s
    exact ⟨_, h, merged (w := .d) (Or.inl rfl) s _ _ _ (by rw [hA.narrow, getX_mem, lo_get_mem (w := .q) n hg hv])⟩

/-- **C92.** `i2f`, `i2d`, `l2f`, `l2d`, from a general register or memory. -/
theorem int_to_float_ok {f w : Width} (hf : f = .d ∨ f = .q) (hw : w = .d ∨ w = .q) (a : Register) :
    ∃ s', Runs fpu (int2FloatRR f a w b) pc s s' ∧ FEffect s s' w (num4 b) (A.ofInt w (lo f (s.gpr (num4 a))).toInt) [] := by
  refine ⟨_, runs_one (.cvtsi w f (num4 b) (.reg (num4 a))) (by simp [int2FloatRR, floatRegOp]) (fun rest => ?_) rfl, ?_⟩
  · rcases hw with rfl | rfl
    · have := decode_f3_0f2a (opd_reg a) f b false rest
      rw [gsize_rex hf] at this
      simpa [maybeRexRR, int2FloatRR, floatRegOp] using this
    · have := decode_f2_0f2a (opd_reg a) f b false rest
      rw [gsize_rex hf] at this
      simpa [maybeRexRR, int2FloatRR, floatRegOp] using this
  · exact merged hw s _ _ _ (by rw [hA.ofInt, sext_toInt, lo_get])

theorem int_to_float_mem_ok {f w : Width} (hf : f = .d ∨ f = .q) (hw : w = .d ∨ w = .q) (m : Memory) (hg : Good m)
    (v : BitVec f.bits) (hv : Holds s.mem (addressOf s m) f v) :
    ∃ s', Runs fpu (int2FloatMR f m w b) pc s s' ∧ FEffect s s' w (num4 b) (A.ofInt w v.toInt) [] := by
  have hfb : (f == .b) = false := by rcases hf with rfl | rfl <;> rfl
  refine ⟨_, runs_one (.cvtsi w f (num4 b) (rmOf m)) (by simp [int2FloatMR, floatMemOp]) (fun rest => ?_) rfl, ?_⟩
  · rcases hw with rfl | rfl
    · have := decode_f3_0f2a (opd_mem m hg) f b false rest
      rw [gsize_rex hf] at this
      simpa [maybeRexRM, int2FloatMR, floatMemOp, hfb] using this
    · have := decode_f2_0f2a (opd_mem m hg) f b false rest
      rw [gsize_rex hf] at this
      simpa [maybeRexRM, int2FloatMR, floatMemOp, hfb] using this
  · exact merged hw s _ _ _ (by rw [hA.ofInt, sext_toInt, lo_get_mem _ hg hv])

end

/-- An arithmetic that is not trivial: of integers. -/
def exArith : Arith where
  add := fun _ x y => x + y
  sub := fun _ x y => x - y
  mul := fun _ x y => x * y
  div := fun _ x y => x / y
  sqrt := fun _ x => x
  widen := fun x => x.signExtend 64
  narrow := fun x => x.setWidth 32
  ofInt := fun w i => BitVec.ofInt w.bits i

example : Follows (fpuOf exArith) exArith ∧ exArith.sub .d (7 : BitVec 32) (9 : BitVec 32) ≠ exArith.sub .d (9 : BitVec 32) (7 : BitVec 32) :=
  ⟨follows_exists _, by decide⟩

example : Good ⟨rax, 0x100, some 9, 4⟩ ∧ Holds exMem.mem (addressOf exMem ⟨rax, 0x100, some 9, 4⟩) .d 0xfffffff6 ∧ num4 25 = 9 := by
  have : addressOf exMem ⟨rax, 0x100, some 9, 4⟩ = 0x101 := by decide
  exact ⟨by constructor <;> decide, this ▸ holds_write _ _ .d 0xfffffff6, by decide⟩

/-! ### Changing the sign -/

theorem getX_q (s : State) (next : BitVec 64) (r : R) : Cpu.getX s next .q (.reg r) = s.xmm r := by
  simp [Cpu.getX, Cpu.Width.bits]

/-- `xorps` and `andps` between two registers, with the prefix that belongs to them. -/
theorem xorps_right (a b : Register) (fpu : Fpu) (pc : BitVec 64) (s : State) :
    Runs fpu (maybeRexRR .d b a ++ [0x0f#8, 0x57#8] ++ modrm 0xc0#8 a b) pc s
      { s with xmm := Cpu.setReg s.xmm (num4 b) (s.xmm (num4 b) ^^^ s.xmm (num4 a)) } := by
  refine runs_one (.xorps (num4 b) (.reg (num4 a))) (by simp) (fun rest => ?_) (by simp [Cpu.exec, getX_q])
  have := decode_0f57 (opd_reg a) .d b false rest
  simpa [maybeRexRR] using this

theorem andps_right (a b : Register) (fpu : Fpu) (pc : BitVec 64) (s : State) :
    Runs fpu (maybeRexRR .d b a ++ [0x0f#8, 0x54#8] ++ modrm 0xc0#8 a b) pc s
      { s with xmm := Cpu.setReg s.xmm (num4 b) (s.xmm (num4 b) &&& s.xmm (num4 a)) } := by
  refine runs_one (.andps (num4 b) (.reg (num4 a))) (by simp) (fun rest => ?_) (by simp [Cpu.exec, getX_q])
  have := decode_0f54 (opd_reg a) .d b false rest
  simpa [maybeRexRR] using this

/-- The registers are as they should be after a value was computed into `b`, with `tmp` and `tmp2` for the time being. -/
structure Signed (s s' : State) (b : R) (v : BitVec 32) (tmp : List R) (tmp2 : R) : Prop where
  value : lo .d (s'.xmm b) = v
  others : ∀ r, r ≠ b → r ∉ tmp → s'.xmm r = s.xmm r
  gpr : ∀ r, r ≠ tmp2 → s'.gpr r = s.gpr r
  mem : s'.mem = s.mem

theorem same_rex : ∀ a b : Register, (num4 a).getLsbD 3 = (num4 b).getLsbD 3 → maybeRexRR .d a b = maybeRexRR .d b a := by
  decide +kernel

theorem float_num4 : ∀ a b : Register, isFloatReg a = true → isFloatReg b = true → num4 a = num4 b → a = b := by decide +kernel

/-- **C92.** `fneg`: the sign, the highest bit, is changed and nothing else, if both registers are below xmm8 or both are not;
`tmp` is only used if the operand and the destination are the same.  Missing for the full statement, because it is false: one
register below xmm8 and the other not (`float_negate_wrong`). -/
theorem float_negate_partial (a b tmp tmp2 : Register) (ha : isFloatReg a = true) (hb : isFloatReg b = true)
    (ht : isFloatReg tmp = true) (hta : tmp ≠ a) (ht2 : isFloatReg tmp2 = false)
    (h8 : (num4 a).getLsbD 3 = (num4 b).getLsbD 3) (fpu : Fpu) (pc : BitVec 64) (s : State) :
    ∃ s', Runs fpu (floatNegateRR a b tmp tmp2) pc s s' ∧
      Signed s s' (num4 b) ((s.xmm (num4 a)).setWidth 32 ^^^ 0x80000000#32) (if a = b then [num4 tmp] else []) (num4 tmp2) := by
  unfold floatNegateRR
  by_cases hab : a = b
  · subst hab
    rw [if_pos rfl, if_pos rfl]
    obtain ⟨s1, r1, e1⟩ := const_float_ok (w := .d) (Or.inl rfl) 0x80000000 tmp tmp2 ht ht2 fpu pc s
    have r2 := xorps_right tmp a fpu (behind pc (moveCR .d 0x80000000 tmp tmp2)) s1
    have r3 := runs_append r1 r2
    simp only [← List.append_assoc] at r3
    refine ⟨_, r3, ?_, ?_, ?_, e1.mem⟩
    · have hne : num4 a ≠ num4 tmp := fun h => hta (float_num4 _ _ ht ha h.symm)
      simp only [Cpu.setReg, if_true]
      rw [lo_xor, e1.value, e1.others _ hne]
      rfl
    · intro r hr ht
      simp only [List.mem_singleton] at ht
      simp only [Cpu.setReg, if_neg hr]
      exact e1.others r ht
    · intro r hr
      exact e1.gpr r (by simpa using hr)
  · rw [if_neg hab, if_neg hab, same_rex a b h8]
    obtain ⟨s1, r1, e1⟩ := const_float_ok (w := .d) (Or.inl rfl) 0x80000000 b tmp2 hb ht2 fpu pc s
    have r2 := xorps_right a b fpu (behind pc (moveCR .d 0x80000000 b tmp2)) s1
    have r3 := runs_append r1 r2
    simp only [← List.append_assoc] at r3
    refine ⟨_, r3, ?_, ?_, ?_, e1.mem⟩
    · have hne : num4 a ≠ num4 b := fun h => hab (float_num4 _ _ ha hb h)
      simp only [Cpu.setReg, if_true]
      rw [lo_xor, e1.value, e1.others _ hne, BitVec.xor_comm]
      rfl
    · intro r hr _
      simp only [Cpu.setReg, if_neg hr]
      exact e1.others r hr
    · intro r hr
      exact e1.gpr r (by simpa using hr)

/-- **C92.** `Math.abs` of a float: the sign is cleared and nothing else, under the same condition (`float_absolute_wrong`). -/
theorem float_absolute_partial (a b tmp tmp2 : Register) (ha : isFloatReg a = true) (hb : isFloatReg b = true)
    (ht : isFloatReg tmp = true) (hta : tmp ≠ a) (ht2 : isFloatReg tmp2 = false)
    (h8 : (num4 a).getLsbD 3 = (num4 b).getLsbD 3) (fpu : Fpu) (pc : BitVec 64) (s : State) :
    ∃ s', Runs fpu (floatAbsoluteRR a b tmp tmp2) pc s s' ∧
      Signed s s' (num4 b) ((s.xmm (num4 a)).setWidth 32 &&& 0x7fffffff#32) (if a = b then [num4 tmp] else []) (num4 tmp2) := by
  unfold floatAbsoluteRR
  by_cases hab : a = b
  · subst hab
    rw [if_pos rfl, if_pos rfl]
    obtain ⟨s1, r1, e1⟩ := const_float_ok (w := .d) (Or.inl rfl) 0x7fffffff tmp tmp2 ht ht2 fpu pc s
    have r2 := andps_right tmp a fpu (behind pc (moveCR .d 0x7fffffff tmp tmp2)) s1
    have r3 := runs_append r1 r2
    simp only [← List.append_assoc] at r3
    refine ⟨_, r3, ?_, ?_, ?_, e1.mem⟩
    · have hne : num4 a ≠ num4 tmp := fun h => hta (float_num4 _ _ ht ha h.symm)
      simp only [Cpu.setReg, if_true]
      rw [lo_and, e1.value, e1.others _ hne]
      rfl
    · intro r hr ht
      simp only [List.mem_singleton] at ht
      simp only [Cpu.setReg, if_neg hr]
      exact e1.others r ht
    · intro r hr
      exact e1.gpr r (by simpa using hr)
  · rw [if_neg hab, if_neg hab, same_rex a b h8]
    obtain ⟨s1, r1, e1⟩ := const_float_ok (w := .d) (Or.inl rfl) 0x7fffffff b tmp2 hb ht2 fpu pc s
    have r2 := andps_right a b fpu (behind pc (moveCR .d 0x7fffffff b tmp2)) s1
    have r3 := runs_append r1 r2
    simp only [← List.append_assoc] at r3
    refine ⟨_, r3, ?_, ?_, ?_, e1.mem⟩
    · have hne : num4 a ≠ num4 b := fun h => hab (float_num4 _ _ ha hb h)
      simp only [Cpu.setReg, if_true]
      rw [lo_and, e1.value, e1.others _ hne, BitVec.and_comm]
      rfl
    · intro r hr _
      simp only [Cpu.setReg, if_neg hr]
      exact e1.others r hr
    · intro r hr
      exact e1.gpr r (by simpa using hr)

/-- Of xmm9 into xmm14, and of xmm3 in place with xmm4. -/
example : isFloatReg 25 = true ∧ isFloatReg 30 = true ∧ (num4 25).getLsbD 3 = (num4 30).getLsbD 3 ∧ isFloatReg 20 = true ∧
    (20 : Register) ≠ 19 ∧ isFloatReg 3 = false ∧ (0x3fc00000#32 ^^^ 0x80000000#32) = 0xbfc00000#32 := by decide

theorem swapped_rex : ∀ a b : Register, (num4 a).getLsbD 3 ≠ (num4 b).getLsbD 3 →
    maybeRexRR .d a b = maybeRexRR .d (b ^^^ 8) (a ^^^ 8) ∧ modrm 0xc0#8 a b = modrm 0xc0#8 (a ^^^ 8) (b ^^^ 8) := by decide +kernel

theorem flipped : ∀ b : Register, num4 (b ^^^ 8) = num4 b ^^^ 8 ∧ num4 b ≠ num4 b ^^^ 8 := by decide +kernel

/-- **C92, a disagreement.** The negation of a float from a register below xmm8 into one that is not, or the other way round:
the result is -0.0, whatever the operand, and another register, which is not an operand, is changed. -/
theorem float_negate_wrong (a b tmp tmp2 : Register) (hb : isFloatReg b = true) (ht2 : isFloatReg tmp2 = false)
    (h8 : (num4 a).getLsbD 3 ≠ (num4 b).getLsbD 3) (fpu : Fpu) (pc : BitVec 64) (s : State) :
    ∃ s', Runs fpu (floatNegateRR a b tmp tmp2) pc s s' ∧ lo .d (s'.xmm (num4 b)) = 0x80000000#32 ∧
      (num4 a ^^^ 8 ≠ num4 b → s'.xmm (num4 b ^^^ 8) = s.xmm (num4 b ^^^ 8) ^^^ s.xmm (num4 a ^^^ 8)) := by
  unfold floatNegateRR
  rw [if_neg (fun h => h8 (by rw [h])), (swapped_rex a b h8).1, (swapped_rex a b h8).2]
  obtain ⟨s1, r1, e1⟩ := const_float_ok (w := .d) (Or.inl rfl) 0x80000000 b tmp2 hb ht2 fpu pc s
  have r2 := xorps_right (a ^^^ 8) (b ^^^ 8) fpu (behind pc (moveCR .d 0x80000000 b tmp2)) s1
  have r3 := runs_append r1 r2
  simp only [← List.append_assoc] at r3
  refine ⟨_, r3, ?_, fun hne => ?_⟩
  · simp only [Cpu.setReg, (flipped b).1, if_neg (flipped b).2]
    exact e1.value
  · simp only [Cpu.setReg, (flipped b).1, (flipped a).1, if_true]
    rw [e1.others _ (flipped b).2.symm, e1.others _ hne]

/-- **C92, a disagreement.** The absolute value in the same case: the bits of the result are 7fffffff, which is not a number. -/
theorem float_absolute_wrong (a b tmp tmp2 : Register) (hb : isFloatReg b = true) (ht2 : isFloatReg tmp2 = false)
    (h8 : (num4 a).getLsbD 3 ≠ (num4 b).getLsbD 3) (fpu : Fpu) (pc : BitVec 64) (s : State) :
    ∃ s', Runs fpu (floatAbsoluteRR a b tmp tmp2) pc s s' ∧ lo .d (s'.xmm (num4 b)) = 0x7fffffff#32 ∧
      (num4 a ^^^ 8 ≠ num4 b → s'.xmm (num4 b ^^^ 8) = s.xmm (num4 b ^^^ 8) &&& s.xmm (num4 a ^^^ 8)) := by
  unfold floatAbsoluteRR
  rw [if_neg (fun h => h8 (by rw [h])), (swapped_rex a b h8).1, (swapped_rex a b h8).2]
  obtain ⟨s1, r1, e1⟩ := const_float_ok (w := .d) (Or.inl rfl) 0x7fffffff b tmp2 hb ht2 fpu pc s
  have r2 := andps_right (a ^^^ 8) (b ^^^ 8) fpu (behind pc (moveCR .d 0x7fffffff b tmp2)) s1
  have r3 := runs_append r1 r2
  simp only [← List.append_assoc] at r3
  refine ⟨_, r3, ?_, fun hne => ?_⟩
  · simp only [Cpu.setReg, (flipped b).1, if_neg (flipped b).2]
    exact e1.value
  · simp only [Cpu.setReg, (flipped b).1, (flipped a).1, if_true]
    rw [e1.others _ (flipped b).2.symm, e1.others _ hne]

/-- From xmm1 into xmm8. -/
example : isFloatReg 24 = true ∧ isFloatReg 3 = false ∧ (num4 17).getLsbD 3 ≠ (num4 24).getLsbD 3 ∧ num4 17 ^^^ 8 ≠ num4 24 := by decide

end Avian.X86
