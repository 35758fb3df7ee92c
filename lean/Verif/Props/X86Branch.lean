import Verif.Codegen.Link
import Verif.Props.X86Move

/-
**C87.** Compiled comparisons of ints and longs go where Java goes: to the target if the relation holds, else on to the code
that follows; for all registers, operands in memory, constants and values, wherever the code and the target are.

The specification is `rel`, on integers, and `linked` (`Codegen/Link`), the bytes of a program whose jumps lead to their
targets.
-/
namespace Avian.X86

open Cpu (Byte Width Rex Rm R State Fpu Next Out Instr)

/-! ### Specification -/

/-- The relation of `x` to `y`. -/
def rel (op : Jump) (x y : Int) : Bool :=
  match op with
  | .equal => x = y
  | .notEqual => x ≠ y
  | .less => x < y
  | .greater => y < x
  | .lessOrEqual => x ≤ y
  | .greaterOrEqual => y ≤ x

/-- Nothing but the flags and the registers in `scratch` differs. -/
structure Kept (s s' : State) (scratch : List R) : Prop where
  gpr : ∀ r, r ∉ scratch → s'.gpr r = s.gpr r
  xmm : s'.xmm = s.xmm
  mem : s'.mem = s.mem

/-- The code goes to `target` if `taken`, else on behind itself. -/
def Branches (fpu : Fpu) (code : List Byte) (pc : BitVec 64) (s : State) (taken : Bool) (target : BitVec 64) (scratch : List R) : Prop :=
  ∃ s', Goes fpu code pc s (if taken then target else behind pc code) s' ∧ Kept s s' scratch

/-! ### Flags -/

theorem less_flags32 (a b : BitVec 32) : ((a - b).msb != (a.msb != b.msb && (a - b).msb != a.msb)) = decide (a.toInt < b.toInt) := by
  have h := BitVec.toInt_sub (x := a) (y := b)
  have ha := BitVec.msb_eq_toInt (x := a)
  have hb := BitVec.msb_eq_toInt (x := b)
  have hr := BitVec.msb_eq_toInt (x := a - b)
  have la := BitVec.le_toInt a
  have lb := BitVec.le_toInt b
  have ua := BitVec.toInt_lt (x := a)
  have ub := BitVec.toInt_lt (x := b)
  rw [ha, hb, hr, h]
  generalize a.toInt = x at *
  generalize b.toInt = y at *
  clear h ha hb hr
  simp only [Int.bmod] at *
  by_cases h1 : x < 0 <;> by_cases h2 : y < 0 <;> by_cases h3 : x < y <;> simp [h1, h2, h3] <;> (try split) <;> omega

theorem less_flags64 (a b : BitVec 64) : ((a - b).msb != (a.msb != b.msb && (a - b).msb != a.msb)) = decide (a.toInt < b.toInt) := by
  have h := BitVec.toInt_sub (x := a) (y := b)
  have ha := BitVec.msb_eq_toInt (x := a)
  have hb := BitVec.msb_eq_toInt (x := b)
  have hr := BitVec.msb_eq_toInt (x := a - b)
  have la := BitVec.le_toInt a
  have lb := BitVec.le_toInt b
  have ua := BitVec.toInt_lt (x := a)
  have ub := BitVec.toInt_lt (x := b)
  rw [ha, hb, hr, h]
  generalize a.toInt = x at *
  generalize b.toInt = y at *
  clear h ha hb hr
  simp only [Int.bmod] at *
  by_cases h1 : x < 0 <;> by_cases h2 : y < 0 <;> by_cases h3 : x < y <;> simp [h1, h2, h3] <;> (try split) <;> omega

theorem less_flags {w : Width} (hw : Full w) (a b : BitVec w.bits) :
    ((a - b).msb != (a.msb != b.msb && (a - b).msb != a.msb)) = decide (a.toInt < b.toInt) := by
  rcases hw with rfl | rfl
  · exact less_flags32 a b
  · exact less_flags64 a b

/-- The flags after a comparison of `x` with `y`. -/
structure Compared (f : Cpu.Flags) (x y : Int) : Prop where
  zero : f.zf = decide (x = y)
  less : (f.sf != f.ovf) = decide (x < y)

theorem compared_ok {w : Width} (hw : Full w) (f : Cpu.Flags) (x y : BitVec 64) :
    Compared (Cpu.aluFlags .cmp w f x y) (lo w x).toInt (lo w y).toInt := by
  have hr : lo w (Cpu.aluRes .cmp w f x y) = lo w x - lo w y := by
    unfold Cpu.aluRes
    simp only
    rw [lo_ext]
    exact lo_sub w x y
  refine ⟨?_, ?_⟩
  · have e : (Cpu.aluFlags .cmp w f x y).zf = (Cpu.aluRes .cmp w f x y == 0) := rfl
    rw [e, Bool.eq_iff_iff]
    simp only [beq_iff_eq, decide_eq_true_eq, BitVec.toInt_inj]
    have hz : Cpu.aluRes .cmp w f x y = (lo w (Cpu.aluRes .cmp w f x y)).setWidth 64 := by
      rw [hr]
      unfold Cpu.aluRes
      simp only
      congr 1
      exact lo_sub w x y
    constructor
    · intro h
      rw [h] at hr
      have : lo w (0 : BitVec 64) = 0 := by simp [lo]
      rw [this] at hr
      exact (BitVec.sub_eq_iff_eq_add.1 hr.symm).trans (by simp)
    · intro h
      rw [hz, hr, h]
      simp
  · have e : ((Cpu.aluFlags .cmp w f x y).sf != (Cpu.aluFlags .cmp w f x y).ovf) =
        (Cpu.msbOf w (Cpu.aluRes .cmp w f x y) != (Cpu.msbOf w x != Cpu.msbOf w y &&
          Cpu.msbOf w (Cpu.aluRes .cmp w f x y) != Cpu.msbOf w x)) := rfl
    rw [e, msb_lo hw, msb_lo hw, msb_lo hw, hr]
    exact less_flags hw _ _

/-- The number of the condition of each jump. -/
def condOf : Jump → BitVec 4
  | .equal => 4#4 | .notEqual => 5#4 | .less => 0xc#4 | .greater => 0xf#4 | .lessOrEqual => 0xe#4 | .greaterOrEqual => 0xd#4

theorem branch_emit (c : Asm) (op : Jump) (target : BitVec 64) :
    branch c op target = emit c (.jump [0x0f#8, 8#4 ++ condOf op] target) := by
  cases op <;> rfl

theorem holds_cond (op : Jump) (f : Cpu.Flags) (x y : Int) (h : Compared f x y) : Cpu.holds f (condOf op) = rel op x y := by
  obtain ⟨hz, hl⟩ := h
  cases op with
  | equal =>
    have : Cpu.holds f 4#4 = (f.zf != false) := rfl
    simp [condOf, rel, this, hz]
  | notEqual =>
    have : Cpu.holds f 5#4 = (f.zf != true) := rfl
    simp [condOf, rel, this, hz]
  | less =>
    have : Cpu.holds f 0xc#4 = ((f.sf != f.ovf) != false) := rfl
    simp only [condOf, rel, this, hl, Bool.bne_false]
  | greater =>
    have : Cpu.holds f 0xf#4 = ((f.zf || (f.sf != f.ovf)) != true) := rfl
    rw [condOf, this, hz, hl, Bool.eq_iff_iff]
    simp [rel]
    omega
  | lessOrEqual =>
    have : Cpu.holds f 0xe#4 = ((f.zf || (f.sf != f.ovf)) != false) := rfl
    rw [condOf, this, hz, hl, Bool.eq_iff_iff]
    simp [rel]
    omega
  | greaterOrEqual =>
    have : Cpu.holds f 0xd#4 = ((f.sf != f.ovf) != true) := rfl
    rw [condOf, this, hl, Bool.eq_iff_iff]
    simp [rel]

/-! ### Jumps -/

theorem behind_target (here target : BitVec 64) : here + (target - here) = target := by
  rw [BitVec.add_comm, BitVec.sub_add_cancel]

/-- A conditional jump, and what follows it. -/
theorem jcc_goes {fpu : Fpu} {cc : BitVec 4} {target pc : BitVec 64} {s : State} {rest code : List Byte}
    (hf : fitsInInt32 (target - (pc + 6)) = true) (hc : code = [0x0f#8, 8#4 ++ cc] ++ append4 (target - (pc + 6)))
    (h : Cpu.holds s.flags cc = true) : Goes fpu (code ++ rest) pc s target s := by
  subst hc
  refine goes_one (.jcc cc (target - (pc + 6))) rest (by simp) (decode_jcc cc _ hf rest) ?_
  simp only [Cpu.exec, h, if_true]
  have : behind pc ([0x0f#8, 8#4 ++ cc] ++ append4 (target - (pc + 6))) = pc + 6 := by simp [behind, append4]
  rw [this, behind_target]

theorem jcc_runs {fpu : Fpu} {cc : BitVec 4} {target pc : BitVec 64} {s : State} {code : List Byte}
    (hf : fitsInInt32 (target - (pc + 6)) = true) (hc : code = [0x0f#8, 8#4 ++ cc] ++ append4 (target - (pc + 6)))
    (h : Cpu.holds s.flags cc = false) : Runs fpu code pc s s := by
  subst hc
  refine runs_one (.jcc cc (target - (pc + 6))) (by simp) (fun rest => decode_jcc cc _ hf rest) ?_
  simp [Cpu.exec, h]

/-- A comparison followed by a jump. -/
theorem compare_branch {fpu : Fpu} (op : Jump) {cmp : List Byte} {target pc : BitVec 64} {s t : State} {x y : Int} {scratch : List R}
    {code : List Byte} (hr : Runs fpu cmp pc s t) (hk : Kept s t scratch) (hf : Compared t.flags x y)
    (hl : resolve pc (branch ⟨cmp, []⟩ op target).tasks (branch ⟨cmp, []⟩ op target).code = some code) :
    Branches fpu code pc s (rel op x y) target scratch := by
  have e : branch ⟨cmp, []⟩ op target = emitAll ⟨[], []⟩ [.code cmp, .jump [0x0f#8, 8#4 ++ condOf op] target] := by
    rw [branch_emit]; rfl
  rw [e, resolve_linked] at hl
  simp only [linked, List.length_cons, List.length_nil] at hl
  split at hl
  · rename_i hfit
    simp only [Option.map_some, List.append_nil, Option.some.injEq] at hl
    have hh := holds_cond op _ _ _ hf
    subst hl
    refine ⟨t, ?_, hk⟩
    refine runs_goes hr ?_
    cases hrel : rel op x y with
    | true =>
      rw [hrel] at hh
      have := jcc_goes (fpu := fpu) (rest := []) hfit rfl hh
      rw [List.append_nil] at this
      exact this
    | false =>
      rw [hrel] at hh
      have := runs_end (jcc_runs (fpu := fpu) hfit rfl hh)
      simp only [Bool.false_eq_true, if_false]
      rw [behind_append]
      exact this
  · cases hl

theorem exAlu_cmp (w : Width) (s : State) (next : BitVec 64) (dst : Rm) (b : BitVec 64) :
    Cpu.exAlu .cmp w s next dst b = { s with flags := Cpu.aluFlags .cmp w s.flags (Cpu.get s next w dst) b } := rfl

/-- **Two registers.** -/
theorem branch_rr (op : Jump) {w : Width} (hw : w = .d ∨ w = .q) (a b : Register) (target : BitVec 64) (fpu : Fpu) (pc : BitVec 64)
    (s : State) (code : List Byte) (h : resolve pc (branchRR op w a b target).tasks (branchRR op w a b target).code = some code) :
    Branches fpu code pc s (rel op (lo w (s.gpr (num4 b))).toInt (lo w (s.gpr (num4 a))).toInt) target [] := by
  refine compare_branch op
    (runs_one (.alu .cmp w (.reg (num4 b)) (num4 a)) (by simp [compareRR])
      (fun rest => decode_aluRR 0x39#8 .cmp w hw a b rest (by simp)) rfl) ⟨fun _ _ => rfl, rfl, rfl⟩ ?_ h
  rw [exAlu_cmp]
  have := fun next => compared_ok hw s.flags (Cpu.get s next w (.reg (num4 b))) (Cpu.get s next w (.reg (num4 a)))
  simp only [lo_get] at this
  exact this _

/-- **A register and a constant.** -/
theorem branch_cr (op : Jump) {w : Width} (hw : w = .d ∨ w = .q) (v : BitVec 64) (b tmp : Register) (ht : isFloatReg tmp = false)
    (hb : num4 tmp ≠ num4 b) (target : BitVec 64) (fpu : Fpu) (pc : BitVec 64) (s : State) (code : List Byte)
    (h : resolve pc (branchCR op w v b tmp target).tasks (branchCR op w v b tmp target).code = some code) :
    Branches fpu code pc s (rel op (lo w (s.gpr (num4 b))).toInt (lo w v).toInt) target [num4 tmp] := by
  by_cases hv : fitsInInt32 v = true
  · have e : compareCR w v b tmp = immediateR w 0xf8#8 v b := by simp [compareCR, hv]
    unfold branchCR at h
    rw [e] at h
    refine compare_branch op
      (runs_one (.aluI .cmp w (.reg (num4 b)) v) (by unfold immediateR maybeRexR; split <;> simp)
        (fun rest => decode_aluI 0xf8#8 .cmp w hw v hv b rest (by simp)) rfl) ⟨fun _ _ => rfl, rfl, rfl⟩ ?_ h
    rw [exAlu_cmp]
    have := fun next => compared_ok hw s.flags (Cpu.get s next w (.reg (num4 b))) v
    simp only [lo_get] at this
    exact this _
  · have e : compareCR w v b tmp = moveCR w v tmp tmp ++ compareRR w tmp b := by simp [compareCR, hv]
    unfold branchCR at h
    rw [e] at h
    obtain ⟨s1, hr, he⟩ : ∃ s1, Runs fpu (moveCR w v tmp tmp) pc s s1 ∧ Effect s s1 w (num4 tmp) (lo w v) [] := by
      refine ⟨_, moveCR_ok w v tmp tmp ht fpu pc s, ?_, ?_, rfl, rfl⟩
      · simp only [Cpu.setReg, if_true, lo_signExtend hw]
      · intro r hr _
        simp [Cpu.setReg, hr]
    refine compare_branch op (runs_append hr
      (runs_one (.alu .cmp w (.reg (num4 b)) (num4 tmp)) (by simp [compareRR])
        (fun rest => decode_aluRR 0x39#8 .cmp w hw tmp b rest (by simp)) rfl)) ⟨?_, he.xmm, he.mem⟩ ?_ h
    · intro r hr
      simp only [List.mem_singleton] at hr
      exact he.others r hr (by simp)
    · rw [exAlu_cmp]
      have := fun next => compared_ok hw s1.flags (Cpu.get s1 next w (.reg (num4 b))) (Cpu.get s1 next w (.reg (num4 tmp)))
      simp only [lo_get, he.value, he.others _ (Ne.symm hb) (by simp)] at this
      exact this _

/-- **A register and an operand in memory**, that is compared with it. -/
theorem branch_rm (op : Jump) {w : Width} (hw : w = .d ∨ w = .q) (a : Register) (ha : isFloatReg a = false) (m : Memory)
    (hg : Good m) (hm : num4 m.base ≠ num4 a ∧ ∀ i, m.index = some i → num4 i ≠ num4 a) (target : BitVec 64) (fpu : Fpu) (pc : BitVec 64)
    (s : State) (y : BitVec w.bits) (hy : Holds s.mem (addressOf s m) w y) (code : List Byte)
    (h : resolve pc (branchRM op w a m target).tasks (branchRM op w a m target).code = some code) :
    Branches fpu code pc s (rel op y.toInt (lo w (s.gpr (num4 a))).toInt) target (if w = .d then [num4 a] else []) := by
  have key : ∀ (s1 : State) (pc1 : BitVec 64), ∃ t, Runs fpu (maybeRexRM w a m ++ [0x39#8] ++ modrmSibImm a m) pc1 s1 t ∧
      (t.gpr = s1.gpr ∧ t.xmm = s1.xmm ∧ t.mem = s1.mem) ∧
      ∀ y : BitVec w.bits, Holds s1.mem (addressOf s1 m) w y → Compared t.flags y.toInt (lo w (s1.gpr (num4 a))).toInt := by
    intro s1 pc1
    refine ⟨_, runs_one (.alu .cmp w (rmOf m) (num4 a)) (by simp) (fun rest => ?_) rfl, ⟨rfl, rfl, rfl⟩, ?_⟩
    · have := decode_39 (opd_mem m hg) w hw a (w == Width.b && a &&& 4#5 != 0#5) rest
      simpa [maybeRexRM] using this
    · intro y hy
      rw [exAlu_cmp]
      have := fun next => compared_ok hw s1.flags (Cpu.get s1 next w (rmOf m)) (Cpu.get s1 next w (.reg (num4 a)))
      simp only [lo_get, lo_get_mem _ hg hy] at this
      exact this _
  rcases hw with rfl | rfl
  · obtain ⟨s1, hr, he⟩ := move_ok .d a (bSize := .q) (Or.inr rfl) (by simp) a ha ha fpu pc s
    have hw' : widened .d .q = .q := rfl
    obtain ⟨t, ht, ⟨h1, h2, h3⟩, h4⟩ := key s1 (behind pc (moveRR .d a .q a))
    have hadr : addressOf s1 m = addressOf s m := by
      obtain ⟨base, offset, index, scale⟩ := m
      simp only at hm
      simp only [addressOf]
      rw [he.others _ hm.1 (by simp)]
      cases index with
      | none => rfl
      | some i => simp only; rw [he.others _ (hm.2 i rfl) (by simp)]
    have hval : lo .d (s1.gpr (num4 a)) = lo .d (s.gpr (num4 a)) := by
      have := he.value
      have := congrArg (fun z : BitVec 64 => z.setWidth 32) this
      simp only [lo, Cpu.Width.bits, widened] at this ⊢
      rw [BitVec.setWidth_eq] at this
      rw [this]
      exact low_signExtend32 _
    have e : compareRM .d a m = moveRR .d a .q a ++ (maybeRexRM .d a m ++ [0x39#8] ++ modrmSibImm a m) := by
      simp [compareRM]
    unfold branchRM at h
    rw [e] at h
    refine compare_branch op (runs_append hr ht) ⟨?_, by rw [h2, he.xmm], by rw [h3, he.mem]⟩ ?_ h
    · intro r hr
      simp only [if_true, List.mem_singleton] at hr
      rw [h1]
      exact he.others r hr (by simp)
    · have := h4 y (by rw [he.mem, hadr]; exact hy)
      rw [hval] at this
      exact this
  · obtain ⟨t, ht, ⟨h1, h2, h3⟩, h4⟩ := key s pc
    have e : compareRM .q a m = maybeRexRM .q a m ++ [0x39#8] ++ modrmSibImm a m := by
      simp [compareRM]
    unfold branchRM at h
    rw [e] at h
    exact compare_branch op ht ⟨fun r _ => by rw [h1], h2, h3⟩ (h4 y hy) h

/-- **A constant and an operand in memory.** -/
theorem branch_cm (op : Jump) {w : Width} (hw : w = .d ∨ w = .q) (v : BitVec 64) (m : Memory) (hg : Good m) (target : BitVec 64)
    (fpu : Fpu) (pc : BitVec 64) (s : State) (y : BitVec w.bits) (hy : Holds s.mem (addressOf s m) w y) (asm : Asm) (code : List Byte)
    (ha : branchCM op w v m target = some asm) (h : resolve pc asm.tasks asm.code = some code) :
    Branches fpu code pc s (rel op y.toInt (lo w v).toInt) target [] := by
  have key : ∀ (cmp : List Byte) (hc : cmp ≠ []), (∀ rest, Cpu.decode (cmp ++ rest) = some (.aluI .cmp w (rmOf m) v, rest)) →
      ∃ t, Runs fpu cmp pc s t ∧ Kept s t [] ∧ Compared t.flags y.toInt (lo w v).toInt := by
    intro cmp hc hd
    refine ⟨_, runs_one (.aluI .cmp w (rmOf m) v) hc hd rfl, ⟨fun _ _ => rfl, rfl, rfl⟩, ?_⟩
    rw [exAlu_cmp]
    have := fun next => compared_ok hw s.flags (Cpu.get s next w (rmOf m)) v
    simp only [lo_get_mem _ hg hy] at this
    exact this _
  unfold branchCM compareCM at ha
  simp only at ha
  split at ha
  · rename_i h8
    simp only [Option.map_some, Option.some.injEq] at ha
    subst ha
    obtain ⟨t, h1, h2, h3⟩ := key (maybeRexM w m ++ [0x83#8] ++ modrmSibImm rdi m ++ append v) (by simp) (fun rest => by
      have := decode_83 (opd_mem m hg) w hw v rest
      rw [fits8 h8] at this
      simpa [maybeRexM] using this)
    exact compare_branch op h1 h2 h3 (by simpa [h8] using h)
  · rename_i h8
    split at ha
    · rename_i h32
      simp only [Option.map_some, Option.some.injEq] at ha
      subst ha
      obtain ⟨t, h1, h2, h3⟩ := key (maybeRexM w m ++ [0x81#8] ++ modrmSibImm rdi m ++ append4 v) (by simp) (fun rest => by
        have := decode_81 (opd_mem m hg) w hw v rest
        rw [fits32 h32] at this
        simpa [maybeRexM] using this)
      exact compare_branch op h1 h2 h3 (by simpa [h8] using h)
    · cases ha

theorem fits32_iff (v : BitVec 64) : fitsInInt32 v = true ↔ -(2 ^ 31) ≤ v.toInt ∧ v.toInt < 2 ^ 31 := by
  unfold fitsInInt32
  rw [beq_iff_eq, ← BitVec.toInt_inj, BitVec.toInt_signExtend_of_le (by omega), BitVec.toInt_setWidth]
  have := BitVec.toInt_eq_toNat_cond v
  have := v.isLt
  simp only [Int.bmod]
  split at * <;> split <;> omega

/-- Constants of an int can be compared with memory; a constant that needs more than 32 bits cannot. -/
theorem branch_cm_defined (op : Jump) (w : Width) (v : BitVec 64) (m : Memory) (target : BitVec 64) :
    (branchCM op w v m target).isSome = true ↔ -(2 ^ 31) ≤ v.toInt ∧ v.toInt < 2 ^ 31 := by
  have h32 := fits32_iff v
  have h8 : fitsInInt8 v = true → fitsInInt32 v = true := by
    unfold fitsInInt8
    rw [h32, beq_iff_eq]
    intro h
    rw [h, BitVec.toInt_signExtend_of_le (by omega)]
    have := BitVec.le_toInt (v.setWidth 8)
    have := BitVec.toInt_lt (x := v.setWidth 8)
    omega
  rw [← h32]
  unfold branchCM compareCM
  simp only
  by_cases h1 : fitsInInt8 v = true
  · simp [h1, h8 h1]
  · by_cases h2 : fitsInInt32 v = true <;> simp [h1, h2]

/-- **A branch can be placed** wherever its target is within 32 bits of the address behind it, and only there. -/
theorem branch_placed (op : Jump) (cmp : List Byte) (target pc : BitVec 64) :
    (resolve pc (branch ⟨cmp, []⟩ op target).tasks (branch ⟨cmp, []⟩ op target).code).isSome = true ↔
      -(2 ^ 31) ≤ (target - (pc + BitVec.ofNat 64 (cmp.length + 6))).toInt ∧
      (target - (pc + BitVec.ofNat 64 (cmp.length + 6))).toInt < 2 ^ 31 := by
  have e : branch ⟨cmp, []⟩ op target = emitAll ⟨[], []⟩ [.code cmp, .jump [0x0f#8, 8#4 ++ condOf op] target] := by
    rw [branch_emit]; rfl
  rw [e, resolve_linked, ← fits32_iff]
  have : behind pc cmp + BitVec.ofNat 64 (([0x0f#8, 8#4 ++ condOf op] : List Byte).length + 4) =
      pc + BitVec.ofNat 64 (cmp.length + 6) := by
    simp only [behind, List.length_cons, List.length_nil, BitVec.ofNat_add, BitVec.add_assoc]
    rfl
  simp only [linked, this]
  split
  · rename_i h; simp [h]
  · rename_i h; simp [h]

/-- **A program.**  Code with any number of jumps and calls, one emitted after the other, has in the end each of them with the
distance to its target. -/
theorem program_linked (result : BitVec 64) (items : List Item) :
    resolve result (emitAll ⟨[], []⟩ items).tasks (emitAll ⟨[], []⟩ items).code = linked result items :=
  resolve_linked result items

/-! ### Examples -/

/-- Two registers: -7 in rax, 2 in r9; jump if rax is less. -/
example : resolve 0x1000 (branchRR .less .d 9#5 0#5 0x2000).tasks (branchRR .less .d 9#5 0#5 0x2000).code =
    some [0x44#8, 0x39#8, 0xc8#8, 0x0f#8, 0x8c#8, 0xf7#8, 0x0f#8, 0x00#8, 0x00#8] := by decide +kernel

example (fpu : Fpu) : Branches fpu [0x44#8, 0x39#8, 0xc8#8, 0x0f#8, 0x8c#8, 0xf7#8, 0x0f#8, 0x00#8, 0x00#8] 0x1000 exState true 0x2000 [] :=
  branch_rr .less (w := .d) (Or.inl rfl) 9#5 0#5 0x2000 fpu 0x1000 exState _ (by decide +kernel)

/-- A constant that does not fit in 32 bits, and a jump backwards. -/
example (fpu : Fpu) : ∃ code, resolve 0x1000 (branchCR .greaterOrEqual .q 0x123456789 0#5 10#5 0x800).tasks
      (branchCR .greaterOrEqual .q 0x123456789 0#5 10#5 0x800).code = some code ∧
    Branches fpu code 0x1000 exState false 0x800 [10#4] :=
  ⟨_, rfl, branch_cr .greaterOrEqual (w := .q) (Or.inr rfl) 0x123456789 0#5 10#5 rfl (by decide) 0x800 fpu 0x1000 exState _ rfl⟩

/-- Operands in memory. -/
example (fpu : Fpu) : ∃ code, resolve 0x1000 (branchRM .equal .q 0#5 ⟨9#5, 4, none, 1⟩ 0x3000).tasks
      (branchRM .equal .q 0#5 ⟨9#5, 4, none, 1⟩ 0x3000).code = some code ∧
    ∀ y, Holds exState.mem (addressOf exState ⟨9#5, 4, none, 1⟩) .q y →
      Branches fpu code 0x1000 exState (rel .equal y.toInt (-7)) 0x3000 [] :=
  ⟨_, rfl, fun y hy => branch_rm .equal (w := .q) (Or.inr rfl) 0#5 rfl ⟨9#5, 4, none, 1⟩ trivial (by decide) 0x3000 fpu 0x1000 exState y hy _ rfl⟩

example (fpu : Fpu) : ∃ asm code, branchCM .notEqual .d 300 ⟨9#5, 4, none, 1⟩ 0x3000 = some asm ∧
    resolve 0x1000 asm.tasks asm.code = some code ∧
    ∀ y, Holds exState.mem (addressOf exState ⟨9#5, 4, none, 1⟩) .d y →
      Branches fpu code 0x1000 exState (rel .notEqual y.toInt 300) 0x3000 [] :=
  ⟨_, _, rfl, rfl, fun y hy => branch_cm .notEqual (w := .d) (Or.inl rfl) 300 ⟨9#5, 4, none, 1⟩ trivial 0x3000 fpu 0x1000 exState y hy _ _ rfl rfl⟩

/-- Two jumps, forwards and backwards, and a call between them. -/
example : linked 0x1000 [.code [0x90#8], .jump [0x0f#8, 0x84#8] 0x1020, .jump [0xe8#8] 0x1000, .jump [0xe9#8] 0x1001] =
    some [0x90#8, 0x0f#8, 0x84#8, 0x19#8, 0#8, 0#8, 0#8, 0xe8#8, 0xf4#8, 0xff#8, 0xff#8, 0xff#8, 0xe9#8, 0xf0#8, 0xff#8, 0xff#8, 0xff#8] := by
  decide +kernel

/-- Too far. -/
example : resolve 0x1000 (branchRR .less .d 9#5 0#5 0x200000000).tasks (branchRR .less .d 9#5 0#5 0x200000000).code = none := by
  decide +kernel

end Avian.X86
