import Verif.Codegen.Compare
import Verif.Props.X86Branch

/-
**C88.** A comparison of two longs, floats or doubles and the branch on its result, compiled together, go where the two
instructions of the Java virtual machine go one after the other.

The specification is `fcmp` and `lcmp`, the instructions of the Java virtual machine, and `rel` with zero.
-/
namespace Avian.X86

open Cpu (Byte Width Rex Rm R State Fpu Next Out Instr)

/-! ### Specification -/

/-- `fcmpg`, `dcmpg` (`g`) and `fcmpl`, `dcmpl`: how the first value compares with the second. -/
def fcmp (g : Bool) : Option Ordering → Int
  | some .lt => -1
  | some .eq => 0
  | some .gt => 1
  | none => if g then 1 else -1

/-- `lcmp`. -/
def lcmp (x y : Int) : Int := if x < y then -1 else if x = y then 0 else 1

/-- `ifeq` to `ifle`: whether they branch, for an int. -/
def branchesIf (i : If) (v : Int) : Bool :=
  match i with
  | .eq => v = 0
  | .ne => v ≠ 0
  | .gt => 0 < v
  | .ge => 0 ≤ v
  | .lt => v < 0
  | .le => v ≤ 0

/-! ### Integers -/

theorem lcmp_rel (i : If) (x y : Int) : rel (toCompilerJumpOp i) x y = branchesIf i (lcmp x y) := by
  have h1 : lcmp x y = 0 ↔ x = y := by unfold lcmp; split <;> (try split) <;> omega
  have h2 : lcmp x y < 0 ↔ x < y := by unfold lcmp; split <;> (try split) <;> omega
  have h3 : 0 < lcmp x y ↔ y < x := by unfold lcmp; split <;> (try split) <;> omega
  have h4 : lcmp x y ≤ 0 ↔ x ≤ y := by omega
  have h5 : 0 ≤ lcmp x y ↔ y ≤ x := by omega
  cases i <;> simp [rel, toCompilerJumpOp, branchesIf, h1, h2, h3, h4, h5]

/-- **`lcmp` with a branch**, in registers. -/
theorem lcmp_branch (i : If) (a b : Register) (target : BitVec 64) (fpu : Fpu) (pc : BitVec 64) (s : State) (code : List Byte)
    (h : resolve pc (branchRR (toCompilerJumpOp i) .q a b target).tasks (branchRR (toCompilerJumpOp i) .q a b target).code = some code) :
    Branches fpu code pc s (branchesIf i (lcmp (s.gpr (num4 b)).toInt (s.gpr (num4 a)).toInt)) target [] := by
  have := branch_rr (toCompilerJumpOp i) (w := .q) (Or.inr rfl) a b target fpu pc s code h
  rw [lcmp_rel] at this
  have e : ∀ v : BitVec 64, lo .q v = v := fun v => by simp [lo, Cpu.Width.bits]
  rw [e, e] at this
  exact this

/-- **Two constants** are compared by the compiler itself. -/
theorem fold_integers (i : If) (x y : BitVec 64) : shouldJump (toCompilerJumpOp i) y x = branchesIf i (lcmp x.toInt y.toInt) := by
  rw [← lcmp_rel]
  cases i <;> simp [shouldJump, toCompilerJumpOp, rel, BitVec.toInt_inj]

/-- **`lcmp` without a branch** calls a function, which is right for longs of the same sign.  Missing, because it is false: longs of
different sign (`lcmp_wrong`). -/
theorem lcmp_call_partial (x y : BitVec 64) (h : x.msb = y.msb) : compareLongs y x = lcmp x.toInt y.toInt := by
  have hx := BitVec.toInt_eq_msb_cond x
  have hy := BitVec.toInt_eq_msb_cond y
  rw [h] at hx
  unfold compareLongs lcmp
  rw [hx, hy]
  clear hx hy h
  have := x.isLt
  have := y.isLt
  split <;> split <;> (try split) <;> (try split) <;> omega

example : (-5#64).msb = (-3#64).msb ∧ compareLongs (-3#64) (-5#64) = -1 := by decide

/-- **A disagreement**: of two longs of different sign the negative one is the greater. -/
theorem lcmp_wrong (x y : BitVec 64) (hx : x.msb = true) (hy : y.msb = false) : compareLongs y x = 1 ∧ lcmp x.toInt y.toInt = -1 := by
  have ex := BitVec.toInt_eq_msb_cond x
  have ey := BitVec.toInt_eq_msb_cond y
  rw [hx] at ex
  rw [hy] at ey
  have mx := BitVec.msb_eq_decide x
  have my := BitVec.msb_eq_decide y
  rw [hx] at mx
  rw [hy] at my
  have mx' := of_decide_eq_true mx.symm
  have my' := of_decide_eq_false my.symm
  simp only [if_true, Bool.false_eq_true, if_false] at ex ey
  have := x.isLt
  unfold compareLongs lcmp
  rw [ex, ey]
  clear ex ey mx my hx hy
  constructor
  · rw [if_neg (by omega), if_pos (by omega)]
  · rw [if_pos (by omega)]

example : (-1#64).msb = true ∧ (5#64).msb = false := by decide

/-! ### Floats -/

/-- The flags after a comparison of floats. -/
def fflags : Option Ordering → Cpu.Flags
  | none => ⟨true, true, true, false, false⟩
  | some .lt => ⟨true, false, false, false, false⟩
  | some .eq => ⟨false, false, true, false, false⟩
  | some .gt => ⟨false, false, false, false, false⟩

/-- What the code of `branchFloat` does, by the flags. -/
def jumpsOn (op : FloatJump) (f : Cpu.Flags) : Bool :=
  match op with
  | .equal => !f.pf && f.zf
  | .notEqual => !f.zf || f.pf
  | .less => f.cf
  | .greater => !(f.cf || f.zf)
  | .lessOrEqual => f.cf || f.zf
  | .greaterOrEqual => !f.cf
  | .lessOrUnordered => f.cf || f.pf
  | .greaterOrUnordered => !(f.cf || f.zf) || f.pf
  | .lessOrEqualOrUnordered => (f.cf || f.zf) || f.pf
  | .greaterOrEqualOrUnordered => !f.cf || f.pf

/-- The conditions that are tried one after the other. -/
def condsOf : FloatJump → List (BitVec 4)
  | .equal => [4#4]
  | .notEqual => [5#4, 10#4]
  | .less => [2#4]
  | .greater => [7#4]
  | .lessOrEqual => [6#4]
  | .greaterOrEqual => [3#4]
  | .lessOrUnordered => [2#4, 10#4]
  | .greaterOrUnordered => [7#4, 10#4]
  | .lessOrEqualOrUnordered => [6#4, 10#4]
  | .greaterOrEqualOrUnordered => [3#4, 10#4]

def jumps (target : BitVec 64) (cs : List (BitVec 4)) : List Item := cs.map fun cc => .jump [0x0f#8, 8#4 ++ cc] target

theorem branchFloat_emit (c : Asm) (op : FloatJump) (target : BitVec 64) :
    branchFloat c op target =
      emitAll c (if op = .equal then .code [0x7a#8, 6#8] :: jumps target [4#4] else jumps target (condsOf op)) := by
  cases op <;> rfl

/-- A row of conditional jumps to the same place. -/
theorem jumps_goes {fpu : Fpu} (target : BitVec 64) (cs : List (BitVec 4)) (pc : BitVec 64) (s : State) (code : List Byte)
    (h : linked pc (jumps target cs) = some code) :
    Goes fpu code pc s (if cs.any (Cpu.holds s.flags) then target else behind pc code) s := by
  induction cs generalizing pc code with
  | nil =>
    cases h
    exact ⟨0, fun n => by simp [Cpu.run, behind]⟩
  | cons cc cs ih =>
    have e : jumps target (cc :: cs) = .jump [0x0f#8, 8#4 ++ cc] target :: jumps target cs := rfl
    rw [e] at h
    simp only [linked, List.length_cons, List.length_nil] at h
    split at h
    · rename_i hf
      cases ht : linked (pc + BitVec.ofNat 64 (0 + 1 + 1 + 4)) (jumps target cs) with
      | none => rw [ht] at h; cases h
      | some tail =>
        rw [ht] at h
        simp only [Option.map_some, Option.some.injEq] at h
        subst h
        cases hh : Cpu.holds s.flags cc with
        | true =>
          have := jcc_goes (fpu := fpu) (rest := tail) hf rfl hh
          simpa [hh] using this
        | false =>
          have r := jcc_runs (fpu := fpu) (s := s) hf rfl hh
          have g := ih _ _ ht
          have := runs_goes r (by
            have : behind pc ([0x0f#8, 8#4 ++ cc] ++ append4 (target - (pc + 6))) = pc + BitVec.ofNat 64 (0 + 1 + 1 + 4) := by
              simp [behind, append4]
            rw [this]
            exact g)
          simp only [List.any_cons, hh, Bool.false_or]
          rw [behind_append]
          have e2 : behind pc ([0x0f#8, 8#4 ++ cc] ++ append4 (target - (pc + BitVec.ofNat 64 (0 + 1 + 1 + 4)))) =
              pc + BitVec.ofNat 64 (0 + 1 + 1 + 4) := by
            simp [behind, append4]
          rw [e2]
          exact this
    · cases h

theorem holds_flags (op : FloatJump) (h : op ≠ .equal) (f : Cpu.Flags) : (condsOf op).any (Cpu.holds f) = jumpsOn op f := by
  have h2 : Cpu.holds f 2#4 = (f.cf != false) := rfl
  have h3 : Cpu.holds f 3#4 = (f.cf != true) := rfl
  have h5 : Cpu.holds f 5#4 = (f.zf != true) := rfl
  have h6 : Cpu.holds f 6#4 = ((f.cf || f.zf) != false) := rfl
  have h7 : Cpu.holds f 7#4 = ((f.cf || f.zf) != true) := rfl
  have ha : Cpu.holds f 10#4 = (f.pf != false) := rfl
  cases op with
  | equal => exact absurd rfl h
  | _ => simp [condsOf, jumpsOn, h2, h3, h5, h6, h7, ha]

/-- A comparison followed by the jumps. -/
theorem compare_branchFloat {fpu : Fpu} (op : FloatJump) {cmp : List Byte} {target pc : BitVec 64} {s t : State}
    {code : List Byte} (hr : Runs fpu cmp pc s t) (hk : Kept s t [])
    (hl : resolve pc (branchFloat ⟨cmp, []⟩ op target).tasks (branchFloat ⟨cmp, []⟩ op target).code = some code) :
    Branches fpu code pc s (jumpsOn op t.flags) target [] := by
  rw [branchFloat_emit, resolve_emitAll pc _ ⟨cmp, []⟩ (by intro t ht; cases ht)] at hl
  simp only [resolve, Option.bind_some] at hl
  by_cases hop : op = .equal
  · subst hop
    rw [if_pos rfl] at hl
    simp only [linked] at hl
    cases hj : linked (behind (behind pc cmp) [0x7a#8, 6#8]) (jumps target [4#4]) with
    | none => rw [hj] at hl; cases hl
    | some tail =>
      rw [hj] at hl
      simp only [Option.map_some, Option.some.injEq] at hl
      subst hl
      have hlen : tail.length = 6 := by
        have e : jumps target [4#4] = [.jump [0x0f#8, 8#4 ++ 4#4] target] := rfl
        rw [e] at hj
        simp only [linked] at hj
        split at hj
        · simp only [Option.map_some, Option.some.injEq] at hj
          subst hj
          simp [append4]
        · cases hj
      have g := jumps_goes (fpu := fpu) target [4#4] _ t tail hj
      refine ⟨t, runs_goes hr ?_, hk⟩
      rw [behind_append, behind_append]
      have h4 : [4#4].any (Cpu.holds t.flags) = t.flags.zf := by
        have : Cpu.holds t.flags 4#4 = (t.flags.zf != false) := rfl
        simp [this]
      rw [h4] at g
      cases hp : t.flags.pf with
      | true =>
        simp only [jumpsOn, hp, Bool.not_true, Bool.false_and, Bool.false_eq_true, if_false]
        refine goes_one (.jcc 10#4 ((6#8).signExtend 64)) tail (by simp) (decode_jp 6#8 tail) ?_
        have ha : Cpu.holds t.flags 10#4 = true := by
          have : Cpu.holds t.flags 10#4 = (t.flags.pf != false) := rfl
          simp [this, hp]
        simp only [Cpu.exec, ha, if_true]
        simp only [behind, hlen]
        rfl
      | false =>
        simp only [jumpsOn, hp, Bool.not_false, Bool.true_and]
        refine runs_goes (c := [0x7a#8, 6#8]) (t := t) ?_ g
        refine runs_one (.jcc 10#4 ((6#8).signExtend 64)) (by simp) (fun rest => decode_jp 6#8 rest) ?_
        have ha : Cpu.holds t.flags 10#4 = false := by
          have : Cpu.holds t.flags 10#4 = (t.flags.pf != false) := rfl
          simp [this, hp]
        simp [Cpu.exec, ha]
  · rw [if_neg hop] at hl
    cases hj : linked (behind pc cmp) (jumps target (condsOf op)) with
    | none => rw [hj] at hl; cases hl
    | some tail =>
      rw [hj] at hl
      simp only [Option.map_some, Option.some.injEq] at hl
      subst hl
      have g := jumps_goes (fpu := fpu) target (condsOf op) _ t tail hj
      rw [holds_flags op hop] at g
      refine ⟨t, runs_goes hr ?_, hk⟩
      rw [behind_append]
      exact g

/-- The comparison with the registers in the order that the ModRM byte has. -/
theorem ucomis_right {w : Width} (hw : Full w) (a b : Register) (fpu : Fpu) (pc : BitVec 64) (s : State) :
    Runs fpu ((if w = .q then [0x66#8] else []) ++ maybeRexRR .d b a ++ [0x0f#8, 0x2e#8] ++ modrm 0xc0#8 a b) pc s
      { s with flags := fflags (fpu.compare w ((lo w (s.xmm (num4 b))).setWidth 64) ((lo w (s.xmm (num4 a))).setWidth 64)) } := by
  refine runs_one (.ucomis w (num4 b) (.reg (num4 a))) (by simp) (fun rest => ?_) ?_
  · rcases hw with rfl | rfl
    · have := decode_0f2e (opd_reg a) .d b false rest
      simpa [maybeRexRR] using this
    · have := decode_66_0f2e (opd_reg a) .d b false rest
      simpa [maybeRexRR] using this
  · simp only [Cpu.exec, Cpu.getX, lo]
    congr 2

/-- How the values in two floating point registers compare. -/
def compareX (fpu : Fpu) (w : Width) (s : State) (x y : R) : Option Ordering :=
  fpu.compare w ((lo w (s.xmm x)).setWidth 64) ((lo w (s.xmm y)).setWidth 64)

/-- What the branch does, by how the values compare. -/
theorem float_branch_does (op : FloatJump) {w : Width} (hw : w = .d ∨ w = .q) (a b : Register)
    (h8 : (num4 a).getLsbD 3 = (num4 b).getLsbD 3) (target : BitVec 64) (fpu : Fpu)
    (pc : BitVec 64) (s : State) (code : List Byte)
    (h : resolve pc (branchFloatRR op w a b target).tasks (branchFloatRR op w a b target).code = some code) :
    Branches fpu code pc s (jumpsOn op (fflags (compareX fpu w s (num4 b) (num4 a)))) target [] := by
  have hr : ∀ a b : Register, (num4 a).getLsbD 3 = (num4 b).getLsbD 3 → maybeRexRR .d a b = maybeRexRR .d b a := by decide +kernel
  have e : compareFloatRR w a b = (if w = .q then [0x66#8] else []) ++ maybeRexRR .d b a ++ [0x0f#8, 0x2e#8] ++ modrm 0xc0#8 a b := by
    unfold compareFloatRR
    rw [hr a b h8]
  unfold branchFloatRR at h
  rw [e] at h
  exact compare_branchFloat op (ucomis_right hw a b fpu pc s) ⟨fun _ _ => rfl, rfl, rfl⟩ h

/-- **C88.** A comparison of floats or doubles and the branch on it: the code goes where `fcmpg`, `fcmpl` and the branch go.  The
values are in two registers below xmm8, or in two others.  Missing for the full statement, because it is false: one register
below xmm8 and one not (`float_branch_registers_wrong`), and `iflt` and `ifle` after `fcmpg` or `dcmpg` if one of the values is not a
number (`float_branch_nan_wrong`). -/
theorem float_branch_partial (i : If) (g : Bool) {w : Width} (hw : w = .d ∨ w = .q) (a b : Register)
    (h8 : (num4 a).getLsbD 3 = (num4 b).getLsbD 3) (target : BitVec 64) (fpu : Fpu) (pc : BitVec 64) (s : State) (code : List Byte)
    (h : resolve pc (branchFloatRR (toCompilerFloatJumpOp i !g) w a b target).tasks
      (branchFloatRR (toCompilerFloatJumpOp i !g) w a b target).code = some code)
    (hn : (g = true ∧ (i = .lt ∨ i = .le)) → compareX fpu w s (num4 b) (num4 a) ≠ none) :
    Branches fpu code pc s (branchesIf i (fcmp g (compareX fpu w s (num4 b) (num4 a)))) target [] := by
  have := float_branch_does _ hw a b h8 target fpu pc s code h
  have e : jumpsOn (toCompilerFloatJumpOp i !g) (fflags (compareX fpu w s (num4 b) (num4 a))) =
      branchesIf i (fcmp g (compareX fpu w s (num4 b) (num4 a))) := by
    generalize compareX fpu w s (num4 b) (num4 a) = o at hn
    rcases o with _ | o
    · cases i <;> cases g <;> simp at hn <;> rfl
    · cases i <;> cases g <;> cases o <;> rfl
  rw [e] at this
  exact this

/-- **A disagreement.** `x < y` and `x <= y`, where `true` is the branch: if one of the values is not a number, Java does not branch, the
code does. -/
theorem float_branch_nan_wrong (i : If) (hi : i = .lt ∨ i = .le) {w : Width} (hw : w = .d ∨ w = .q) (a b : Register)
    (h8 : (num4 a).getLsbD 3 = (num4 b).getLsbD 3) (target : BitVec 64) (fpu : Fpu) (pc : BitVec 64) (s : State) (code : List Byte)
    (h : resolve pc (branchFloatRR (toCompilerFloatJumpOp i !true) w a b target).tasks
      (branchFloatRR (toCompilerFloatJumpOp i !true) w a b target).code = some code)
    (hn : compareX fpu w s (num4 b) (num4 a) = none) :
    branchesIf i (fcmp true (compareX fpu w s (num4 b) (num4 a))) = false ∧ Branches fpu code pc s true target [] := by
  have := float_branch_does _ hw a b h8 target fpu pc s code h
  rw [hn] at this ⊢
  rcases hi with rfl | rfl
  · exact ⟨rfl, this⟩
  · exact ⟨rfl, this⟩

/-- **A disagreement.** One register below xmm8 and one not: two other registers are compared. -/
theorem float_branch_registers_wrong (op : FloatJump) {w : Width} (hw : w = .d ∨ w = .q) (a b : Register)
    (h8 : (num4 a).getLsbD 3 ≠ (num4 b).getLsbD 3) (target : BitVec 64) (fpu : Fpu) (pc : BitVec 64) (s : State) (code : List Byte)
    (h : resolve pc (branchFloatRR op w a b target).tasks (branchFloatRR op w a b target).code = some code) :
    Branches fpu code pc s (jumpsOn op (fflags (compareX fpu w s (num4 b ^^^ 8) (num4 a ^^^ 8)))) target [] := by
  have hr : ∀ a b : Register, (num4 a).getLsbD 3 ≠ (num4 b).getLsbD 3 →
      maybeRexRR .d a b = maybeRexRR .d (b ^^^ 8) (a ^^^ 8) ∧ modrm 0xc0#8 a b = modrm 0xc0#8 (a ^^^ 8) (b ^^^ 8) := by decide +kernel
  have hx : ∀ b : Register, num4 (b ^^^ 8) = num4 b ^^^ 8 := by decide +kernel
  have e : compareFloatRR w a b = (if w = .q then [0x66#8] else []) ++ maybeRexRR .d (b ^^^ 8) (a ^^^ 8) ++ [0x0f#8, 0x2e#8] ++
      modrm 0xc0#8 (a ^^^ 8) (b ^^^ 8) := by
    unfold compareFloatRR
    rw [← (hr a b h8).1, ← (hr a b h8).2]
  unfold branchFloatRR at h
  rw [e] at h
  have := compare_branchFloat op (ucomis_right hw (a ^^^ 8) (b ^^^ 8) fpu pc s) ⟨fun _ _ => rfl, rfl, rfl⟩ h
  rw [hx, hx] at this
  exact this

/-- **Two constants** are compared by the compiler itself, as Java does, also if one is not a number. -/
theorem fold_floats (i : If) (g : Bool) (o : Option Ordering) :
    shouldJumpFloat (toCompilerFloatJumpOp i !g) o = branchesIf i (fcmp g o) := by
  rcases o with _ | o
  · cases i <;> cases g <;> rfl
  · cases i <;> cases g <;> cases o <;> rfl

/-- **Comparisons without a branch** call functions that do what the instructions do. -/
theorem fcmp_call (g nan : Bool) (o : Option Ordering) (h : nan = true ↔ o = none) :
    (if g then compareG nan o else compareL nan o) = fcmp g o := by
  rcases o with _ | o
  · have : nan = true := h.2 rfl
    subst this
    cases g <;> rfl
  · have : nan = false := by cases nan with | false => rfl | true => cases h.1 rfl
    subst this
    cases g <;> cases o <;> rfl

/-- **Processors without such instructions**: a function is called, and its result decides.  Missing, because it is false: `ifgt` after
`fcmpl` or `dcmpl`, if one of the values is not a number (`thunk_branch_wrong`). -/
theorem thunk_branch_partial (i : If) (g nan : Bool) (o : Option Ordering) (h : nan = true ↔ o = none)
    (hn : i = .gt ∧ g = false → o ≠ none) : thunkJumps (toCompilerFloatJumpOp i !g) nan o = branchesIf i (fcmp g o) := by
  rcases o with _ | o
  · have : nan = true := h.2 rfl
    subst this
    cases i <;> cases g <;> simp at hn <;> decide
  · have : nan = false := by cases nan with | false => rfl | true => cases h.1 rfl
    subst this
    cases i <;> cases g <;> cases o <;> decide

theorem thunk_branch_wrong : thunkJumps (toCompilerFloatJumpOp .gt !false) true none = true ∧ branchesIf .gt (fcmp false none) = false := by
  decide

/-! ### Examples -/

/-- Bits of doubles, without signs: larger ones are greater, above infinity they are no numbers. -/
def exFpu : Fpu :=
  { compare := fun _ x y =>
      if x.toNat > 0x7ff0000000000000 ∨ y.toNat > 0x7ff0000000000000 then none else some (Ord.compare x.toNat y.toNat)
    op := fun _ _ _ y => y
    cvt := fun _ i => BitVec.ofInt 64 i }

/-- 1.0 in xmm1, 2.0 in xmm2, no number in xmm3. -/
def exFloats : State :=
  { exState with xmm := fun r => if r = 1#4 then 0x3ff0000000000000 else if r = 2#4 then 0x4000000000000000 else 0x7ff8000000000000 }

/-- `1.0 < 2.0` branches. -/
example : ∃ code, resolve 0x1000 (branchFloatRR (toCompilerFloatJumpOp .lt !true) .q 18#5 17#5 0x2000).tasks
      (branchFloatRR (toCompilerFloatJumpOp .lt !true) .q 18#5 17#5 0x2000).code = some code ∧
    Branches exFpu code 0x1000 exFloats true 0x2000 [] :=
  ⟨_, rfl, float_branch_partial .lt true (w := .q) (Or.inr rfl) 18#5 17#5 (by decide) 0x2000 exFpu 0x1000 exFloats _ rfl (by decide +kernel)⟩

/-- `1.0 < NaN` branches too. -/
example : ∃ code, resolve 0x1000 (branchFloatRR (toCompilerFloatJumpOp .lt !true) .q 19#5 17#5 0x2000).tasks
      (branchFloatRR (toCompilerFloatJumpOp .lt !true) .q 19#5 17#5 0x2000).code = some code ∧
    Branches exFpu code 0x1000 exFloats true 0x2000 [] :=
  ⟨_, rfl, (float_branch_nan_wrong .lt (Or.inl rfl) (w := .q) (Or.inr rfl) 19#5 17#5 (by decide) 0x2000 exFpu 0x1000 exFloats _ rfl
    (by decide +kernel)).2⟩

/-- xmm1 against xmm9: xmm9 and xmm1 have the numbers 1 and 9, and it is 9 and 1 that are compared. -/
example : (num4 17#5).getLsbD 3 ≠ (num4 25#5).getLsbD 3 ∧ num4 25#5 ^^^ 8 = 1#4 ∧ num4 17#5 ^^^ 8 = 9#4 := by decide

example : (true = true ↔ (none : Option Ordering) = none) ∧ (false = true ↔ some Ordering.lt = none) := by simp

end Avian.X86
