import Verif.Interp.SimRun

/-
Properties C41 to C47, C50 and C51: the bytecode interpreter against the specification of the Java
instruction set (`Verif.Interp.Spec`).

`Rep env pl s ss` says that the interpreter state `s` (stack area, frame and stack pointers,
instruction pointer, heap) represents the thread state `ss` of the specification.
-/
namespace Avian.Interp

open Spec

/-! ### States and a small program used in the examples -/

/-- The interpreter state with one frame at the bottom of the stack area. -/
def mkState (f : Frame) (heap : Heap) (log : List Ev) : St where
  mem i := ((f.locals ++ [.int 0#32, .int (-1#32), .obj f.m, .int 0#32] ++ f.stack.reverse)[i]?).getD
    Slot.zero
  sp := f.locals.length + 4 + f.stack.length
  frame := f.locals.length
  ip := BitVec.ofNat 32 f.pc
  code := f.m
  exc := 0#64
  heap := heap
  log := log

/-- The place of that frame. -/
def bottom (f : Frame) : Place := ⟨f.locals.length, 0, -1, fun _ => Slot.zero⟩

theorem bottom_ok (f : Frame) : (bottom f).ok := Or.inl (show (-1 : Int) < 0 by decide)

private theorem stk_rev (pre : List Slot) : ∀ st : List Slot,
    Stk (fun i => ((pre ++ st.reverse)[i]?).getD Slot.zero) pre.length st := by
  intro st
  induction st with
  | nil => trivial
  | cons x xs ih =>
    refine ⟨?_, ih.congr ?_⟩
    · simp
    · intro i h1 h2
      simp only [List.reverse_cons, ← List.append_assoc]
      rw [List.getElem?_append_left (l₁ := pre ++ xs.reverse) (by simp; omega)]

/-- Every frame of a bytecode method that fits in the stack area is represented by a state. -/
theorem rep_single {env : Env} {f : Frame} {heap : Heap} {log : List Ev} (hsz : env.size < 2 ^ 31)
    (hg : Good env f) (hfit : f.stack.length ≤ (env.meth f.m).code.maxStack)
    (hroom : f.locals.length + 4 + (env.meth f.m).code.maxStack ≤ env.size) (hpc : f.pc < 2 ^ 31) :
    Rep env (bottom f) (mkState f heap log) ⟨[f], heap, log⟩ := by
  have hm : ∀ (k : Nat) (x : Slot),
      [Slot.int 0#32, .int (-1#32), .obj f.m, .int 0#32][k]? = some x →
      (mkState f heap log).mem (f.locals.length + k) = x := by
    intro k x hk
    have hk4 : k < 4 := (List.getElem?_eq_some_iff.1 hk).1
    show ((f.locals ++ [Slot.int 0#32, .int (-1#32), .obj f.m, .int 0#32] ++ f.stack.reverse)[
      f.locals.length + k]?).getD Slot.zero = x
    rw [List.getElem?_append_left (by simp; omega), List.getElem?_append_right (by omega),
      Nat.add_sub_cancel_left, hk]
    rfl
  refine ⟨0, -1#32, ⟨hsz, by simp only; omega, hfit, fun _ _ => rfl, ?_, ?_, ?_, ?_, ?_, ?_, ?_,
    rfl, rfl, rfl, rfl, rfl⟩, hg, hpc, ⟨rfl, show (-1#32).toInt = -1 by decide, by simp [bottom]⟩,
    fun i hi => absurd hi (by simp [bottom])⟩
  · intro i x hx
    have hi : i < f.locals.length := (List.getElem?_eq_some_iff.1 hx).1
    show ((f.locals ++ [Slot.int 0#32, .int (-1#32), .obj f.m, .int 0#32] ++ f.stack.reverse)[
      0 + i]?).getD Slot.zero = x
    rw [Nat.zero_add, List.append_assoc, List.getElem?_append_left hi, hx]
    rfl
  · simp only [Nat.zero_add]; exact hm 0 _ rfl
  · simp only [Nat.zero_add]; exact hm 1 _ rfl
  · simp only [Nat.zero_add]; exact hm 2 _ rfl
  · have := stk_rev (f.locals ++ [.int 0#32, .int (-1#32), .obj f.m, .int 0#32]) f.stack
    simp only [Nat.zero_add]
    rw [show f.locals.length + 4 =
      (f.locals ++ [Slot.int 0#32, .int (-1#32), .obj f.m, .int 0#32]).length by simp]
    exact this
  · simp [mkState]
  · simp [mkState]

/-- A static method with the given code. -/
def exMeth (params locals stack : Nat) (body : List (BitVec 8)) (handlers : List (BitVec 64)) :
    Meth :=
  ⟨true, false, false, params, 0#64, ⟨body, locals, stack, handlers⟩⟩

/-- An environment with two methods and one field. -/
def exEnv (m1 m2 : Meth) (fd : Field) : Env where
  size := 1000
  meth m := if m = 1#64 then m1 else m2
  resolveMethod _ i := if i = 1#16 then some 2#64 else none
  resolveField _ i := if i = 2#16 then some fd else none
  resolveClass _ i := if i = 3#16 then some 7#64 else none
  constant _ _ := none
  constant2 _ _ := none
  dynamicTarget _ _ := none
  findVirtual m _ := m
  findInterface m _ := m
  specialTarget _ m := m
  subclass a b := a == b
  exClass _ := 9#64
  arrayClass c := c
  elemClass c := c
  newAddr _ := 100#64
  fp := ⟨fun a _ => a, fun a _ => a, fun a _ => a, fun a _ => a, fun a _ => a, fun a _ => a,
    fun a _ => a, fun a _ => a, fun a _ => a, fun a _ => a, fun _ => 0#64, fun _ => 0#32, id,
    fun _ => 0#64, fun _ => 0#32, id⟩

/-- `2 + 3`, then a call of a method that adds one to its argument, then return. -/
def exMain : Meth := exMeth 0 0 2 [0x05, 0x06, 0x60, 0xb8, 0, 1, 0xac] []
def exInc : Meth := exMeth 1 2 2 [0x1a, 0x04, 0x60, 0xac] []
def exCall : Env := exEnv exMain exInc ⟨.int, 8, 0#64⟩

/-! ### C51: whole executions -/

/-- The interpreter refines the specification step by step: from a state that represents a thread
state, a turn of the loop gives a state (a result, an uncaught exception) that represents the
outcome of the specified step, or of the stack overflow error when the stack area cannot hold a
further frame.  Excluded are the steps of `departs`. -/
theorem interpreter_step_refines_partial {env : Env} {pl : Place} {s : St} {ss : SS} {out : SOut}
    (hbody : ∀ m, (env.meth m).code.body.length < 2 ^ 31) (hp : pl.ok)
    (hr : Rep env pl s ss) (hal : handlersAligned env ss) (hd : ¬ departs env ss)
    (hov : Exhausted env pl ss.frames → overflowDefined env ss)
    (hs : Spec.step env ss = some out) :
    ∃ out', (out' = out ∨ (Exhausted env pl ss.frames ∧ overflow env ss = some out')) ∧
      StepIs env pl (step env pl.base s) out' := by
  have h := step_sim hbody hp hr hal hd hov hs
  have ho : ∀ out', Outcome env pl ss out' →
      (out' = out ∨ (Exhausted env pl ss.frames ∧ overflow env ss = some out')) := by
    rintro out' (h | h)
    · exact Or.inl (Option.some.inj (h.symm.trans hs))
    · exact Or.inr h
  unfold wp at h
  revert h
  generalize step env pl.base s = r
  intro h
  cases r with
  | ok a s' =>
    obtain ⟨out', h1, ss', rfl, hr'⟩ := h
    exact ⟨_, ho _ h1, s', rfl, hr'⟩
  | done r s' =>
    obtain ⟨out', h1, ss', rfl, hr'⟩ := h
    exact ⟨_, ho _ h1, s', rfl, hr'⟩
  | throw s' =>
    obtain ⟨out', h1, exc, heap, log, rfl, h2⟩ := h
    exact ⟨_, ho _ h1, s', rfl, h2⟩
  | undef => exact h.elim

/-- The same for runs of any length: if every thread state the specification can reach is one where
it is defined and no departure occurs, then however long the interpreter runs, it never does
anything undefined, and its state or its result is one the specification reaches. -/
theorem interpreter_run_refines_partial {env : Env} {pl : Place} {ss0 : SS} {s : St}
    (hbody : ∀ m, (env.meth m).code.body.length < 2 ^ 31) (hp : pl.ok) (hsafe : Safe env pl ss0)
    (hr : Rep env pl s ss0) (n : Nat) : RunOk env pl ss0 (run env pl.base n s) :=
  run_sim hbody hp hsafe n .refl hr

/-- The states of the example program. -/
def exTrace : Nat → SS
  | 0 => ⟨[⟨1#64, 0, [], [], none⟩], fun _ => none, []⟩
  | 1 => ⟨[⟨1#64, 1, [], [.int 2], none⟩], fun _ => none, []⟩
  | 2 => ⟨[⟨1#64, 2, [], [.int 3, .int 2], none⟩], fun _ => none, []⟩
  | 3 => ⟨[⟨1#64, 3, [], [.int 5], none⟩], fun _ => none, []⟩
  | 4 => ⟨[⟨2#64, 0, [.int 5, .int 0], [], none⟩, ⟨1#64, 3, [], [], none⟩], fun _ => none, []⟩
  | 5 => ⟨[⟨2#64, 1, [.int 5, .int 0], [.int 5], none⟩, ⟨1#64, 3, [], [], none⟩], fun _ => none, []⟩
  | 6 => ⟨[⟨2#64, 2, [.int 5, .int 0], [.int 1, .int 5], none⟩, ⟨1#64, 3, [], [], none⟩],
      fun _ => none, []⟩
  | 7 => ⟨[⟨2#64, 3, [.int 5, .int 0], [.int 6], none⟩, ⟨1#64, 3, [], [], none⟩],
      fun _ => none, []⟩
  | _ => ⟨[⟨1#64, 6, [], [.int 6], none⟩], fun _ => none, []⟩

private theorem exCases : ∀ i, i ≤ 8 →
    i = 0 ∨ i = 1 ∨ i = 2 ∨ i = 3 ∨ i = 4 ∨ i = 5 ∨ i = 6 ∨ i = 7 ∨ i = 8 := by omega

private theorem exCall_meth (m : Ref) : exCall.meth m = exMain ∨ exCall.meth m = exInc := by
  show (if m = 1#64 then exMain else exInc) = _ ∨ (if m = 1#64 then exMain else exInc) = _
  split <;> simp

theorem exCall_body (m : Ref) : (exCall.meth m).code.body.length < 2 ^ 31 := by
  rcases exCall_meth m with e | e <;> rw [e] <;> decide

theorem exCall_step {i : Nat} (hi : i < 8) :
    Spec.step exCall (exTrace i) = some (.next (exTrace (i + 1))) := by
  rcases exCases i (by omega) with rfl | rfl | rfl | rfl | rfl | rfl | rfl | rfl | rfl
  all_goals first | rfl | omega

theorem exCall_room {i : Nat} (hi : i ≤ 8) :
    ¬ Exhausted exCall (bottom ⟨1#64, 0, [], [], none⟩) (exTrace i).frames := by
  rintro ⟨m, h⟩
  have hu : slotsUsed (exTrace i).frames ≤ 20 := by
    rcases exCases i hi with rfl | rfl | rfl | rfl | rfl | rfl | rfl | rfl | rfl <;> decide
  have h0 : (bottom ⟨1#64, 0, [], [], none⟩).b0 = 0 := rfl
  have hs : exCall.size = 1000 := rfl
  rw [h0, hs] at h
  rcases exCall_meth m with e | e <;>
    (rw [e] at h; simp only [exMain, exInc, exMeth] at h; omega)

theorem exCall_aligned (i : Nat) : handlersAligned exCall (exTrace i) := by
  intro f _ _ _ _ eh heh
  have : (exCall.meth f.m).code.handlers = [] := by
    rcases exCall_meth f.m with e | e <;> rw [e] <;> rfl
  rw [this] at heh
  exact absurd heh (by simp)

theorem exCall_locks (f : Frame) : ¬ lockDeparts exCall f := by
  rintro ⟨h, _⟩
  have : (exCall.meth f.m).isSync = false := by
    rcases exCall_meth f.m with e | e <;> rw [e] <;> rfl
  rw [this] at h
  exact absurd h (by simp)

theorem exCall_not_departs {i : Nat} (hi : i ≤ 8) : ¬ departs exCall (exTrace i) := by
  rintro (⟨f, _, h⟩ | h)
  · exact exCall_locks f h
  · rcases exCases i hi with rfl | rfl | rfl | rfl | rfl | rfl | rfl | rfl | rfl <;>
      (rcases h with ⟨h, _⟩ | h
       · exact absurd h (by decide)
       · exact h)

/-- The example program is safe, so the theorem on runs applies to it. -/
theorem exCall_safe : Safe exCall (bottom ⟨1#64, 0, [], [], none⟩) (exTrace 0) :=
  Safe.ofTrace (n := 8) (r := [.int 6]) (ss := ⟨[⟨1#64, 6, [], [], none⟩], fun _ => none, []⟩)
    (fun _ hi => exCall_step hi) rfl (fun _ hi => exCall_room hi) (fun i _ => exCall_aligned i)
    (fun _ hi => exCall_not_departs hi)

/-- Every state of the example is represented by a state the interpreter reaches. -/
theorem exCall_rep (i : Nat) (hi : i ≤ 8) :
    ∃ s, Rep exCall (bottom ⟨1#64, 0, [], [], none⟩) s (exTrace i) := by
  induction i with
  | zero =>
    exact ⟨_, rep_single (f := ⟨1#64, 0, [], [], none⟩) (by decide)
      ⟨rfl, rfl, ⟨fun _ => rfl, nofun, nofun⟩⟩ (by decide) (by decide) (by decide)⟩
  | succ i ih =>
    obtain ⟨s, hs⟩ := ih (by omega)
    obtain ⟨s', _, h⟩ := step_exact (out := .next (exTrace (i + 1))) exCall_body (bottom_ok _) hs
      (exCall_aligned i) (exCall_not_departs (by omega))
      (fun h => exCall_room (i := i) (by omega) h.2) (exCall_step (by omega))
    exact ⟨s', h⟩

example (n : Nat) : RunOk exCall (bottom ⟨1#64, 0, [], [], none⟩) (exTrace 0)
    (run exCall (bottom ⟨1#64, 0, [], [], none⟩).base n
      (mkState ⟨1#64, 0, [], [], none⟩ (fun _ => none) [])) :=
  interpreter_run_refines_partial exCall_body (bottom_ok _) exCall_safe
    (rep_single (by decide) ⟨rfl, rfl, ⟨fun _ => rfl, nofun, nofun⟩⟩ (by decide) (by decide)
      (by decide)) n

/-- The result of a run. -/
def RunRes.result : RunRes → Option (List Slot)
  | .done r _ => some r
  | _ => none

/-- The run ends with the result 6. -/
example : (run exCall 0 9 (mkState ⟨1#64, 0, [], [], none⟩ (fun _ => none) [])).result =
    some [.int 6#32] := by decide +kernel

/-! ### C41, C42, C44, C50: instructions on the operand stack -/

section
variable {env : Env} {pl : Place} {s : St} {f : Frame} {rest : List Frame} {heap : Heap}
  {log : List Ev} {x : BitVec 8} {o : SOp} {st st' : List Slot}

/-- The integer instructions: arithmetic, shifts, logic, conversions and `lcmp`. -/
def integerOps : List SOp :=
  [.iadd, .isub, .imul, .idiv, .irem, .ineg, .ishl, .ishr, .iushr, .iand, .ior, .ixor,
   .ladd, .lsub, .lmul, .ldiv, .lrem, .lneg, .lshl, .lshr, .lushr, .land, .lor, .lxor,
   .i2l, .l2i, .i2b, .i2c, .i2s, .lcmp]

/-- Division of the most negative value by -1. -/
def minByMinusOne : SOp → List Slot → Prop
  | .idiv, .int b :: .int a :: _ | .irem, .int b :: .int a :: _ => a.toInt = -2 ^ 31 ∧ b.toInt = -1
  | .ldiv, .int bl :: .int bh :: .int al :: .int ah :: _
  | .lrem, .int bl :: .int bh :: .int al :: .int ah :: _ =>
    (asLong ah al).toInt = -2 ^ 63 ∧ (asLong bh bl).toInt = -1
  | _, _ => False

private theorem int_min {a b : BitVec 32} (h : a = BitVec.intMin 32 ∧ b = BitVec.allOnes 32) :
    a.toInt = -2 ^ 31 ∧ b.toInt = -1 := by
  rw [h.1, h.2]; decide

private theorem long_min {a b : BitVec 64} (h : a = BitVec.intMin 64 ∧ b = BitVec.allOnes 64) :
    a.toInt = -2 ^ 63 ∧ b.toInt = -1 := by
  rw [h.1, h.2]; decide

private theorem div_departs (ho : o = .idiv ∨ o = .irem ∨ o = .ldiv ∨ o = .lrem) :
    ∀ st : List Slot, o.departs st → minByMinusOne o st
  | [], h => by rcases ho with rfl | rfl | rfl | rfl <;> exact False.elim h
  | .obj _ :: _, h => by rcases ho with rfl | rfl | rfl | rfl <;> exact False.elim h
  | [.int _], h => by rcases ho with rfl | rfl | rfl | rfl <;> exact False.elim h
  | .int _ :: .obj _ :: _, h => by rcases ho with rfl | rfl | rfl | rfl <;> exact False.elim h
  | [.int _, .int _], h => by
    rcases ho with rfl | rfl | rfl | rfl
    · exact int_min h
    · exact int_min h
    · exact False.elim h
    · exact False.elim h
  | .int _ :: .int _ :: .obj _ :: _, h => by
    rcases ho with rfl | rfl | rfl | rfl
    · exact int_min h
    · exact int_min h
    · exact False.elim h
    · exact False.elim h
  | [.int _, .int _, .int _], h => by
    rcases ho with rfl | rfl | rfl | rfl
    · exact int_min h
    · exact int_min h
    · exact False.elim h
    · exact False.elim h
  | .int _ :: .int _ :: .int _ :: .obj _ :: _, h => by
    rcases ho with rfl | rfl | rfl | rfl
    · exact int_min h
    · exact int_min h
    · exact False.elim h
    · exact False.elim h
  | .int _ :: .int _ :: .int _ :: .int _ :: _, h => by
    rcases ho with rfl | rfl | rfl | rfl
    · exact int_min h
    · exact int_min h
    · exact long_min h
    · exact long_min h

private theorem integer_departs (ho : o ∈ integerOps) (h : o.departs st) : minByMinusOne o st := by
  simp only [integerOps, List.mem_cons, List.not_mem_nil, or_false] at ho
  rcases ho with h1 | h1 | h1 | h1 | h1 | h1 | h1 | h1 | h1 | h1 | h1 | h1 | h1 | h1 | h1 | h1 | h1 |
    h1 | h1 | h1 | h1 | h1 | h1 | h1 | h1 | h1 | h1 | h1 | h1 | h1 <;> subst h1 <;>
  first
    | exact False.elim h
    | exact div_departs (by simp) _ h

/-- An integer instruction replaces its operands by the value the specification gives (written
there with integers modulo the width), for all operand values; nothing else changes except the
position.  Missing: division of the most negative value by -1, see `idiv_min_undefined`. -/
theorem integer_instructions_partial
    (hbody : (env.meth f.m).code.body.length < 2 ^ 31)
    (hr : Rep env pl s ⟨f :: rest, heap, log⟩)
    (hx : (env.meth f.m).code.body[f.pc]? = some x) (hop : simple x.toNat = some (.op o))
    (ho : o ∈ integerOps) (he : o.eval env.fp f.stack = some (.ok st'))
    (hfit : st'.length ≤ (env.meth f.m).code.maxStack)
    (hnext : f.pc + 1 < (env.meth f.m).code.body.length) (hm : ¬ minByMinusOne o f.stack) :
    ∃ s', step env pl.base s = .ok () s' ∧
      Rep env pl s' ⟨{ f with pc := f.pc + 1, stack := st' } :: rest, heap, log⟩ :=
  op_step hbody hr hx hop he hfit hnext fun h => hm (integer_departs ho h)

/-- The instructions that shuffle the stack. -/
def shuffleOps : List SOp :=
  [.pop, .pop2, .dup, .dup_x1, .dup_x2, .dup2, .dup2_x1, .dup2_x2, .swap]

/-- A stack instruction leaves exactly the specified slots, of either kind, above those it does not
use. -/
theorem shuffle_instructions
    (hbody : (env.meth f.m).code.body.length < 2 ^ 31)
    (hr : Rep env pl s ⟨f :: rest, heap, log⟩)
    (hx : (env.meth f.m).code.body[f.pc]? = some x) (hop : simple x.toNat = some (.op o))
    (ho : o ∈ shuffleOps) (he : o.eval env.fp f.stack = some (.ok st'))
    (hfit : st'.length ≤ (env.meth f.m).code.maxStack)
    (hnext : f.pc + 1 < (env.meth f.m).code.body.length) :
    ∃ s', step env pl.base s = .ok () s' ∧
      Rep env pl s' ⟨{ f with pc := f.pc + 1, stack := st' } :: rest, heap, log⟩ := by
  refine op_step hbody hr hx hop he hfit hnext fun h => ?_
  simp only [shuffleOps, List.mem_cons, List.not_mem_nil, or_false] at ho
  rcases ho with h1 | h1 | h1 | h1 | h1 | h1 | h1 | h1 | h1 <;> subst h1 <;> exact h

/-- Every stack instruction has its opcode. -/
example : simple 0x57 = some (.op .pop) ∧ simple 0x58 = some (.op .pop2) ∧
    simple 0x59 = some (.op .dup) ∧ simple 0x5a = some (.op .dup_x1) ∧
    simple 0x5b = some (.op .dup_x2) ∧ simple 0x5c = some (.op .dup2) ∧
    simple 0x5d = some (.op .dup2_x1) ∧ simple 0x5e = some (.op .dup2_x2) ∧
    simple 0x5f = some (.op .swap) := by decide

/-- An example of each: `dup2_x1` on mixed slots; multiplication that wraps. -/
example : ∃ s', step (exEnv (exMeth 0 0 6 [0x5d, 0xb1] []) exInc ⟨.int, 8, 0#64⟩) 0
      (mkState ⟨1#64, 0, [], [.int 1, .obj 5, .int 3, .obj 4], none⟩ (fun _ => none) []) = .ok () s' ∧
    Rep (exEnv (exMeth 0 0 6 [0x5d, 0xb1] []) exInc ⟨.int, 8, 0#64⟩)
      (bottom ⟨1#64, 0, [], [.int 1, .obj 5, .int 3, .obj 4], none⟩) s'
      ⟨[⟨1#64, 1, [], [.int 1, .obj 5, .int 3, .int 1, .obj 5, .obj 4], none⟩], fun _ => none, []⟩ :=
  shuffle_instructions (o := .dup2_x1) (f := ⟨1#64, 0, [], [.int 1, .obj 5, .int 3, .obj 4], none⟩)
    (pl := bottom ⟨1#64, 0, [], [.int 1, .obj 5, .int 3, .obj 4], none⟩)
    (by decide)
    (rep_single (by decide) ⟨rfl, rfl, ⟨fun _ => rfl, nofun, nofun⟩⟩ (by decide) (by decide)
      (by decide)) rfl rfl (by decide) rfl (by decide) (by decide)

example : ∃ s', step (exEnv (exMeth 0 0 6 [0x68, 0xb1] []) exInc ⟨.int, 8, 0#64⟩) 0
      (mkState ⟨1#64, 0, [], [.int 0x10000, .int 0x10001], none⟩ (fun _ => none) []) = .ok () s' ∧
    Rep (exEnv (exMeth 0 0 6 [0x68, 0xb1] []) exInc ⟨.int, 8, 0#64⟩)
      (bottom ⟨1#64, 0, [], [.int 0x10000, .int 0x10001], none⟩) s'
      ⟨[⟨1#64, 1, [], [.int 0x10000], none⟩], fun _ => none, []⟩ :=
  integer_instructions_partial (o := .imul)
    (f := ⟨1#64, 0, [], [.int 0x10000, .int 0x10001], none⟩)
    (pl := bottom ⟨1#64, 0, [], [.int 0x10000, .int 0x10001], none⟩)
    (by decide)
    (rep_single (by decide) ⟨rfl, rfl, ⟨fun _ => rfl, nofun, nofun⟩⟩ (by decide) (by decide)
      (by decide)) rfl rfl (by decide) rfl (by decide) (by decide) id

/-- The floating-point comparisons. -/
def compareOps : List SOp := [.fcmpl, .fcmpg, .dcmpl, .dcmpg]

/-- An operand of a floating-point comparison is not a number. -/
def nanOperand : SOp → List Slot → Prop
  | .fcmpl, .int b :: .int a :: _ | .fcmpg, .int b :: .int a :: _ =>
    fval a = .nan ∨ fval b = .nan
  | .dcmpl, .int bl :: .int bh :: .int al :: .int ah :: _
  | .dcmpg, .int bl :: .int bh :: .int al :: .int ah :: _ =>
    dval (asLong ah al) = .nan ∨ dval (asLong bh bl) = .nan
  | _, _ => False

/-- A floating-point comparison of two numbers (infinities included) pushes exactly one integer,
-1, 0 or 1.  Missing: operands that are not numbers, see `fcmp_nan_pushes_two`. -/
theorem fp_compare_partial
    (hbody : (env.meth f.m).code.body.length < 2 ^ 31)
    (hr : Rep env pl s ⟨f :: rest, heap, log⟩)
    (hx : (env.meth f.m).code.body[f.pc]? = some x) (hop : simple x.toNat = some (.op o))
    (ho : o ∈ compareOps) (he : o.eval env.fp f.stack = some (.ok st'))
    (hfit : st'.length ≤ (env.meth f.m).code.maxStack)
    (hnext : f.pc + 1 < (env.meth f.m).code.body.length) (hn : ¬ nanOperand o f.stack) :
    ∃ s', step env pl.base s = .ok () s' ∧
      Rep env pl s' ⟨{ f with pc := f.pc + 1, stack := st' } :: rest, heap, log⟩ := by
  refine op_step hbody hr hx hop he hfit hnext fun h => ?_
  simp only [compareOps, List.mem_cons, List.not_mem_nil, or_false] at ho
  generalize f.stack = l at hn h
  rcases ho with h1 | h1 | h1 | h1 <;> subst h1 <;>
    rcases l with _ | ⟨_ | _, _ | ⟨_ | _, _ | ⟨_ | _, _ | ⟨_ | _, _⟩⟩⟩⟩ <;> exact hn h

/-- The result is one of the three integers. -/
theorem compare_result {u : Int} (hu : u = 1 ∨ u = -1) (a b : FVal) :
    compareFP u a b = -1 ∨ compareFP u a b = 0 ∨ compareFP u a b = 1 := by
  unfold compareFP
  repeat' split
  all_goals omega

/-- The conversions of floating-point values to integers, other than `f2l`. -/
def saturatingOps : List SOp := [.f2i, .d2i, .d2l]

/-- `f2i`, `d2i` and `d2l` truncate and saturate, and take not-a-number to zero, for every bit
pattern. -/
theorem fp_to_integer
    (hbody : (env.meth f.m).code.body.length < 2 ^ 31)
    (hr : Rep env pl s ⟨f :: rest, heap, log⟩)
    (hx : (env.meth f.m).code.body[f.pc]? = some x) (hop : simple x.toNat = some (.op o))
    (ho : o ∈ saturatingOps) (he : o.eval env.fp f.stack = some (.ok st'))
    (hfit : st'.length ≤ (env.meth f.m).code.maxStack)
    (hnext : f.pc + 1 < (env.meth f.m).code.body.length) :
    ∃ s', step env pl.base s = .ok () s' ∧
      Rep env pl s' ⟨{ f with pc := f.pc + 1, stack := st' } :: rest, heap, log⟩ := by
  refine op_step hbody hr hx hop he hfit hnext fun h => ?_
  simp only [saturatingOps, List.mem_cons, List.not_mem_nil, or_false] at ho
  rcases ho with h1 | h1 | h1 <;> subst h1 <;> exact h

/-- `f2l` does so for not-a-number, the infinities and numbers whose truncation is in the range of
`long`.  Missing: other numbers, see `f2l_large_undefined`. -/
theorem f2l_partial {a : BitVec 32}
    (hbody : (env.meth f.m).code.body.length < 2 ^ 31)
    (hr : Rep env pl s ⟨f :: rest, heap, log⟩)
    (hx : (env.meth f.m).code.body[f.pc]? = some 0x8c#8)
    (hst : f.stack = .int a :: st)
    (hfit : st.length + 2 ≤ (env.meth f.m).code.maxStack)
    (hnext : f.pc + 1 < (env.meth f.m).code.body.length)
    (hrange : ∀ v, fval a = .fin v →
      -(2 ^ 63) ≤ v.tdiv (2 ^ fscale) ∧ v.tdiv (2 ^ fscale) < 2 ^ 63) :
    ∃ s', step env pl.base s = .ok () s' ∧
      Rep env pl s' ⟨{ f with pc := f.pc + 1, stack := pushL (toInteger 64 fscale (fval a)) st }
        :: rest, heap, log⟩ := by
  refine op_step (o := .f2l) hbody hr hx rfl (by rw [hst]; rfl) (by simpa [pushL] using hfit) hnext ?_
  rw [hst]
  rintro ⟨v, h1, h2⟩
  exact h2 (hrange v h1)

/-- 1.5f, not a number, and 2^31 as `float`. -/
example : toInteger 32 fscale (fval 0x3fc00000#32) = 1#32 ∧
    toInteger 32 fscale (fval 0x7fc00000#32) = 0#32 ∧
    toInteger 32 fscale (fval 0x4f000000#32) = 0x7fffffff#32 := by decide +kernel

/-- 1.0f < 2.0f. -/
example : compareFP (-1) (fval 0x3f800000#32) (fval 0x40000000#32) = -1 ∧
    ¬ nanOperand .fcmpl [.int 0x40000000#32, .int 0x3f800000#32] := by
  refine ⟨by decide +kernel, ?_⟩
  rintro (h | h) <;> revert h <;> decide +kernel

end

end Avian.Interp
