import Verif.Codegen.Moves

/-
Jumps and calls whose distance is filled in when the addresses are known.

The specification is `linked`: every jump with its distance, from the address behind it to its target.
-/
namespace Avian.X86

open Cpu (Byte Width Rex Rm R State Fpu Next Out Instr)

/-- A piece of a program: bytes, or an instruction that goes to an address. -/
inductive Item where
  | code (l : List Byte)
  | jump (op : List Byte) (target : BitVec 64)

/-- Specification: the bytes at address `pc`; `none` if some target is further than 32 bits can tell. -/
def linked (pc : BitVec 64) : List Item → Option (List Byte)
  | [] => some []
  | .code l :: rest => (linked (behind pc l) rest).map (l ++ ·)
  | .jump op target :: rest =>
    let here := pc + BitVec.ofNat 64 (op.length + 4)
    if fitsInInt32 (target - here) then (linked here rest).map (op ++ append4 (target - here) ++ ·) else none

/-- encode.cpp:162-176 `unconditional`, `conditional`: bytes are appended; for a jump, four more and a task. -/
def emit (c : Asm) : Item → Asm
  | .code l => ⟨c.code ++ l, c.tasks⟩
  | .jump op target => ⟨c.code ++ op ++ append4 0, ⟨c.code.length, op.length + 4, target⟩ :: c.tasks⟩

def emitAll (c : Asm) (items : List Item) : Asm := items.foldl emit c

theorem conditional_emit (c : Asm) (v : Byte) (t : BitVec 64) : conditional c v t = emit c (.jump [0x0f#8, v] t) := rfl

theorem unconditional_emit (c : Asm) (v : Byte) (t : BitVec 64) : unconditional c v t = emit c (.jump [v] t) := rfl

/-- The tasks are about bytes that are there. -/
def InRange (tasks : List Task) (n : Nat) : Prop := ∀ t ∈ tasks, 4 ≤ t.size ∧ t.offset + t.size ≤ n

theorem length_append4 (v : BitVec 64) : (append4 v).length = 4 := rfl

theorem resolveOffset_length {result : BitVec 64} {t : Task} {code code' : List Byte} (ht : 4 ≤ t.size ∧ t.offset + t.size ≤ code.length)
    (h : resolveOffset result t code = some code') : code'.length = code.length := by
  unfold resolveOffset at h
  simp only at h
  split at h
  · cases h
    simp only [List.length_append, List.length_take, List.length_drop, length_append4]
    omega
  · cases h

theorem resolveOffset_append (result : BitVec 64) (t : Task) (code tail : List Byte) (ht : 4 ≤ t.size ∧ t.offset + t.size ≤ code.length) :
    resolveOffset result t (code ++ tail) = (resolveOffset result t code).map (· ++ tail) := by
  unfold resolveOffset
  simp only
  split
  · simp only [Option.map_some, Option.some.injEq]
    rw [List.take_append_of_le_length (by omega), List.drop_append_of_le_length (by omega)]
    simp
  · rfl

/-- Tasks leave what comes behind their bytes alone. -/
theorem resolve_append (result : BitVec 64) (tasks : List Task) (code tail : List Byte) (h : InRange tasks code.length) :
    resolve result tasks (code ++ tail) = (resolve result tasks code).map (· ++ tail) := by
  induction tasks generalizing code with
  | nil => rfl
  | cons t ts ih =>
    have ht := h t (by simp)
    simp only [resolve]
    rw [resolveOffset_append result t code tail ht]
    cases hr : resolveOffset result t code with
    | none => rfl
    | some code' =>
      simp only [Option.map_some]
      refine ih code' ?_
      rw [resolveOffset_length ht hr]
      exact fun t' ht' => h t' (by simp [ht'])

theorem resolve_length {result : BitVec 64} {tasks : List Task} {code code' : List Byte} (h : InRange tasks code.length)
    (e : resolve result tasks code = some code') : code'.length = code.length := by
  induction tasks generalizing code with
  | nil => cases e; rfl
  | cons t ts ih =>
    have ht := h t (by simp)
    simp only [resolve] at e
    cases hr : resolveOffset result t code with
    | none => rw [hr] at e; cases e
    | some c =>
      rw [hr] at e
      have hl := resolveOffset_length ht hr
      rw [← hl]
      exact ih (by rw [hl]; exact fun t' ht' => h t' (by simp [ht'])) e

theorem emit_range {c : Asm} (h : InRange c.tasks c.code.length) (i : Item) : InRange (emit c i).tasks (emit c i).code.length := by
  cases i with
  | code l =>
    intro t ht
    have := h t ht
    simp only [emit, List.length_append]
    omega
  | jump op target =>
    intro t ht
    simp only [emit, List.mem_cons] at ht
    simp only [emit, List.length_append, length_append4]
    rcases ht with rfl | ht
    · simp only; omega
    · have := h t ht
      omega

/-- The jump that was emitted last is filled in, then the others. -/
theorem resolve_emit (result : BitVec 64) (c : Asm) (h : InRange c.tasks c.code.length) (i : Item) :
    resolve result (emit c i).tasks (emit c i).code =
      (resolve result c.tasks c.code).bind fun code => (linked (behind result c.code) [i]).map (code ++ ·) := by
  cases i with
  | code l =>
    simp only [emit, linked, Option.map_some, List.append_nil]
    rw [resolve_append _ _ _ _ h]
    cases resolve result c.tasks c.code <;> rfl
  | jump op target =>
    have hv : target - (result + BitVec.ofNat 64 c.code.length) - BitVec.ofNat 64 (op.length + 4) =
        target - (behind result c.code + BitVec.ofNat 64 (op.length + 4)) := by
      simp only [behind, BitVec.sub_eq_add_neg, BitVec.neg_add]
      simp only [BitVec.add_assoc]
    simp only [emit, resolve, resolveOffset, linked]
    rw [hv]
    generalize target - (behind result c.code + BitVec.ofNat 64 (op.length + 4)) = v
    by_cases hf : fitsInInt32 v = true
    · rw [if_pos hf, if_pos hf]
      have e1 : c.code.length + (op.length + 4) - 4 = (c.code ++ op).length := by simp only [List.length_append]; omega
      have e2 : (c.code ++ op ++ append4 0).take (c.code ++ op).length = c.code ++ op := List.take_left
      have e3 : (c.code ++ op ++ append4 0).drop ((c.code ++ op).length + 4) = [] := by
        apply List.drop_eq_nil_of_le
        simp only [List.length_append, length_append4]
        omega
      simp only [e1, e2, e3, List.append_nil, Option.map_some]
      rw [List.append_assoc, resolve_append _ _ _ _ h]
      cases resolve result c.tasks c.code <;> simp
    · rw [if_neg hf, if_neg hf]
      cases resolve result c.tasks c.code <;> rfl

def Item.bytes : Item → Nat
  | .code l => l.length
  | .jump op _ => op.length + 4

theorem linked_cons (pc : BitVec 64) (i : Item) (rest : List Item)  :
    linked pc (i :: rest) = (linked pc [i]).bind fun a => (linked (pc + BitVec.ofNat 64 i.bytes) rest).map (a ++ ·) := by
  cases i with
  | code l =>
    simp only [linked, behind, Option.map_some, List.append_nil]
    rfl
  | jump op target =>
    simp only [linked]
    split
    · simp [Item.bytes]
    · rfl

theorem emit_length (c : Asm) (i : Item) :
    (emit c i).code.length = c.code.length + i.bytes := by
  cases i with
  | code l => simp [emit, Item.bytes]
  | jump op t => simp only [emit, Item.bytes, List.length_append, length_append4]; omega

/-- All that is emitted behind `c` is as the specification says. -/
theorem resolve_emitAll (result : BitVec 64) (items : List Item) (c : Asm) (h : InRange c.tasks c.code.length) :
    resolve result (emitAll c items).tasks (emitAll c items).code =
      (resolve result c.tasks c.code).bind fun code => (linked (behind result c.code) items).map (code ++ ·) := by
  induction items generalizing c with
  | nil =>
    simp only [emitAll, List.foldl_nil, linked, Option.map_some, List.append_nil]
    cases resolve result c.tasks c.code <;> rfl
  | cons i items ih =>
    have : emitAll c (i :: items) = emitAll (emit c i) items := rfl
    rw [this, ih (emit c i) (emit_range h i), resolve_emit result c h i, linked_cons _ i items]
    have hb : behind result (emit c i).code =
        behind result c.code + BitVec.ofNat 64 i.bytes := by
      unfold behind
      rw [emit_length, BitVec.ofNat_add, BitVec.add_assoc]
    rw [hb]
    cases resolve result c.tasks c.code with
    | none => rfl
    | some code =>
      simp only [Option.bind_some]
      cases linked (behind result c.code) [i] with
      | none => rfl
      | some a =>
        simp only [Option.map_some, Option.bind_some]
        cases linked _ items <;> simp

/-- A program is what the specification says. -/
theorem resolve_linked (result : BitVec 64) (items : List Item) :
    resolve result (emitAll ⟨[], []⟩ items).tasks (emitAll ⟨[], []⟩ items).code = linked result items := by
  rw [resolve_emitAll result items ⟨[], []⟩ (by intro t ht; cases ht)]
  simp [resolve, behind]

/-! ### The bytes of jumps -/

theorem cond_fields : ∀ cc : BitVec 4, (8#4 ++ cc : BitVec 8).extractLsb' 4 4 = 8#4 ∧ (8#4 ++ cc : BitVec 8).extractLsb' 0 4 = cc := by
  decide

theorem decode_jcc (cc : BitVec 4) (v : BitVec 64) (hv : fitsInInt32 v = true) (rest : List Byte) :
    Cpu.decode ([0x0f#8, 8#4 ++ cc] ++ append4 v ++ rest) = some (.jcc cc v, rest) := by
  have h : ([0x0f#8, 8#4 ++ cc] ++ append4 v ++ rest) = 0x0f#8 :: (8#4 ++ cc) :: (append4 v ++ rest) := by simp
  obtain ⟨h1, h2⟩ := cond_fields cc
  rw [h]
  simp only [Cpu.decode, Cpu.takePfx, Cpu.takeRex]
  simp [Cpu.decode2, h1, h2, le4_append4, fits32 hv]

theorem decode_jp (v : Byte) (rest : List Byte) :
    Cpu.decode ([0x7a#8, v] ++ rest) = some (.jcc 10#4 (v.signExtend 64), rest) := by
  simp [Cpu.decode, Cpu.takePfx, Cpu.takeRex, Cpu.decode1, Cpu.immOf]

theorem decode_e8 (v : BitVec 64) (hv : fitsInInt32 v = true) (rest : List Byte) :
    Cpu.decode ([0xe8#8] ++ append4 v ++ rest) = some (.call v, rest) := by
  have h : ([0xe8#8] ++ append4 v ++ rest) = 0xe8#8 :: (append4 v ++ rest) := by simp
  rw [h]
  simp only [Cpu.decode, Cpu.takePfx, Cpu.takeRex]
  simp [Cpu.decode1, le4_append4, fits32 hv]

theorem decode_e9 (v : BitVec 64) (hv : fitsInInt32 v = true) (rest : List Byte) :
    Cpu.decode ([0xe9#8] ++ append4 v ++ rest) = some (.jmp v, rest) := by
  have h : ([0xe9#8] ++ append4 v ++ rest) = 0xe9#8 :: (append4 v ++ rest) := by simp
  rw [h]
  simp only [Cpu.decode, Cpu.takePfx, Cpu.takeRex]
  simp [Cpu.decode1, le4_append4, fits32 hv]

theorem decode_ret (rest : List Byte) : Cpu.decode (return_ ++ rest) = some (.ret, rest) := by
  simp [return_, Cpu.decode, Cpu.takePfx, Cpu.takeRex, Cpu.decode1]

theorem decode_trap (rest : List Byte) : Cpu.decode (trap ++ rest) = some (.int3, rest) := by
  simp [trap, Cpu.decode, Cpu.takePfx, Cpu.takeRex, Cpu.decode1]

end Avian.X86
