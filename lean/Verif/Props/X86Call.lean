import Verif.Codegen.Frame
import Verif.Props.X86Branch

/-
**C89.** Calls, jumps, returns and frames of compiled code.
-/
namespace Avian.X86

open Cpu (Byte Width Rex Rm R State Fpu Next Out Instr)

/-! ### Specification -/

/-- Code that ends with a call: control goes to `target`, and the address behind the code is on the stack.  Nothing else changes
but the registers in `scratch`. -/
structure Called (s s' : State) (back : BitVec 64) (scratch : List R) : Prop where
  stack : s'.gpr (num4 rsp) = s.gpr (num4 rsp) - 8
  stored : Stored s s' .q (s.gpr (num4 rsp) - 8) back (num4 rsp :: scratch)

def Calls (fpu : Fpu) (code : List Byte) (pc : BitVec 64) (s : State) (target : BitVec 64) (scratch : List R) : Prop :=
  ∃ s', Goes fpu code pc s target s' ∧ Called s s' (behind pc code) scratch

def Jumps (fpu : Fpu) (code : List Byte) (pc : BitVec 64) (s : State) (target : BitVec 64) (scratch : List R) : Prop :=
  ∃ s', Goes fpu code pc s target s' ∧ Kept s s' scratch

/-! ### Calls and jumps -/

theorem goes_code {fpu : Fpu} {code : List Byte} {pc : BitVec 64} {s s' : State} {a : BitVec 64} (i : Instr)
    (hc : code ≠ []) (hd : ∀ rest, Cpu.decode (code ++ rest) = some (i, rest))
    (he : Cpu.exec fpu i (behind pc code) s = .jump a s') : Goes fpu code pc s a s' := by
  have := goes_one i [] hc (hd []) he
  rw [List.append_nil] at this
  exact this

/-- The state behind a call. -/
theorem called (s : State) (back : BitVec 64) :
    Called s { s with gpr := Cpu.setReg s.gpr 4 (s.gpr 4 - 8), mem := Cpu.writeMem s.mem (s.gpr 4 - 8) .q back } back [] := by
  refine ⟨rfl, ?_, fun x hx => write_others _ _ _ _ x hx, ?_, rfl⟩
  · have := holds_write s.mem (s.gpr 4 - 8) .q back
    rw [show lo Width.q back = back from BitVec.setWidth_eq _] at this
    exact this
  · intro r hr
    simp only [List.mem_singleton] at hr
    have : ¬ r = 4 := fun h => hr (by rw [h]; rfl)
    simp only [Cpu.setReg]
    rw [if_neg this]

theorem get_q (s : State) (next : BitVec 64) (a : R) : Cpu.get s next .q (.reg a) = s.gpr a := by
  simp [Cpu.get, Cpu.Width.bits]

/-- A call or jump whose distance has been filled in. -/
theorem unconditional_code {op : Byte} {target pc : BitVec 64} {code : List Byte}
    (h : resolve pc (unconditional ⟨[], []⟩ op target).tasks (unconditional ⟨[], []⟩ op target).code = some code) :
    fitsInInt32 (target - (pc + 5)) = true ∧ code = [op] ++ append4 (target - (pc + 5)) := by
  have e : unconditional ⟨[], []⟩ op target = emitAll ⟨[], []⟩ [.jump [op] target] := rfl
  rw [e, resolve_linked] at h
  simp only [linked, List.length_cons, List.length_nil] at h
  split at h
  · rename_i hf
    simp only [Option.map_some, Option.some.injEq, List.append_nil] at h
    exact ⟨hf, h.symm⟩
  · cases h

/-- **A call of an address.** -/
theorem call_ok (target : BitVec 64) (fpu : Fpu) (pc : BitVec 64) (s : State) (code : List Byte)
    (h : resolve pc (callC target).tasks (callC target).code = some code) : Calls fpu code pc s target [] := by
  obtain ⟨hf, rfl⟩ := unconditional_code h
  refine ⟨_, goes_code (.call (target - (pc + 5))) (by simp) (decode_e8 _ hf) ?_, called s _⟩
  have e : behind pc ([0xe8#8] ++ append4 (target - (pc + 5))) = pc + 5 := by simp [behind, append4]
  simp only [Cpu.exec, e, behind_target]

/-- **A jump to an address.** -/
theorem jump_ok (target : BitVec 64) (fpu : Fpu) (pc : BitVec 64) (s : State) (code : List Byte)
    (h : resolve pc (jumpC target).tasks (jumpC target).code = some code) : Jumps fpu code pc s target [] := by
  obtain ⟨hf, rfl⟩ := unconditional_code h
  refine ⟨s, goes_code (.jmp (target - (pc + 5))) (by simp) (decode_e9 _ hf) ?_, fun _ _ => rfl, rfl, rfl⟩
  have e : behind pc ([0xe9#8] ++ append4 (target - (pc + 5))) = pc + 5 := by simp [behind, append4]
  simp only [Cpu.exec, e, behind_target]

/-- **A call of the address in a register.** -/
theorem call_register_ok (a : Register) (fpu : Fpu) (pc : BitVec 64) (s : State) : Calls fpu (callR a) pc s (s.gpr (num4 a)) [] := by
  refine ⟨_, goes_code (.callM (.reg (num4 a))) (by simp [callR]) (decode_callR a) ?_, called s _⟩
  simp only [Cpu.exec, get_q]

theorem jump_register_ok (a : Register) (fpu : Fpu) (pc : BitVec 64) (s : State) : Jumps fpu (jumpR a) pc s (s.gpr (num4 a)) [] := by
  refine ⟨s, goes_code (.jmpM (.reg (num4 a))) (by simp [jumpR]) (decode_jumpR a) ?_, fun _ _ => rfl, rfl, rfl⟩
  simp only [Cpu.exec, get_q]

theorem get_q_mem {s : State} (next : BitVec 64) {m : Memory} (hg : Good m) {v : BitVec 64} (h : Holds s.mem (addressOf s m) .q v) :
    Cpu.get s next .q (rmOf m) = v := by
  have := lo_get_mem (s := s) next (w := .q) hg h
  rw [show ∀ x : BitVec 64, lo Width.q x = x from fun x => BitVec.setWidth_eq x] at this
  exact this

/-- **A call of the address in memory**, as for virtual methods. -/
theorem call_memory_ok (m : Memory) (hg : Good m) (fpu : Fpu) (pc : BitVec 64) (s : State) (target : BitVec 64)
    (h : Holds s.mem (addressOf s m) .q target) : Calls fpu (callM m) pc s target [] := by
  refine ⟨_, goes_code (.callM (rmOf m)) (by simp [callM]) (fun rest => ?_) ?_, called s _⟩
  · have := decode_ff2 (opd_mem m hg) .d rest
    simpa [callM, maybeRexM] using this
  · simp only [Cpu.exec, get_q_mem _ hg h]

theorem jump_memory_ok (m : Memory) (hg : Good m) (fpu : Fpu) (pc : BitVec 64) (s : State) (target : BitVec 64)
    (h : Holds s.mem (addressOf s m) .q target) : Jumps fpu (jumpM m) pc s target [] := by
  refine ⟨s, goes_code (.jmpM (rmOf m)) (by simp [jumpM]) (fun rest => ?_) ?_, fun _ _ => rfl, rfl, rfl⟩
  · have := decode_ff4 (opd_mem m hg) .d rest
    simpa [jumpM, maybeRexM] using this
  · simp only [Cpu.exec, get_q_mem _ hg h]

theorem moveCR2_ok (v : BitVec 64) (b : Register) (fpu : Fpu) (pc : BitVec 64) (s : State) :
    Runs fpu (moveCR2 .q v b) pc s { s with gpr := Cpu.setReg s.gpr (num4 b) v } :=
  runs_one (.movI .q (num4 b) v) (by simp [moveCR2]) (decode_mov64 v b) rfl

/-- **A call of an address at any distance.** -/
theorem long_call_ok (target : BitVec 64) (fpu : Fpu) (pc : BitVec 64) (s : State) :
    Calls fpu (longCallC target) pc s target [num4 r10] := by
  have r := moveCR2_ok target r10 fpu pc s
  obtain ⟨t, hg, hc⟩ := call_register_ok r10 fpu (behind pc (moveCR2 .q target r10)) { s with gpr := Cpu.setReg s.gpr (num4 r10) target }
  have e : Cpu.setReg s.gpr (num4 r10) target (num4 r10) = target := by simp [Cpu.setReg]
  simp only [e] at hg
  have e4 : Cpu.setReg s.gpr (num4 r10) target (num4 rsp) = s.gpr (num4 rsp) := by
    simp only [Cpu.setReg]
    rw [if_neg (by decide)]
  refine ⟨t, runs_goes r hg, ?_⟩
  have hb : behind (behind pc (moveCR2 .q target r10)) (callR r10) = behind pc (longCallC target) := by
    unfold longCallC
    rw [behind_append]
  rw [hb] at hc
  refine ⟨?_, ?_, ?_, ?_, ?_⟩
  · rw [hc.stack]; simp only [e4]
  · have := hc.stored.value; simp only [e4] at this; exact this
  · have := hc.stored.others; simp only [e4] at this; exact this
  · intro q hq
    simp only [List.mem_cons, List.not_mem_nil, or_false, not_or] at hq
    rw [hc.stored.gpr q (by simp [hq.1])]
    simp only [Cpu.setReg]
    rw [if_neg hq.2]
  · exact hc.stored.xmm

theorem long_jump_ok (target : BitVec 64) (fpu : Fpu) (pc : BitVec 64) (s : State) :
    Jumps fpu (longJumpC target) pc s target [num4 r10] := by
  have r := moveCR2_ok target r10 fpu pc s
  obtain ⟨t, hg, hc⟩ := jump_register_ok r10 fpu (behind pc (moveCR2 .q target r10)) { s with gpr := Cpu.setReg s.gpr (num4 r10) target }
  have e : Cpu.setReg s.gpr (num4 r10) target (num4 r10) = target := by simp [Cpu.setReg]
  simp only [e] at hg
  refine ⟨t, runs_goes r hg, ?_, hc.xmm, hc.mem⟩
  intro q hq
  simp only [List.mem_singleton] at hq
  rw [hc.gpr q (by simp)]
  simp only [Cpu.setReg]
  rw [if_neg hq]

/-- **A return** goes to the address on top of the stack. -/
theorem return_ok (fpu : Fpu) (pc : BitVec 64) (s : State) (back : BitVec 64) (h : Holds s.mem (s.gpr (num4 rsp)) .q back) :
    ∃ s', Goes fpu return_ pc s back s' ∧ Kept s s' [num4 rsp] ∧ s'.gpr (num4 rsp) = s.gpr (num4 rsp) + 8 := by
  have hr : Cpu.readMem s.mem (s.gpr 4) .q = back := by
    have := holds_unique (holds_read s.mem (s.gpr (num4 rsp)) .q) h
    rw [show ∀ x : BitVec 64, lo Width.q x = x from fun x => BitVec.setWidth_eq x] at this
    exact this
  refine ⟨{ s with gpr := Cpu.setReg s.gpr 4 (s.gpr 4 + 8) }, goes_code .ret (by simp [return_]) decode_ret ?_, ⟨?_, rfl, rfl⟩, rfl⟩
  · simp only [Cpu.exec, hr]
  · intro r hr
    simp only [List.mem_singleton] at hr
    have : ¬ r = 4 := fun h => hr (by rw [h]; rfl)
    simp only [Cpu.setReg]
    rw [if_neg this]

theorem trap_ok (fpu : Fpu) (pc : BitVec 64) (s : State) : Faults fpu trap pc s :=
  faults_one .int3 (by simp [trap]) decode_trap rfl

/-! ### Changing the target of a call -/

/-- The code of a call or jump that can be changed, and what it does. -/
def patchCode (op : Patchable) (pc target : BitVec 64) : Option (List Byte) :=
  match op with
  | .call => resolve pc (callC target).tasks (callC target).code
  | .jump => resolve pc (jumpC target).tasks (jumpC target).code
  | .longCall => some (longCallC target)
  | .longJump => some (longJumpC target)

def patchDoes (op : Patchable) (fpu : Fpu) (code : List Byte) (pc : BitVec 64) (s : State) (target : BitVec 64) : Prop :=
  match op with
  | .call => Calls fpu code pc s target []
  | .jump => Jumps fpu code pc s target []
  | .longCall => Calls fpu code pc s target [num4 r10]
  | .longJump => Jumps fpu code pc s target [num4 r10]

theorem patch_does (op : Patchable) (fpu : Fpu) (pc : BitVec 64) (s : State) (target : BitVec 64) (code : List Byte)
    (h : patchCode op pc target = some code) : patchDoes op fpu code pc s target := by
  cases op with
  | call => exact call_ok target fpu pc s code h
  | jump => exact jump_ok target fpu pc s code h
  | longCall => cases h; exact long_call_ok target fpu pc s
  | longJump => cases h; exact long_jump_ok target fpu pc s

theorem unconditional_some {op : Byte} {target pc : BitVec 64} (hf : fitsInInt32 (target - (pc + 5)) = true) :
    resolve pc (unconditional ⟨[], []⟩ op target).tasks (unconditional ⟨[], []⟩ op target).code =
      some ([op] ++ append4 (target - (pc + 5))) := by
  have e : unconditional ⟨[], []⟩ op target = emitAll ⟨[], []⟩ [.jump [op] target] := rfl
  rw [e, resolve_linked]
  simp only [linked, List.length_cons, List.length_nil]
  refine (if_pos hf).trans ?_
  simp

theorem longCall_bytes (v : BitVec 64) : longCallC v = [0x49#8, 0xba#8] ++ append8 v ++ [0x41#8, 0xff#8, 0xd2#8] := by
  have e1 : maybeRexR .q r10 ++ [0xb8#8 + regCode r10] = [0x49#8, 0xba#8] := by decide +kernel
  have e2 : callR r10 = [0x41#8, 0xff#8, 0xd2#8] := by decide +kernel
  unfold longCallC moveCR2
  rw [e1, e2]
  rfl

theorem longJump_bytes (v : BitVec 64) : longJumpC v = [0x49#8, 0xba#8] ++ append8 v ++ [0x41#8, 0xff#8, 0xe2#8] := by
  have e1 : maybeRexR .q r10 ++ [0xb8#8 + regCode r10] = [0x49#8, 0xba#8] := by decide +kernel
  have e2 : jumpR r10 = [0x41#8, 0xff#8, 0xe2#8] := by decide +kernel
  unfold longJumpC moveCR2
  rw [e1, e2]
  rfl

/-- **A call whose target is changed** is the call of the new target, whatever is in front of it; one that is too near can only be given
targets within 32 bits. -/
theorem update_ok (op : Patchable) (pre code : List Byte) (pc old new : BitVec 64) (h : patchCode op (behind pc pre) old = some code) :
    updateCall op (pre ++ code) (behind pc (pre ++ code)) new = (patchCode op (behind pc pre) new).map (pre ++ ·) := by
  have short : ∀ (b : Byte) (p : Patchable), (p = .call ∧ b = 0xe8#8) ∨ (p = .jump ∧ b = 0xe9#8) →
      resolve (behind pc pre) (unconditional ⟨[], []⟩ b old).tasks (unconditional ⟨[], []⟩ b old).code = some code →
      updateCall p (pre ++ code) (behind pc (pre ++ code)) new =
        (resolve (behind pc pre) (unconditional ⟨[], []⟩ b new).tasks (unconditional ⟨[], []⟩ b new).code).map (pre ++ ·) := by
    intro b p hp h
    obtain ⟨hf, rfl⟩ := unconditional_code h
    have hlen : (pre ++ ([b] ++ append4 (old - (behind pc pre + 5)))).length = pre.length + 5 := by simp [append4]
    have hb : behind pc (pre ++ ([b] ++ append4 (old - (behind pc pre + 5)))) = behind pc pre + 5 := by
      rw [behind_append]; simp [behind, append4]
    have hp' : p = .call ∨ p = .jump := by rcases hp with ⟨h, _⟩ | ⟨h, _⟩ <;> simp [h]
    have hop : (if p = .call then 0xe8#8 else 0xe9#8) = b := by rcases hp with ⟨rfl, rfl⟩ | ⟨rfl, rfl⟩ <;> rfl
    unfold updateCall
    rw [if_pos hp']
    simp only [hlen, hb, hop, Nat.add_sub_cancel]
    have hg : (pre ++ ([b] ++ append4 (old - (behind pc pre + 5))))[pre.length]? = some b := by simp
    have ht : (pre ++ ([b] ++ append4 (old - (behind pc pre + 5)))).take (pre.length + 1) = pre ++ [b] := by
      rw [List.take_length_add_append]
      simp
    rw [hg, ht]
    by_cases hn : fitsInInt32 (new - (behind pc pre + 5)) = true
    · rw [if_neg, unconditional_some hn]
      · simp
      · rintro (h | h | h)
        · omega
        · exact h rfl
        · rw [hn] at h; cases h
    · have hnone : resolve (behind pc pre) (unconditional ⟨[], []⟩ b new).tasks (unconditional ⟨[], []⟩ b new).code = none := by
        have e : unconditional ⟨[], []⟩ b new = emitAll ⟨[], []⟩ [.jump [b] new] := rfl
        rw [e, resolve_linked]
        simp only [linked, List.length_cons, List.length_nil]
        exact if_neg hn
      rw [if_pos (Or.inr (Or.inr (Bool.not_eq_true _ ▸ hn))), hnone]
      rfl
  have long : ∀ (last : Byte) (p : Patchable), (p = .longCall ∧ last = 0xd2#8) ∨ (p = .longJump ∧ last = 0xe2#8) → ∀ old : BitVec 64,
      updateCall p (pre ++ ([0x49#8, 0xba#8] ++ append8 old ++ [0x41#8, 0xff#8, last]))
        (behind pc (pre ++ ([0x49#8, 0xba#8] ++ append8 old ++ [0x41#8, 0xff#8, last]))) new =
        some (pre ++ ([0x49#8, 0xba#8] ++ append8 new ++ [0x41#8, 0xff#8, last])) := by
    intro last p hp old
    have hp' : ¬ (p = .call ∨ p = .jump) := by rcases hp with ⟨h, _⟩ | ⟨h, _⟩ <;> simp [h]
    have hop : (if p = .longCall then 0xd2#8 else 0xe2#8) = last := by rcases hp with ⟨rfl, rfl⟩ | ⟨rfl, rfl⟩ <;> rfl
    have hlen : (pre ++ ([0x49#8, 0xba#8] ++ append8 old ++ [0x41#8, 0xff#8, last])).length = pre.length + 13 := by
      simp [append8, append4]
    have hget : ∀ i, (pre ++ ([0x49#8, 0xba#8] ++ append8 old ++ [0x41#8, 0xff#8, last]))[pre.length + i]? =
        ([0x49#8, 0xba#8] ++ append8 old ++ [0x41#8, 0xff#8, last])[i]? := by
      intro i
      rw [List.getElem?_append_right (by omega), Nat.add_sub_cancel_left]
    have ht : (pre ++ ([0x49#8, 0xba#8] ++ append8 old ++ [0x41#8, 0xff#8, last])).take (pre.length + 2) = pre ++ [0x49#8, 0xba#8] := by
      rw [List.take_length_add_append]
      simp
    have hd : (pre ++ ([0x49#8, 0xba#8] ++ append8 old ++ [0x41#8, 0xff#8, last])).drop (pre.length + 10) = [0x41#8, 0xff#8, last] := by
      rw [List.drop_length_add_append]
      simp [append8, append4]
    unfold updateCall
    rw [if_neg hp']
    simp only [hlen, Nat.add_sub_cancel, hop, ht, hd]
    rw [if_neg]
    · simp
    · have h0 := hget 0
      rw [Nat.add_zero] at h0
      rw [h0, hget, hget, hget, hget]
      simp [append8, append4]
  cases op with
  | call => exact short 0xe8#8 .call (Or.inl ⟨rfl, rfl⟩) h
  | jump => exact short 0xe9#8 .jump (Or.inr ⟨rfl, rfl⟩) h
  | longCall =>
    cases h
    simp only [patchCode, longCall_bytes, Option.map_some]
    exact long 0xd2#8 .longCall (Or.inl ⟨rfl, rfl⟩) old
  | longJump =>
    cases h
    simp only [patchCode, longJump_bytes, Option.map_some]
    exact long 0xe2#8 .longJump (Or.inr ⟨rfl, rfl⟩) old

/-- The target of a call is recognised. -/
theorem match_ok (pre code : List Byte) (pc target other : BitVec 64) (h : patchCode .call (behind pc pre) target = some code) :
    matchCall (pre ++ code) (behind pc (pre ++ code)) other = decide (other = target) := by
  obtain ⟨hf, rfl⟩ := unconditional_code h
  have hb : behind pc (pre ++ ([0xe8#8] ++ append4 (target - (behind pc pre + 5)))) = behind pc pre + 5 := by
    rw [behind_append]; simp [behind, append4]
  have hlen : (pre ++ ([0xe8#8] ++ append4 (target - (behind pc pre + 5)))).length = pre.length + 5 := by simp [append4]
  have hd : ∀ l : List Byte, (pre ++ l).drop pre.length = l := fun l => by simp
  have h4 := le4_append4 (target - (behind pc pre + 5)) []
  rw [List.append_nil] at h4
  have h0 : (0xe8#8 == 0xe8#8) = true := rfl
  have ht : behind pc pre + 5 + (target - (behind pc pre + 5)) = target := behind_target _ _
  unfold matchCall
  rw [hlen, hb, Nat.add_sub_cancel, hd]
  clear hlen hb hd h
  generalize behind pc pre + 5 = next at *
  obtain ⟨x0, x1, x2, x3, hx⟩ : ∃ x0 x1 x2 x3, append4 (target - next) = [x0, x1, x2, x3] := ⟨_, _, _, _, rfl⟩
  rw [hx] at h4 ⊢
  have h5 : (x3 ++ (x2 ++ (x1 ++ x0 : BitVec 16) : BitVec 24) : BitVec 32) = (target - next).setWidth 32 :=
    (Prod.mk.inj (Option.some.inj h4)).1
  show (0xe8#8 == 0xe8#8 && next + (x3 ++ (x2 ++ (x1 ++ x0 : BitVec 16) : BitVec 24) : BitVec 32).signExtend 64 == other) = _
  rw [h5, fits32 hf, ht, h0]
  rw [Bool.true_and]
  by_cases e : other = target
  · subst e; simp
  · rw [decide_eq_false e, beq_eq_false_iff_ne]
    exact fun h => e h.symm

/-! ### Frames -/

/-- The address of a word above `S`. -/
def word (S : BitVec 64) (k : Nat) : BitVec 64 := S + BitVec.ofNat 64 (8 * k)

/-- The state in a frame of `n` words, entered in the state `s`: below the return address, and below the frame pointer of the caller,
which is kept if there are frame pointers. -/
structure Entered (fp : Bool) (n : Nat) (s s' : State) : Prop where
  stack : word (s'.gpr (num4 rsp)) (n + if fp then 1 else 0) = s.gpr (num4 rsp)
  pointer : fp = true → s'.gpr (num4 rbp) + 8 = s.gpr (num4 rsp) ∧ Holds s'.mem (s.gpr (num4 rsp) - 8) .q (s.gpr (num4 rbp))
  gpr : ∀ r, r ≠ num4 rsp → (fp = true → r ≠ num4 rbp) → s'.gpr r = s.gpr r
  xmm : s'.xmm = s.xmm
  mem : ∀ x, (fp = true → ∀ i, i < 8 → x ≠ s.gpr (num4 rsp) - 8 + BitVec.ofNat 64 i) → s'.mem x = s.mem x

/-- What the body of a method leaves alone, which was entered in `s` and is in the state `t` in its frame: the stack pointer, the return
address, and the frame pointer and the one of the caller, if there are. -/
structure Minded (fp : Bool) (s t u : State) : Prop where
  stack : u.gpr (num4 rsp) = t.gpr (num4 rsp)
  back : ∀ i, i < 8 → u.mem (s.gpr (num4 rsp) + BitVec.ofNat 64 i) = t.mem (s.gpr (num4 rsp) + BitVec.ofNat 64 i)
  pointer : fp = true → u.gpr (num4 rbp) = t.gpr (num4 rbp) ∧
    ∀ i, i < 8 → u.mem (s.gpr (num4 rsp) - 8 + BitVec.ofNat 64 i) = t.mem (s.gpr (num4 rsp) - 8 + BitVec.ofNat 64 i)

/-- The frame is gone: the stack is as it was when the method was entered, in the state `s`; `u` is the state before. -/
structure Left (fp : Bool) (s u v : State) : Prop where
  stack : v.gpr (num4 rsp) = s.gpr (num4 rsp)
  pointer : v.gpr (num4 rbp) = if fp then s.gpr (num4 rbp) else u.gpr (num4 rbp)
  gpr : ∀ r, r ≠ num4 rsp → r ≠ num4 rbp → v.gpr r = u.gpr r
  xmm : v.xmm = u.xmm
  mem : v.mem = u.mem

theorem small_fits (n : Nat) (hn : n < 2 ^ 28) : fitsInInt32 (BitVec.ofNat 64 (n * 8)) = true := by
  rw [fits32_iff]
  have : (BitVec.ofNat 64 (n * 8)).toInt = ((n * 8 : Nat) : Int) := by
    rw [BitVec.toInt_eq_toNat_cond, BitVec.toNat_ofNat, Nat.mod_eq_of_lt (by omega), if_pos (by omega)]
  rw [this]
  omega

theorem lo_q (x : BitVec 64) : lo Width.q x = x := BitVec.setWidth_eq x

theorem sub_rsp (v : BitVec 64) (hv : fitsInInt32 v = true) (tmp : Register) (fpu : Fpu) (pc : BitVec 64) (s : State) :
    ∃ s', Runs fpu (subtractCR .q v rsp tmp) pc s s' ∧ s'.gpr (num4 rsp) = s.gpr (num4 rsp) - v ∧ Kept s s' [num4 rsp] := by
  unfold subtractCR
  by_cases h0 : v = 0
  · rw [if_pos h0]
    exact ⟨s, runs_nil .., by rw [h0]; simp, fun _ _ => rfl, rfl, rfl⟩
  · rw [if_neg h0, if_pos hv]
    obtain ⟨s', hr, he⟩ := aluI_ok 0xe8#8 .sub (w := .q) (by simp [Full]) v hv rsp (by simp) fpu pc s
    refine ⟨s', hr, ?_, fun r hr => he.others r (by simpa using hr) (by simp), he.xmm, he.mem⟩
    have := he.value
    simp only [lo_q, aluSpec] at this
    exact this

theorem add_rsp (v : BitVec 64) (hv : fitsInInt32 v = true) (tmp : Register) (fpu : Fpu) (pc : BitVec 64) (s : State) :
    ∃ s', Runs fpu (addCR .q v rsp tmp) pc s s' ∧ s'.gpr (num4 rsp) = s.gpr (num4 rsp) + v ∧ Kept s s' [num4 rsp] := by
  unfold addCR
  by_cases h0 : v = 0
  · rw [if_pos h0]
    exact ⟨s, runs_nil .., by rw [h0]; simp, fun _ _ => rfl, rfl, rfl⟩
  · rw [if_neg h0, if_pos hv]
    obtain ⟨s', hr, he⟩ := aluI_ok 0xc0#8 .add (w := .q) (by simp [Full]) v hv rsp (by simp) fpu pc s
    refine ⟨s', hr, ?_, fun r hr => he.others r (by simpa using hr) (by simp), he.xmm, he.mem⟩
    have := he.value
    simp only [lo_q, aluSpec] at this
    exact this

theorem mov_q (a b : Register) (hfa : isFloatReg a = false) (hfb : isFloatReg b = false) (fpu : Fpu) (pc : BitVec 64) (s : State) :
    ∃ s', Runs fpu (moveRR .q a .q b) pc s s' ∧ s'.gpr (num4 b) = s.gpr (num4 a) ∧ Kept s s' [num4 b] := by
  obtain ⟨s', hr, he⟩ := move_ok .q a (bSize := .q) (Or.inr rfl) (fun _ => rfl) b hfa hfb fpu pc s
  refine ⟨s', hr, ?_, fun r hr => he.others r (by simpa using hr) (by simp), he.xmm, he.mem⟩
  have := he.value
  simp only [widened, lo_q, Width.bits, BitVec.signExtend_eq] at this
  exact this

/-- **A frame is allocated.** -/
theorem allocate_ok (fp : Bool) (n : Nat) (hn : n < 2 ^ 28) (tmp : Register) (fpu : Fpu) (pc : BitVec 64) (s : State) :
    ∃ s', Runs fpu (allocateFrame fp n tmp) pc s s' ∧ Entered fp n s s' := by
  unfold allocateFrame
  cases fp with
  | false =>
    obtain ⟨t, hr, h4, hk⟩ := sub_rsp _ (small_fits n hn) tmp fpu pc s
    simp only [Bool.false_eq_true, if_false, List.nil_append]
    refine ⟨t, hr, ?_, (fun h => by cases h), fun r h1 _ => hk.gpr r (by simpa using h1), hk.xmm, fun x _ => by rw [hk.mem]⟩
    simp only [word, h4, Bool.false_eq_true, if_false, Nat.add_zero, Nat.mul_comm n 8]
    rw [BitVec.sub_add_cancel]
  | true =>
    obtain ⟨t1, r1, st, h1⟩ := push_ok rbp fpu pc s
    obtain ⟨t2, r2, h2, k2⟩ := mov_q rsp rbp (by decide) (by decide) fpu (behind pc (pushR rbp)) t1
    obtain ⟨t, r3, h3, k3⟩ := sub_rsp _ (small_fits n hn) tmp fpu (behind (behind pc (pushR rbp)) (moveRR .q rsp .q rbp)) t2
    simp only [if_true]
    refine ⟨t, runs_append (runs_append r1 r2) (by rw [behind_append]; exact r3), ?_, fun _ => ⟨?_, ?_⟩, ?_, ?_, ?_⟩
    · have : t2.gpr (num4 rsp) = t1.gpr (num4 rsp) := k2.gpr _ (by decide)
      simp only [word, h3, this, h1, if_true, Nat.mul_add, BitVec.ofNat_add, Nat.mul_comm n 8]
      rw [← BitVec.add_assoc, BitVec.sub_add_cancel]
      exact BitVec.sub_add_cancel _ _
    · rw [k3.gpr _ (by decide), h2, h1]
      exact BitVec.sub_add_cancel _ _
    · rw [k3.mem, k2.mem]
      exact st.value
    · intro r hr hb
      rw [k3.gpr r (by simpa using hr), k2.gpr r (by simpa using hb rfl), st.gpr r (by simpa using hr)]
    · rw [k3.xmm, k2.xmm, st.xmm]
    · intro x hx
      rw [k3.mem, k2.mem]
      exact st.others x (hx rfl)

/-- **It is popped** again. -/
theorem pop_frame_ok (fp : Bool) (n : Nat) (hn : n < 2 ^ 28) (tmp : Register) (fpu : Fpu) (pc : BitVec 64) (s t u : State)
    (he : Entered fp n s t) (hm : Minded fp s t u) : ∃ v, Runs fpu (popFrame fp n tmp) pc u v ∧ Left fp s u v := by
  unfold popFrame
  cases fp with
  | false =>
    obtain ⟨v, hr, h4, hk⟩ := add_rsp _ (small_fits n hn) tmp fpu pc u
    simp only [Bool.false_eq_true, if_false]
    refine ⟨v, hr, ?_, ?_, fun r h1 _ => hk.gpr r (by simpa using h1), hk.xmm, hk.mem⟩
    · rw [h4, hm.stack, ← he.stack]
      simp [word, Nat.mul_comm]
    · rw [hk.gpr _ (by decide)]
      simp
  | true =>
    obtain ⟨v1, r1, h1, k1⟩ := mov_q rbp rsp (by decide) (by decide) fpu pc u
    obtain ⟨hp, hs⟩ := he.pointer rfl
    obtain ⟨hq, hb⟩ := hm.pointer rfl
    have e1 : v1.gpr (num4 rsp) = s.gpr (num4 rsp) - 8 := by
      rw [h1, hq, ← hp]
      exact (BitVec.add_sub_cancel _ _).symm
    obtain ⟨v, r2, h2, h3, k2, kx, km⟩ := pop_ok (w := .q) (Or.inr rfl) rbp (by decide) (by decide) fpu
      (behind pc (moveRR .q rbp .q rsp)) v1 (s.gpr (num4 rbp)) (by
        intro i hi
        rw [hs i hi, e1, k1.mem]
        exact (hb i hi).symm)
    simp only [if_true]
    refine ⟨v, runs_append r1 r2, ?_, ?_, ?_, ?_, ?_⟩
    · rw [h3, e1]
      exact BitVec.sub_add_cancel _ _
    · rw [h2]
      simp [Width.bits, lo]
    · intro r hr hb'
      rw [k2 r hb' hr, k1.gpr r (by simpa using hr)]
    · rw [kx, k1.xmm]
    · rw [km, k1.mem]

theorem word_zero_side (S : BitVec 64) (i j : Nat) (hi : i < 8) (hj : j < 8) : S + BitVec.ofNat 64 i ≠ S - 8 + BitVec.ofNat 64 j := by
  intro h
  have := congrArg BitVec.toNat h
  simp only [BitVec.toNat_add, BitVec.toNat_sub, BitVec.toNat_ofNat, BitVec.reduceToNat] at this
  have := S.isLt
  have e8 : (8 : BitVec 64).toNat = 8 := rfl
  simp only [e8] at *
  omega

theorem minded_back {fp : Bool} {n : Nat} {s t u : State} (he : Entered fp n s t) (hm : Minded fp s t u) {back : BitVec 64}
    (hb : Holds s.mem (s.gpr (num4 rsp)) .q back) : Holds u.mem (s.gpr (num4 rsp)) .q back := by
  intro i hi
  rw [hb i hi, hm.back i hi, he.mem _ (fun _ j hj => word_zero_side _ i j hi hj)]

/-- **A method returns** to where it was called from: behind the code of the frame is a body, which leaves the stack pointer and the return
address alone.  The arguments are popped where there are tail calls. -/
theorem method_returns (fp tails : Bool) (n m : Nat) (hn : n < 2 ^ 28) (hm : m < 2 ^ 28) (tmp : Register) (fpu : Fpu) (s : State) (back : BitVec 64)
    (hb : Holds s.mem (s.gpr (num4 rsp)) .q back) (pc : BitVec 64) :
    ∃ t, Runs fpu (allocateFrame fp n tmp) pc s t ∧ Entered fp n s t ∧
      ∀ u, Minded fp s t u → ∀ pc',
        ∃ v, Goes fpu (popFrameAndPopArgumentsAndReturn fp tails n m tmp) pc' u back v ∧
          v.gpr (num4 rsp) = word (s.gpr (num4 rsp)) (1 + if tails then m - 2 else 0) ∧
          v.gpr (num4 rbp) = (if fp then s.gpr (num4 rbp) else u.gpr (num4 rbp)) ∧
          (∀ r, r ≠ num4 rsp → r ≠ num4 rbp → (tails = true → r ≠ num4 rcx) → v.gpr r = u.gpr r) ∧ v.xmm = u.xmm ∧ v.mem = u.mem := by
  obtain ⟨t, ht, he⟩ := allocate_ok fp n hn tmp fpu pc s
  refine ⟨t, ht, he, fun u hu pc' => ?_⟩
  obtain ⟨v1, r1, hl⟩ := pop_frame_ok fp n hn tmp fpu pc' s t u he hu
  have hb1 : Holds v1.mem (v1.gpr (num4 rsp)) .q back := by
    rw [hl.mem, hl.stack]
    exact minded_back he hu hb
  unfold popFrameAndPopArgumentsAndReturn
  by_cases hc : (tails && decide (2 < m)) = true
  · rw [if_pos hc]
    simp only [Bool.and_eq_true, decide_eq_true_eq] at hc
    obtain ⟨hc, hm2⟩ := hc
    obtain ⟨v2, r2, h2, h3, k2, kx, km⟩ := pop_ok (w := .q) (Or.inr rfl) rcx (by decide) (by decide) fpu
      (behind pc' (popFrame fp n tmp)) v1 back hb1
    obtain ⟨v3, r3, h4, k3⟩ := add_rsp _ (small_fits (m - 2) (by omega)) tmp fpu
      (behind (behind pc' (popFrame fp n tmp)) (popR .q rcx)) v2
    have hj := jump_register_ok rcx fpu (behind (behind (behind pc' (popFrame fp n tmp)) (popR .q rcx))
      (addCR .q (BitVec.ofNat 64 ((m - 2) * 8)) rsp tmp)) v3
    obtain ⟨v, hg, k4⟩ := hj
    have e : v3.gpr (num4 rcx) = back := by
      rw [k3.gpr _ (by decide), h2]
      simp [Width.bits, lo]
    rw [e] at hg
    refine ⟨v, runs_goes r1 (runs_goes (runs_append r2 r3) (by rw [behind_append]; exact hg)), ?_, ?_, ?_, ?_, ?_⟩
    · rw [k4.gpr _ (by simp), h4, h3, hl.stack, hc]
      simp only [word, if_true, Nat.mul_add, BitVec.ofNat_add, Nat.mul_one, Nat.mul_comm (m - 2) 8]
      rw [BitVec.add_assoc]
      rfl
    · rw [k4.gpr _ (by simp), k3.gpr _ (by decide), k2 _ (by decide) (by decide), hl.pointer]
    · intro r h1 h2 h3
      rw [k4.gpr _ (by simp), k3.gpr _ (by simpa using h1), k2 r (h3 hc) h1, hl.gpr r h1 h2]
    · rw [k4.xmm, k3.xmm, kx, hl.xmm]
    · rw [k4.mem, k3.mem, km, hl.mem]
  · rw [if_neg hc]
    obtain ⟨v, hg, hk, h4⟩ := return_ok fpu (behind pc' (popFrame fp n tmp)) v1 back hb1
    have e0 : (if tails then m - 2 else 0) = 0 := by
      cases tails with
      | false => rfl
      | true =>
        simp at hc
        simp only [if_true]
        omega
    refine ⟨v, runs_goes r1 hg, ?_, ?_, ?_, ?_, ?_⟩
    · rw [h4, hl.stack, e0]
      rfl
    · rw [hk.gpr _ (by decide), hl.pointer]
    · intro r h1 h2 _
      rw [hk.gpr _ (by simpa using h1), hl.gpr r h1 h2]
    · rw [hk.xmm, hl.xmm]
    · rw [hk.mem, hl.mem]

theorem at_base (s : State) (b : Register) (o : BitVec 32) : addressOf s ⟨b, o, none, 1⟩ = s.gpr (num4 b) + o.signExtend 64 := by
  simp [addressOf]

theorem good_base (b : Register) (o : BitVec 32) : Good ⟨b, o, none, 1⟩ := by simp [Good]

theorem load_q (b r : Register) (hf : isFloatReg r = false) (o : BitVec 32) (fpu : Fpu) (pc : BitVec 64) (s : State) (v : BitVec 64)
    (hv : Holds s.mem (s.gpr (num4 b) + o.signExtend 64) .q v) :
    ∃ s', Runs fpu (moveMR .q ⟨b, o, none, 1⟩ .q r) pc s s' ∧ s'.gpr (num4 r) = v ∧ Kept s s' [num4 r] := by
  obtain ⟨s', hr, he⟩ := load_ok .q ⟨b, o, none, 1⟩ (good_base b o) (bSize := .q) (Or.inr rfl) (fun _ => rfl) r hf fpu pc s v
    (by rw [at_base]; exact hv)
  refine ⟨s', hr, ?_, fun r hr => he.others r (by simpa using hr) (by simp), he.xmm, he.mem⟩
  have := he.value
  simp only [lo_q, Width.bits, BitVec.signExtend_eq] at this
  exact this

/-- **A stub that goes on with another stack** takes the return address from its frame and the stack pointer from the thread. -/
theorem stub_returns (fp : Bool) (n : Nat) (hn : n < 2 ^ 28) (offset : BitVec 32) (tmp : Register) (fpu : Fpu) (s : State)
    (back : BitVec 64) (hb : Holds s.mem (s.gpr (num4 rsp)) .q back) (pc : BitVec 64) :
    ∃ t, Runs fpu (allocateFrame fp n tmp) pc s t ∧ Entered fp n s t ∧
      ∀ u, Minded fp s t u → ∀ pc' stack, Holds u.mem (u.gpr (num4 rbx) + offset.signExtend 64) .q stack →
        ∃ v, Goes fpu (popFrameAndUpdateStackAndReturn fp n offset tmp) pc' u back v ∧
          v.gpr (num4 rsp) = stack ∧ v.gpr (num4 rbp) = (if fp then s.gpr (num4 rbp) else u.gpr (num4 rbp)) ∧
          (∀ r, r ≠ num4 rsp → r ≠ num4 rbp → r ≠ num4 rcx → v.gpr r = u.gpr r) ∧ v.xmm = u.xmm ∧ v.mem = u.mem := by
  obtain ⟨t, ht, he⟩ := allocate_ok fp n hn tmp fpu pc s
  refine ⟨t, ht, he, fun u hu pc' stack hst => ?_⟩
  obtain ⟨v1, r1, hl⟩ := pop_frame_ok fp n hn tmp fpu pc' s t u he hu
  have hb1 : Holds v1.mem (v1.gpr (num4 rsp)) .q back := by
    rw [hl.mem, hl.stack]
    exact minded_back he hu hb
  obtain ⟨v2, r2, h2, h3, k2, kx, km⟩ := pop_ok (w := .q) (Or.inr rfl) rcx (by decide) (by decide) fpu
    (behind pc' (popFrame fp n tmp)) v1 back hb1
  obtain ⟨v3, r3, h4, k3⟩ := load_q rbx rsp (by decide) offset fpu (behind (behind pc' (popFrame fp n tmp)) (popR .q rcx)) v2 stack (by
    rw [km, hl.mem, k2 _ (by decide) (by decide), hl.gpr _ (by decide) (by decide)]
    exact hst)
  obtain ⟨v, hg, k4⟩ := jump_register_ok rcx fpu (behind (behind (behind pc' (popFrame fp n tmp)) (popR .q rcx))
    (moveMR .q ⟨rbx, offset, none, 1⟩ .q rsp)) v3
  have e : v3.gpr (num4 rcx) = back := by
    rw [k3.gpr _ (by decide), h2]
    simp [Width.bits, lo]
  rw [e] at hg
  refine ⟨v, ?_, ?_, ?_, ?_, ?_, ?_⟩
  · unfold popFrameAndUpdateStackAndReturn
    exact runs_goes (runs_append (runs_append r1 r2) (by rw [behind_append]; exact r3)) (by rw [behind_append, behind_append]; exact hg)
  · rw [k4.gpr _ (by simp), h4]
  · rw [k4.gpr _ (by simp), k3.gpr _ (by decide), k2 _ (by decide) (by decide), hl.pointer]
  · intro r h1 h2 h3
    rw [k4.gpr _ (by simp), k3.gpr _ (by simpa using h1), k2 r h3 h1, hl.gpr r h1 h2]
  · rw [k4.xmm, k3.xmm, kx, hl.xmm]
  · rw [k4.mem, k3.mem, km, hl.mem]

/-- **The stack stays aligned**: where a call was made with a stack pointer that is a multiple of sixteen, it is one in the frame too, and
the frame has all the words that were asked for, and at most one more. -/
theorem frame_aligned (fp : Bool) (words : Nat) (hn : words < 2 ^ 27) (s t : State) (h : Entered fp (alignFrameSize fp words) s t)
    (ha : (s.gpr (num4 rsp) + 8).toNat % 16 = 0) :
    (t.gpr (num4 rsp)).toNat % 16 = 0 ∧ words ≤ alignFrameSize fp words ∧ alignFrameSize fp words ≤ words + 1 := by
  have hs := congrArg BitVec.toNat h.stack
  have e8 : (8 : BitVec 64).toNat = 8 := rfl
  simp only [word, BitVec.toNat_add, BitVec.toNat_ofNat, e8] at hs ha
  have := (t.gpr (num4 rsp)).isLt
  have := (s.gpr (num4 rsp)).isLt
  have hw : alignFrameSize fp words + (if fp then 1 else 0) + 1 = (words + frameHeaderSize fp + 1) / 2 * 2 ∧
      frameHeaderSize fp = (if fp then 1 else 0) + 1 := by
    cases fp <;> simp [alignFrameSize, frameHeaderSize] <;> omega
  obtain ⟨hw, hh⟩ := hw
  rw [hh] at hw
  generalize alignFrameSize fp words = k at *
  generalize (if fp then 1 else 0) = z at *
  clear h
  omega

/-- **The check for a stack overflow** goes to the handler if the stack pointer is not above the limit, which the thread has; addresses
are below 2⁶³, since they are compared as signed numbers. -/
theorem overflow_ok (handler : BitVec 64) (offset : BitVec 32) (fpu : Fpu) (pc : BitVec 64) (s : State) (limit : BitVec 64)
    (hl : Holds s.mem (s.gpr (num4 rbx) + offset.signExtend 64) .q limit) (code : List Byte)
    (h : resolve pc (checkStackOverflow handler offset).tasks (checkStackOverflow handler offset).code = some code)
    (h1 : limit.toNat < 2 ^ 63) (h2 : (s.gpr (num4 rsp)).toNat < 2 ^ 63) :
    Branches fpu code pc s (decide ((s.gpr (num4 rsp)).toNat ≤ limit.toNat)) handler [] := by
  have := branch_rm .greaterOrEqual (w := .q) (Or.inr rfl) rsp (by decide) ⟨rbx, offset, none, 1⟩ (good_base _ _)
    ⟨by show num4 rbx ≠ num4 rsp; decide, by intro i hi; cases hi⟩ handler fpu pc s limit (by rw [at_base]; exact hl) code h
  have e : rel .greaterOrEqual limit.toInt (lo Width.q (s.gpr (num4 rsp))).toInt = decide ((s.gpr (num4 rsp)).toNat ≤ limit.toNat) := by
    rw [lo_q]
    have e1 : limit.toInt = limit.toNat := by rw [BitVec.toInt_eq_toNat_cond, if_pos (by omega)]
    have e2 : (s.gpr (num4 rsp)).toInt = (s.gpr (num4 rsp)).toNat := by rw [BitVec.toInt_eq_toNat_cond, if_pos (by omega)]
    simp only [rel, Width.bits, e1, e2]
    simp
  change Branches fpu code pc s (rel .greaterOrEqual limit.toInt (lo Width.q (s.gpr (num4 rsp))).toInt) handler [] at this
  rw [e] at this
  exact this

/-! ### Tail calls -/

theorem ofInt_toInt {x : Int} (h : -(2 ^ 40) < x ∧ x < 2 ^ 40) : (BitVec.ofInt 64 x).toInt = x := by
  rw [BitVec.toInt_ofInt, Int.bmod_def]
  omega

theorem down_far (S : BitVec 64) (a b : Int) (i j : Nat) (hi : i < 8) (hj : j < 8) (ha : -(2 ^ 30) < a ∧ a < 2 ^ 30)
    (hb : -(2 ^ 30) < b ∧ b < 2 ^ 30) (h : a ≠ b) :
    S - BitVec.ofInt 64 (8 * a) + BitVec.ofNat 64 i ≠ S - BitVec.ofInt 64 (8 * b) + BitVec.ofNat 64 j := by
  intro e
  have e1 : BitVec.ofInt 64 (i - 8 * a) = BitVec.ofInt 64 (j - 8 * b) := by
    rw [Int.sub_eq_add_neg, Int.sub_eq_add_neg, BitVec.ofInt_add, BitVec.ofInt_add, BitVec.ofInt_neg, BitVec.ofInt_neg,
      BitVec.ofInt_natCast, BitVec.ofInt_natCast]
    rw [BitVec.sub_eq_add_neg, BitVec.sub_eq_add_neg, BitVec.add_assoc, BitVec.add_assoc] at e
    have := (BitVec.add_right_inj S).1 e
    rw [BitVec.add_comm, this, BitVec.add_comm]
  have := congrArg BitVec.toInt e1
  rw [ofInt_toInt (by omega), ofInt_toInt (by omega)] at this
  omega

theorem ofNat_signExtend (k : Nat) (h : k < 2 ^ 31) : (BitVec.ofNat 32 k).signExtend 64 = BitVec.ofNat 64 k := by
  rw [← BitVec.toInt_inj, BitVec.toInt_signExtend_of_le (by omega), BitVec.toInt_eq_toNat_cond, BitVec.toInt_eq_toNat_cond,
    BitVec.toNat_ofNat, BitVec.toNat_ofNat]
  omega

theorem ofInt_signExtend (k : Int) (h : -(2 ^ 31) ≤ k ∧ k < 2 ^ 31) : (BitVec.ofInt 32 k).signExtend 64 = BitVec.ofInt 64 k := by
  rw [← BitVec.toInt_inj, BitVec.toInt_signExtend_of_le (by omega), BitVec.toInt_ofInt, BitVec.toInt_ofInt, Int.bmod_def, Int.bmod_def]
  omega

theorem ofInt_setWidth (k : Int) (h : 0 ≤ k ∧ k < 2 ^ 31) : (BitVec.ofInt 32 k).setWidth 64 = BitVec.ofInt 64 k := by
  rw [← BitVec.toNat_inj, BitVec.toNat_setWidth, BitVec.toNat_ofInt, BitVec.toNat_ofInt]
  omega

theorem store_q (b r : Register) (hf : isFloatReg r = false) (o : BitVec 32) (fpu : Fpu) (pc : BitVec 64) (s : State) :
    ∃ s', Runs fpu (moveRM .q r ⟨b, o, none, 1⟩) pc s s' ∧
      Stored s s' .q (s.gpr (num4 b) + o.signExtend 64) (s.gpr (num4 r)) [] := by
  obtain ⟨s', hr, he⟩ := store_ok .q r hf ⟨b, o, none, 1⟩ (good_base b o) fpu pc s
  rw [at_base, lo_q] at he
  exact ⟨s', hr, he⟩

/-- Storing a word leaves another word alone. -/
theorem holds_far {s s' : State} {S v u : BitVec 64} {a b : Int} {scratch : List R} (hs : Stored s s' .q (S - BitVec.ofInt 64 (8 * a)) v scratch)
    (ha : -(2 ^ 30) < a ∧ a < 2 ^ 30) (hb : -(2 ^ 30) < b ∧ b < 2 ^ 30) (hab : b ≠ a) (h : Holds s.mem (S - BitVec.ofInt 64 (8 * b)) .q u) :
    Holds s'.mem (S - BitVec.ofInt 64 (8 * b)) .q u := by
  intro i hi
  rw [h i hi, hs.others _ (fun j hj => down_far S b a i j hi hj hb ha hab)]

/-- Storing a register in the stack, if there is one to be stored. -/
theorem store_surrogate (r : Option Register) (o : Int) (ho : -(2 ^ 26) < o ∧ o < 2 ^ 27) (hr : ∀ q, r = some q → isFloatReg q = false) (fpu : Fpu)
    (pc : BitVec 64) (s : State) :
    ∃ s', Runs fpu (surrogate r o) pc s s' ∧
      (r = none → s' = s) ∧
      ∀ q, r = some q → Stored s s' .q (s.gpr (num4 rsp) + BitVec.ofInt 64 (8 * o)) (s.gpr (num4 q)) [] := by
  cases r with
  | none => exact ⟨s, runs_nil .., fun _ => rfl, fun q hq => by cases hq⟩
  | some q =>
    obtain ⟨s', h1, h2⟩ := store_q rsp q (hr q rfl) (BitVec.ofInt 32 (o * 8)) fpu pc s
    rw [ofInt_signExtend _ (by omega), Int.mul_comm o 8] at h2
    refine ⟨s', h1, fun h => (by cases h), fun q' hq => ?_⟩
    cases hq
    exact h2

/-- **A frame is popped for a tail call** to a method whose arguments take `offset` words more than those of the caller: the return address
is where the callee expects it, the frame pointer is the one of the caller, and the surrogates, if there are any, are where the return
address and the frame pointer were.  Nothing else changes. -/
theorem tail_ok (fp : Bool) (n : Nat) (offset : Int) (ras fps : Option Register) (tmp : Register) (code : List Byte)
    (hc : popFrameForTailCall fp n offset ras fps tmp = some code) (hn : n < 2 ^ 26) (ho : -(2 ^ 26) < offset)
    (hk : offset ≤ n) (heven : offset % 2 = 0) (h0 : offset ≠ 0)
    (ht : isFloatReg tmp = false ∧ num4 tmp ≠ num4 rsp ∧ (fp = true → num4 tmp ≠ num4 rbp))
    (hr : ∀ q, ras = some q ∨ fps = some q →
      isFloatReg q = false ∧ num4 q ≠ num4 tmp ∧ num4 q ≠ num4 rsp ∧ (fp = true → num4 q ≠ num4 rbp))
    (fpu : Fpu) (pc : BitVec 64) (s t u : State) (he : Entered fp n s t) (hm : Minded fp s t u)
    (back : BitVec 64) (hb : Holds s.mem (s.gpr (num4 rsp)) .q back) :
    ∃ v, Runs fpu code pc u v ∧
      v.gpr (num4 rsp) = s.gpr (num4 rsp) - BitVec.ofInt 64 (8 * offset) ∧
      Holds v.mem (v.gpr (num4 rsp)) .q back ∧
      (fp = true → v.gpr (num4 rbp) = s.gpr (num4 rbp)) ∧
      (∀ q, ras = some q → Holds v.mem (s.gpr (num4 rsp)) .q (u.gpr (num4 q))) ∧
      (∀ q, fps = some q → Holds v.mem (s.gpr (num4 rsp) - 8) .q (u.gpr (num4 q))) ∧
      (∀ r, r ≠ num4 rsp → (fp = true → r ≠ num4 rbp) → r ≠ num4 tmp → v.gpr r = u.gpr r) ∧ v.xmm = u.xmm ∧
      ∀ x, (∀ i, i < 8 → x ≠ v.gpr (num4 rsp) + BitVec.ofNat 64 i ∧ (ras ≠ none → x ≠ s.gpr (num4 rsp) + BitVec.ofNat 64 i) ∧
        (fps ≠ none → x ≠ s.gpr (num4 rsp) - 8 + BitVec.ofNat 64 i)) → v.mem x = u.mem x := by
  have hback := minded_back he hm hb
  have hpos : (ras ≠ none ∨ fps ≠ none) → 0 < offset := by
    intro h
    unfold popFrameForTailCall at hc
    rw [if_neg h0] at hc
    split at hc
    · cases hc
    · rename_i hh
      simp only [Bool.and_eq_true, Bool.or_eq_true, decide_eq_true_eq, Option.isSome_iff_ne_none] at hh
      by_cases hp : 0 < offset
      · exact hp
      · exact absurd ⟨h, by omega⟩ hh
  have hcode : code = moveMR .q ⟨rsp, BitVec.ofNat 32 ((n + if fp then 1 else 0) * 8), none, 1⟩ .q tmp ++
      moveRM .q tmp ⟨rsp, BitVec.ofInt 32 ((n - offset + ((if fp then 1 else 0 : Nat) : Int)) * 8), none, 1⟩ ++
      (if fp then moveMR .q ⟨rsp, BitVec.ofNat 32 (n * 8), none, 1⟩ .q rbp else []) ++
      addCR .q ((BitVec.ofInt 32 ((n - offset + ((if fp then 1 else 0 : Nat) : Int)) * 8)).setWidth 64) rsp tmp ++
      surrogate ras offset ++ surrogate fps (offset - 1) := by
    unfold popFrameForTailCall at hc
    rw [if_neg h0] at hc
    split at hc
    · cases hc
    · simp only [← List.append_assoc] at hc
      cases fp <;> exact (Option.some.inj hc).symm
  clear hc
  subst hcode
  generalize hz : (if fp = true then 1 else 0 : Nat) = z at *
  have hz1 : z ≤ 1 := by rw [← hz]; split <;> omega
  have eS : u.gpr (num4 rsp) + BitVec.ofNat 64 ((n + z) * 8) = s.gpr (num4 rsp) := by
    have := he.stack
    rw [hz] at this
    rw [hm.stack, Nat.mul_comm]
    exact this
  have eI : ∀ o : Int, u.gpr (num4 rsp) + BitVec.ofInt 64 ((n - o + z) * 8) = s.gpr (num4 rsp) - BitVec.ofInt 64 (8 * o) := by
    intro o
    have : ((n : Int) - o + z) * 8 = (((n + z) * 8 : Nat) : Int) + -(8 * o) := by push_cast; omega
    rw [this, BitVec.ofInt_add, BitVec.ofInt_neg, BitVec.ofInt_natCast, ← BitVec.add_assoc, eS, BitVec.sub_eq_add_neg]
  generalize hS : s.gpr (num4 rsp) = S at *
  have z0 : S - BitVec.ofInt 64 (8 * 0) = S := by simp
  have z1 : S - BitVec.ofInt 64 (8 * 1) = S - 8 := rfl
  -- the return address
  obtain ⟨v1, r1, h1, k1⟩ := load_q rsp tmp ht.1 (BitVec.ofNat 32 ((n + z) * 8)) fpu pc u back (by
    rw [ofNat_signExtend _ (by omega), eS]
    exact hback)
  generalize hpc1 : behind pc (moveMR .q ⟨rsp, BitVec.ofNat 32 ((n + z) * 8), none, 1⟩ .q tmp) = pc1 at *
  obtain ⟨v2, r2, h2⟩ := store_q rsp tmp ht.1 (BitVec.ofInt 32 ((n - offset + z) * 8)) fpu pc1 v1
  rw [ofInt_signExtend _ (by omega), k1.gpr _ (by simpa using ht.2.1.symm), eI, h1] at h2
  generalize hpc2 : behind pc1 (moveRM .q tmp ⟨rsp, BitVec.ofInt 32 ((n - offset + z) * 8), none, 1⟩) = pc2 at *
  have v2sp : v2.gpr (num4 rsp) = u.gpr (num4 rsp) := by rw [h2.gpr _ (by simp), k1.gpr _ (by simpa using ht.2.1.symm)]
  -- the frame pointer
  have base : ∃ v3, Runs fpu (if fp then moveMR .q ⟨rsp, BitVec.ofNat 32 (n * 8), none, 1⟩ .q rbp else []) pc2 v2 v3 ∧
      (fp = true → v3.gpr (num4 rbp) = s.gpr (num4 rbp)) ∧ Kept v2 v3 (if fp then [num4 rbp] else []) := by
    cases fp with
    | false => exact ⟨v2, runs_nil .., fun h => (by cases h), fun _ _ => rfl, rfl, rfl⟩
    | true =>
      obtain ⟨_, hs⟩ := he.pointer rfl
      obtain ⟨_, hb'⟩ := hm.pointer rfl
      rw [hS] at hs hb'
      have hu : Holds u.mem (S - BitVec.ofInt 64 (8 * 1)) .q (s.gpr (num4 rbp)) := by
        intro i hi
        rw [z1, hb' i hi]
        exact hs i hi
      simp only [if_true, true_implies]
      refine load_q rsp rbp (by decide) _ fpu pc2 v2 _ ?_
      rw [ofNat_signExtend _ (by omega), v2sp]
      have e1 : u.gpr (num4 rsp) + BitVec.ofNat 64 (n * 8) = S - BitVec.ofInt 64 (8 * 1) := by
        rw [← eI 1]
        simp only [if_true] at hz
        subst hz
        have : ((n : Int) - 1 + ((1 : Nat) : Int)) * 8 = ((n * 8 : Nat) : Int) := by push_cast; omega
        rw [this, BitVec.ofInt_natCast]
      rw [e1]
      refine holds_far h2 (by omega) (by omega) (by omega) ?_
      rw [k1.mem]
      exact hu
  obtain ⟨v3, r3, h3, k3⟩ := base
  generalize hpc3 : behind pc2 (if fp then moveMR .q ⟨rsp, BitVec.ofNat 32 (n * 8), none, 1⟩ .q rbp else []) = pc3 at *
  -- the stack pointer
  obtain ⟨v4, r4, h4, k4⟩ := add_rsp ((BitVec.ofInt 32 ((n - offset + z) * 8)).setWidth 64) (by
    rw [ofInt_setWidth _ (by omega), fits32_iff, ofInt_toInt (by omega)]
    omega) tmp fpu pc3 v3
  rw [ofInt_setWidth _ (by omega), k3.gpr _ (by cases fp <;> decide), v2sp, eI] at h4
  generalize hpc4 : behind pc3 (addCR .q ((BitVec.ofInt 32 ((n - offset + z) * 8)).setWidth 64) rsp tmp) = pc4 at *
  have m4 : Holds v4.mem (S - BitVec.ofInt 64 (8 * offset)) .q back := by
    rw [k4.mem, k3.mem]
    exact h2.value
  have g4 : ∀ r, r ≠ num4 rsp → (fp = true → r ≠ num4 rbp) → r ≠ num4 tmp → v4.gpr r = u.gpr r := by
    intro r a b c
    rw [k4.gpr _ (by simpa using a), k3.gpr _ (by cases fp <;> simp_all), h2.gpr _ (by simp), k1.gpr _ (by simpa using c)]
  have q4 : ∀ q, ras = some q ∨ fps = some q → v4.gpr (num4 q) = u.gpr (num4 q) := by
    intro q hq
    obtain ⟨_, a, b, c⟩ := hr q hq
    exact g4 _ b c a
  have o4 : ∀ o : Int, v4.gpr (num4 rsp) + BitVec.ofInt 64 (8 * o) = S - BitVec.ofInt 64 (8 * (offset - o)) := by
    intro o
    rw [h4, BitVec.sub_eq_add_neg, BitVec.sub_eq_add_neg, BitVec.add_assoc, ← BitVec.ofInt_neg, ← BitVec.ofInt_neg, ← BitVec.ofInt_add]
    congr 2
    omega
  -- the surrogates
  obtain ⟨v5, r5, n5, h5⟩ := store_surrogate ras offset (by omega) (fun q hq => (hr q (Or.inl hq)).1) fpu pc4 v4
  have g5 : v5.gpr = v4.gpr ∧ v5.xmm = v4.xmm := by
    cases ras with
    | none => rw [n5 rfl]; exact ⟨rfl, rfl⟩
    | some q => exact ⟨funext fun r => (h5 q rfl).gpr r (by simp), (h5 q rfl).xmm⟩
  obtain ⟨v, r6, n6, h6⟩ := store_surrogate fps (offset - 1) (by omega) (fun q hq => (hr q (Or.inr hq)).1) fpu
    (behind pc4 (surrogate ras offset)) v5
  have g6 : v.gpr = v5.gpr ∧ v.xmm = v5.xmm := by
    cases fps with
    | none => rw [n6 rfl]; exact ⟨rfl, rfl⟩
    | some q => exact ⟨funext fun r => (h6 q rfl).gpr r (by simp), (h6 q rfl).xmm⟩
  have s5 : ∀ q, ras = some q → Stored v4 v5 .q (S - BitVec.ofInt 64 (8 * 0)) (u.gpr (num4 q)) [] := by
    intro q hq
    have := h5 q hq
    rw [o4, q4 q (Or.inl hq), Int.sub_self] at this
    exact this
  have s6 : ∀ q, fps = some q → Stored v5 v .q (S - BitVec.ofInt 64 (8 * 1)) (u.gpr (num4 q)) [] := by
    intro q hq
    have := h6 q hq
    rw [g5.1, o4, q4 q (Or.inr hq), show offset - (offset - 1) = 1 by omega] at this
    exact this
  have keep5 : ∀ (o : Int) (x : BitVec 64), -(2 ^ 30) < o ∧ o < 2 ^ 30 → o ≠ 0 → Holds v4.mem (S - BitVec.ofInt 64 (8 * o)) .q x →
      Holds v5.mem (S - BitVec.ofInt 64 (8 * o)) .q x := by
    intro o x ho hne hx
    cases ras with
    | none => rw [n5 rfl]; exact hx
    | some q => exact holds_far (s5 q rfl) (by omega) ho hne hx
  have keep6 : ∀ (o : Int) (x : BitVec 64), -(2 ^ 30) < o ∧ o < 2 ^ 30 → o ≠ 1 → Holds v5.mem (S - BitVec.ofInt 64 (8 * o)) .q x →
      Holds v.mem (S - BitVec.ofInt 64 (8 * o)) .q x := by
    intro o x ho hne hx
    cases fps with
    | none => rw [n6 rfl]; exact hx
    | some q => exact holds_far (s6 q rfl) (by omega) ho hne hx
  have vsp : v.gpr (num4 rsp) = S - BitVec.ofInt 64 (8 * offset) := by rw [g6.1, g5.1, h4]
  refine ⟨v, ?_, vsp, ?_, ?_, ?_, ?_, ?_, ?_, ?_⟩
  · refine runs_append (t := v5) (runs_append (t := v4) (runs_append (t := v3) (runs_append (t := v2) (runs_append r1 ?_) ?_) ?_) ?_) ?_
    · rw [hpc1]; exact r2
    · rw [behind_append, hpc1, hpc2]; exact r3
    · rw [behind_append, behind_append, hpc1, hpc2, hpc3]; exact r4
    · rw [behind_append, behind_append, behind_append, hpc1, hpc2, hpc3, hpc4]; exact r5
    · rw [behind_append, behind_append, behind_append, behind_append, hpc1, hpc2, hpc3, hpc4]; exact r6
  · rw [vsp]
    exact keep6 offset back (by omega) (by omega) (keep5 offset back (by omega) (by omega) m4)
  · intro hf
    rw [g6.1, g5.1, k4.gpr _ (by decide), h3 hf]
  · intro q hq
    have := keep6 0 _ (by omega) (by omega) (s5 q hq).value
    rw [z0] at this
    exact this
  · intro q hq
    exact (s6 q hq).value
  · intro r a b c
    rw [g6.1, g5.1, g4 r a b c]
  · rw [g6.2, g5.2, k4.xmm, k3.xmm, h2.xmm, k1.xmm]
  · intro x hx
    rw [vsp] at hx
    have e6 : v.mem x = v5.mem x := by
      cases fps with
      | none => rw [n6 rfl]
      | some q =>
        refine (s6 q rfl).others x (fun i hi => ?_)
        rw [z1]
        exact (hx i hi).2.2 (by simp)
    have e5 : v5.mem x = v4.mem x := by
      cases ras with
      | none => rw [n5 rfl]
      | some q =>
        refine (s5 q rfl).others x (fun i hi => ?_)
        rw [z0]
        exact (hx i hi).2.1 (by simp)
    rw [e6, e5, k4.mem, k3.mem, h2.others x (fun i hi => (hx i hi).1), k1.mem]

/-- **A call comes back** behind itself with the stack pointer it was made with, whatever the method does in between that leaves its stack
pointer and its return address alone; with frame pointers the one of the caller comes back too. -/
theorem call_returns (fp : Bool) (n m : Nat) (hn : n < 2 ^ 28) (hm : m < 2 ^ 28) (tmp : Register) (fpu : Fpu) (s s' : State) (back : BitVec 64)
    (scratch : List R) (hc : Called s s' back scratch) (pc : BitVec 64) :
    ∃ t, Runs fpu (allocateFrame fp n tmp) pc s' t ∧ Entered fp n s' t ∧
      ∀ u, Minded fp s' t u → ∀ pc',
        ∃ v, Goes fpu (popFrameAndPopArgumentsAndReturn fp false n m tmp) pc' u back v ∧ v.gpr (num4 rsp) = s.gpr (num4 rsp) ∧
          (fp = true → num4 rbp ∉ scratch → v.gpr (num4 rbp) = s.gpr (num4 rbp)) := by
  obtain ⟨t, ht, he, h⟩ := method_returns fp false n m hn hm tmp fpu s' back (by rw [hc.stack]; exact hc.stored.value) pc
  refine ⟨t, ht, he, fun u hu pc' => ?_⟩
  obtain ⟨v, hg, h4, h5, _⟩ := h u hu pc'
  refine ⟨v, hg, ?_, fun hf hs => ?_⟩
  · rw [h4, hc.stack]
    exact BitVec.sub_add_cancel _ _
  · rw [h5, hf]
    simp only [if_true]
    exact hc.stored.gpr _ (by
      simp only [List.mem_cons, not_or]
      exact ⟨by decide, hs⟩)

/-! ### Concrete cases -/

/-- A state with a stack at 0x7000, on which there is the return address 0x1234, and a thread at 0x9000 whose stack limit is at offset 24. -/
def exStack : State :=
  { exState with
    gpr := fun r => if r = 4 then 0x7008 else if r = 3 then 0x9000 else if r = 5 then 0x7100 else 0
    mem := Cpu.writeMem (Cpu.writeMem (fun _ => 0) 0x9018 .q 0x6000) 0x7008 .q 0x1234 }

theorem exStack_back : Holds exStack.mem (exStack.gpr (num4 rsp)) .q 0x1234 := holds_write _ 0x7008 .q 0x1234

example : resolve 0x1000 (callC 0x2000).tasks (callC 0x2000).code = some [0xe8#8, 0xfb#8, 0x0f#8, 0#8, 0#8] ∧
    resolve 0x1000 (callC 0x200000000).tasks (callC 0x200000000).code = none := by decide +kernel

example (fpu : Fpu) : Calls fpu [0xe8#8, 0xfb#8, 0x0f#8, 0#8, 0#8] 0x1000 exStack 0x2000 [] :=
  call_ok 0x2000 fpu 0x1000 exStack _ (by decide +kernel)

example (fpu : Fpu) : Calls fpu (longCallC 0x123456789abc) 0x1000 exStack 0x123456789abc [10#4] := long_call_ok ..

/-- Virtual calls: the address is taken from a table. -/
example (fpu : Fpu) : Calls fpu (callM ⟨4#5, 0, none, 1⟩) 0x1000 exStack 0x1234 [] :=
  call_memory_ok ⟨4#5, 0, none, 1⟩ (good_base _ _) fpu 0x1000 exStack 0x1234 (by rw [at_base]; exact exStack_back)

/-- The call of 0x2000 becomes one of 0x3000, and is recognised; a target that is too far is refused. -/
example : updateCall .call [0x90#8, 0xe8#8, 0xfb#8, 0x0f#8, 0#8, 0#8] 0x1005 0x3000 = some [0x90#8, 0xe8#8, 0xfb#8, 0x1f#8, 0#8, 0#8] ∧
    matchCall [0x90#8, 0xe8#8, 0xfb#8, 0x1f#8, 0#8, 0#8] 0x1005 0x3000 = true ∧
    updateCall .call [0x90#8, 0xe8#8, 0xfb#8, 0x0f#8, 0#8, 0#8] 0x1005 0x300000000 = none ∧
    patchCode .call (behind 0xfff [0x90#8]) 0x2000 = some [0xe8#8, 0xfb#8, 0x0f#8, 0#8, 0#8] := by decide +kernel

example : allocateFrame false 3 10#5 = [0x48#8, 0x83#8, 0xec#8, 0x18#8] ∧
    popFrameAndPopArgumentsAndReturn false false 3 4 10#5 = [0x48#8, 0x83#8, 0xc4#8, 0x18#8, 0xc3#8] ∧
    popFrameAndPopArgumentsAndReturn false true 3 4 10#5 = [0x48#8, 0x83#8, 0xc4#8, 0x18#8, 0x59#8, 0x48#8, 0x83#8, 0xc4#8, 0x10#8, 0xff#8, 0xe1#8] ∧
    allocateFrame true 2 10#5 = [0x55#8, 0x48#8, 0x89#8, 0xe5#8, 0x48#8, 0x83#8, 0xec#8, 0x10#8] := by decide +kernel

example (fp tails : Bool) (fpu : Fpu) : ∃ t, Runs fpu (allocateFrame fp 3 10#5) 0x1000 exStack t ∧ Entered fp 3 exStack t ∧ Minded fp exStack t t := by
  obtain ⟨t, h1, h2, _⟩ := method_returns fp tails 3 4 (by decide) (by decide) 10#5 fpu exStack 0x1234 exStack_back 0x1000
  exact ⟨t, h1, h2, rfl, fun _ _ => rfl, fun _ => ⟨rfl, fun _ _ => rfl⟩⟩

/-- Four words of a frame take five, so that with the return address there are six. -/
example : alignFrameSize false 4 = 5 ∧ alignFrameSize false 5 = 5 ∧ alignFrameSize true 5 = 6 ∧
    (exStack.gpr (num4 rsp) + 8).toNat % 16 = 0 := by decide +kernel

/-- There is room on the stack: the check goes on. -/
example (fpu : Fpu) : ∃ code, resolve 0x1000 (checkStackOverflow 0x5000 24).tasks (checkStackOverflow 0x5000 24).code = some code ∧
    Branches fpu code 0x1000 exStack false 0x5000 [] := by
  refine ⟨_, rfl, ?_⟩
  refine overflow_ok 0x5000 24 fpu 0x1000 exStack 0x6000 ?_ _ rfl (by decide) (by decide)
  intro i hi
  have : ∀ i, i < 8 → ((0x6000 : BitVec 64).extractLsb' (8 * i) 8) = exStack.mem (0x9018 + BitVec.ofNat 64 i) := by decide +kernel
  exact this i hi

/-- A tail call with two words of arguments more: the return address moves down by two words. -/
example : popFrameForTailCall false 5 2 (some 0#5) none 10#5 =
    some (moveMR .q ⟨rsp, 40, none, 1⟩ .q 10#5 ++ moveRM .q 10#5 ⟨rsp, 24, none, 1⟩ ++ addCR .q 24 rsp 10#5 ++ moveRM .q 0#5 ⟨rsp, 16, none, 1⟩) ∧
    popFrameForTailCall false 5 (-2) (some 0#5) none 10#5 = none := by decide +kernel

end Avian.X86
