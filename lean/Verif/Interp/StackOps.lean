import Verif.Interp.Wp
import Verif.Interp.Arith
/-
The operand stack instructions of the interpreter do what the specification says.
-/
namespace Avian.Interp

open Spec

/-- The interpreter's code for an operand stack instruction (a table used in the proofs only;
`Sim` checks it against `dispatch`). -/
def opBody (env : Env) : SOp → M Unit
  | .nop => pure ()
  | .const l => l.reverse.forM (pushSlot env)
  | .pop => popBody 1
  | .pop2 => popBody 2
  | .dup => dupBody env
  | .dup_x1 => dupX1Body env
  | .dup_x2 => dupX2Body env
  | .dup2 => dup2Body env
  | .dup2_x1 => dup2X1Body env
  | .dup2_x2 => dup2X2Body env
  | .swap => swapBody env
  | .iadd => intBin env (· + ·)
  | .isub => intBin env (· - ·)
  | .imul => intBin env (· * ·)
  | .idiv => intDiv env BitVec.sdiv
  | .irem => intDiv env BitVec.srem
  | .ineg => intUn env (- ·)
  | .ishl => intShift env (· <<< ·)
  | .ishr => intShift env BitVec.sshiftRight
  | .iushr => intShift env (· >>> ·)
  | .iand => intBin env (· &&& ·)
  | .ior => intBin env (· ||| ·)
  | .ixor => intBin env (· ^^^ ·)
  | .ladd => longBin env (· + ·)
  | .lsub => longBin env (· - ·)
  | .lmul => longBin env (· * ·)
  | .ldiv => longDiv env BitVec.sdiv
  | .lrem => longDiv env BitVec.srem
  | .lneg => longUn env (- ·)
  | .lshl => longShift env (· <<< ·)
  | .lshr => longShift env BitVec.sshiftRight
  | .lushr => longShift env (· >>> ·)
  | .land => longBin env (· &&& ·)
  | .lor => longBin env (· ||| ·)
  | .lxor => longBin env (· ^^^ ·)
  | .fadd => intBin env env.fp.fadd
  | .fsub => intBin env env.fp.fsub
  | .fmul => intBin env env.fp.fmul
  | .fdiv => intBin env env.fp.fdiv
  | .frem => intBin env env.fp.frem
  | .fneg => intUn env fneg32
  | .dadd => longBin env env.fp.dadd
  | .dsub => longBin env env.fp.dsub
  | .dmul => longBin env env.fp.dmul
  | .ddiv => longBin env env.fp.ddiv
  | .drem => longBin env env.fp.drem
  | .dneg => longUn env fneg64
  | .i2l => intToLong env (BitVec.signExtend 64)
  | .i2f => intUn env env.fp.i2f
  | .i2d => intToLong env env.fp.i2d
  | .l2i => longToInt env (BitVec.setWidth 32)
  | .l2f => longToInt env env.fp.l2f
  | .l2d => longUn env env.fp.l2d
  | .f2i => f2iBody env
  | .f2l => f2lBody env
  | .f2d => intToLong env env.fp.f2d
  | .d2i => d2iBody env
  | .d2l => d2lBody env
  | .d2f => longToInt env env.fp.d2f
  | .i2b => intUn env fun a => (a.setWidth 8).signExtend 32
  | .i2c => intUn env fun a => (a.setWidth 16).setWidth 32
  | .i2s => intUn env fun a => (a.setWidth 16).signExtend 32
  | .lcmp => lcmpBody env
  | .fcmpl => fcmpBody env (BitVec.allOnes 32)
  | .fcmpg => fcmpBody env 1#32
  | .dcmpl => dcmpBody env (BitVec.allOnes 32)
  | .dcmpg => dcmpBody env 1#32

section
variable {env : Env} {mem0 : Nat → Slot} {v : View} {s : St} {T : St → Prop}
  {D : List Slot → St → Prop} {Q : Unit → St → Prop}

/-- Replace the whole operand stack. -/
theorem Top.restack {s' : St} {st' : List Slot} (ht : Top env mem0 v s)
    (hlow : ∀ i, i < v.b + v.locals.length + 4 → s'.mem i = s.mem i)
    (hstk : Stk s'.mem (v.b + v.locals.length + 4) st')
    (hlen : st'.length ≤ (env.meth v.m).code.maxStack)
    (hsp : s'.sp = v.b + v.locals.length + 4 + st'.length)
    (hf : s'.frame = s.frame) (hip : s'.ip = s.ip) (hc : s'.code = s.code) (he : s'.exc = s.exc)
    (hh : s'.heap = s.heap) (hl : s'.log = s.log) :
    Top env mem0 { v with stack := st' } s' := by
  obtain ⟨size, room, fits, below, loc, fbase, fnext, fmeth, stk, sp, frame, ip, code, exc, heap,
    log⟩ := ht
  refine ⟨size, room, hlen, ?_, ?_, ?_, ?_, ?_, hstk, hsp, hf.trans frame, hip.trans ip,
    hc.trans code, he.trans exc, hh.trans heap, hl.trans log⟩
  · intro i hi
    simp only at hi ⊢
    rw [hlow i (by omega)]; exact below i hi
  · intro i x hx
    have : i < v.locals.length := (List.getElem?_eq_some_iff.1 hx).1
    simp only
    rw [hlow _ (by omega)]; exact loc i x hx
  · simp only; rw [hlow _ (by omega)]; exact fbase
  · simp only; rw [hlow _ (by omega)]; exact fnext
  · simp only; rw [hlow _ (by omega)]; exact fmeth

theorem wp_copySlot {dst src : Nat} {x : Slot} (hs : src < env.size) (hd : dst < env.size)
    (hx : s.mem src = x) (h : Q () { s with mem := fun j => if j = dst then x else s.mem j }) :
    wp (copySlot env dst src) Q T D s := by
  unfold copySlot
  exact wp_bind (wp_readSlot hs hx (wp_writeSlot hd h))

theorem wp_copySlot2 {dst src : Nat} {x y : Slot} (hs : src + 1 < env.size) (hd : dst + 1 < env.size)
    (hx : s.mem src = x) (hy : s.mem (src + 1) = y)
    (h : Q () { s with mem := fun j =>
      if j = dst + 1 then y else if j = dst then x else s.mem j }) :
    wp (copySlot2 env dst src) Q T D s := by
  unfold copySlot2
  refine wp_bind (wp_readSlot (by omega) hx (wp_bind (wp_readSlot hs hy (wp_bind
    (wp_writeSlot (by omega) (wp_writeSlot hd ?_))))))
  exact h

theorem wp_spMinus' {Q : Nat → St → Prop} {n : Nat} (hn : n ≤ s.sp) (h : Q (s.sp - n) s) :
    wp (spMinus n) Q T D s := by
  unfold spMinus
  refine wp_bind (wp_getS ?_)
  rw [if_neg (by omega)]
  exact wp_pure h

theorem wp_spAdd {n : Nat} (h : Q () { s with sp := s.sp + n }) : wp (spAdd n) Q T D s :=
  wp_modS h

theorem wp_intBin {f : BitVec 32 → BitVec 32 → BitVec 32} {a b : BitVec 32} {st : List Slot}
    (ht : Top env mem0 v s) (hst : v.stack = .int b :: .int a :: st)
    (h : ∀ s', Top env mem0 { v with stack := .int (f a b) :: st } s' → Q () s') :
    wp (intBin env f) Q T D s := by
  have := ht.fits
  rw [hst] at this
  simp only [List.length_cons] at this
  unfold intBin
  exact wp_bind (wp_popInt ht hst fun s1 h1 => wp_bind (wp_popInt h1 rfl fun s2 h2 =>
    wp_pushInt h2 (by (try simp only); omega) h))

theorem wp_intUn {f : BitVec 32 → BitVec 32} {a : BitVec 32} {st : List Slot}
    (ht : Top env mem0 v s) (hst : v.stack = .int a :: st)
    (h : ∀ s', Top env mem0 { v with stack := .int (f a) :: st } s' → Q () s') :
    wp (intUn env f) Q T D s := by
  have := ht.fits
  rw [hst] at this
  simp only [List.length_cons] at this
  unfold intUn
  exact wp_bind (wp_popInt ht hst fun s1 h1 => wp_pushInt h1 (by (try simp only); omega) h)

theorem wp_longUn {f : BitVec 64 → BitVec 64} {ah al : BitVec 32} {st : List Slot}
    (ht : Top env mem0 v s) (hst : v.stack = .int al :: .int ah :: st)
    (h : ∀ s', Top env mem0 { v with stack := pushL (f (ah ++ al)) st } s' → Q () s') :
    wp (longUn env f) Q T D s := by
  have := ht.fits
  rw [hst] at this
  simp only [List.length_cons] at this
  unfold longUn
  exact wp_bind (wp_popLong ht hst fun s1 h1 => wp_pushLong h1 (by (try simp only); omega) h)

theorem wp_longBin {f : BitVec 64 → BitVec 64 → BitVec 64} {ah al bh bl : BitVec 32}
    {st : List Slot} (ht : Top env mem0 v s)
    (hst : v.stack = .int bl :: .int bh :: .int al :: .int ah :: st)
    (h : ∀ s', Top env mem0 { v with stack := pushL (f (ah ++ al) (bh ++ bl)) st } s' → Q () s') :
    wp (longBin env f) Q T D s := by
  have := ht.fits
  rw [hst] at this
  simp only [List.length_cons] at this
  unfold longBin
  exact wp_bind (wp_popLong ht hst fun s1 h1 => wp_bind (wp_popLong h1 rfl fun s2 h2 =>
    wp_pushLong h2 (by (try simp only); omega) h))

theorem wp_intShift {f : BitVec 32 → Nat → BitVec 32} {a b : BitVec 32} {st : List Slot}
    (ht : Top env mem0 v s) (hst : v.stack = .int b :: .int a :: st)
    (h : ∀ s', Top env mem0 { v with stack := .int (f a (b.toNat % 32)) :: st } s' → Q () s') :
    wp (intShift env f) Q T D s := by
  have := ht.fits
  rw [hst] at this
  simp only [List.length_cons] at this
  unfold intShift
  refine wp_bind (wp_popInt ht hst fun s1 h1 => wp_bind (wp_popInt h1 rfl fun s2 h2 =>
    wp_pushInt h2 (by (try simp only); omega) ?_))
  rw [and_1f]
  exact h

theorem wp_longShift {f : BitVec 64 → Nat → BitVec 64} {ah al b : BitVec 32} {st : List Slot}
    (ht : Top env mem0 v s) (hst : v.stack = .int b :: .int al :: .int ah :: st)
    (h : ∀ s', Top env mem0 { v with stack := pushL (f (ah ++ al) (b.toNat % 64)) st } s' →
      Q () s') :
    wp (longShift env f) Q T D s := by
  have := ht.fits
  rw [hst] at this
  simp only [List.length_cons] at this
  unfold longShift
  refine wp_bind (wp_popInt ht hst fun s1 h1 => wp_bind (wp_popLong h1 rfl fun s2 h2 =>
    wp_pushLong h2 (by (try simp only); omega) ?_))
  rw [and_3f]
  exact h

theorem wp_intToLong {f : BitVec 32 → BitVec 64} {a : BitVec 32} {st : List Slot}
    (ht : Top env mem0 v s) (hst : v.stack = .int a :: st)
    (hl : st.length + 1 < (env.meth v.m).code.maxStack)
    (h : ∀ s', Top env mem0 { v with stack := pushL (f a) st } s' → Q () s') :
    wp (intToLong env f) Q T D s := by
  unfold intToLong
  exact wp_bind (wp_popInt ht hst fun s1 h1 => wp_pushLong h1 hl h)

theorem wp_longToInt {f : BitVec 64 → BitVec 32} {ah al : BitVec 32} {st : List Slot}
    (ht : Top env mem0 v s) (hst : v.stack = .int al :: .int ah :: st)
    (h : ∀ s', Top env mem0 { v with stack := .int (f (ah ++ al)) :: st } s' → Q () s') :
    wp (longToInt env f) Q T D s := by
  have := ht.fits
  rw [hst] at this
  simp only [List.length_cons] at this
  unfold longToInt
  exact wp_bind (wp_popLong ht hst fun s1 h1 => wp_pushInt h1 (by (try simp only); omega) h)

/-- Pushing several slots, the deepest first. -/
theorem wp_pushAll {l : List Slot} : ∀ {v : View} {s : St}, Top env mem0 v s →
    v.stack.length + l.length ≤ (env.meth v.m).code.maxStack →
    (∀ s', Top env mem0 { v with stack := l.reverse ++ v.stack } s' → Q () s') →
    wp (l.forM (pushSlot env)) Q T D s := by
  induction l with
  | nil => intro v s ht _ h; exact wp_pure (h s ht)
  | cons x l ih =>
    intro v s ht hl h
    simp only [List.length_cons] at hl
    show wp (pushSlot env x >>= fun _ => l.forM (pushSlot env)) Q T D s
    refine wp_bind (wp_pushSlot ht (by omega) fun s1 h1 => ih h1 (by simp only [List.length_cons]; omega) ?_)
    intro s2 h2
    refine h s2 ?_
    simpa using h2

end

/-- What an operand stack instruction must establish. -/
def OpPost (env : Env) (mem0 : Nat → Slot) (v : View) (res : SRes) (x : M Unit) (s : St) : Prop :=
  wp x (fun _ s' => ∃ st', res = .ok st' ∧ Top env mem0 { v with stack := st' } s')
    (fun s' => ∃ k st', res = .error k ∧ Top env mem0 { v with
      stack := st', heap := (env.newThrowable v.heap k).1, exc := (env.newThrowable v.heap k).2 } s')
    (fun _ _ => False) s

/-- Decide the tests of nested slot updates. -/
local macro "ifs" : tactic => `(tactic|
  ((try simp only [List.length_cons]);
   repeat (first | rw [if_neg (by omega)] | rw [if_pos (by omega)])))

section
variable {env : Env} {mem0 : Nat → Slot} {v : View} {s : St}

theorem dup_post {x : Slot} {st : List Slot} (ht : Top env mem0 v s) (hst : v.stack = x :: st)
    (hl : st.length + 2 ≤ (env.meth v.m).code.maxStack) :
    OpPost env mem0 v (.ok (x :: x :: st)) (dupBody env) s := by
  have hsp := ht.sp
  have hstk := ht.stk
  have hroom := ht.room
  rw [hst] at hsp hstk
  simp only [List.length_cons] at hsp
  obtain ⟨k1, k2⟩ := hstk
  unfold OpPost dupBody
  refine wp_bind (wp_spMinus' (by omega) (wp_bind (wp_spMinus' (by omega) (wp_bind
    (wp_copySlot (x := x) (by omega) (by omega) ?_ (wp_spAdd ?_))))))
  · rw [hsp]; exact k1
  · refine ⟨_, rfl, ht.restack ?_ ?_ ?_ ?_ rfl rfl rfl rfl rfl rfl⟩
    · intro i hi; simp only; rw [if_neg (by omega)]
    · refine ⟨?_, ?_, k2.congr ?_⟩
      · simp only [List.length_cons]; rw [if_pos (by omega)]
      · simp only; rw [if_neg (by omega)]; exact k1
      · intro i h1 h2; simp only; rw [if_neg (by omega)]
    · simp only [List.length_cons]; omega
    · simp only [List.length_cons]; omega

theorem dup_x1_post {x y : Slot} {st : List Slot} (ht : Top env mem0 v s)
    (hst : v.stack = x :: y :: st) (hl : st.length + 3 ≤ (env.meth v.m).code.maxStack) :
    OpPost env mem0 v (.ok (x :: y :: x :: st)) (dupX1Body env) s := by
  have hsp := ht.sp
  have hstk := ht.stk
  have hroom := ht.room
  rw [hst] at hsp hstk
  simp only [List.length_cons] at hsp
  obtain ⟨k1, k2, k3⟩ := hstk
  simp only [List.length_cons] at k1
  unfold OpPost dupX1Body
  refine wp_bind (wp_spMinus' (by (try simp only); omega) (wp_bind (wp_spMinus' (by (try simp only); omega) (wp_bind ?_))))
  refine wp_copySlot (x := x) (by (try simp only); omega) (by (try simp only); omega) (by ifs; first | rfl | (simp only [hsp]; assumption)) ?_
  refine wp_bind (wp_spMinus' (by (try simp only); omega) (wp_bind (wp_spMinus' (by (try simp only); omega) (wp_bind ?_))))
  refine wp_copySlot (x := y) (by (try simp only); omega) (by (try simp only); omega) (by ifs; first | rfl | (simp only [hsp]; assumption)) ?_
  refine wp_bind (wp_spMinus' (by (try simp only); omega) (wp_bind (wp_spMinus' (by (try simp only); omega) (wp_bind ?_))))
  refine wp_copySlot (x := x) (by (try simp only); omega) (by (try simp only); omega) (by ifs; first | rfl | (simp only [hsp]; assumption)) ?_
  refine wp_spAdd ?_
  refine ⟨_, rfl, ht.restack ?_ ?_ ?_ ?_ rfl rfl rfl rfl rfl rfl⟩
  · intro i hi; ifs
  · refine ⟨?_, ?_, ?_, k3.congr ?_⟩
    · ifs; all_goals assumption
    · ifs; all_goals assumption
    · ifs; all_goals assumption
    · intro i h1 h2; ifs
  · simp only [List.length_cons]; omega
  · simp only [List.length_cons]; omega

theorem dup_x2_post {x y z : Slot} {st : List Slot} (ht : Top env mem0 v s)
    (hst : v.stack = x :: y :: z :: st) (hl : st.length + 4 ≤ (env.meth v.m).code.maxStack) :
    OpPost env mem0 v (.ok (x :: y :: z :: x :: st)) (dupX2Body env) s := by
  have hsp := ht.sp
  have hstk := ht.stk
  have hroom := ht.room
  rw [hst] at hsp hstk
  simp only [List.length_cons] at hsp
  obtain ⟨k1, k2, k3, k4⟩ := hstk
  simp only [List.length_cons] at k1 k2
  unfold OpPost dupX2Body
  refine wp_bind (wp_spMinus' (by (try simp only); omega) (wp_bind (wp_spMinus' (by (try simp only); omega) (wp_bind ?_))))
  refine wp_copySlot (x := x) (by (try simp only); omega) (by (try simp only); omega) (by ifs; first | rfl | (simp only [hsp]; assumption)) ?_
  refine wp_bind (wp_spMinus' (by (try simp only); omega) (wp_bind (wp_spMinus' (by (try simp only); omega) (wp_bind ?_))))
  refine wp_copySlot (x := y) (by (try simp only); omega) (by (try simp only); omega) (by ifs; first | rfl | (simp only [hsp]; assumption)) ?_
  refine wp_bind (wp_spMinus' (by (try simp only); omega) (wp_bind (wp_spMinus' (by (try simp only); omega) (wp_bind ?_))))
  refine wp_copySlot (x := z) (by (try simp only); omega) (by (try simp only); omega) (by ifs; first | rfl | (simp only [hsp]; assumption)) ?_
  refine wp_bind (wp_spMinus' (by (try simp only); omega) (wp_bind (wp_spMinus' (by (try simp only); omega) (wp_bind ?_))))
  refine wp_copySlot (x := x) (by (try simp only); omega) (by (try simp only); omega) (by ifs; first | rfl | (simp only [hsp]; assumption)) ?_
  refine wp_spAdd ?_
  refine ⟨_, rfl, ht.restack ?_ ?_ ?_ ?_ rfl rfl rfl rfl rfl rfl⟩
  · intro i hi; ifs
  · refine ⟨?_, ?_, ?_, ?_, k4.congr ?_⟩
    · ifs; all_goals assumption
    · ifs; all_goals assumption
    · ifs; all_goals assumption
    · ifs; all_goals assumption
    · intro i h1 h2; ifs
  · simp only [List.length_cons]; omega
  · simp only [List.length_cons]; omega

theorem dup2_post {x y : Slot} {st : List Slot} (ht : Top env mem0 v s)
    (hst : v.stack = x :: y :: st) (hl : st.length + 4 ≤ (env.meth v.m).code.maxStack) :
    OpPost env mem0 v (.ok (x :: y :: x :: y :: st)) (dup2Body env) s := by
  have hsp := ht.sp
  have hstk := ht.stk
  have hroom := ht.room
  rw [hst] at hsp hstk
  simp only [List.length_cons] at hsp
  obtain ⟨k1, k2, k3⟩ := hstk
  simp only [List.length_cons] at k1
  unfold OpPost dup2Body
  refine wp_bind (wp_spMinus' (by (try simp only); omega) (wp_bind (wp_spMinus' (by (try simp only); omega) (wp_bind ?_))))
  refine wp_copySlot2 (x := y) (y := x) (by (try simp only); omega) (by (try simp only); omega) (by ifs; first | rfl | (simp only [hsp]; assumption) | (rw [show s.sp - 2 = v.b + v.locals.length + 4 + st.length by omega]; assumption)) (by ifs; first | rfl | (simp only [hsp]; assumption) | (rw [show s.sp - 2 + 1 = v.b + v.locals.length + 4 + (st.length + 1) by omega]; assumption)) ?_
  refine wp_spAdd ?_
  refine ⟨_, rfl, ht.restack ?_ ?_ ?_ ?_ rfl rfl rfl rfl rfl rfl⟩
  · intro i hi; ifs
  · refine ⟨?_, ?_, ?_, ?_, k3.congr ?_⟩
    · ifs; all_goals assumption
    · ifs; all_goals assumption
    · ifs; all_goals assumption
    · ifs; all_goals assumption
    · intro i h1 h2; ifs
  · simp only [List.length_cons]; omega
  · simp only [List.length_cons]; omega

theorem dup2_x1_post {x y z : Slot} {st : List Slot} (ht : Top env mem0 v s)
    (hst : v.stack = x :: y :: z :: st) (hl : st.length + 5 ≤ (env.meth v.m).code.maxStack) :
    OpPost env mem0 v (.ok (x :: y :: z :: x :: y :: st)) (dup2X1Body env) s := by
  have hsp := ht.sp
  have hstk := ht.stk
  have hroom := ht.room
  rw [hst] at hsp hstk
  simp only [List.length_cons] at hsp
  obtain ⟨k1, k2, k3, k4⟩ := hstk
  simp only [List.length_cons] at k1 k2
  unfold OpPost dup2X1Body
  refine wp_bind (wp_spMinus' (by (try simp only); omega) (wp_bind (wp_spMinus' (by (try simp only); omega) (wp_bind ?_))))
  refine wp_copySlot (x := x) (by (try simp only); omega) (by (try simp only); omega) (by ifs; first | rfl | (simp only [hsp]; assumption)) ?_
  refine wp_bind (wp_spMinus' (by (try simp only); omega) (wp_bind (wp_spMinus' (by (try simp only); omega) (wp_bind ?_))))
  refine wp_copySlot (x := y) (by (try simp only); omega) (by (try simp only); omega) (by ifs; first | rfl | (simp only [hsp]; assumption)) ?_
  refine wp_bind (wp_spMinus' (by (try simp only); omega) (wp_bind (wp_spMinus' (by (try simp only); omega) (wp_bind ?_))))
  refine wp_copySlot (x := z) (by (try simp only); omega) (by (try simp only); omega) (by ifs; first | rfl | (simp only [hsp]; assumption)) ?_
  refine wp_bind (wp_spMinus' (by (try simp only); omega) (wp_bind (wp_spMinus' (by (try simp only); omega) (wp_bind ?_))))
  refine wp_copySlot2 (x := y) (y := x) (by (try simp only); omega) (by (try simp only); omega) (by ifs; first | rfl | (simp only [hsp]; assumption) | (rw [show s.sp - 2 = v.b + v.locals.length + 4 + st.length by omega]; assumption)) (by ifs; first | rfl | (simp only [hsp]; assumption) | (rw [show s.sp - 2 + 1 = v.b + v.locals.length + 4 + (st.length + 1) by omega]; assumption)) ?_
  refine wp_spAdd ?_
  refine ⟨_, rfl, ht.restack ?_ ?_ ?_ ?_ rfl rfl rfl rfl rfl rfl⟩
  · intro i hi; ifs
  · refine ⟨?_, ?_, ?_, ?_, ?_, k4.congr ?_⟩
    · ifs; all_goals assumption
    · ifs; all_goals assumption
    · ifs; all_goals assumption
    · ifs; all_goals assumption
    · ifs; all_goals assumption
    · intro i h1 h2; ifs
  · simp only [List.length_cons]; omega
  · simp only [List.length_cons]; omega

theorem dup2_x2_post {x y z w : Slot} {st : List Slot} (ht : Top env mem0 v s)
    (hst : v.stack = x :: y :: z :: w :: st) (hl : st.length + 6 ≤ (env.meth v.m).code.maxStack) :
    OpPost env mem0 v (.ok (x :: y :: z :: w :: x :: y :: st)) (dup2X2Body env) s := by
  have hsp := ht.sp
  have hstk := ht.stk
  have hroom := ht.room
  rw [hst] at hsp hstk
  simp only [List.length_cons] at hsp
  obtain ⟨k1, k2, k3, k4, k5⟩ := hstk
  simp only [List.length_cons] at k1 k2 k3
  unfold OpPost dup2X2Body
  refine wp_bind (wp_spMinus' (by (try simp only); omega) (wp_bind (wp_spMinus' (by (try simp only); omega) (wp_bind ?_))))
  refine wp_copySlot (x := x) (by (try simp only); omega) (by (try simp only); omega) (by ifs; first | rfl | (simp only [hsp]; assumption)) ?_
  refine wp_bind (wp_spMinus' (by (try simp only); omega) (wp_bind (wp_spMinus' (by (try simp only); omega) (wp_bind ?_))))
  refine wp_copySlot (x := y) (by (try simp only); omega) (by (try simp only); omega) (by ifs; first | rfl | (simp only [hsp]; assumption)) ?_
  refine wp_bind (wp_spMinus' (by (try simp only); omega) (wp_bind (wp_spMinus' (by (try simp only); omega) (wp_bind ?_))))
  refine wp_copySlot (x := z) (by (try simp only); omega) (by (try simp only); omega) (by ifs; first | rfl | (simp only [hsp]; assumption)) ?_
  refine wp_bind (wp_spMinus' (by (try simp only); omega) (wp_bind (wp_spMinus' (by (try simp only); omega) (wp_bind ?_))))
  refine wp_copySlot (x := w) (by (try simp only); omega) (by (try simp only); omega) (by ifs; first | rfl | (simp only [hsp]; assumption)) ?_
  refine wp_bind (wp_spMinus' (by (try simp only); omega) (wp_bind (wp_spMinus' (by (try simp only); omega) (wp_bind ?_))))
  refine wp_copySlot2 (x := y) (y := x) (by (try simp only); omega) (by (try simp only); omega) (by ifs; first | rfl | (simp only [hsp]; assumption) | (rw [show s.sp - 2 = v.b + v.locals.length + 4 + st.length by omega]; assumption)) (by ifs; first | rfl | (simp only [hsp]; assumption) | (rw [show s.sp - 2 + 1 = v.b + v.locals.length + 4 + (st.length + 1) by omega]; assumption)) ?_
  refine wp_spAdd ?_
  refine ⟨_, rfl, ht.restack ?_ ?_ ?_ ?_ rfl rfl rfl rfl rfl rfl⟩
  · intro i hi; ifs
  · refine ⟨?_, ?_, ?_, ?_, ?_, ?_, k5.congr ?_⟩
    · ifs; all_goals assumption
    · ifs; all_goals assumption
    · ifs; all_goals assumption
    · ifs; all_goals assumption
    · ifs; all_goals assumption
    · ifs; all_goals assumption
    · intro i h1 h2; ifs
  · simp only [List.length_cons]; omega
  · simp only [List.length_cons]; omega

theorem swap_post {x y : Slot} {st : List Slot} (ht : Top env mem0 v s)
    (hst : v.stack = x :: y :: st) :
    OpPost env mem0 v (.ok (y :: x :: st)) (swapBody env) s := by
  have hfit := ht.fits
  have hsp := ht.sp
  have hstk := ht.stk
  have hroom := ht.room
  rw [hst] at hsp hstk hfit
  simp only [List.length_cons] at hsp hfit
  obtain ⟨k1, k2, k3⟩ := hstk
  simp only [List.length_cons] at k1
  unfold OpPost swapBody
  refine wp_bind (wp_spMinus' (by omega) (wp_bind (wp_readSlot (x := x) (by omega) ?_ (wp_bind
    (wp_spMinus' (by omega) (wp_bind (wp_spMinus' (by omega) (wp_bind
    (wp_copySlot (x := y) (by omega) (by omega) ?_ (wp_bind (wp_spMinus' ?_
    (wp_writeSlot ?_ ?_)))))))))))) 
  · rw [hsp]; exact k1
  · rw [hsp]; exact k2
  · (try simp only); omega
  · (try simp only); omega
  · refine ⟨_, rfl, ht.restack ?_ ?_ ?_ ?_ rfl rfl rfl rfl rfl rfl⟩
    · intro i hi; ifs
    · refine ⟨?_, ?_, k3.congr ?_⟩
      · ifs
      · ifs
      · intro i h1 h2; ifs
    · simp only [List.length_cons]; omega
    · simp only [List.length_cons]; omega

theorem pop_post {n : Nat} {st : List Slot} (ht : Top env mem0 v s) (hn : n ≤ v.stack.length)
    (hst : v.stack.drop n = st) : OpPost env mem0 v (.ok st) (popBody n) s := by
  have hsp := ht.sp
  unfold OpPost popBody
  refine wp_bind (wp_spMinus' (by omega) (wp_modS ⟨st, rfl, ?_⟩))
  exact ht.withSp hst hn

theorem const_post {l : List Slot} (ht : Top env mem0 v s)
    (hl : (l ++ v.stack).length ≤ (env.meth v.m).code.maxStack) :
    OpPost env mem0 v (.ok (l ++ v.stack)) (l.reverse.forM (pushSlot env)) s := by
  refine wp_pushAll ht ?_ fun s' h => ⟨_, rfl, ?_⟩
  · simp only [List.length_append, List.length_reverse] at *; omega
  · simpa using h

theorem intDiv_post {f : BitVec 32 → BitVec 32 → BitVec 32} {g : Int} {a b : BitVec 32}
    {st : List Slot} {res : SRes} (ht : Top env mem0 v s) (hst : v.stack = .int b :: .int a :: st)
    (hd : ¬ (a = BitVec.intMin 32 ∧ b = BitVec.allOnes 32))
    (hg : BitVec.ofInt 32 g = f a b)
    (hr : (if b.toInt = 0 then some (.error .arithmetic) else some (.ok (i32 g :: st))) =
      some res) :
    OpPost env mem0 v res (intDiv env f) s := by
  have := ht.fits
  rw [hst] at this
  simp only [List.length_cons] at this
  unfold OpPost intDiv
  refine wp_bind (wp_popInt ht hst fun s1 h1 => wp_bind (wp_popInt h1 rfl fun s2 h2 => ?_))
  by_cases hb : b = 0#32
  · rw [if_pos hb]
    rw [if_pos (toInt_eq_zero.2 hb)] at hr
    cases hr
    exact wp_throwNew h2 fun s3 h3 => ⟨_, _, rfl, h3⟩
  · rw [if_neg hb, if_neg hd]
    rw [if_neg (fun h => hb (toInt_eq_zero.1 h))] at hr
    cases hr
    refine wp_pushInt h2 (by simp only; omega) fun s3 h3 => ⟨_, rfl, ?_⟩
    unfold i32
    rw [hg]
    exact h3

theorem longDiv_post {f : BitVec 64 → BitVec 64 → BitVec 64} {g : Int} {ah al bh bl : BitVec 32}
    {st : List Slot} {res : SRes} (ht : Top env mem0 v s)
    (hst : v.stack = .int bl :: .int bh :: .int al :: .int ah :: st)
    (hd : ¬ (asLong ah al = BitVec.intMin 64 ∧ asLong bh bl = BitVec.allOnes 64))
    (hg : BitVec.ofInt 64 g = f (ah ++ al) (bh ++ bl))
    (hr : (if (asLong bh bl).toInt = 0 then some (.error .arithmetic)
      else some (.ok (pushL (BitVec.ofInt 64 g) st))) = some res) :
    OpPost env mem0 v res (longDiv env f) s := by
  have := ht.fits
  rw [hst] at this
  simp only [List.length_cons] at this
  unfold asLong at hd hr
  unfold OpPost longDiv
  refine wp_bind (wp_popLong ht hst fun s1 h1 => wp_bind (wp_popLong h1 rfl fun s2 h2 => ?_))
  by_cases hb : bh ++ bl = 0#64
  · rw [if_pos hb]
    rw [if_pos (toInt_eq_zero.2 hb)] at hr
    cases hr
    exact wp_throwNew h2 fun s3 h3 => ⟨_, _, rfl, h3⟩
  · rw [if_neg hb, if_neg hd]
    rw [if_neg (fun h => hb (toInt_eq_zero.1 h))] at hr
    cases hr
    refine wp_pushLong h2 (by simp only; omega) fun s3 h3 => ⟨_, rfl, ?_⟩
    rw [hg]
    exact h3

theorem cmp_post {n : BitVec 32} {a b : FVal} {u : Int} {st : List Slot}
    (ha : a ≠ .nan) (hb : b ≠ .nan) (h2 : Top env mem0 { v with stack := st } s)
    (hl : st.length < (env.meth v.m).code.maxStack) :
    wp ((cmpPushes n a b).forM (pushInt env))
      (fun _ s' => ∃ st', (Except.ok (i32 (compareFP u a b) :: st) : SRes) = .ok st' ∧
        Top env mem0 { v with stack := st' } s')
      (fun s' => ∃ k st', (Except.ok (i32 (compareFP u a b) :: st) : SRes) = .error k ∧
        Top env mem0 { v with
          stack := st', heap := (env.newThrowable v.heap k).1,
          exc := (env.newThrowable v.heap k).2 } s')
      (fun _ _ => False) s := by
  rw [cmpPushes_eq (u := u) ha hb]
  show wp (pushInt env _ >>= fun _ => pure ()) _ _ _ s
  exact wp_bind (wp_pushInt h2 hl fun s3 h3 => wp_pure ⟨_, rfl, h3⟩)

/-- The operand stack of the specification result. -/
local macro "bad" h:ident res:ident : tactic => `(tactic|
  exact absurd (show (none : Option SRes) = some $res from $h) nofun)

theorem long_and (ah al bh bl : BitVec 32) (st : List Slot) :
    pushL ((ah ++ al) &&& (bh ++ bl)) st = .int (al &&& bl) :: .int (ah &&& bh) :: st := by
  unfold pushL
  rw [BitVec.and_append, BitVec.extractLsb'_append_eq_left, BitVec.extractLsb'_append_eq_right]

theorem long_or (ah al bh bl : BitVec 32) (st : List Slot) :
    pushL ((ah ++ al) ||| (bh ++ bl)) st = .int (al ||| bl) :: .int (ah ||| bh) :: st := by
  unfold pushL
  rw [BitVec.or_append, BitVec.extractLsb'_append_eq_left, BitVec.extractLsb'_append_eq_right]

theorem long_xor (ah al bh bl : BitVec 32) (st : List Slot) :
    pushL ((ah ++ al) ^^^ (bh ++ bl)) st = .int (al ^^^ bl) :: .int (ah ^^^ bh) :: st := by
  unfold pushL
  rw [BitVec.xor_append, BitVec.extractLsb'_append_eq_left, BitVec.extractLsb'_append_eq_right]

theorem setWidth_append' (ah al : BitVec 32) : (ah ++ al).setWidth 32 = al := by
  apply BitVec.eq_of_getLsbD_eq
  intro i hi
  rw [BitVec.getLsbD_setWidth, BitVec.getLsbD_append, if_pos hi]
  simp [hi]

theorem op_post (o : SOp) {st : List Slot} {res : SRes} (ht : Top env mem0 v s)
    (hst : v.stack = st) (h : o.eval env.fp st = some res) (hd : ¬ o.departs st)
    (hl : ∀ st', res = .ok st' → st'.length ≤ (env.meth v.m).code.maxStack) :
    OpPost env mem0 v res (opBody env o) s := by
  cases o
  case nop =>
    cases h
    exact wp_pure ⟨_, rfl, by rw [← hst]; exact ht⟩
  case const l =>
    cases h
    subst hst
    exact const_post ht (hl _ rfl)
  case pop =>
    rcases st with _ | ⟨x, st⟩ <;> try bad h res
    cases h
    exact pop_post ht (by rw [hst]; simp) (by rw [hst]; rfl)
  case pop2 =>
    rcases st with _ | ⟨x, _ | ⟨y, st⟩⟩ <;> try bad h res
    cases h
    exact pop_post ht (by rw [hst]; simp) (by rw [hst]; rfl)
  case dup =>
    rcases st with _ | ⟨x, st⟩ <;> try bad h res
    cases h
    exact dup_post ht hst (hl _ rfl)
  case dup_x1 =>
    rcases st with _ | ⟨x, _ | ⟨y, st⟩⟩ <;> try bad h res
    cases h
    exact dup_x1_post ht hst (hl _ rfl)
  case dup_x2 =>
    rcases st with _ | ⟨x, _ | ⟨y, _ | ⟨z, st⟩⟩⟩ <;> try bad h res
    cases h
    exact dup_x2_post ht hst (hl _ rfl)
  case dup2 =>
    rcases st with _ | ⟨x, _ | ⟨y, st⟩⟩ <;> try bad h res
    cases h
    exact dup2_post ht hst (hl _ rfl)
  case dup2_x1 =>
    rcases st with _ | ⟨x, _ | ⟨y, _ | ⟨z, st⟩⟩⟩ <;> try bad h res
    cases h
    exact dup2_x1_post ht hst (hl _ rfl)
  case dup2_x2 =>
    rcases st with _ | ⟨x, _ | ⟨y, _ | ⟨z, _ | ⟨w, st⟩⟩⟩⟩ <;> try bad h res
    cases h
    exact dup2_x2_post ht hst (hl _ rfl)
  case swap =>
    rcases st with _ | ⟨x, _ | ⟨y, st⟩⟩ <;> try bad h res
    cases h
    exact swap_post ht hst
  case iadd =>
    rcases st with _ | ⟨⟨b⟩ | ⟨_⟩, _ | ⟨⟨a⟩ | ⟨_⟩, st⟩⟩ <;> try bad h res
    cases h
    exact wp_intBin ht hst fun s' h' => ⟨_, rfl, by unfold i32; rw [ofInt_add_toInt]; exact h'⟩
  case isub =>
    rcases st with _ | ⟨⟨b⟩ | ⟨_⟩, _ | ⟨⟨a⟩ | ⟨_⟩, st⟩⟩ <;> try bad h res
    cases h
    exact wp_intBin ht hst fun s' h' => ⟨_, rfl, by unfold i32; rw [ofInt_sub_toInt]; exact h'⟩
  case imul =>
    rcases st with _ | ⟨⟨b⟩ | ⟨_⟩, _ | ⟨⟨a⟩ | ⟨_⟩, st⟩⟩ <;> try bad h res
    cases h
    exact wp_intBin ht hst fun s' h' => ⟨_, rfl, by unfold i32; rw [ofInt_mul_toInt]; exact h'⟩
  case iand =>
    rcases st with _ | ⟨⟨b⟩ | ⟨_⟩, _ | ⟨⟨a⟩ | ⟨_⟩, st⟩⟩ <;> try bad h res
    cases h
    exact wp_intBin ht hst fun s' h' => ⟨_, rfl, by exact h'⟩
  case ior =>
    rcases st with _ | ⟨⟨b⟩ | ⟨_⟩, _ | ⟨⟨a⟩ | ⟨_⟩, st⟩⟩ <;> try bad h res
    cases h
    exact wp_intBin ht hst fun s' h' => ⟨_, rfl, by exact h'⟩
  case ixor =>
    rcases st with _ | ⟨⟨b⟩ | ⟨_⟩, _ | ⟨⟨a⟩ | ⟨_⟩, st⟩⟩ <;> try bad h res
    cases h
    exact wp_intBin ht hst fun s' h' => ⟨_, rfl, by exact h'⟩
  case fadd =>
    rcases st with _ | ⟨⟨b⟩ | ⟨_⟩, _ | ⟨⟨a⟩ | ⟨_⟩, st⟩⟩ <;> try bad h res
    cases h
    exact wp_intBin ht hst fun s' h' => ⟨_, rfl, by exact h'⟩
  case fsub =>
    rcases st with _ | ⟨⟨b⟩ | ⟨_⟩, _ | ⟨⟨a⟩ | ⟨_⟩, st⟩⟩ <;> try bad h res
    cases h
    exact wp_intBin ht hst fun s' h' => ⟨_, rfl, by exact h'⟩
  case fmul =>
    rcases st with _ | ⟨⟨b⟩ | ⟨_⟩, _ | ⟨⟨a⟩ | ⟨_⟩, st⟩⟩ <;> try bad h res
    cases h
    exact wp_intBin ht hst fun s' h' => ⟨_, rfl, by exact h'⟩
  case fdiv =>
    rcases st with _ | ⟨⟨b⟩ | ⟨_⟩, _ | ⟨⟨a⟩ | ⟨_⟩, st⟩⟩ <;> try bad h res
    cases h
    exact wp_intBin ht hst fun s' h' => ⟨_, rfl, by exact h'⟩
  case frem =>
    rcases st with _ | ⟨⟨b⟩ | ⟨_⟩, _ | ⟨⟨a⟩ | ⟨_⟩, st⟩⟩ <;> try bad h res
    cases h
    exact wp_intBin ht hst fun s' h' => ⟨_, rfl, by exact h'⟩
  case ineg =>
    rcases st with _ | ⟨⟨a⟩ | ⟨_⟩, st⟩ <;> try bad h res
    cases h
    exact wp_intUn ht hst fun s' h' => ⟨_, rfl, by unfold i32; rw [ofInt_neg_toInt]; exact h'⟩
  case fneg =>
    rcases st with _ | ⟨⟨a⟩ | ⟨_⟩, st⟩ <;> try bad h res
    cases h
    exact wp_intUn ht hst fun s' h' => ⟨_, rfl, by rw [fneg32_eq]; exact h'⟩
  case ishl =>
    rcases st with _ | ⟨⟨b⟩ | ⟨_⟩, _ | ⟨⟨a⟩ | ⟨_⟩, st⟩⟩ <;> try bad h res
    cases h
    exact wp_intShift ht hst fun s' h' => ⟨_, rfl, by unfold i32; rw [ofInt_shl]; exact h'⟩
  case ishr =>
    rcases st with _ | ⟨⟨b⟩ | ⟨_⟩, _ | ⟨⟨a⟩ | ⟨_⟩, st⟩⟩ <;> try bad h res
    cases h
    exact wp_intShift ht hst fun s' h' => ⟨_, rfl, by unfold i32; rw [ofInt_sshr]; exact h'⟩
  case iushr =>
    rcases st with _ | ⟨⟨b⟩ | ⟨_⟩, _ | ⟨⟨a⟩ | ⟨_⟩, st⟩⟩ <;> try bad h res
    cases h
    exact wp_intShift ht hst fun s' h' => ⟨_, rfl, by rw [ofNat_ushr]; exact h'⟩
  case i2b =>
    rcases st with _ | ⟨⟨a⟩ | ⟨_⟩, st⟩ <;> try bad h res
    cases h
    exact wp_intUn ht hst fun s' h' => ⟨_, rfl, by unfold i32; rw [i2b_eq]; exact h'⟩
  case i2c =>
    rcases st with _ | ⟨⟨a⟩ | ⟨_⟩, st⟩ <;> try bad h res
    cases h
    exact wp_intUn ht hst fun s' h' => ⟨_, rfl, by unfold i32; rw [i2c_eq]; exact h'⟩
  case i2s =>
    rcases st with _ | ⟨⟨a⟩ | ⟨_⟩, st⟩ <;> try bad h res
    cases h
    exact wp_intUn ht hst fun s' h' => ⟨_, rfl, by unfold i32; rw [i2s_eq]; exact h'⟩
  case i2f =>
    rcases st with _ | ⟨⟨a⟩ | ⟨_⟩, st⟩ <;> try bad h res
    cases h
    exact wp_intUn ht hst fun s' h' => ⟨_, rfl, by exact h'⟩
  case ladd =>
    rcases st with _ | ⟨⟨bl⟩ | ⟨_⟩, _ | ⟨⟨bh⟩ | ⟨_⟩, _ | ⟨⟨al⟩ | ⟨_⟩, _ | ⟨⟨ah⟩ | ⟨_⟩, st⟩⟩⟩⟩ <;> try bad h res
    cases h
    exact wp_longBin ht hst fun s' h' => ⟨_, rfl, by unfold asLong; rw [ofInt_add_toInt]; exact h'⟩
  case lsub =>
    rcases st with _ | ⟨⟨bl⟩ | ⟨_⟩, _ | ⟨⟨bh⟩ | ⟨_⟩, _ | ⟨⟨al⟩ | ⟨_⟩, _ | ⟨⟨ah⟩ | ⟨_⟩, st⟩⟩⟩⟩ <;> try bad h res
    cases h
    exact wp_longBin ht hst fun s' h' => ⟨_, rfl, by unfold asLong; rw [ofInt_sub_toInt]; exact h'⟩
  case lmul =>
    rcases st with _ | ⟨⟨bl⟩ | ⟨_⟩, _ | ⟨⟨bh⟩ | ⟨_⟩, _ | ⟨⟨al⟩ | ⟨_⟩, _ | ⟨⟨ah⟩ | ⟨_⟩, st⟩⟩⟩⟩ <;> try bad h res
    cases h
    exact wp_longBin ht hst fun s' h' => ⟨_, rfl, by unfold asLong; rw [ofInt_mul_toInt]; exact h'⟩
  case dadd =>
    rcases st with _ | ⟨⟨bl⟩ | ⟨_⟩, _ | ⟨⟨bh⟩ | ⟨_⟩, _ | ⟨⟨al⟩ | ⟨_⟩, _ | ⟨⟨ah⟩ | ⟨_⟩, st⟩⟩⟩⟩ <;> try bad h res
    cases h
    exact wp_longBin ht hst fun s' h' => ⟨_, rfl, by exact h'⟩
  case dsub =>
    rcases st with _ | ⟨⟨bl⟩ | ⟨_⟩, _ | ⟨⟨bh⟩ | ⟨_⟩, _ | ⟨⟨al⟩ | ⟨_⟩, _ | ⟨⟨ah⟩ | ⟨_⟩, st⟩⟩⟩⟩ <;> try bad h res
    cases h
    exact wp_longBin ht hst fun s' h' => ⟨_, rfl, by exact h'⟩
  case dmul =>
    rcases st with _ | ⟨⟨bl⟩ | ⟨_⟩, _ | ⟨⟨bh⟩ | ⟨_⟩, _ | ⟨⟨al⟩ | ⟨_⟩, _ | ⟨⟨ah⟩ | ⟨_⟩, st⟩⟩⟩⟩ <;> try bad h res
    cases h
    exact wp_longBin ht hst fun s' h' => ⟨_, rfl, by exact h'⟩
  case ddiv =>
    rcases st with _ | ⟨⟨bl⟩ | ⟨_⟩, _ | ⟨⟨bh⟩ | ⟨_⟩, _ | ⟨⟨al⟩ | ⟨_⟩, _ | ⟨⟨ah⟩ | ⟨_⟩, st⟩⟩⟩⟩ <;> try bad h res
    cases h
    exact wp_longBin ht hst fun s' h' => ⟨_, rfl, by exact h'⟩
  case drem =>
    rcases st with _ | ⟨⟨bl⟩ | ⟨_⟩, _ | ⟨⟨bh⟩ | ⟨_⟩, _ | ⟨⟨al⟩ | ⟨_⟩, _ | ⟨⟨ah⟩ | ⟨_⟩, st⟩⟩⟩⟩ <;> try bad h res
    cases h
    exact wp_longBin ht hst fun s' h' => ⟨_, rfl, by exact h'⟩
  case land =>
    rcases st with _ | ⟨⟨bl⟩ | ⟨_⟩, _ | ⟨⟨bh⟩ | ⟨_⟩, _ | ⟨⟨al⟩ | ⟨_⟩, _ | ⟨⟨ah⟩ | ⟨_⟩, st⟩⟩⟩⟩ <;> try bad h res
    cases h
    exact wp_longBin ht hst fun s' h' => ⟨_, rfl, by rw [← long_and]; exact h'⟩
  case lor =>
    rcases st with _ | ⟨⟨bl⟩ | ⟨_⟩, _ | ⟨⟨bh⟩ | ⟨_⟩, _ | ⟨⟨al⟩ | ⟨_⟩, _ | ⟨⟨ah⟩ | ⟨_⟩, st⟩⟩⟩⟩ <;> try bad h res
    cases h
    exact wp_longBin ht hst fun s' h' => ⟨_, rfl, by rw [← long_or]; exact h'⟩
  case lxor =>
    rcases st with _ | ⟨⟨bl⟩ | ⟨_⟩, _ | ⟨⟨bh⟩ | ⟨_⟩, _ | ⟨⟨al⟩ | ⟨_⟩, _ | ⟨⟨ah⟩ | ⟨_⟩, st⟩⟩⟩⟩ <;> try bad h res
    cases h
    exact wp_longBin ht hst fun s' h' => ⟨_, rfl, by rw [← long_xor]; exact h'⟩
  case lneg =>
    rcases st with _ | ⟨⟨al⟩ | ⟨_⟩, _ | ⟨⟨ah⟩ | ⟨_⟩, st⟩⟩ <;> try bad h res
    cases h
    exact wp_longUn ht hst fun s' h' => ⟨_, rfl, by unfold asLong; rw [ofInt_neg_toInt]; exact h'⟩
  case dneg =>
    rcases st with _ | ⟨⟨al⟩ | ⟨_⟩, _ | ⟨⟨ah⟩ | ⟨_⟩, st⟩⟩ <;> try bad h res
    cases h
    exact wp_longUn ht hst fun s' h' => ⟨_, rfl, by unfold asLong; rw [fneg64_eq]; exact h'⟩
  case l2d =>
    rcases st with _ | ⟨⟨al⟩ | ⟨_⟩, _ | ⟨⟨ah⟩ | ⟨_⟩, st⟩⟩ <;> try bad h res
    cases h
    exact wp_longUn ht hst fun s' h' => ⟨_, rfl, by exact h'⟩
  case lshl =>
    rcases st with _ | ⟨⟨b⟩ | ⟨_⟩, _ | ⟨⟨al⟩ | ⟨_⟩, _ | ⟨⟨ah⟩ | ⟨_⟩, st⟩⟩⟩ <;> try bad h res
    cases h
    exact wp_longShift ht hst fun s' h' => ⟨_, rfl, by unfold asLong; rw [ofInt_shl]; exact h'⟩
  case lshr =>
    rcases st with _ | ⟨⟨b⟩ | ⟨_⟩, _ | ⟨⟨al⟩ | ⟨_⟩, _ | ⟨⟨ah⟩ | ⟨_⟩, st⟩⟩⟩ <;> try bad h res
    cases h
    exact wp_longShift ht hst fun s' h' => ⟨_, rfl, by unfold asLong; rw [ofInt_sshr]; exact h'⟩
  case lushr =>
    rcases st with _ | ⟨⟨b⟩ | ⟨_⟩, _ | ⟨⟨al⟩ | ⟨_⟩, _ | ⟨⟨ah⟩ | ⟨_⟩, st⟩⟩⟩ <;> try bad h res
    cases h
    exact wp_longShift ht hst fun s' h' => ⟨_, rfl, by unfold asLong; rw [ofNat_ushr]; exact h'⟩
  case l2f =>
    rcases st with _ | ⟨⟨al⟩ | ⟨_⟩, _ | ⟨⟨ah⟩ | ⟨_⟩, st⟩⟩ <;> try bad h res
    cases h
    exact wp_longToInt ht hst fun s' h' => ⟨_, rfl, by exact h'⟩
  case d2f =>
    rcases st with _ | ⟨⟨al⟩ | ⟨_⟩, _ | ⟨⟨ah⟩ | ⟨_⟩, st⟩⟩ <;> try bad h res
    cases h
    exact wp_longToInt ht hst fun s' h' => ⟨_, rfl, by exact h'⟩
  case l2i =>
    rcases st with _ | ⟨⟨al⟩ | ⟨_⟩, _ | ⟨⟨ah⟩ | ⟨_⟩, st⟩⟩ <;> try bad h res
    cases h
    exact wp_longToInt ht hst fun s' h' => ⟨_, rfl, by rw [setWidth_append'] at h'; exact h'⟩
  case i2l =>
    rcases st with _ | ⟨⟨a⟩ | ⟨_⟩, st⟩ <;> try bad h res
    cases h
    exact wp_intToLong ht hst (hl _ rfl) fun s' h' => ⟨_, rfl, by rw [ofInt64_i2l]; exact h'⟩
  case i2d =>
    rcases st with _ | ⟨⟨a⟩ | ⟨_⟩, st⟩ <;> try bad h res
    cases h
    exact wp_intToLong ht hst (hl _ rfl) fun s' h' => ⟨_, rfl, by exact h'⟩
  case f2d =>
    rcases st with _ | ⟨⟨a⟩ | ⟨_⟩, st⟩ <;> try bad h res
    cases h
    exact wp_intToLong ht hst (hl _ rfl) fun s' h' => ⟨_, rfl, by exact h'⟩
  case idiv =>
    rcases st with _ | ⟨⟨b⟩ | ⟨_⟩, _ | ⟨⟨a⟩ | ⟨_⟩, st⟩⟩ <;> try bad h res
    exact intDiv_post ht hst hd (ofInt_tdiv a b) h
  case irem =>
    rcases st with _ | ⟨⟨b⟩ | ⟨_⟩, _ | ⟨⟨a⟩ | ⟨_⟩, st⟩⟩ <;> try bad h res
    exact intDiv_post ht hst hd (ofInt_tmod a b) h
  case ldiv =>
    rcases st with _ | ⟨⟨bl⟩ | ⟨_⟩, _ | ⟨⟨bh⟩ | ⟨_⟩, _ | ⟨⟨al⟩ | ⟨_⟩, _ | ⟨⟨ah⟩ | ⟨_⟩, st⟩⟩⟩⟩ <;> try bad h res
    exact longDiv_post ht hst hd (ofInt_tdiv _ _) h
  case lrem =>
    rcases st with _ | ⟨⟨bl⟩ | ⟨_⟩, _ | ⟨⟨bh⟩ | ⟨_⟩, _ | ⟨⟨al⟩ | ⟨_⟩, _ | ⟨⟨ah⟩ | ⟨_⟩, st⟩⟩⟩⟩ <;> try bad h res
    exact longDiv_post ht hst hd (ofInt_tmod _ _) h
  case lcmp =>
    rcases st with _ | ⟨⟨bl⟩ | ⟨_⟩, _ | ⟨⟨bh⟩ | ⟨_⟩, _ | ⟨⟨al⟩ | ⟨_⟩, _ | ⟨⟨ah⟩ | ⟨_⟩, st⟩⟩⟩⟩ <;> try bad h res
    cases h
    have := ht.fits
    rw [hst] at this
    simp only [List.length_cons] at this
    show wp (lcmpBody env) _ _ _ s
    unfold lcmpBody
    refine wp_bind (wp_popLong ht hst fun s1 h1 => wp_bind (wp_popLong h1 rfl fun s2 h2 =>
      wp_pushInt h2 (by simp only; omega) fun s3 h3 => ⟨_, rfl, ?_⟩))
    unfold i32 asLong
    rw [lcmp_eq]
    exact h3
  case fcmpl =>
    rcases st with _ | ⟨⟨b⟩ | ⟨_⟩, _ | ⟨⟨a⟩ | ⟨_⟩, st⟩⟩ <;> try bad h res
    cases h
    have := ht.fits
    rw [hst] at this
    simp only [List.length_cons] at this
    have hd' : ¬ (fval a = .nan ∨ fval b = .nan) := hd
    refine wp_bind (wp_popInt ht hst fun s1 h1 => wp_bind (wp_popInt h1 rfl fun s2 h2 => ?_))
    exact cmp_post (fun e => hd' (.inl e)) (fun e => hd' (.inr e)) h2 (by omega)
  case fcmpg =>
    rcases st with _ | ⟨⟨b⟩ | ⟨_⟩, _ | ⟨⟨a⟩ | ⟨_⟩, st⟩⟩ <;> try bad h res
    cases h
    have := ht.fits
    rw [hst] at this
    simp only [List.length_cons] at this
    have hd' : ¬ (fval a = .nan ∨ fval b = .nan) := hd
    refine wp_bind (wp_popInt ht hst fun s1 h1 => wp_bind (wp_popInt h1 rfl fun s2 h2 => ?_))
    exact cmp_post (fun e => hd' (.inl e)) (fun e => hd' (.inr e)) h2 (by omega)
  case dcmpl =>
    rcases st with _ | ⟨⟨bl⟩ | ⟨_⟩, _ | ⟨⟨bh⟩ | ⟨_⟩, _ | ⟨⟨al⟩ | ⟨_⟩, _ | ⟨⟨ah⟩ | ⟨_⟩, st⟩⟩⟩⟩ <;> try bad h res
    cases h
    have := ht.fits
    rw [hst] at this
    simp only [List.length_cons] at this
    have hd' : ¬ (dval (ah ++ al) = .nan ∨ dval (bh ++ bl) = .nan) := hd
    refine wp_bind (wp_popLong ht hst fun s1 h1 => wp_bind (wp_popLong h1 rfl fun s2 h2 => ?_))
    exact cmp_post (fun e => hd' (.inl e)) (fun e => hd' (.inr e)) h2 (by omega)
  case dcmpg =>
    rcases st with _ | ⟨⟨bl⟩ | ⟨_⟩, _ | ⟨⟨bh⟩ | ⟨_⟩, _ | ⟨⟨al⟩ | ⟨_⟩, _ | ⟨⟨ah⟩ | ⟨_⟩, st⟩⟩⟩⟩ <;> try bad h res
    cases h
    have := ht.fits
    rw [hst] at this
    simp only [List.length_cons] at this
    have hd' : ¬ (dval (ah ++ al) = .nan ∨ dval (bh ++ bl) = .nan) := hd
    refine wp_bind (wp_popLong ht hst fun s1 h1 => wp_bind (wp_popLong h1 rfl fun s2 h2 => ?_))
    exact cmp_post (fun e => hd' (.inl e)) (fun e => hd' (.inr e)) h2 (by omega)
  case f2i =>
    rcases st with _ | ⟨⟨a⟩ | ⟨_⟩, st⟩ <;> try bad h res
    cases h
    have := ht.fits
    rw [hst] at this
    simp only [List.length_cons] at this
    exact wp_bind (wp_popInt ht hst fun s1 h1 => wp_bind (wp_ofOpt (f2i_eq _)
      (wp_pushInt h1 (by simp only; omega) fun s' h' => ⟨_, rfl, h'⟩)))
  case d2i =>
    rcases st with _ | ⟨⟨al⟩ | ⟨_⟩, _ | ⟨⟨ah⟩ | ⟨_⟩, st⟩⟩ <;> try bad h res
    cases h
    have := ht.fits
    rw [hst] at this
    simp only [List.length_cons] at this
    exact wp_bind (wp_popLong ht hst fun s1 h1 => wp_bind (wp_ofOpt (d2i_eq _)
      (wp_pushInt h1 (by simp only; omega) fun s' h' => ⟨_, rfl, h'⟩)))
  case d2l =>
    rcases st with _ | ⟨⟨al⟩ | ⟨_⟩, _ | ⟨⟨ah⟩ | ⟨_⟩, st⟩⟩ <;> try bad h res
    cases h
    have := ht.fits
    rw [hst] at this
    simp only [List.length_cons] at this
    exact wp_bind (wp_popLong ht hst fun s1 h1 => wp_bind (wp_ofOpt (d2l_eq _)
      (wp_pushLong h1 (by simp only; omega) fun s' h' => ⟨_, rfl, h'⟩)))
  case f2l =>
    rcases st with _ | ⟨⟨a⟩ | ⟨_⟩, st⟩ <;> try bad h res
    cases h
    exact wp_bind (wp_popInt ht hst fun s1 h1 => wp_bind (wp_ofOpt (f2l_eq _ fun w hw =>
      Classical.byContradiction fun hc => hd ⟨w, hw, hc⟩)
      (wp_pushLong h1 (hl _ rfl) fun s' h' => ⟨_, rfl, h'⟩)))

end
end Avian.Interp
