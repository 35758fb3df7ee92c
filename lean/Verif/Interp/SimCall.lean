import Verif.Interp.SimObj
/-
Simulation of the invoke and return instructions.
-/
namespace Avian.Interp

open Spec

section
variable {env : Env} {pl : Place} {mem1 : Nat → Slot} {f : Frame} {rest : List Frame} {b : Nat}
  {nx : BitVec 32} {heap : Heap} {log : List Ev} {len : Nat} {iv : Bool} {s : St}

/-! ### Entering a method -/

/-- The monitor entered and the log after it. -/
inductive LockCase (env : Env) (m : Ref) (args : List Slot) (log : List Ev) :
    Option Ref → List Ev → Prop where
  | none : (env.meth m).isSync = false → LockCase env m args log none log
  | cls : (env.meth m).isSync = true → (env.meth m).isStatic = true →
      LockCase env m args log (some (env.meth m).jclass) (.acquire (env.meth m).jclass :: log)
  | obj (o : Ref) (tl : List Slot) : (env.meth m).isSync = true → (env.meth m).isStatic = false →
      args = .obj o :: tl → LockCase env m args log (some o) (.acquire o :: log)

theorem enter_some {m : Ref} {out : SOut} (h : enter env f rest heap log m = some out) :
    (env.meth m).isNative = false ∧ (env.meth m).paramFootprint ≤ f.stack.length ∧
    (env.meth m).paramFootprint ≤ (env.meth m).code.maxLocals ∧
    0 < (env.meth m).code.body.length ∧ ∃ lk log',
      LockCase env m (f.stack.take (env.meth m).paramFootprint).reverse log lk log' ∧
      out = .next ⟨⟨m, 0, (f.stack.take (env.meth m).paramFootprint).reverse ++
          List.replicate ((env.meth m).code.maxLocals - (env.meth m).paramFootprint) Slot.zero, [],
          lk⟩ :: { f with stack := f.stack.drop (env.meth m).paramFootprint } :: rest, heap,
          log'⟩ := by
  unfold enter at h
  simp only at h
  split at h
  · rename_i hc
    obtain ⟨h1, h2, h3, h4⟩ := hc
    refine ⟨h1, h2, h3, h4, ?_⟩
    by_cases hs : (env.meth m).isSync = true
    · rw [if_pos hs] at h
      by_cases hst : (env.meth m).isStatic = true
      · rw [if_pos hst] at h
        cases h
        exact ⟨_, _, .cls hs hst, rfl⟩
      · rw [if_neg hst] at h
        split at h
        · rename_i o tl ha
          cases h
          exact ⟨_, _, .obj o tl hs (by simpa using hst) ha, by rw [ha]⟩
        · exact absurd h nofun
    · rw [if_neg hs] at h
      cases h
      exact ⟨_, _, .none (by simpa using hs), rfl⟩
  · exact absurd h nofun

theorem LockCase.ok {m : Ref} {args : List Slot} {lk : Option Ref} {log' : List Ev}
    (h : LockCase env m args log lk log') {pc : Nat} {ls st : List Slot} :
    LockOk env ⟨m, pc, ls, st, lk⟩ := by
  cases h with
  | none h1 => exact ⟨fun _ => rfl, fun h2 => by simp_all, fun h2 => by simp_all⟩
  | cls h1 h2 => exact ⟨fun h3 => by simp_all, fun _ _ => rfl, fun _ h4 => by simp_all⟩
  | obj o tl h1 h2 h3 => exact ⟨fun h3 => by simp_all, fun _ h4 => by simp_all, fun _ _ => ⟨o, rfl⟩⟩

/-- The arguments lie where the new frame's local variables begin. -/
theorem arg_mem {v : View} {n i : Nat} {x : Slot} (ht : Top env mem1 v s) (hn : n ≤ v.stack.length)
    (hx : (v.stack.take n).reverse[i]? = some x) :
    s.mem (v.b + v.locals.length + 4 + v.stack.length - n + i) = x ∧ i < n := by
  have hi : i < n := by
    have := (List.getElem?_eq_some_iff.1 hx).1
    simp only [List.length_reverse, List.length_take] at this
    omega
  refine ⟨?_, hi⟩
  rw [List.getElem?_reverse (by simp only [List.length_take]; omega), List.length_take,
    List.getElem?_take_of_lt (by omega)] at hx
  have := ht.stk.get hx
  rw [← this]
  congr 1
  omega

theorem wp_lockFrame {v : View} {Q : Unit → St → Prop} {T : St → Prop} {D : List Slot → St → Prop}
    {m : Ref} {lk : Option Ref} {log' : List Ev} (ht : Top env mem1 v s)
    (hn : (env.meth m).paramFootprint ≤ v.stack.length)
    (hl : LockCase env m (v.stack.take (env.meth m).paramFootprint).reverse v.log lk log')
    (h : ∀ s', Top env mem1 { v with log := log' } s' → Q () s') :
    wp (lockFrame env m (v.b + v.locals.length + 4 + v.stack.length - (env.meth m).paramFootprint))
      Q T D s := by
  have h1 := ht.room
  have h2 := ht.fits
  unfold lockFrame
  cases hl with
  | none hs =>
    rw [if_neg (by simp [hs])]
    exact wp_pure (h s ht)
  | cls hs hst =>
    rw [if_pos hs, if_pos hst]
    refine wp_modS (h _ ?_)
    rw [ht.log]
    exact ht.withLog _
  | obj o tl hs hst ha =>
    rw [if_pos hs, if_neg (by simp [hst])]
    obtain ⟨hm, hi⟩ := arg_mem ht hn (i := 0) (x := .obj o) (by rw [ha]; rfl)
    refine wp_bind (wp_peekObject (by omega) hm (wp_modS (h _ ?_)))
    rw [ht.log]
    exact ht.withLog _

theorem Top.frameAt {ip : BitVec 32} {exc : Ref} {n : Nat} (hg : Good env f)
    (ht : Top env mem1 ⟨b, f.m, nx, f.locals, f.stack, ip, exc, heap, log⟩ s)
    (hn : n ≤ f.stack.length) :
    FrameAt env s.mem { f with stack := f.stack.drop n } b nx := by
  obtain ⟨size, room, fits, below, loc, fbase, fnext, fmeth, stk, sp, frame, ip, code, exc, heap,
    log⟩ := ht
  refine ⟨⟨hg.locals, hg.native, hg.lock⟩, room, ?_, loc, fbase, fnext, fmeth, stk.drop n⟩
  simp only [List.length_drop] at fits ⊢
  omega

theorem wp_saveIp {v : View} {Q : Unit → St → Prop} {T : St → Prop} {D : List Slot → St → Prop}
    (ht : Top env mem1 v s)
    (h : ∀ s', Top env mem1 v s' → s'.mem (v.b + v.locals.length + 3) = .int v.ip → Q () s') :
    wp (saveIp env) Q T D s := by
  have h1 := ht.room
  have h2 := ht.frame
  unfold saveIp
  refine wp_bind (wp_getS ?_)
  rw [if_pos (by omega), h2, Int.toNat_natCast]
  refine wp_writeSlot (by omega) (h _ ?_ ?_)
  · obtain ⟨size, room, fits, below, loc, fbase, fnext, fmeth, stk, sp, frame, ip, code, exc, heap,
      log⟩ := ht
    refine ⟨size, room, fits, ?_, ?_, ?_, ?_, ?_, ?_, sp, frame, ip, code, exc, heap, log⟩ <;>
      simp only
    · intro i hi; rw [if_neg (by omega)]; exact below i hi
    · intro i x hx
      have : i < v.locals.length := (List.getElem?_eq_some_iff.1 hx).1
      rw [if_neg (by omega)]; exact loc i x hx
    · rw [if_neg (by omega)]; exact fbase
    · rw [if_neg (by omega)]; exact fnext
    · rw [if_neg (by omega)]; exact fmeth
    · exact stk.congr fun i h1 h2 => by rw [if_neg (by omega)]
  · simp only
    rw [if_pos trivial, ht.ip]

/-- The slots after a frame with its local variables at `B` has been written. -/
def newMem (mem : Nat → Slot) (m : Ref) (B ml n : Nat) (fr : BitVec 32) : Nat → Slot := fun j =>
  if j = B + ml + 3 then Slot.int 0#32 else
  if j = B + ml + 2 then Slot.obj m else
  if j = B + ml + 0 then Slot.int (BitVec.ofNat 32 B) else
  if j = B + ml + 1 then Slot.int fr else
  if B + n ≤ j ∧ j < B + ml then Slot.zero else mem j

section
variable {mem : Nat → Slot} {m : Ref} {B ml n : Nat} {fr : BitVec 32} {j : Nat}

theorem newMem_low (hj : j < B + n) (hn : n ≤ ml) : newMem mem m B ml n fr j = mem j := by
  unfold newMem
  rw [if_neg (by omega), if_neg (by omega), if_neg (by omega), if_neg (by omega),
    if_neg (by omega)]

theorem newMem_zero (h1 : n ≤ j) (h2 : j < ml) : newMem mem m B ml n fr (B + j) = .zero := by
  unfold newMem
  rw [if_neg (by omega), if_neg (by omega), if_neg (by omega), if_neg (by omega),
    if_pos (by omega)]

theorem newMem_base : newMem mem m B ml n fr (B + ml) = .int (BitVec.ofNat 32 B) := by
  unfold newMem
  rw [if_neg (by omega), if_neg (by omega), if_pos (by omega)]

theorem newMem_next : newMem mem m B ml n fr (B + ml + 1) = .int fr := by
  unfold newMem
  rw [if_neg (by omega), if_neg (by omega), if_neg (by omega), if_pos rfl]

theorem newMem_meth : newMem mem m B ml n fr (B + ml + 2) = .obj m := by
  unfold newMem
  rw [if_neg (by omega), if_pos rfl]

end

theorem wp_writeFrame {m : Ref} {B ml n : Nat} {Q : Unit → St → Prop} {T : St → Prop}
    {D : List Slot → St → Prop} (hB : B + ml + 4 ≤ env.size)
    (h : Q () { s with
      ip := 0#32
      code := m
      mem := newMem s.mem m B ml n (BitVec.ofInt 32 s.frame)
      frame := ((B + ml : Nat) : Int)
      sp := B + ml + 4 }) :
    wp (writeFrame env m B (B + ml)) Q T D
      { s with
        ip := 0#32
        code := m
        mem := fun j => if B + n ≤ j ∧ j < B + ml then Slot.zero else s.mem j } := by
  unfold writeFrame
  exact wp_bind (wp_getS (wp_bind (wp_writeSlot (by omega) (wp_bind (wp_modS (wp_bind
    (wp_writeSlot (by omega) (wp_bind (wp_writeSlot (by omega) (wp_writeSlot (by omega) h)))))))))) 

/-- The state with the new frame represents the thread with the new frame. -/
theorem rep_newMem {m : Ref} {i : Instr} {B ml n : Nat} {lk : Option Ref} {log' : List Ev}
    {ip : BitVec 32} {args : List Slot}
    (inv : Inv env pl mem1 f rest b nx)
    (ht : Top env mem1 ⟨b, f.m, nx, f.locals, f.stack, ip, 0#64, heap, log'⟩ s)
    (hip : s.mem (b + f.locals.length + 3) = .int (BitVec.ofNat 32 (f.pc + len)))
    (hpc : f.pc < 2 ^ 31) (hdec : decode (env.meth f.m).code.body f.pc = some (i, len))
    (hnat : (env.meth m).isNative = false) (hlk : LockOk env ⟨m, 0, args ++
        List.replicate (ml - n) Slot.zero, [], lk⟩)
    (hn : n ≤ f.stack.length) (hml : n ≤ ml) (hM : (env.meth m).code.maxLocals = ml)
    (hB : b + f.locals.length + 4 + f.stack.length = B + n) (hal : args.length = n)
    (harg : ∀ i x, args[i]? = some x → s.mem (B + i) = x)
    (hroom : B + ml + 4 + (env.meth m).code.maxStack ≤ env.size) :
    Rep env pl { s with
      ip := 0#32
      code := m
      mem := newMem s.mem m B ml n (BitVec.ofInt 32 s.frame)
      frame := ((B + ml : Nat) : Int)
      sp := B + ml + 4 }
      ⟨⟨m, 0, args ++ List.replicate (ml - n) Slot.zero, [], lk⟩ ::
        { f with stack := f.stack.drop n } :: rest, heap, log'⟩ := by
  have hLlen : (args ++ List.replicate (ml - n) Slot.zero).length = ml := by
    rw [List.length_append, hal, List.length_replicate]; omega
  have hsz := ht.size
  have hfr := ht.frame
  have hbel := ht.below
  simp only at hfr hbel
  refine ⟨B, BitVec.ofInt 32 s.frame, ?_, ⟨?_, hnat, hlk⟩, ?_, ?_, ?_⟩
  · refine ⟨hsz, ?_, Nat.zero_le _, fun _ _ => rfl, ?_, ?_, ?_, ?_, trivial, ?_, ?_, rfl, rfl,
      ht.exc, ht.heap, ht.log⟩ <;> simp only [hLlen]
    · exact hroom
    · intro j x hx
      by_cases hjn : j < n
      · rw [newMem_low (by omega) hml]
        rw [List.getElem?_append_left (by omega)] at hx
        exact harg j x hx
      · have hj : j < ml := by
          have := (List.getElem?_eq_some_iff.1 hx).1
          omega
        rw [newMem_zero (by omega) hj]
        rw [List.getElem?_append_right (by omega), List.getElem?_replicate_of_lt (by omega)] at hx
        exact Option.some.inj hx
    · exact newMem_base
    · exact newMem_next
    · exact newMem_meth
    · rfl
  · simp only [hLlen, hM]
  · simp only; omega
  · have hfa := Top.frameAt inv.good ht hn
    have hdl : ({ f with stack := f.stack.drop n } : Frame).stack.length = f.stack.length - n := by
      simp only [List.length_drop]
    refine ⟨b, nx, i, len, hfa.congr ?_, ?_, ?_, hpc, hdec, ?_, ?_⟩
    · intro j hj
      simp only [hdl] at hj
      exact newMem_low (by omega) hml
    · have hlt : b + f.locals.length < 2 ^ 31 := by omega
      have e1 : (BitVec.ofInt 32 s.frame).toNat = b + f.locals.length := by
        rw [hfr, ofInt_natCast, BitVec.toNat_ofNat, Nat.mod_eq_of_lt (by omega)]
      simp only
      rw [BitVec.toInt_eq_toNat_cond, e1, if_pos (by omega)]
    · simp only [List.length_drop]; omega
    · rw [← hip]
      show newMem s.mem m B ml n _ (b + f.locals.length + 3) = _
      exact newMem_low (by omega) hml
    · refine inv.chain.congr fun j hj => ?_
      rw [← hbel j hj]
      exact newMem_low (by omega) hml
  · intro j hj
    obtain ⟨_, _, hb0, _⟩ := inv.chain.bounds (by omega)
    simp only
    rw [newMem_low (by omega) hml, hbel j (by omega)]
    exact inv.low j hj

theorem wp_pushFrame {m : Ref} {out : SOut} {i : Instr} {T : St → Prop} {D : List Slot → St → Prop}
    (inv : Inv env pl mem1 f rest b nx)
    (ht : Top env mem1
      ⟨b, f.m, nx, f.locals, f.stack, BitVec.ofNat 32 (f.pc + len), 0#64, heap, log⟩ s)
    (hpc : f.pc < 2 ^ 31) (hdec : decode (env.meth f.m).code.body f.pc = some (i, len))
    (hroom : s.sp + (env.meth m).paramFootprint + (env.meth m).code.maxLocals + 4 +
      (env.meth m).code.maxStack ≤ env.size)
    (h : enter env f rest heap log m = some out) :
    wp (pushFrame env m) (fun _ s' => Cont env pl out s') T D s := by
  obtain ⟨hnat, hn, hml, hbody, lk, log', hlk, rfl⟩ := enter_some h
  have hsp := ht.sp
  simp only at hsp
  unfold pushFrame
  simp only [hnat, Bool.false_eq_true, if_false]
  refine wp_bind (wp_spMinus ht hn (wp_bind (wp_lockFrame ht hn hlk fun s1 h1 => wp_bind
    (wp_saveIp h1 fun s2 h2 hip => wp_bind (wp_modS (wp_bind ?_))))))
  simp only at hip ⊢
  unfold clearLocals
  simp only [hnat, Bool.false_eq_true, if_false]
  rw [if_neg (by omega), if_pos (by omega)]
  refine wp_modS (wp_writeFrame (s := s2) (by omega) ⟨_, rfl, ?_⟩)
  exact rep_newMem inv h2 hip hpc hdec hnat hlk.ok hn hml rfl (by omega)
    (by simp only [List.length_reverse, List.length_take]; omega)
    (fun i x hx => (arg_mem h2 hn hx).1) (by omega)

theorem wp_invokeLabel {m : Ref} {out : SOut} {i : Instr}
    (inv : Inv env pl mem1 f rest b nx)
    (ht : Top env mem1
      ⟨b, f.m, nx, f.locals, f.stack, BitVec.ofNat 32 (f.pc + len), 0#64, heap, log⟩ s)
    (hpc : f.pc < 2 ^ 31) (hdec : decode (env.meth f.m).code.body f.pc = some (i, len))
    (hlen : 0 < len) (hlen' : len ≤ 5)
    (h : enter env f rest heap log m = some out) :
    wp (invokeLabel env m) (fun _ s' => Cont env pl out s')
      (Thr env pl mem1 f rest b nx heap log len true out) (Don env pl out) s := by
  obtain ⟨hnat, hn, hml, hbody, lk, log', hlk, _⟩ := enter_some h
  unfold invokeLabel
  rw [if_neg (by simp [hnat])]
  have hsp := ht.sp
  simp only at hsp
  by_cases hroom : s.sp + (env.meth m).paramFootprint + (env.meth m).code.maxLocals + 4 +
      (env.meth m).code.maxStack > env.size
  · refine wp_bind ?_
    unfold checkStack
    refine wp_bind (wp_getS ?_)
    simp only
    rw [if_pos hroom]
    refine wp_throwNew ht fun s' ht' => ?_
    refine ⟨f.stack, _, _, _, ⟨env.exClass .stackOverflow, none, zeroBytes⟩, ht', ?_, ?_, ?_,
      Or.inr ⟨rfl, ⟨m, ?_⟩, rfl, rfl⟩⟩
    · rw [ip_toNat (by omega)]; omega
    · rw [ip_toNat (by omega)]; omega
    · simp [Env.newThrowable, Env.alloc, Heap.set]
    · obtain ⟨_, _, _, _, hb, _⟩ := inv.chain.bounds (by omega)
      unfold slotsUsed
      omega
  · refine wp_bind ?_
    unfold checkStack
    refine wp_bind (wp_getS ?_)
    simp only
    rw [if_neg hroom]
    exact wp_pure (wp_pushFrame inv ht hpc hdec (by omega) h)

theorem exec_invokestatic (idx : BitVec 16) : exec env f rest heap log len (.invoke .static idx) =
    (env.resolveMethod f.m idx).bind fun m => enter env f rest heap log m := rfl

theorem exec_invokedynamic (idx : BitVec 16) : exec env f rest heap log len (.invoke .dynamic idx) =
    (env.dynamicTarget f.m idx).bind fun m => enter env f rest heap log m := rfl

theorem sim_invokestatic {idx : BitVec 16} {i : Instr} (inv : Inv env pl mem1 f rest b nx)
    (ht : At env mem1 f b nx heap log (f.pc + 1) s) (hlen : len = 3) (hpc : f.pc < 2 ^ 31)
    (hdec : decode (env.meth f.m).code.body f.pc = some (i, len))
    (hn : cp (env.meth f.m).code.body (f.pc + 1) = some idx) :
    InstrSim env pl mem1 f rest b nx heap log len true
      (exec env f rest heap log len (.invoke .static idx)) (invokestaticBody env) s := by
  intro out h
  subst hlen
  obtain ⟨n, hu, rfl⟩ := cp_some hn
  rw [exec_invokestatic] at h
  obtain ⟨m, hm, h⟩ := bind_some h
  unfold invokestaticBody
  exact wp_bind (wp_fetchU2 ht inv.body rfl hu fun s1 h1 => wp_bind (wp_getS (wp_bind
    (wp_frameMethod h1 (wp_bind (wp_ofOpt hm
      (wp_invokeLabel inv h1 hpc hdec (by omega) (by omega) h)))))))

theorem skip_ip (k j : Nat) : BitVec.ofNat 32 k + BitVec.ofNat 32 j = BitVec.ofNat 32 (k + j) :=
  (BitVec.ofNat_add ..).symm

theorem sim_invokedynamic {idx : BitVec 16} {i : Instr} (inv : Inv env pl mem1 f rest b nx)
    (ht : At env mem1 f b nx heap log (f.pc + 1) s) (hlen : len = 5) (hpc : f.pc < 2 ^ 31)
    (hdec : decode (env.meth f.m).code.body f.pc = some (i, len))
    (hn : cp (env.meth f.m).code.body (f.pc + 1) = some idx) :
    InstrSim env pl mem1 f rest b nx heap log len true
      (exec env f rest heap log len (.invoke .dynamic idx)) (invokedynamicBody env) s := by
  intro out h
  subst hlen
  obtain ⟨n, hu, rfl⟩ := cp_some hn
  rw [exec_invokedynamic] at h
  obtain ⟨m, hm, h⟩ := bind_some h
  unfold invokedynamicBody
  refine wp_bind (wp_fetchU2 ht inv.body rfl hu fun s1 h1 => wp_bind (wp_modS ?_))
  have h2 := h1.withIp (s1.ip + 2)
  rw [show s1.ip = BitVec.ofNat 32 (f.pc + 1 + 2) from h1.ip] at h2 ⊢
  replace h2 := h2
  rw [show BitVec.ofNat 32 (f.pc + 1 + 2) + 2 = BitVec.ofNat 32 (f.pc + 5) from skip_ip _ 2] at h2 ⊢
  exact wp_bind (wp_getS (wp_bind (wp_frameMethod h2 (wp_bind (wp_ofOpt hm
      (wp_invokeLabel inv h2 hpc hdec (by omega) (by omega) h))))))

theorem exec_invoke {k : IKind} {idx : BitVec 16} {out : SOut} (hk1 : k ≠ .static)
    (hk2 : k ≠ .dynamic) (h : exec env f rest heap log len (.invoke k idx) = some out) :
    ∃ m o, env.resolveMethod f.m idx = some m ∧ (env.meth m).paramFootprint ≠ 0 ∧
      f.stack[(env.meth m).paramFootprint - 1]? = some (.obj o) ∧
      (if o = 0#64 then raiseNew env .nullPointer ⟨f :: rest, heap, log⟩
        else (heap o).bind fun x =>
          if (env.meth (targetOf env k f.m m x.cls)).paramFootprint = (env.meth m).paramFootprint ∧
            (env.meth (targetOf env k f.m m x.cls)).isStatic = false then
            enter env f rest heap log (targetOf env k f.m m x.cls)
          else none) = some out := by
  replace h : ((env.resolveMethod f.m idx).bind fun m =>
    if (env.meth m).paramFootprint = 0 then none
    else
      match f.stack[(env.meth m).paramFootprint - 1]? with
      | some (.obj o) =>
        if o = 0#64 then raiseNew env .nullPointer ⟨f :: rest, heap, log⟩
        else (heap o).bind fun x =>
          if (env.meth (targetOf env k f.m m x.cls)).paramFootprint = (env.meth m).paramFootprint ∧
            (env.meth (targetOf env k f.m m x.cls)).isStatic = false then
            enter env f rest heap log (targetOf env k f.m m x.cls)
          else none
      | _ => none) = some out := by
    cases k with
    | static => exact absurd rfl hk1
    | dynamic => exact absurd rfl hk2
    | _ => exact h
  obtain ⟨m, hm, h⟩ := bind_some h
  split at h
  · exact absurd h nofun
  · rename_i h0
    split at h
    · rename_i o ho
      exact ⟨m, o, hm, h0, ho, h⟩
    · exact absurd h nofun

theorem sim_invoke {k : IKind} {idx : BitVec 16} {i : Instr} {skip : Nat}
    {target : Ref → Ref → Ref → Ref} (inv : Inv env pl mem1 f rest b nx)
    (ht : At env mem1 f b nx heap log (f.pc + 1) s) (hlen : len = 3 + skip) (hsk : skip ≤ 2)
    (hpc : f.pc < 2 ^ 31)
    (hdec : decode (env.meth f.m).code.body f.pc = some (i, len))
    (hn : cp (env.meth f.m).code.body (f.pc + 1) = some idx) (hk1 : k ≠ .static)
    (hk2 : k ≠ .dynamic) (htg : ∀ a b c, target a b c = targetOf env k a b c) :
    InstrSim env pl mem1 f rest b nx heap log len true
      (exec env f rest heap log len (.invoke k idx))
      (invokeInstance env (BitVec.ofNat 32 skip) target) s := by
  intro out h
  obtain ⟨n, hu, rfl⟩ := cp_some hn
  obtain ⟨m, o, hm, h0, ho, h⟩ := exec_invoke hk1 hk2 h
  unfold invokeInstance
  refine wp_bind (wp_fetchU2 ht inv.body rfl hu fun s1 h1 => wp_bind (wp_modS ?_))
  have h2 := h1.withIp (s1.ip + BitVec.ofNat 32 skip)
  rw [show s1.ip = BitVec.ofNat 32 (f.pc + 1 + 2) from h1.ip] at h2 ⊢
  rw [skip_ip, show f.pc + 1 + 2 + skip = f.pc + len by omega] at h2 ⊢
  have hl : (env.meth m).paramFootprint - 1 < f.stack.length := (List.getElem?_eq_some_iff.1 ho).1
  have hr := h2.room
  have hft := h2.fits
  simp only at hr hft
  refine wp_bind (wp_getS (wp_bind (wp_frameMethod h2 (wp_bind (wp_ofOpt hm (wp_bind
    (wp_spMinus h2 (by simp only; omega) (wp_bind (wp_peekObject (x := o)
    (by simp only; omega) ?_ ?_)))))))))
  · rw [← h2.stk.get ho]
    simp only
    congr 1
    omega
  · by_cases hz : o = 0#64
    · rw [if_pos hz] at h
      rw [if_neg (by simpa using hz)]
      exact wp_throwNew h2 fun s' ht' => thr_of h ht' (by rw [ip_toNat (by omega)]; omega)
        (by rw [ip_toNat (by omega)]; omega)
    · rw [if_neg hz] at h
      rw [if_pos hz]
      obtain ⟨x, hx, h⟩ := bind_some h
      split at h
      · refine wp_bind (wp_ofOpt (a := x) ?_ ?_)
        · rw [← hx]; exact congrFun h1.heap o
        · rw [htg]
          exact wp_invokeLabel inv h2 hpc hdec (by omega) (by omega) h
      · exact absurd h nofun

/-! ### Returning -/

theorem wp_returnWith {out : SOut} {st r : List Slot} {ip : BitVec 32}
    (hbody : ∀ m, (env.meth m).code.body.length < 2 ^ 31) (hp : pl.ok)
    (inv : Inv env pl mem1 f rest b nx)
    (ht : Top env mem1 ⟨b, f.m, nx, f.locals, st, ip, 0#64, heap, log⟩ s)
    (hld : ¬ lockDeparts env f)
    (h : leave env f rest heap log st r = some out) :
    wp (returnWith env pl.base r.reverse) (fun _ s' => Cont env pl out s')
      (Thr env pl mem1 f rest b nx heap log len iv out) (Don env pl out) s := by
  have hsz := ht.size
  have hroom := ht.room
  have hfr := ht.frame
  simp only at hroom hfr
  obtain ⟨_, hbase, hb0, _⟩ := inv.chain.bounds (by omega)
  have hchain : Chain env pl s.mem b nx.toInt (b + f.locals.length) rest :=
    inv.chain.congr ht.below
  have hlow : ∀ i, i < pl.b0 → s.mem i = pl.mem0 i := fun i hi => by
    rw [← inv.low i hi]; exact ht.below i (by simp only; omega)
  unfold returnWith
  refine wp_bind (wp_getS ?_)
  cases rest with
  | nil =>
    obtain ⟨c1, c2, c3⟩ := hchain
    rw [if_neg (by omega)]
    simp only [leave, Option.some.injEq] at h
    refine ⟨_, h.symm, b, nx, ip, ht.self, ⟨inv.good.locals, inv.good.native, inv.good.lock⟩, ?_,
      hlow⟩
    exact ⟨c1, c2, c3⟩
  | cons c rest =>
    rw [if_pos (by have := hbase (by simp); omega)]
    unfold leave at h
    simp only at h
    obtain ⟨⟨i, len'⟩, hdec, h⟩ := bind_some h
    simp only at h
    refine wp_bind (wp_popFrame ht rfl rfl inv.good hld hp hchain hlow ?_)
    intro s1 e1 e2 e3 e4 e5 e6 e7
    obtain ⟨b', nx', i', len'', k1, k2, k3, k4, k5, k6, k7⟩ := hchain
    rw [hdec] at k5
    cases k5
    have k1' : FrameAt env s1.mem c b' nx' := by rw [e1]; exact k1
    have ht1 : Top env s1.mem ⟨b', c.m, nx', c.locals, c.stack, BitVec.ofNat 32 (c.pc + len'), 0#64,
        heap, unlock f log⟩ s1 :=
      Top.ofChain ht.size k1' (by simp only at e2; omega) (by simp only at e3; omega)
        (e7.2 i len' hdec) e7.1 (e4.trans ht.exc) (e5.trans ht.heap) e6
    have hfit := continueAt_fits h
    simp only [List.length_append] at hfit
    refine wp_pushAll ht1 (by simp only [List.length_reverse]; omega) fun s2 h2 => ?_
    rw [List.reverse_reverse] at h2
    have inv' : Inv env pl s1.mem c rest b' nx' :=
      ⟨k1.good, hbody c.m, by rw [e1]; exact k7, fun i hi => by rw [e1]; exact hlow i hi⟩
    exact cont_next inv' h rfl h2 rfl

theorem exec_return_void : exec env f rest heap log len (.return .void) =
    leave env f rest heap log f.stack [] := rfl

theorem exec_return_int {out : SOut} (h : exec env f rest heap log len (.return .int) = some out) :
    ∃ v st, f.stack = .int v :: st ∧ leave env f rest heap log st [.int v] = some out := by
  obtain ⟨m, pc, locals, stack, lock⟩ := f
  match stack, h with
  | [], h => exact absurd h nofun
  | .obj _ :: _, h => exact absurd h nofun
  | .int a :: st, h => exact ⟨a, st, rfl, h⟩

theorem exec_return_ref {out : SOut} (h : exec env f rest heap log len (.return .ref) = some out) :
    ∃ v st, f.stack = .obj v :: st ∧ leave env f rest heap log st [.obj v] = some out := by
  obtain ⟨m, pc, locals, stack, lock⟩ := f
  match stack, h with
  | [], h => exact absurd h nofun
  | .int _ :: _, h => exact absurd h nofun
  | .obj a :: st, h => exact ⟨a, st, rfl, h⟩

theorem exec_return_long {out : SOut}
    (h : exec env f rest heap log len (.return .long) = some out) :
    ∃ lo hi st, f.stack = .int lo :: .int hi :: st ∧
      leave env f rest heap log st [.int lo, .int hi] = some out := by
  obtain ⟨m, pc, locals, stack, lock⟩ := f
  match stack, h with
  | [], h => exact absurd h nofun
  | [.int _], h => exact absurd h nofun
  | .obj _ :: _, h => exact absurd h nofun
  | .int _ :: .obj _ :: _, h => exact absurd h nofun
  | .int a :: .int b :: st, h => exact ⟨a, b, st, rfl, h⟩

/-- The body of the return instruction. -/
def returnBody (env : Env) (base : Int) : RKind → M Unit
  | .void => returnWith env base []
  | .int => ireturnBody env base
  | .ref => areturnBody env base
  | .long => lreturnBody env base

theorem sim_return {k : RKind} {p : Nat}
    (hbody : ∀ m, (env.meth m).code.body.length < 2 ^ 31) (hp : pl.ok)
    (inv : Inv env pl mem1 f rest b nx)
    (ht : At env mem1 f b nx heap log p s) (hld : ¬ lockDeparts env f) :
    InstrSim env pl mem1 f rest b nx heap log len iv
      (exec env f rest heap log len (.return k)) (returnBody env pl.base k) s := by
  intro out h
  cases k with
  | void =>
    rw [exec_return_void] at h
    exact wp_returnWith hbody hp inv ht hld h
  | int =>
    obtain ⟨v, st, hst, h⟩ := exec_return_int h
    exact wp_bind (wp_popInt ht hst fun s1 h1 => wp_returnWith hbody hp inv h1 hld h)
  | ref =>
    obtain ⟨v, st, hst, h⟩ := exec_return_ref h
    exact wp_bind (wp_popObject ht hst fun s1 h1 => wp_returnWith hbody hp inv h1 hld h)
  | long =>
    obtain ⟨lo, hi, st, hst, h⟩ := exec_return_long h
    refine wp_bind (wp_popLong ht hst fun s1 h1 => ?_)
    rw [long_hi, long_lo, BitVec.extractLsb'_append_eq_left, BitVec.extractLsb'_append_eq_right]
    exact wp_returnWith (r := [.int lo, .int hi]) hbody hp inv h1 hld h

end
end Avian.Interp
