import Verif.Interp.StackOps
/-
The relation between the interpreter's state (one array of slots with frames inside) and the
specification's state (a list of frames), and the unwinding of frames.
-/
namespace Avian.Interp

open Spec

/-- The monitor of a frame is the one its method prescribes. -/
def LockOk (env : Env) (f : Frame) : Prop :=
  ((env.meth f.m).isSync = false → f.lock = none) ∧
  ((env.meth f.m).isSync = true → (env.meth f.m).isStatic = true →
    f.lock = some (env.meth f.m).jclass) ∧
  ((env.meth f.m).isSync = true → (env.meth f.m).isStatic = false → ∃ o, f.lock = some o)

/-- A frame of a bytecode method with all its local variables. -/
structure Good (env : Env) (f : Frame) : Prop where
  locals : f.locals.length = (env.meth f.m).code.maxLocals
  native : (env.meth f.m).isNative = false
  lock : LockOk env f

/-- Frame `f` lies in the array from `b` upwards. -/
structure FrameAt (env : Env) (mem : Nat → Slot) (f : Frame) (b : Nat) (nx : BitVec 32) : Prop where
  good : Good env f
  room : b + f.locals.length + 4 + (env.meth f.m).code.maxStack ≤ env.size
  fits : f.stack.length ≤ (env.meth f.m).code.maxStack
  loc : ∀ i x, f.locals[i]? = some x → mem (b + i) = x
  fbase : mem (b + f.locals.length) = .int (BitVec.ofNat 32 b)
  fnext : mem (b + f.locals.length + 1) = .int nx
  fmeth : mem (b + f.locals.length + 2) = .obj f.m
  stk : Stk mem (b + f.locals.length + 4) f.stack

theorem FrameAt.congr {env : Env} {mem mem' : Nat → Slot} {f : Frame} {b : Nat} {nx : BitVec 32}
    (h : FrameAt env mem f b nx)
    (hm : ∀ i, i < b + f.locals.length + 4 + f.stack.length → mem' i = mem i) :
    FrameAt env mem' f b nx := by
  obtain ⟨good, room, fits, loc, fbase, fnext, fmeth, stk⟩ := h
  refine ⟨good, room, fits, ?_, ?_, ?_, ?_, stk.congr fun i _ h2 => hm i h2⟩
  · intro i x hx
    have : i < f.locals.length := (List.getElem?_eq_some_iff.1 hx).1
    rw [hm _ (by omega)]; exact loc i x hx
  · rw [hm _ (by omega)]; exact fbase
  · rw [hm _ (by omega)]; exact fnext
  · rw [hm _ (by omega)]; exact fmeth

/-- The place of an activation of `interpret3` on the thread's stack: its first frame (`base`), the
start of that frame's slots (`b0`), the frame below (`n0`, negative when there is none) and the
slots below. -/
structure Place where
  base : Int
  b0 : Nat
  n0 : Int
  mem0 : Nat → Slot

/-- The callers `rest` of a frame that starts at `b`, has its words at `fr` and links to `next`. -/
def Chain (env : Env) (pl : Place) (mem : Nat → Slot) : Nat → Int → Nat → List Frame → Prop
  | b, next, fr, [] => b = pl.b0 ∧ next = pl.n0 ∧ (fr : Int) = pl.base
  | b, next, _, f :: rest => ∃ b' nx i len, FrameAt env mem f b' nx ∧
      next = ((b' + f.locals.length : Nat) : Int) ∧
      b = b' + f.locals.length + 4 + f.stack.length ∧
      f.pc < 2 ^ 31 ∧
      decode (env.meth f.m).code.body f.pc = some (i, len) ∧
      mem (b' + f.locals.length + 3) = .int (BitVec.ofNat 32 (f.pc + len)) ∧
      Chain env pl mem b' nx.toInt (b' + f.locals.length) rest

section
variable {env : Env} {pl : Place}

theorem Chain.congr {mem mem' : Nat → Slot} {rest : List Frame} : ∀ {b : Nat} {next : Int}
    {fr : Nat}, Chain env pl mem b next fr rest → (∀ i, i < b → mem' i = mem i) →
    Chain env pl mem' b next fr rest := by
  induction rest with
  | nil => intro b next fr h _; exact h
  | cons f rest ih =>
    intro b next fr h hm
    obtain ⟨b', nx, i, len, h1, h2, h3, h4, h5, h6, h7⟩ := h
    refine ⟨b', nx, i, len, h1.congr fun i hi => hm i (by omega), h2, h3, h4, h5, ?_,
      ih h7 fun i hi => hm i (by omega)⟩
    rw [hm _ (by omega)]; exact h6

theorem Chain.bounds {mem : Nat → Slot} {rest : List Frame} : ∀ {b : Nat} {next : Int} {fr : Nat},
    Chain env pl mem b next fr rest → b ≤ fr →
    pl.base ≤ fr ∧ (rest ≠ [] → pl.base < fr) ∧ pl.b0 ≤ b ∧ rest.length ≤ fr ∧
      b = pl.b0 + slotsUsed rest ∧ (pl.b0 : Int) ≤ pl.base := by
  induction rest with
  | nil =>
    intro b next fr h hb
    obtain ⟨h1, h2, h3⟩ := h
    refine ⟨by omega, fun h => absurd rfl h, by omega, by simp, by simp [slotsUsed, h1], by omega⟩
  | cons f rest ih =>
    intro b next fr h hb
    obtain ⟨b', nx, i, len, h1, h2, h3, h4, h5, h6, h7⟩ := h
    obtain ⟨k1, _, k3, k4, k5, k6⟩ := ih h7 (by omega)
    refine ⟨by omega, fun _ => by omega, by omega, ?_, ?_, k6⟩
    · simp only [List.length_cons]; omega
    · unfold slotsUsed; omega

/-- The interpreter's state represents the thread state of the specification. -/
def Rep (env : Env) (pl : Place) (s : St) (ss : SS) : Prop :=
  match ss.frames with
  | [] => False
  | f :: rest => ∃ b nx,
      Top env s.mem ⟨b, f.m, nx, f.locals, f.stack, BitVec.ofNat 32 f.pc, 0#64, ss.heap, ss.log⟩ s ∧
      Good env f ∧ f.pc < 2 ^ 31 ∧
      Chain env pl s.mem b nx.toInt (b + f.locals.length) rest ∧
      ∀ i, i < pl.b0 → s.mem i = pl.mem0 i

/-- The state after the last frame returned: still with its frame, at any position. -/
def RepDone (env : Env) (pl : Place) (s : St) (ss : SS) : Prop :=
  match ss.frames with
  | [] => False
  | f :: rest => ∃ b nx ip,
      Top env s.mem ⟨b, f.m, nx, f.locals, f.stack, ip, 0#64, ss.heap, ss.log⟩ s ∧
      Good env f ∧
      Chain env pl s.mem b nx.toInt (b + f.locals.length) rest ∧
      ∀ i, i < pl.b0 → s.mem i = pl.mem0 i

/-- The frame below an activation is a frame. -/
def Place.ok (pl : Place) : Prop :=
  pl.n0 < 0 ∨ ∃ k : Nat, pl.n0 = (k : Int) ∧ k + 4 ≤ pl.b0 ∧ (∃ m, pl.mem0 (k + 2) = .obj m) ∧
    ∃ ip, pl.mem0 (k + 3) = .int ip

/-- The interpreter continues in a state that represents the outcome. -/
def Cont (env : Env) (pl : Place) (out : SOut) (s : St) : Prop :=
  ∃ ss, out = .next ss ∧ Rep env pl s ss

/-- The interpreter has left its last frame with the exception pending. -/
def Unc (pl : Place) (out : SOut) (s : St) : Prop :=
  ∃ exc heap log, out = .uncaught exc heap log ∧ s.exc = exc ∧ s.heap = heap ∧ s.log = log ∧
    s.sp = pl.b0 ∧ s.frame = pl.n0 ∧ ∀ i, i < pl.b0 → s.mem i = pl.mem0 i

/-- The interpreter returns normally. -/
def Don (env : Env) (pl : Place) (out : SOut) (r : List Slot) (s : St) : Prop :=
  ∃ ss, out = .done r ss ∧ RepDone env pl s ss

/-! ### Handlers -/

theorem eh_start (eh : BitVec 64) : (ehStart eh).toNat = (handlerOf eh).start := by
  have := eh.isLt
  simp only [ehStart, handlerOf, BitVec.toNat_setWidth, BitVec.toNat_ushiftRight,
    Nat.shiftRight_eq_div_pow]
  omega

theorem eh_mask (x : BitVec 64) : (x &&& 0xFFFF#64).toNat = x.toNat % 2 ^ 16 := by
  rw [BitVec.toNat_and]
  exact Nat.and_two_pow_sub_one_eq_mod _ 16

theorem eh_end (eh : BitVec 64) : (ehEnd eh).toNat = (handlerOf eh).stop := by
  simp only [ehEnd, handlerOf, BitVec.toNat_setWidth, eh_mask, BitVec.toNat_ushiftRight,
    Nat.shiftRight_eq_div_pow]
  omega

theorem eh_ip (eh : BitVec 64) : (ehIp eh).toNat = (handlerOf eh).target := by
  simp only [ehIp, handlerOf, BitVec.toNat_setWidth, eh_mask, BitVec.toNat_ushiftRight,
    Nat.shiftRight_eq_div_pow]
  omega

theorem eh_catch (eh : BitVec 64) : (ehCatchType eh).toNat = (handlerOf eh).catchType := by
  simp only [ehCatchType, handlerOf, BitVec.toNat_setWidth, eh_mask]
  omega

/-- The packed search finds the handler of the specification. -/
theorem findHandler_eq {m : Ref} {pc len : Nat} {ip : BitVec 32} {heap : Heap} {exc : Ref}
    {x : Obj} (hx : heap exc = some x) (h1 : pc < ip.toNat) (h2 : ip.toNat ≤ pc + len)
    {hs : List (BitVec 64)}
    (hal : ∀ eh ∈ hs, ¬ (pc < (handlerOf eh).start ∧ (handlerOf eh).start < pc + len) ∧
      ¬ (pc < (handlerOf eh).stop ∧ (handlerOf eh).stop < pc + len))
    {r : Option Nat} (h : Spec.findHandler env m pc x.cls (hs.map handlerOf) = some r) :
    ∃ eh, findHandler env m ip heap exc hs = some eh ∧
      (r = none → eh = 0#64) ∧ ∀ t, r = some t → eh ≠ 0#64 ∧ (ehIp eh).toNat = t := by
  induction hs with
  | nil =>
    simp only [List.map_nil, Spec.findHandler, Option.some.injEq] at h
    subst h
    exact ⟨0#64, rfl, fun _ => rfl, nofun⟩
  | cons eh hs ih =>
    simp only [List.map_cons, Spec.findHandler] at h
    simp only [findHandler]
    have ih := ih fun e he => hal e (List.mem_cons_of_mem _ he)
    have ha := hal eh List.mem_cons_self
    have hip : (ip - 1#32).toNat = ip.toNat - 1 := by
      have := ip.isLt
      rw [BitVec.toNat_sub]
      have : (1#32).toNat = 1 := rfl
      omega
    have hc : (ehStart eh ≤ ip - 1#32 ∧ ip - 1#32 < ehEnd eh) ↔
        ((handlerOf eh).start ≤ pc ∧ pc < (handlerOf eh).stop) := by
      rw [BitVec.le_def, BitVec.lt_def, hip, eh_start, eh_end]
      omega
    by_cases hin : (handlerOf eh).start ≤ pc ∧ pc < (handlerOf eh).stop
    · rw [if_pos hin] at h
      rw [if_pos (hc.2 hin)]
      have hne : eh ≠ 0#64 := by
        rintro rfl
        have : (handlerOf 0#64).stop = 0 := rfl
        omega
      by_cases hct : (handlerOf eh).catchType = 0
      · rw [if_pos hct] at h
        have : ehCatchType eh = 0#32 := by
          apply BitVec.eq_of_toNat_eq; rw [eh_catch, hct]; rfl
        rw [if_neg (by simpa using this)]
        simp only [Option.some.injEq] at h
        subst h
        exact ⟨eh, rfl, nofun, fun t ht => ⟨hne, by cases ht; exact eh_ip eh⟩⟩
      · rw [if_neg hct] at h
        have : ehCatchType eh ≠ 0#32 := by
          intro e; apply hct; rw [← eh_catch, e]; rfl
        rw [if_pos this]
        have e16 : (ehCatchType eh).setWidth 16 = BitVec.ofNat 16 (handlerOf eh).catchType := by
          apply BitVec.eq_of_toNat_eq
          rw [BitVec.toNat_setWidth, BitVec.toNat_ofNat, eh_catch]
        rw [e16]
        cases hrc : env.resolveClass m (BitVec.ofNat 16 (handlerOf eh).catchType) with
        | none => rw [hrc] at h; exact absurd h nofun
        | some c =>
          rw [hrc] at h
          simp only [Option.bind_eq_bind, Option.bind_some] at h
          simp only [exceptionMatch, hx, Option.map_some]
          cases hsub : env.subclass x.cls c with
          | true =>
            rw [hsub] at h
            simp only [if_true] at h
            cases h
            exact ⟨eh, rfl, nofun, fun t ht => ⟨hne, by cases ht; exact eh_ip eh⟩⟩
          | false =>
            rw [hsub] at h
            simp only [Bool.false_eq_true, if_false] at h
            exact ih h
    · rw [if_neg hin] at h
      rw [if_neg (fun hh => hin (hc.1 hh))]
      exact ih h

/-! ### Leaving a frame -/

/-- What `popFrame` gives on a frame with callers. -/
theorem wp_popFrame {mem1 : Nat → Slot} {v : View} {s : St} {f : Frame} {rest : List Frame}
    {Q : Unit → St → Prop} {T : St → Prop} {D : List Slot → St → Prop}
    (ht : Top env mem1 v s) (hm : v.m = f.m) (hloc : v.locals = f.locals) (hg : Good env f)
    (hd : ¬ lockDeparts env f) (hp : pl.ok)
    (hch : Chain env pl s.mem v.b v.next.toInt (v.b + v.locals.length) rest)
    (hlow : ∀ i, i < pl.b0 → s.mem i = pl.mem0 i)
    (h : ∀ s', s'.mem = s.mem → s'.sp = v.b → s'.frame = v.next.toInt → s'.exc = s.exc →
      s'.heap = s.heap → s'.log = unlock f v.log →
      (match rest with
        | [] => True
        | c :: _ => s'.code = c.m ∧ ∀ i len, decode (env.meth c.m).code.body c.pc = some (i, len) →
            s'.ip = BitVec.ofNat 32 (c.pc + len)) → Q () s') :
    wp (popFrame env) Q T D s := by
  have hsz := ht.size
  have hroom := ht.room
  unfold popFrame
  refine wp_bind (wp_getS (wp_bind (wp_frameMethod ht ?_)))
  -- the monitor
  have tail : ∀ s1 : St, s1.mem = s.mem → s1.exc = s.exc → s1.heap = s.heap →
      s1.log = unlock f v.log →
      wp (do
        let b ← frameBase env s.frame
        let n ← frameNext env s.frame
        modS fun s => { s with sp := b, frame := n }
        if 0 ≤ n then
          let c ← frameMethod env n
          let i ← frameIp env n
          modS fun s => { s with code := c, ip := i }
        else
          modS fun s => { s with code := 0#64, ip := 0#32 } : M Unit) Q T D s1 := by
    intro s1 e1 e2 e3 e4
    refine wp_bind ?_
    unfold frameBase
    refine wp_bind (wp_slotAt ht.frame (wp_bind (wp_peekInt (by omega) (by rw [e1]; exact ht.fbase)
      (wp_pure (wp_bind ?_)))))
    rw [BitVec.toNat_ofNat, Nat.mod_eq_of_lt (by omega)]
    unfold frameNext
    refine wp_bind (wp_slotAt ht.frame (wp_bind (wp_peekInt (by omega) (by rw [e1]; exact ht.fnext)
      (wp_pure (wp_bind (wp_modS ?_))))))
    cases rest with
    | nil =>
      obtain ⟨c1, c2, c3⟩ := hch
      rcases hp with hp | ⟨k, hk, hk4, ⟨m, hm'⟩, ⟨ip, hip⟩⟩
      · rw [if_neg (by omega)]
        exact wp_modS (h _ e1 rfl rfl e2 e3 e4 trivial)
      · rw [if_pos (by omega)]
        unfold frameMethod frameIp
        refine wp_bind (wp_bind (wp_slotAt (c2.trans hk) (wp_peekObject (by omega)
          (by simp only [e1]; rw [hlow _ (by omega)]; exact hm') (wp_bind (wp_bind
          (wp_slotAt (c2.trans hk) (wp_peekInt (by omega)
          (by simp only [e1]; rw [hlow _ (by omega)]; exact hip) (wp_modS ?_)))))))) 
        exact h _ e1 rfl rfl e2 e3 e4 trivial
    | cons c rest =>
      obtain ⟨b', nx, i, len, h1, h2, h3, h4, h5, h6, h7⟩ := hch
      rw [if_pos (by omega)]
      unfold frameMethod frameIp
      refine wp_bind (wp_bind (wp_slotAt h2 (wp_peekObject (by omega)
        (by simp only [e1]; exact h1.fmeth) (wp_bind (wp_bind
        (wp_slotAt h2 (wp_peekInt (by omega)
        (by simp only [e1]; exact h6) (wp_modS ?_))))))))
      refine h _ e1 rfl rfl e2 e3 e4 ⟨rfl, fun i' len' hd' => ?_⟩
      rw [h5] at hd'
      cases hd'
      rfl
  obtain ⟨l1, l2, l3⟩ := hg.lock
  rw [hm]
  have hu : unlock f v.log = unlock f s.log := by rw [ht.log]
  by_cases hs : (env.meth f.m).isSync = true
  · rw [if_pos hs]
    by_cases hst : (env.meth f.m).isStatic = true
    · rw [if_pos hst]
      refine wp_bind (wp_modS (tail _ rfl rfl rfl ?_))
      rw [hu]
      simp only [unlock, l2 hs hst]
    · rw [if_neg hst]
      simp only [Bool.not_eq_true] at hst
      obtain ⟨o, ho⟩ := l3 hs hst
      have hl0 : f.locals[0]? = some (.obj o) :=
        Classical.byContradiction fun hc => hd ⟨hs, hst, o, ho, hc⟩
      rw [← hloc] at hl0
      have : 0 < v.locals.length := (List.getElem?_eq_some_iff.1 hl0).1
      refine wp_bind (wp_frameBase ht (wp_bind (wp_peekObject (by omega) (ht.loc 0 _ hl0)
        (wp_bind (wp_modS (tail _ rfl rfl rfl ?_))))))
      rw [hu]
      simp only [unlock, ho]
  · rw [if_neg hs]
    simp only [Bool.not_eq_true] at hs
    refine tail _ rfl rfl rfl ?_
    rw [hu]
    simp only [unlock, l1 hs]

/-- A frame of the chain becomes the current frame. -/
theorem Top.ofChain {s : St} {f : Frame} {b : Nat} {nx ip : BitVec 32} {exc : Ref} {heap : Heap}
    {log : List Ev} (hsz : env.size < 2 ^ 31) (h : FrameAt env s.mem f b nx)
    (hsp : s.sp = b + f.locals.length + 4 + f.stack.length)
    (hf : s.frame = ((b + f.locals.length : Nat) : Int)) (hip : s.ip = ip) (hc : s.code = f.m)
    (he : s.exc = exc) (hh : s.heap = heap) (hl : s.log = log) :
    Top env s.mem ⟨b, f.m, nx, f.locals, f.stack, ip, exc, heap, log⟩ s :=
  ⟨hsz, h.room, h.fits, fun _ _ => rfl, h.loc, h.fbase, h.fnext, h.fmeth, h.stk, hsp, hf, hip, hc,
    he, hh, hl⟩

/-! ### Unwinding -/

/-- The slots below the current frame may be read off the state itself. -/
theorem Top.self {mem1 : Nat → Slot} {v : View} {s : St} (h : Top env mem1 v s) :
    Top env s.mem v s := by
  obtain ⟨size, room, fits, below, loc, fbase, fnext, fmeth, stk, sp, frame, ip, code, exc, heap,
    log⟩ := h
  exact ⟨size, room, fits, fun _ _ => rfl, loc, fbase, fnext, fmeth, stk, sp, frame, ip, code, exc,
    heap, log⟩

/-- The bounds of the handlers of a frame's method respect its current instruction. -/
def AlignedAt (env : Env) (f : Frame) (len : Nat) : Prop :=
  ∀ eh ∈ (env.meth f.m).code.handlers,
    ¬ (f.pc < (handlerOf eh).start ∧ (handlerOf eh).start < f.pc + len) ∧
    ¬ (f.pc < (handlerOf eh).stop ∧ (handlerOf eh).stop < f.pc + len)

/-- Everything needed of the callers to unwind them. -/
def CallerOk (env : Env) (c : Frame) : Prop :=
  ¬ lockDeparts env c ∧ ∀ i len, decode (env.meth c.m).code.body c.pc = some (i, len) →
    AlignedAt env c len ∧ 0 < len ∧ c.pc + len < 2 ^ 32

theorem wp_unwind_frame (hp : pl.ok) {exc : Ref} {heap : Heap} {x : Obj}
    (hx : heap exc = some x) {out : SOut} {D : List Slot → St → Prop} {rest : List Frame}
    {f : Frame} {mem1 : Nat → Slot} {log : List Ev} {fuel b : Nat} {nx ip : BitVec 32}
    {st : List Slot} {s : St} {len : Nat}
    (ht : Top env mem1 ⟨b, f.m, nx, f.locals, st, ip, exc, heap, log⟩ s)
    (hip : s.mem (b + f.locals.length + 3) = .int ip) (h1 : f.pc < ip.toNat)
    (h2 : ip.toNat ≤ f.pc + len) (hal : AlignedAt env f len) (hld : ¬ lockDeparts env f)
    (hg : Good env f) (hch : Chain env pl s.mem b nx.toInt (b + f.locals.length) rest)
    (hlow : ∀ i, i < pl.b0 → s.mem i = pl.mem0 i)
    (hr : raise env exc x.cls heap log (f :: rest) = some out)
    (h : ∀ s', s'.mem = s.mem → s'.sp = b → s'.frame = nx.toInt → s'.exc = exc →
      s'.heap = heap → s'.log = unlock f log →
      (match rest with
        | [] => True
        | c :: _ => s'.code = c.m ∧ ∀ i len, decode (env.meth c.m).code.body c.pc = some (i, len) →
            s'.ip = BitVec.ofNat 32 (c.pc + len)) →
      raise env exc x.cls heap (unlock f log) rest = some out →
      wp (unwind env pl.base fuel) (fun _ s' => Cont env pl out s') (Unc pl out) D s') :
    wp (unwind env pl.base (fuel + 1)) (fun _ s' => Cont env pl out s') (Unc pl out) D s := by
  have hroom := ht.room
  have hfr := ht.frame
  simp only at hroom hfr
  obtain ⟨g1, _, g3, _, _, _⟩ := hch.bounds (by omega)
  unfold unwind
  refine wp_bind (wp_getS ?_)
  rw [if_neg (by omega)]
  refine wp_bind (wp_frameMethod ht (wp_bind ?_))
  unfold frameIp
  refine wp_bind (wp_slotAt hfr (wp_peekInt (by omega) hip ?_))
  simp only [raise] at hr
  cases hfh : Spec.findHandler env f.m f.pc x.cls ((env.meth f.m).code.handlers.map handlerOf) with
  | none => rw [hfh] at hr; exact absurd hr nofun
  | some r =>
    rw [hfh] at hr
    simp only [Option.bind_eq_bind, Option.bind_some] at hr
    obtain ⟨eh, he, he0, het⟩ := findHandler_eq hx h1 h2 hal hfh
    have e1 : s.heap = heap := ht.heap
    have e2 : s.exc = exc := ht.exc
    refine wp_bind (wp_ofOpt (by rw [e1, e2]; exact he) ?_)
    cases r with
    | none =>
      simp only at hr
      rw [if_neg (by simp [he0 rfl])]
      refine wp_bind (wp_popFrame ht rfl rfl hg hld hp hch hlow ?_)
      intro s' a1 a2 a3 a4 a5 a6 a7
      exact h s' a1 a2 a3 (a4.trans e2) (a5.trans e1) a6 a7 hr
    | some t =>
      obtain ⟨hne, htgt⟩ := het t rfl
      simp only at hr
      rw [if_pos hne]
      by_cases hms : 1 ≤ (env.meth f.m).code.maxStack
      · rw [if_pos hms] at hr
        simp only [Option.pure_def, Option.some.injEq] at hr
        refine wp_bind (wp_modS ?_)
        have hsp := ht.sp
        simp only at hsp
        have ht1 : Top env mem1 ⟨b, f.m, nx, f.locals, [], ehIp eh, exc, heap, log⟩
            { s with sp := s.frame.toNat + 4, ip := ehIp eh } := by
          have := (ht.withSp (n := st.length) (st := []) (by simp) (by simp)).withIp (ehIp eh)
          rw [show s.frame.toNat + 4 = s.sp - st.length by omega]
          exact this
        refine wp_bind (wp_pushObject ht1 (by simp only [List.length_nil]; omega) fun s2 ht2 => ?_)
        refine wp_modS ⟨_, hr.symm, b, nx, ?_⟩
        have ht3 := (ht2.withExc s2.heap 0#64).self
        have hhp : s2.heap = heap := ht2.heap
        have ht4 : Top env s2.mem ⟨b, f.m, nx, f.locals, [.obj exc], BitVec.ofNat 32 t, 0#64, heap,
            log⟩ { s2 with exc := 0#64 } := by
          have : ehIp eh = BitVec.ofNat 32 t := by
            rw [← htgt, BitVec.ofNat_toNat, BitVec.setWidth_eq]
          rw [← this, ← e2, ← hhp]
          rw [← e2] at ht3
          exact ht3
        have hb2 : ∀ i, i < b → s2.mem i = s.mem i := fun i hi => by
          have a1 := ht2.below i hi
          have a2 := ht.below i hi
          rw [a1, a2]
        refine ⟨ht4, ⟨hg.locals, hg.native, hg.lock⟩, ?_, hch.congr hb2, fun i hi => ?_⟩
        · have : (handlerOf eh).target < 2 ^ 16 := by unfold handlerOf; simp only; omega
          rw [eh_ip] at htgt
          simp only
          omega
        · simp only; rw [hb2 i (by omega)]; exact hlow i hi
      · rw [if_neg hms] at hr; exact absurd hr nofun

theorem wp_unwind (hp : pl.ok) {exc : Ref} {heap : Heap} {x : Obj}
    (hx : heap exc = some x) {out : SOut} {D : List Slot → St → Prop} {rest : List Frame} :
    ∀ {f : Frame} {mem1 : Nat → Slot} {log : List Ev} {fuel b : Nat} {nx ip : BitVec 32}
      {st : List Slot} {s : St} {len : Nat},
    Top env mem1 ⟨b, f.m, nx, f.locals, st, ip, exc, heap, log⟩ s →
    s.mem (b + f.locals.length + 3) = .int ip → f.pc < ip.toNat → ip.toNat ≤ f.pc + len →
    AlignedAt env f len → ¬ lockDeparts env f →
    (∀ c ∈ rest, CallerOk env c) → Good env f →
    Chain env pl s.mem b nx.toInt (b + f.locals.length) rest →
    (∀ i, i < pl.b0 → s.mem i = pl.mem0 i) →
    rest.length + 2 ≤ fuel →
    raise env exc x.cls heap log (f :: rest) = some out →
    wp (unwind env pl.base fuel) (fun _ s' => Cont env pl out s') (Unc pl out) D s := by
  induction rest with
  | nil =>
    intro f mem1 log fuel b nx ip st s len ht hip h1 h2 hal hld hcs hg hch hlow hfuel hr
    obtain ⟨fuel, rfl⟩ : ∃ k, fuel = k + 1 := ⟨fuel - 1, by omega⟩
    refine wp_unwind_frame (len := len) hp hx ht hip h1 h2 hal hld hg hch hlow hr ?_
    intro s1 e1 e2 e3 e4 e5 e6 _ hr1
    obtain ⟨fuel, rfl⟩ : ∃ k, fuel = k + 1 := ⟨fuel - 1, by simp at hfuel; omega⟩
    simp only [raise, Option.some.injEq] at hr1
    obtain ⟨c1, c2, c3⟩ := hch
    obtain ⟨_, _, _, _, _, hb⟩ := Chain.bounds (env := env) (mem := s.mem) (rest := []) ⟨c1, c2, c3⟩ (by omega)
    have hlt : s1.frame < pl.base := by
      rcases hp with hp | ⟨k, hk, hk4, _⟩ <;> omega
    unfold unwind
    refine wp_bind (wp_getS ?_)
    rw [if_pos hlt]
    exact ⟨exc, heap, _, hr1.symm, e4, e5, e6, by omega, by omega, fun i hi => by
      rw [e1]; exact hlow i hi⟩
  | cons c rest ih =>
    intro f mem1 log fuel b nx ip st s len ht hip h1 h2 hal hld hcs hg hch hlow hfuel hr
    obtain ⟨fuel, rfl⟩ : ∃ k, fuel = k + 1 := ⟨fuel - 1, by omega⟩
    refine wp_unwind_frame (len := len) hp hx ht hip h1 h2 hal hld hg hch hlow hr ?_
    intro s1 e1 e2 e3 e4 e5 e6 e7 hr1
    obtain ⟨b', nx', i, len', k1, k2, k3, k4, k5, k6, k7⟩ := hch
    obtain ⟨q1, q2⟩ := hcs c List.mem_cons_self
    obtain ⟨q3, q4, q5⟩ := q2 i len' k5
    have hip' : (BitVec.ofNat 32 (c.pc + len')).toNat = c.pc + len' := by
      rw [BitVec.toNat_ofNat, Nat.mod_eq_of_lt q5]
    have k1' : FrameAt env s1.mem c b' nx' := by rw [e1]; exact k1
    refine ih (mem1 := s1.mem) (b := b') (nx := nx') (ip := BitVec.ofNat 32 (c.pc + len'))
      (st := c.stack) (len := len')
      (Top.ofChain ht.size k1' (by omega) (by omega) (e7.2 i len' k5) e7.1 e4 e5 e6)
      (by rw [e1]; exact k6) (by omega) (by omega) q3 q1
      (fun d hd => hcs d (List.mem_cons_of_mem _ hd)) k1.good (by rw [e1]; exact k7)
      (fun i hi => by rw [e1]; exact hlow i hi) (by simp only [List.length_cons] at hfuel; omega) hr1

/-- Raising an exception in the current frame. -/
theorem wp_throwLabel (hp : pl.ok) {exc : Ref} {heap : Heap} {x : Obj}
    (hx : heap exc = some x) {out : SOut} {D : List Slot → St → Prop} {rest : List Frame}
    {f : Frame} {mem1 : Nat → Slot} {log : List Ev} {b : Nat} {nx ip : BitVec 32}
    {st : List Slot} {s : St} {len : Nat}
    (ht : Top env mem1 ⟨b, f.m, nx, f.locals, st, ip, exc, heap, log⟩ s)
    (h1 : f.pc < ip.toNat) (h2 : ip.toNat ≤ f.pc + len)
    (hal : AlignedAt env f len) (hld : ¬ lockDeparts env f)
    (hcs : ∀ c ∈ rest, CallerOk env c) (hg : Good env f)
    (hch : Chain env pl s.mem b nx.toInt (b + f.locals.length) rest)
    (hlow : ∀ i, i < pl.b0 → s.mem i = pl.mem0 i)
    (hr : raise env exc x.cls heap log (f :: rest) = some out) :
    wp (throwLabel env pl.base) (fun _ s' => Cont env pl out s') (Unc pl out) D s := by
  have hroom := ht.room
  simp only at hroom
  obtain ⟨_, _, g3, g4, _, _⟩ := hch.bounds (by omega)
  unfold throwLabel
  refine wp_bind (wp_getS (wp_bind (wp_slotAt ht.frame (wp_bind (wp_writeSlot (by simp only; omega) ?_)))))
  simp only
  have hip := ht.ip
  simp only at hip
  have ht' : Top env mem1 ⟨b, f.m, nx, f.locals, st, ip, exc, heap, log⟩
      { s with mem := fun j => if j = b + f.locals.length + 3 then .int s.ip else s.mem j } := by
    obtain ⟨size, room, fits, below, loc, fbase, fnext, fmeth, stk, sp, frame, ip, code, exc, heap,
      log⟩ := ht
    simp only at room fits below loc fbase fnext fmeth stk sp frame
    refine ⟨size, room, fits, ?_, ?_, ?_, ?_, ?_, ?_, sp, frame, ip, code, exc, heap, log⟩ <;> simp only
    · intro i hi; rw [if_neg (by omega)]; exact below i hi
    · intro i x hx
      have : i < f.locals.length := (List.getElem?_eq_some_iff.1 hx).1
      rw [if_neg (by omega)]; exact loc i x hx
    · rw [if_neg (by omega)]; exact fbase
    · rw [if_neg (by omega)]; exact fnext
    · rw [if_neg (by omega)]; exact fmeth
    · exact stk.congr fun i h1 h2 => by rw [if_neg (by omega)]
  have hfr : s.frame.toNat = b + f.locals.length := by
    have := ht.frame
    simp only at this
    omega
  refine wp_unwind hp hx ht' ?_ h1 h2 hal hld hcs hg (hch.congr ?_) ?_ ?_ hr
  · simp only; rw [if_pos trivial, hip]
  · intro i hi; simp only; rw [if_neg (by omega)]
  · intro i hi; simp only; rw [if_neg (by omega)]; exact hlow i hi
  · omega

end
end Avian.Interp
