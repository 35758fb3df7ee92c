import Verif.Interp.Machine
/-
Proof rules for the interpreter model: a weakest precondition for the actions `M` and rules for the
primitive actions on a state whose current frame is described by a `View`.
-/
namespace Avian.Interp

/-- `x` run on `s` does not end in `undef`, and its outcome satisfies the matching
postcondition. -/
def wp {α : Type} (x : M α) (Q : α → St → Prop) (T : St → Prop) (D : List Slot → St → Prop)
    (s : St) : Prop :=
  match x s with
  | .ok a s => Q a s
  | .throw s => T s
  | .done r s => D r s
  | .undef => False

section
variable {α β : Type} {Q : α → St → Prop} {T : St → Prop} {D : List Slot → St → Prop} {s : St}

theorem wp_pure {a : α} (h : Q a s) : wp (pure a : M α) Q T D s := h

theorem wp_bind {Q : β → St → Prop} {x : M α} {f : α → M β}
    (h : wp x (fun a s' => wp (f a) Q T D s') T D s) : wp (x >>= f) Q T D s := by
  show wp (M.bind x f) Q T D s
  unfold wp M.bind at *
  revert h
  cases x s <;> intro h <;> simpa using h

theorem wp_mono {Q' : α → St → Prop} {x : M α} (h : wp x Q T D s)
    (hq : ∀ a s, Q a s → Q' a s) : wp x Q' T D s := by
  unfold wp at *
  revert h
  cases x s <;> intro h <;> simp_all

theorem wp_conseq {Q' : α → St → Prop} {T' : St → Prop} {D' : List Slot → St → Prop} {x : M α}
    (h : wp x Q T D s) (hq : ∀ a s, Q a s → Q' a s) (ht : ∀ s, T s → T' s)
    (hd : ∀ r s, D r s → D' r s) : wp x Q' T' D' s := by
  unfold wp at *
  revert h
  cases x s <;> intro h <;> simp_all

theorem wp_getS {Q : St → St → Prop} (h : Q s s) : wp getS Q T D s := h

theorem wp_modS {f : St → St} {Q : Unit → St → Prop} (h : Q () (f s)) : wp (modS f) Q T D s := h

theorem wp_ofOpt {o : Option α} {a : α} (ho : o = some a) (h : Q a s) : wp (ofOpt o) Q T D s := by
  subst ho; exact h

theorem wp_ite {c : Prop} [Decidable c] {x y : M α} (hx : c → wp x Q T D s)
    (hy : ¬ c → wp y Q T D s) : wp (if c then x else y) Q T D s := by
  by_cases h : c
  · rw [if_pos h]; exact hx h
  · rw [if_neg h]; exact hy h

end

/-- The slots `xs` (top first) lie in `m` from `lo` upwards. -/
def Stk (m : Nat → Slot) (lo : Nat) : List Slot → Prop
  | [] => True
  | x :: xs => m (lo + xs.length) = x ∧ Stk m lo xs

theorem Stk.congr {m m' : Nat → Slot} {lo : Nat} {xs : List Slot} (h : Stk m lo xs)
    (hm : ∀ i, lo ≤ i → i < lo + xs.length → m' i = m i) : Stk m' lo xs := by
  induction xs with
  | nil => trivial
  | cons x xs ih =>
    simp only [List.length_cons] at hm
    refine ⟨?_, ih h.2 fun i h1 h2 => hm i h1 (by omega)⟩
    rw [hm _ (by omega) (by omega)]
    exact h.1

theorem Stk.get {m : Nat → Slot} {lo : Nat} {xs : List Slot} (h : Stk m lo xs) :
    ∀ {i : Nat} {x : Slot}, xs[i]? = some x → m (lo + (xs.length - 1 - i)) = x := by
  induction xs with
  | nil => intro i x hx; simp at hx
  | cons y ys ih =>
    intro i x hx
    cases i with
    | zero =>
      simp only [List.getElem?_cons_zero, Option.some.injEq] at hx
      subst hx
      simpa using h.1
    | succ i =>
      simp only [List.getElem?_cons_succ] at hx
      have := ih h.2 hx
      simp only [List.length_cons]
      rw [show ys.length + 1 - 1 - (i + 1) = ys.length - 1 - i by omega]
      exact this

theorem Stk.drop {m : Nat → Slot} {lo : Nat} {xs : List Slot} (h : Stk m lo xs) (n : Nat) :
    Stk m lo (xs.drop n) := by
  induction xs generalizing n with
  | nil => simpa using h
  | cons x xs ih =>
    cases n with
    | zero => exact h
    | succ n => exact ih h.2 n

/-- What the current frame looks like. -/
structure View where
  b : Nat
  m : Ref
  next : BitVec 32
  locals : List Slot
  stack : List Slot
  ip : BitVec 32
  exc : Ref
  heap : Heap
  log : List Ev

/-- The current frame of `s` is as described by `v`, and below it the slot array equals
`mem0`. -/
structure Top (env : Env) (mem0 : Nat → Slot) (v : View) (s : St) : Prop where
  size : env.size < 2 ^ 31
  room : v.b + v.locals.length + 4 + (env.meth v.m).code.maxStack ≤ env.size
  fits : v.stack.length ≤ (env.meth v.m).code.maxStack
  below : ∀ i, i < v.b → s.mem i = mem0 i
  loc : ∀ i x, v.locals[i]? = some x → s.mem (v.b + i) = x
  fbase : s.mem (v.b + v.locals.length) = .int (BitVec.ofNat 32 v.b)
  fnext : s.mem (v.b + v.locals.length + 1) = .int v.next
  fmeth : s.mem (v.b + v.locals.length + 2) = .obj v.m
  stk : Stk s.mem (v.b + v.locals.length + 4) v.stack
  sp : s.sp = v.b + v.locals.length + 4 + v.stack.length
  frame : s.frame = ((v.b + v.locals.length : Nat) : Int)
  ip : s.ip = v.ip
  code : s.code = v.m
  exc : s.exc = v.exc
  heap : s.heap = v.heap
  log : s.log = v.log

section
variable {env : Env} {mem0 : Nat → Slot} {v : View} {s : St} {T : St → Prop}
  {D : List Slot → St → Prop}

theorem wp_readSlot {Q : Slot → St → Prop} {i : Nat} {x : Slot} (hi : i < env.size)
    (hx : s.mem i = x) (h : Q x s) : wp (readSlot env i) Q T D s := by
  unfold wp readSlot
  rw [if_pos hi, hx]
  exact h

theorem wp_writeSlot {Q : Unit → St → Prop} {i : Nat} {x : Slot} (hi : i < env.size)
    (h : Q () { s with mem := fun j => if j = i then x else s.mem j }) :
    wp (writeSlot env i x) Q T D s := by
  unfold wp writeSlot
  rw [if_pos hi]
  exact h

theorem wp_popSlot {Q : Slot → St → Prop} {x : Slot} {st : List Slot} (ht : Top env mem0 v s)
    (hst : v.stack = x :: st) (h : ∀ s', Top env mem0 { v with stack := st } s' → Q x s') :
    wp (popSlot env) Q T D s := by
  obtain ⟨size, room, fits, below, loc, fbase, fnext, fmeth, stk, sp, frame, ip, code, exc, heap,
    log⟩ := ht
  rw [hst] at sp stk fits
  simp only [List.length_cons] at sp fits
  unfold popSlot
  refine wp_bind (wp_getS ?_)
  rw [if_neg (by omega)]
  refine wp_bind (wp_readSlot (x := x) (by omega) ?_ ?_)
  · rw [sp]; exact stk.1
  · refine wp_bind (wp_modS (wp_pure (h _ ?_)))
    exact ⟨size, room, by simp only; omega, below, loc, fbase, fnext, fmeth, stk.2, by simp only [sp]; omega,
      frame, ip, code, exc, heap, log⟩

theorem wp_popInt {Q : BitVec 32 → St → Prop} {x : BitVec 32} {st : List Slot}
    (ht : Top env mem0 v s) (hst : v.stack = .int x :: st)
    (h : ∀ s', Top env mem0 { v with stack := st } s' → Q x s') :
    wp (popInt env) Q T D s := by
  unfold popInt
  exact wp_bind (wp_popSlot ht hst fun s' hs' => wp_pure (h s' hs'))

theorem wp_popObject {Q : Ref → St → Prop} {x : Ref} {st : List Slot}
    (ht : Top env mem0 v s) (hst : v.stack = .obj x :: st)
    (h : ∀ s', Top env mem0 { v with stack := st } s' → Q x s') :
    wp (popObject env) Q T D s := by
  unfold popObject
  exact wp_bind (wp_popSlot ht hst fun s' hs' => wp_pure (h s' hs'))

theorem long_join (hi lo : BitVec 32) :
    (hi.setWidth 64 <<< (32 : Nat)) ||| lo.setWidth 64 = hi ++ lo := by
  apply BitVec.eq_of_getLsbD_eq
  intro i hi'
  simp only [BitVec.getLsbD_or, BitVec.getLsbD_shiftLeft, BitVec.getLsbD_setWidth,
    BitVec.getLsbD_append]
  by_cases h : i < 32
  · simp [h, show i < 64 by omega]
  · simp [h, show i < 64 by omega, show i - 32 < 64 by omega]
    intro hl
    have := BitVec.getLsbD_of_ge lo i (by omega)
    simp [this] at hl

theorem wp_popLong {Q : BitVec 64 → St → Prop} {hi lo : BitVec 32} {st : List Slot}
    (ht : Top env mem0 v s) (hst : v.stack = .int lo :: .int hi :: st)
    (h : ∀ s', Top env mem0 { v with stack := st } s' → Q (hi ++ lo) s') :
    wp (popLong env) Q T D s := by
  unfold popLong
  refine wp_bind (wp_popInt ht hst fun s1 h1 => wp_bind (wp_popInt h1 rfl fun s2 h2 => wp_pure ?_))
  rw [long_join]
  exact h s2 h2

theorem Top.setStackAbove {v : View} (ht : Top env mem0 v s) {x : Slot}
    (hl : v.stack.length < (env.meth v.m).code.maxStack) :
    Top env mem0 { v with stack := x :: v.stack }
      { s with mem := (fun j => if j = s.sp then x else s.mem j), sp := s.sp + 1 } := by
  obtain ⟨size, room, fits, below, loc, fbase, fnext, fmeth, stk, sp, frame, ip, code, exc, heap,
    log⟩ := ht
  refine ⟨size, room, by simp only [List.length_cons]; omega, ?_, ?_, ?_, ?_, ?_, ?_, ?_, frame, ip,
    code, exc, heap, log⟩
  · intro i hi
    simp only at hi ⊢
    rw [if_neg (by omega)]
    exact below i hi
  · intro i y hy
    have : i < v.locals.length := (List.getElem?_eq_some_iff.1 hy).1
    simp only
    rw [if_neg (by omega)]
    exact loc i y hy
  · simp only
    rw [if_neg (by omega)]
    exact fbase
  · simp only
    rw [if_neg (by omega)]
    exact fnext
  · simp only
    rw [if_neg (by omega)]
    exact fmeth
  · refine ⟨?_, stk.congr ?_⟩
    · simp only; rw [if_pos (by omega)]
    · intro i h1 h2; simp only; rw [if_neg (by omega)]
  · simp only [List.length_cons]; omega

theorem wp_pushSlot {Q : Unit → St → Prop} {x : Slot} (ht : Top env mem0 v s)
    (hl : v.stack.length < (env.meth v.m).code.maxStack)
    (h : ∀ s', Top env mem0 { v with stack := x :: v.stack } s' → Q () s') :
    wp (pushSlot env x) Q T D s := by
  have h1 := ht.sp
  have h2 := ht.room
  unfold pushSlot
  refine wp_bind (wp_getS (wp_bind (wp_writeSlot (by omega) (wp_modS (h _ ?_)))))
  exact ht.setStackAbove hl

theorem wp_pushInt {Q : Unit → St → Prop} {x : BitVec 32} (ht : Top env mem0 v s)
    (hl : v.stack.length < (env.meth v.m).code.maxStack)
    (h : ∀ s', Top env mem0 { v with stack := .int x :: v.stack } s' → Q () s') :
    wp (pushInt env x) Q T D s := wp_pushSlot ht hl h

theorem wp_pushObject {Q : Unit → St → Prop} {x : Ref} (ht : Top env mem0 v s)
    (hl : v.stack.length < (env.meth v.m).code.maxStack)
    (h : ∀ s', Top env mem0 { v with stack := .obj x :: v.stack } s' → Q () s') :
    wp (pushObject env x) Q T D s := wp_pushSlot ht hl h

theorem long_hi (x : BitVec 64) : (x >>> (32 : Nat)).setWidth 32 = x.extractLsb' 32 32 := by
  apply BitVec.eq_of_getLsbD_eq
  intro i hi
  simp [hi]

theorem long_lo (x : BitVec 64) :
    (x &&& 0xFFFFFFFF#64).setWidth 32 = x.extractLsb' 0 32 := by
  apply BitVec.eq_of_toNat_eq
  have h : (0xFFFFFFFF#64).toNat = 2 ^ 32 - 1 := by decide
  simp only [BitVec.toNat_setWidth, BitVec.toNat_and, BitVec.extractLsb'_toNat, h,
    Nat.and_two_pow_sub_one_eq_mod, Nat.shiftRight_zero]
  omega

theorem wp_pushLong {Q : Unit → St → Prop} {x : BitVec 64} (ht : Top env mem0 v s)
    (hl : v.stack.length + 1 < (env.meth v.m).code.maxStack)
    (h : ∀ s', Top env mem0 { v with
      stack := .int (x.extractLsb' 0 32) :: .int (x.extractLsb' 32 32) :: v.stack } s' → Q () s') :
    wp (pushLong env x) Q T D s := by
  unfold pushLong
  rw [long_hi, long_lo]
  refine wp_bind (wp_pushInt ht (by omega) fun s1 h1 => ?_)
  exact wp_pushInt h1 (by simpa using hl) h

/-- The byte at the position is fetched and the position moves. -/
theorem wp_fetch8 {Q : BitVec 8 → St → Prop} {x : BitVec 8} (ht : Top env mem0 v s)
    (hx : (env.meth v.m).code.body[v.ip.toNat]? = some x)
    (h : ∀ s', Top env mem0 { v with ip := v.ip + 1 } s' → Q x s') :
    wp (fetch8 env) Q T D s := by
  unfold wp fetch8
  rw [ht.code, ht.ip, hx]
  refine h _ ?_
  obtain ⟨size, room, fits, below, loc, fbase, fnext, fmeth, stk, sp, frame, ip, code, exc, heap,
    log⟩ := ht
  exact ⟨size, room, fits, below, loc, fbase, fnext, fmeth, stk, sp, frame, rfl, rfl, exc, heap,
    log⟩

theorem Top.withIp (ht : Top env mem0 v s) (i : BitVec 32) :
    Top env mem0 { v with ip := i } { s with ip := i } := by
  obtain ⟨size, room, fits, below, loc, fbase, fnext, fmeth, stk, sp, frame, ip, code, exc, heap,
    log⟩ := ht
  exact ⟨size, room, fits, below, loc, fbase, fnext, fmeth, stk, sp, frame, rfl, code, exc, heap,
    log⟩

theorem Top.withHeap (ht : Top env mem0 v s) (h : Heap) :
    Top env mem0 { v with heap := h } { s with heap := h } := by
  obtain ⟨size, room, fits, below, loc, fbase, fnext, fmeth, stk, sp, frame, ip, code, exc, heap,
    log⟩ := ht
  exact ⟨size, room, fits, below, loc, fbase, fnext, fmeth, stk, sp, frame, ip, code, exc, rfl,
    log⟩

theorem Top.withLog (ht : Top env mem0 v s) (l : List Ev) :
    Top env mem0 { v with log := l } { s with log := l } := by
  obtain ⟨size, room, fits, below, loc, fbase, fnext, fmeth, stk, sp, frame, ip, code, exc, heap,
    log⟩ := ht
  exact ⟨size, room, fits, below, loc, fbase, fnext, fmeth, stk, sp, frame, ip, code, exc, heap,
    rfl⟩

theorem Top.withExc (ht : Top env mem0 v s) (h : Heap) (e : Ref) :
    Top env mem0 { v with heap := h, exc := e } { s with heap := h, exc := e } := by
  obtain ⟨size, room, fits, below, loc, fbase, fnext, fmeth, stk, sp, frame, ip, code, exc, heap,
    log⟩ := ht
  exact ⟨size, room, fits, below, loc, fbase, fnext, fmeth, stk, sp, frame, ip, code, rfl, rfl,
    log⟩

theorem Top.withSp {n : Nat} {st : List Slot} (ht : Top env mem0 v s) (hst : v.stack.drop n = st)
    (hn : n ≤ v.stack.length) :
    Top env mem0 { v with stack := st } { s with sp := s.sp - n } := by
  obtain ⟨size, room, fits, below, loc, fbase, fnext, fmeth, stk, sp, frame, ip, code, exc, heap,
    log⟩ := ht
  subst hst
  refine ⟨size, room, ?_, below, loc, fbase, fnext, fmeth, stk.drop n, ?_, frame, ip, code, exc,
    heap, log⟩
  · simp only [List.length_drop]; omega
  · simp only [List.length_drop]; omega

theorem wp_spMinus {Q : Nat → St → Prop} {n : Nat} (ht : Top env mem0 v s)
    (hn : n ≤ v.stack.length)
    (h : Q (v.b + v.locals.length + 4 + v.stack.length - n) s) : wp (spMinus n) Q T D s := by
  have := ht.sp
  unfold spMinus
  refine wp_bind (wp_getS ?_)
  rw [if_neg (by omega), this]
  exact wp_pure h

theorem wp_peekObject {Q : Ref → St → Prop} {i : Nat} {x : Ref} (hi : i < env.size)
    (hx : s.mem i = .obj x) (h : Q x s) : wp (peekObject env i) Q T D s := by
  unfold peekObject
  exact wp_bind (wp_readSlot hi hx (wp_pure h))

theorem wp_peekInt {Q : BitVec 32 → St → Prop} {i : Nat} {x : BitVec 32} (hi : i < env.size)
    (hx : s.mem i = .int x) (h : Q x s) : wp (peekInt env i) Q T D s := by
  unfold peekInt
  exact wp_bind (wp_readSlot hi hx (wp_pure h))

theorem wp_slotAt {Q : Nat → St → Prop} {f : Int} {n off : Nat} (hf : f = (n : Int))
    (h : Q (n + off) s) : wp (slotAt f off) Q T D s := by
  subst hf
  unfold slotAt
  rw [if_pos (by omega)]
  exact h

theorem wp_frameMethod {Q : Ref → St → Prop} (ht : Top env mem0 v s) (h : Q v.m s) :
    wp (frameMethod env s.frame) Q T D s := by
  have := ht.room
  unfold frameMethod
  exact wp_bind (wp_slotAt ht.frame (wp_peekObject (by omega) ht.fmeth h))

theorem wp_frameBase {Q : Nat → St → Prop} (ht : Top env mem0 v s) (h : Q v.b s) :
    wp (frameBase env s.frame) Q T D s := by
  have := ht.room
  have := ht.size
  unfold frameBase
  refine wp_bind (wp_slotAt ht.frame (wp_bind (wp_peekInt (by omega) ht.fbase (wp_pure ?_))))
  rw [BitVec.toNat_ofNat, Nat.mod_eq_of_lt (by omega)]
  exact h

theorem wp_frameNext {Q : Int → St → Prop} (ht : Top env mem0 v s) (h : Q v.next.toInt s) :
    wp (frameNext env s.frame) Q T D s := by
  have := ht.room
  unfold frameNext
  exact wp_bind (wp_slotAt ht.frame (wp_bind (wp_peekInt (by omega) ht.fnext (wp_pure h))))

theorem localIdx_eq {b i : Nat} (h : b + i < 2 ^ 32) : localIdx b i = b + i := Nat.mod_eq_of_lt h

theorem wp_localInt {Q : BitVec 32 → St → Prop} {i : Nat} {x : BitVec 32} (ht : Top env mem0 v s)
    (hx : v.locals[i]? = some (.int x)) (h : Q x s) : wp (localInt env i) Q T D s := by
  have h1 := ht.room
  have h2 := ht.size
  have h3 : i < v.locals.length := (List.getElem?_eq_some_iff.1 hx).1
  unfold localInt
  refine wp_bind (wp_getS (wp_bind (wp_frameBase ht ?_)))
  rw [localIdx_eq (by omega)]
  exact wp_peekInt (by omega) (ht.loc i _ hx) h

theorem wp_localObject {Q : Ref → St → Prop} {i : Nat} {x : Ref} (ht : Top env mem0 v s)
    (hx : v.locals[i]? = some (.obj x)) (h : Q x s) : wp (localObject env i) Q T D s := by
  have h1 := ht.room
  have h2 := ht.size
  have h3 : i < v.locals.length := (List.getElem?_eq_some_iff.1 hx).1
  unfold localObject
  refine wp_bind (wp_getS (wp_bind (wp_frameBase ht ?_)))
  rw [localIdx_eq (by omega)]
  exact wp_peekObject (by omega) (ht.loc i _ hx) h

theorem wp_localLong {Q : BitVec 64 → St → Prop} {i : Nat} {hi lo : BitVec 32}
    (ht : Top env mem0 v s) (hx : v.locals[i]? = some (.int hi))
    (hy : v.locals[i + 1]? = some (.int lo)) (h : Q (hi ++ lo) s) :
    wp (localLong env i) Q T D s := by
  have h1 := ht.room
  have h2 := ht.size
  have h3 : i + 1 < v.locals.length := (List.getElem?_eq_some_iff.1 hy).1
  unfold localLong
  refine wp_bind (wp_getS (wp_bind (wp_frameBase ht ?_)))
  rw [localIdx_eq (by omega)]
  unfold peekLong
  refine wp_bind (wp_peekInt (by omega) (ht.loc i _ hx)
    (wp_bind (wp_peekInt (by omega) (ht.loc (i + 1) _ hy) (wp_pure ?_))))
  rw [long_join]
  exact h

theorem Top.setLocal (ht : Top env mem0 v s) {i : Nat} {x : Slot} (hi : i < v.locals.length) :
    Top env mem0 { v with locals := v.locals.set i x }
      { s with mem := fun j => if j = v.b + i then x else s.mem j } := by
  obtain ⟨size, room, fits, below, loc, fbase, fnext, fmeth, stk, sp, frame, ip, code, exc, heap,
    log⟩ := ht
  refine ⟨size, ?_, fits, ?_, ?_, ?_, ?_, ?_, ?_, ?_, ?_, ip, code, exc, heap, log⟩ <;>
    simp only [List.length_set]
  · exact room
  · intro j hj
    rw [if_neg (by omega)]
    exact below j hj
  · intro j y hy
    rw [List.getElem?_set] at hy
    by_cases hji : i = j
    · subst hji
      rw [if_pos rfl] at hy ⊢
      rw [if_pos hi] at hy
      exact Option.some.inj hy
    · rw [if_neg hji] at hy
      rw [if_neg (by omega)]
      exact loc j y hy
  · rw [if_neg (by omega)]; exact fbase
  · rw [if_neg (by omega)]; exact fnext
  · rw [if_neg (by omega)]; exact fmeth
  · exact stk.congr fun j h1 h2 => by rw [if_neg (by omega)]
  · exact sp
  · exact frame

theorem wp_setLocalInt {Q : Unit → St → Prop} {i : Nat} {x : BitVec 32} (ht : Top env mem0 v s)
    (hi : i < v.locals.length)
    (h : ∀ s', Top env mem0 { v with locals := v.locals.set i (.int x) } s' → Q () s') :
    wp (setLocalInt env i x) Q T D s := by
  have h1 := ht.room
  have h2 := ht.size
  unfold setLocalInt
  refine wp_bind (wp_getS (wp_bind (wp_frameBase ht ?_)))
  rw [localIdx_eq (by omega)]
  exact wp_writeSlot (by omega) (h _ (ht.setLocal hi))

theorem wp_setLocalObject {Q : Unit → St → Prop} {i : Nat} {x : Ref} (ht : Top env mem0 v s)
    (hi : i < v.locals.length)
    (h : ∀ s', Top env mem0 { v with locals := v.locals.set i (.obj x) } s' → Q () s') :
    wp (setLocalObject env i x) Q T D s := by
  have h1 := ht.room
  have h2 := ht.size
  unfold setLocalObject
  refine wp_bind (wp_getS (wp_bind (wp_frameBase ht ?_)))
  rw [localIdx_eq (by omega)]
  exact wp_writeSlot (by omega) (h _ (ht.setLocal hi))

theorem wp_setLocalLong {Q : Unit → St → Prop} {i : Nat} {hi lo : BitVec 32}
    (ht : Top env mem0 v s) (hil : i + 1 < v.locals.length)
    (h : ∀ s', Top env mem0 { v with
      locals := (v.locals.set i (.int hi)).set (i + 1) (.int lo) } s' → Q () s') :
    wp (setLocalLong env i (hi ++ lo)) Q T D s := by
  have h1 := ht.room
  have h2 := ht.size
  unfold setLocalLong
  refine wp_bind (wp_getS (wp_bind (wp_frameBase ht ?_)))
  rw [localIdx_eq (by omega)]
  unfold pokeLong
  rw [long_hi, long_lo]
  refine wp_bind (wp_writeSlot (by omega) (wp_writeSlot (by omega) (h _ ?_)))
  rw [BitVec.extractLsb'_append_eq_left, BitVec.extractLsb'_append_eq_right]
  have := (ht.setLocal (x := .int hi) (i := i) (by omega)).setLocal (x := .int lo) (i := i + 1)
    (by simp only [List.length_set]; exact hil)
  exact this

theorem wp_store {Q : Unit → St → Prop} {i : Nat} {x : Slot} {st : List Slot}
    (ht : Top env mem0 v s) (hst : v.stack = x :: st) (hi : i < v.locals.length)
    (h : ∀ s', Top env mem0 { v with stack := st, locals := v.locals.set i x } s' → Q () s') :
    wp (store env i) Q T D s := by
  have h1 := ht.room
  have h2 := ht.size
  unfold store
  refine wp_bind (wp_popSlot ht hst fun s1 ht1 => wp_bind (wp_getS (wp_bind
    (wp_frameBase ht1 ?_))))
  rw [localIdx_eq (by simp only; omega)]
  exact wp_writeSlot (by simp only; omega) (h _ (ht1.setLocal hi))

/-- Raising a built-in exception. -/
theorem wp_throwNew {α : Type} {Q : α → St → Prop} {k : ExKind} (ht : Top env mem0 v s)
    (h : ∀ s', Top env mem0 { v with
        heap := (env.newThrowable v.heap k).1, exc := (env.newThrowable v.heap k).2 } s' →
      T s') : wp (throwNew env k : M α) Q T D s := by
  refine h _ ?_
  rw [← ht.heap]
  exact ht.withExc _ _

end
end Avian.Interp
