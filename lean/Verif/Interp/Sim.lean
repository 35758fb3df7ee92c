import Verif.Interp.Rep
/-
Each instruction of the interpreter simulates the instruction of the specification.
-/
namespace Avian.Interp

open Spec

/-! ### Reading operands -/

theorem u1_some {c : List (BitVec 8)} {k n : Nat} (h : u1 c k = some n) :
    ∃ x, c[k]? = some x ∧ x.toNat = n ∧ k < c.length := by
  unfold u1 at h
  cases hx : c[k]? with
  | none => rw [hx] at h; exact absurd h nofun
  | some x =>
    rw [hx] at h
    cases h
    exact ⟨x, rfl, rfl, (List.getElem?_eq_some_iff.1 hx).1⟩

theorem u2_some {c : List (BitVec 8)} {k n : Nat} (h : u2 c k = some n) :
    ∃ a b, u1 c k = some a ∧ u1 c (k + 1) = some b ∧ n = a * 256 + b := by
  unfold u2 at h
  cases ha : u1 c k with
  | none => rw [ha] at h; exact absurd h nofun
  | some a =>
    rw [ha] at h
    cases hb : u1 c (k + 1) with
    | none => rw [hb] at h; exact absurd h nofun
    | some b =>
      rw [hb] at h
      cases h
      exact ⟨a, b, rfl, rfl, rfl⟩

theorem u4_some {c : List (BitVec 8)} {k n : Nat} (h : u4 c k = some n) :
    ∃ a b, u2 c k = some a ∧ u2 c (k + 2) = some b ∧ n = a * 65536 + b := by
  unfold u4 at h
  cases ha : u2 c k with
  | none => rw [ha] at h; exact absurd h nofun
  | some a =>
    rw [ha] at h
    cases hb : u2 c (k + 2) with
    | none => rw [hb] at h; exact absurd h nofun
    | some b =>
      rw [hb] at h
      cases h
      exact ⟨a, b, rfl, rfl, rfl⟩

theorem u1_lt {c : List (BitVec 8)} {k n : Nat} (h : u1 c k = some n) : n < 256 := by
  obtain ⟨x, _, h, _⟩ := u1_some h
  have := x.isLt
  omega

theorem u2_lt {c : List (BitVec 8)} {k n : Nat} (h : u2 c k = some n) : n < 65536 := by
  obtain ⟨a, b, h1, h2, rfl⟩ := u2_some h
  have := u1_lt h1
  have := u1_lt h2
  omega

theorem u4_lt {c : List (BitVec 8)} {k n : Nat} (h : u4 c k = some n) : n < 4294967296 := by
  obtain ⟨a, b, h1, h2, rfl⟩ := u4_some h
  have := u2_lt h1
  have := u2_lt h2
  omega

theorem map_some {α β : Type} {f : α → β} {o : Option α} {b : β} (h : o.map f = some b) :
    ∃ a, o = some a ∧ f a = b := by
  cases o with
  | none => exact absurd h nofun
  | some a => cases h; exact ⟨a, rfl, rfl⟩

theorem sext8 {n : Nat} (h : n < 256) :
    (BitVec.ofNat 8 n).signExtend 32 = BitVec.ofInt 32 (signed 128 n) := by
  rw [BitVec.signExtend]
  congr 1
  rw [BitVec.toInt_ofNat', ]
  unfold signed Int.bmod
  simp only
  repeat' split
  all_goals omega

theorem sext16 {n : Nat} (h : n < 65536) :
    (BitVec.ofNat 16 n).signExtend 32 = BitVec.ofInt 32 (signed 32768 n) := by
  rw [BitVec.signExtend]
  congr 1
  rw [BitVec.toInt_ofNat']
  unfold signed Int.bmod
  simp only
  repeat' split
  all_goals omega

theorem sext32 {n : Nat} (h : n < 4294967296) :
    BitVec.ofNat 32 n = BitVec.ofInt 32 (signed 2147483648 n) := by
  apply BitVec.eq_of_toInt_eq
  rw [BitVec.toInt_ofNat', BitVec.toInt_ofInt]
  unfold signed Int.bmod
  simp only
  repeat' split
  all_goals omega

section
variable {env : Env} {mem1 : Nat → Slot} {v : View} {s : St} {T : St → Prop}
  {D : List Slot → St → Prop}

theorem wp_fetchU1 {Q : BitVec 8 → St → Prop} {k n : Nat} (ht : Top env mem1 v s)
    (hb : (env.meth v.m).code.body.length < 2 ^ 31)
    (hip : v.ip = BitVec.ofNat 32 k) (hn : u1 (env.meth v.m).code.body k = some n)
    (h : ∀ s', Top env mem1 { v with ip := BitVec.ofNat 32 (k + 1) } s' → Q (BitVec.ofNat 8 n) s') :
    wp (fetch8 env) Q T D s := by
  obtain ⟨x, hx, hxn, hk⟩ := u1_some hn
  refine wp_fetch8 ht (x := x) ?_ fun s' ht' => ?_
  · rw [hip, BitVec.toNat_ofNat, Nat.mod_eq_of_lt (by omega)]; exact hx
  · have : BitVec.ofNat 8 n = x := by rw [← hxn, BitVec.ofNat_toNat, BitVec.setWidth_eq]
    rw [this] at h
    refine h s' ?_
    rw [hip] at ht'
    rw [BitVec.ofNat_add]
    exact ht'

theorem wp_fetchU2 {Q : BitVec 16 → St → Prop} {k n : Nat} (ht : Top env mem1 v s)
    (hb : (env.meth v.m).code.body.length < 2 ^ 31)
    (hip : v.ip = BitVec.ofNat 32 k) (hn : u2 (env.meth v.m).code.body k = some n)
    (h : ∀ s', Top env mem1 { v with ip := BitVec.ofNat 32 (k + 2) } s' →
      Q (BitVec.ofNat 16 n) s') :
    wp (fetch16 env) Q T D s := by
  obtain ⟨x, y, hx, hy, rfl⟩ := u2_some hn
  unfold fetch16
  refine wp_bind (wp_fetchU1 ht hb hip hx fun s1 h1 => wp_bind
    (wp_fetchU1 h1 hb rfl hy fun s2 h2 => wp_pure ?_))
  have : (BitVec.ofNat 8 x).setWidth 16 <<< (8 : Nat) ||| (BitVec.ofNat 8 y).setWidth 16 =
      BitVec.ofNat 16 (x * 256 + y) := by
    have hx' := u1_lt hx
    have hy' := u1_lt hy
    apply BitVec.eq_of_toNat_eq
    rw [BitVec.toNat_or, BitVec.toNat_shiftLeft, BitVec.toNat_setWidth, BitVec.toNat_setWidth,
      BitVec.toNat_ofNat, BitVec.toNat_ofNat, BitVec.toNat_ofNat, Nat.mod_eq_of_lt (a := x) hx',
      Nat.mod_eq_of_lt (a := y) hy', Nat.mod_eq_of_lt (a := x) (by omega),
      Nat.mod_eq_of_lt (a := y) (by omega), Nat.shiftLeft_eq, Nat.mod_eq_of_lt (by omega),
      Nat.mod_eq_of_lt (by omega), Nat.mul_comm x]
    exact (Nat.two_pow_add_eq_or_of_lt (i := 8) hy' x).symm
  rw [this]
  exact h s2 h2

theorem wp_fetchU4 {Q : BitVec 32 → St → Prop} {k n : Nat} (ht : Top env mem1 v s)
    (hb : (env.meth v.m).code.body.length < 2 ^ 31)
    (hip : v.ip = BitVec.ofNat 32 k) (hn : u4 (env.meth v.m).code.body k = some n)
    (h : ∀ s', Top env mem1 { v with ip := BitVec.ofNat 32 (k + 4) } s' →
      Q (BitVec.ofNat 32 n) s') :
    wp (fetch32 env) Q T D s := by
  obtain ⟨ab, cd, hab, hcd, rfl⟩ := u4_some hn
  obtain ⟨a, b, ha, hb', rfl⟩ := u2_some hab
  obtain ⟨c, d, hc, hd, rfl⟩ := u2_some hcd
  have la := u1_lt ha
  have lb := u1_lt hb'
  have lc := u1_lt hc
  have ld := u1_lt hd
  unfold fetch32
  refine wp_bind (wp_fetchU1 ht hb hip ha fun s1 h1 => wp_bind
    (wp_fetchU1 h1 hb rfl hb' fun s2 h2 => wp_bind
    (wp_fetchU1 h2 hb rfl hc fun s3 h3 => wp_bind
    (wp_fetchU1 h3 hb rfl hd fun s4 h4 => wp_pure ?_))))
  have : (BitVec.ofNat 8 a).setWidth 32 <<< (24 : Nat) ||| (BitVec.ofNat 8 b).setWidth 32 <<< (16 : Nat)
      ||| (BitVec.ofNat 8 c).setWidth 32 <<< (8 : Nat) ||| (BitVec.ofNat 8 d).setWidth 32 =
      BitVec.ofNat 32 ((a * 256 + b) * 65536 + (c * 256 + d)) := by
    apply BitVec.eq_of_toNat_eq
    simp only [BitVec.toNat_or, BitVec.toNat_shiftLeft, BitVec.toNat_setWidth, BitVec.toNat_ofNat,
      Nat.shiftLeft_eq]
    rw [Nat.mod_eq_of_lt (a := a % 2 ^ 8) (by omega), Nat.mod_eq_of_lt (a := b % 2 ^ 8) (by omega),
      Nat.mod_eq_of_lt (a := c % 2 ^ 8) (by omega), Nat.mod_eq_of_lt (a := d % 2 ^ 8) (by omega),
      Nat.mod_eq_of_lt (a := a) la, Nat.mod_eq_of_lt (a := b) lb,
      Nat.mod_eq_of_lt (a := c) lc, Nat.mod_eq_of_lt (a := d) ld,
      Nat.mod_eq_of_lt (a := a * 2 ^ 24) (by omega), Nat.mod_eq_of_lt (a := b * 2 ^ 16) (by omega),
      Nat.mod_eq_of_lt (a := c * 2 ^ 8) (by omega), Nat.mod_eq_of_lt (by omega)]
    rw [show a * 2 ^ 24 = 2 ^ 24 * a by omega,
      ← Nat.two_pow_add_eq_or_of_lt (i := 24) (b := b * 2 ^ 16) (by omega) a,
      show 2 ^ 24 * a + b * 2 ^ 16 = 2 ^ 16 * (a * 256 + b) by omega,
      ← Nat.two_pow_add_eq_or_of_lt (i := 16) (b := c * 2 ^ 8) (by omega),
      show 2 ^ 16 * (a * 256 + b) + c * 2 ^ 8 = 2 ^ 8 * ((a * 256 + b) * 256 + c) by omega,
      ← Nat.two_pow_add_eq_or_of_lt (i := 8) (b := d) (by omega)]
    omega
  rw [this]
  exact h s4 h4

end

/-! ### Simulation of one instruction -/

/-- What is known of the current frame when an instruction starts; `mem1` is the slot array at that
time. -/
structure Inv (env : Env) (pl : Place) (mem1 : Nat → Slot) (f : Frame) (rest : List Frame)
    (b : Nat) (nx : BitVec 32) : Prop where
  good : Good env f
  body : (env.meth f.m).code.body.length < 2 ^ 31
  chain : Chain env pl mem1 b nx.toInt (b + f.locals.length) rest
  low : ∀ i, i < pl.b0 → mem1 i = pl.mem0 i

/-- The stack area cannot hold a further frame of method `m`. -/
def Exhausted (env : Env) (pl : Place) (frames : List Frame) : Prop :=
  ∃ m, env.size < pl.b0 + slotsUsed frames + (env.meth m).paramFootprint +
    (env.meth m).code.maxLocals + 4 + (env.meth m).code.maxStack

/-- The instruction has jumped to `throw_` with an exception of the specification pending, or with a
stack overflow because the area is exhausted. -/
def Thr (env : Env) (pl : Place) (mem1 : Nat → Slot) (f : Frame) (rest : List Frame) (b : Nat)
    (nx : BitVec 32) (heap : Heap) (log : List Ev) (len : Nat) (inv : Bool) (out : SOut)
    (s : St) : Prop :=
  ∃ st ip exc heap' x,
    Top env mem1 ⟨b, f.m, nx, f.locals, st, ip, exc, heap', log⟩ s ∧
    f.pc < ip.toNat ∧ ip.toNat ≤ f.pc + len ∧ heap' exc = some x ∧
    (raise env exc x.cls heap' log (f :: rest) = some out ∨
      (inv = true ∧ Exhausted env pl (f :: rest) ∧ x.cls = env.exClass .stackOverflow ∧
        (heap', exc) = env.newThrowable heap .stackOverflow))

/-- The interpreter's action `x` does what the specification result `R` says. -/
def InstrSim (env : Env) (pl : Place) (mem1 : Nat → Slot) (f : Frame) (rest : List Frame) (b : Nat)
    (nx : BitVec 32) (heap : Heap) (log : List Ev) (len : Nat) (inv : Bool) (R : Option SOut)
    (x : M Unit) (s : St) : Prop :=
  ∀ out, R = some out → wp x (fun _ s' => Cont env pl out s')
    (Thr env pl mem1 f rest b nx heap log len inv out) (Don env pl out) s

section
variable {env : Env} {pl : Place} {mem1 : Nat → Slot} {f : Frame} {rest : List Frame} {b : Nat}
  {nx : BitVec 32} {heap : Heap} {log : List Ev} {len : Nat} {iv : Bool} {s : St}

theorem ofInt_natCast (k : Nat) : BitVec.ofInt 32 (k : Int) = BitVec.ofNat 32 k := by
  apply BitVec.eq_of_toNat_eq
  rw [BitVec.toNat_ofInt, BitVec.toNat_ofNat]
  rfl

theorem cont_of {heap' : Heap} {log' : List Ev} {pc' : Int} {locals' st' : List Slot} {out : SOut}
    {ip : BitVec 32} {s' : St} (inv : Inv env pl mem1 f rest b nx)
    (h : continueAt env f rest heap' log' pc' locals' st' = some out)
    (hl : locals'.length = f.locals.length)
    (ht : Top env mem1 ⟨b, f.m, nx, locals', st', ip, 0#64, heap', log'⟩ s')
    (hip : ip = BitVec.ofInt 32 pc') : Cont env pl out s' := by
  unfold continueAt at h
  split at h
  · rename_i hc
    cases h
    have hb := inv.body
    obtain ⟨_, _, hb0, _⟩ := inv.chain.bounds (by omega)
    refine ⟨_, rfl, b, nx, ?_, ⟨hl.trans inv.good.locals, inv.good.native, inv.good.lock⟩, ?_, ?_, ?_⟩
    · have : ip = BitVec.ofNat 32 pc'.toNat := by
        rw [hip, ← ofInt_natCast, Int.toNat_of_nonneg hc.2.1]
      rw [← this]
      exact ht.self
    · simp only; omega
    · simp only [hl]
      exact inv.chain.congr ht.below
    · intro i hi
      rw [ht.below i (by simp only; omega)]
      exact inv.low i hi
  · exact absurd h nofun

/-- Continuing behind the instruction. -/
theorem cont_next {heap' : Heap} {log' : List Ev} {locals' st' : List Slot} {out : SOut}
    {k : Nat} {s' : St} (inv : Inv env pl mem1 f rest b nx)
    (h : continueAt env f rest heap' log' ((f.pc : Int) + (len : Int)) locals' st' = some out)
    (hl : locals'.length = f.locals.length)
    (ht : Top env mem1 ⟨b, f.m, nx, locals', st', BitVec.ofNat 32 k, 0#64, heap', log'⟩ s')
    (hk : k = f.pc + len) : Cont env pl out s' := by
  refine cont_of inv h hl ht ?_
  rw [hk, ← ofInt_natCast]
  rfl

/-- The stack of a state to continue in fits. -/
theorem continueAt_fits {heap' : Heap} {log' : List Ev} {pc' : Int} {locals' st' : List Slot}
    {out : SOut} (h : continueAt env f rest heap' log' pc' locals' st' = some out) :
    st'.length ≤ (env.meth f.m).code.maxStack := by
  unfold continueAt at h
  split at h
  · rename_i hc; exact hc.1
  · exact absurd h nofun

theorem thr_of {k : ExKind} {out : SOut} {st : List Slot} {ip : BitVec 32} {s' : St}
    (h : raiseNew env k ⟨f :: rest, heap, log⟩ = some out)
    (ht : Top env mem1 ⟨b, f.m, nx, f.locals, st, ip, (env.newThrowable heap k).2,
      (env.newThrowable heap k).1, log⟩ s')
    (h1 : f.pc < ip.toNat) (h2 : ip.toNat ≤ f.pc + len) :
    Thr env pl mem1 f rest b nx heap log len iv out s' := by
  refine ⟨st, ip, _, _, ⟨env.exClass k, none, zeroBytes⟩, ht, h1, h2, ?_, Or.inl h⟩
  simp [Env.newThrowable, Env.alloc, Heap.set]

theorem ip_toNat {k : Nat} (h : k < 2 ^ 32) : (BitVec.ofNat 32 k).toNat = k := by
  rw [BitVec.toNat_ofNat, Nat.mod_eq_of_lt h]

/-- Operand stack instructions. -/
theorem exec_op (o : SOp) : exec env f rest heap log len (.op o) =
    match o.eval env.fp f.stack with
    | some (.ok st') => continueAt env f rest heap log (f.pc + len) f.locals st'
    | some (.error k) => raiseNew env k ⟨f :: rest, heap, log⟩
    | none => none := rfl

/-- Operand stack instructions. -/
theorem sim_op {o : SOp} {k : Nat} (inv : Inv env pl mem1 f rest b nx)
    (ht : Top env mem1 ⟨b, f.m, nx, f.locals, f.stack, BitVec.ofNat 32 k, 0#64, heap, log⟩ s)
    (hk : k = f.pc + len) (hlen : 0 < len) (hkb : k ≤ (env.meth f.m).code.body.length)
    (hd : ¬ o.departs f.stack) :
    InstrSim env pl mem1 f rest b nx heap log len iv
      (exec env f rest heap log len (.op o)) (opBody env o) s := by
  intro out h
  have hb := inv.body
  rw [exec_op] at h
  cases he : o.eval env.fp f.stack with
  | none => rw [he] at h; exact absurd h nofun
  | some r =>
    rw [he] at h
    cases r with
    | ok st' =>
      simp only at h
      have hp : OpPost env mem1 _ (.ok st') (opBody env o) s :=
        op_post o ht rfl he hd fun st e => by cases e; exact continueAt_fits h
      unfold OpPost at hp
      refine wp_conseq hp ?_ ?_ ?_
      · rintro _ s' ⟨st2, e, ht'⟩
        cases e
        exact cont_next inv h rfl ht' hk
      · rintro s' ⟨_, _, e, _⟩; exact absurd e nofun
      · intro _ _ hf; exact hf.elim
    | error kd =>
      simp only at h
      have hp : OpPost env mem1 _ (.error kd) (opBody env o) s :=
        op_post o ht rfl he hd fun st e => absurd e nofun
      unfold OpPost at hp
      refine wp_conseq hp ?_ ?_ ?_
      · rintro _ s' ⟨st2, e, ht'⟩; exact absurd e nofun
      · rintro s' ⟨kd', st', e, ht'⟩
        cases e
        exact thr_of h ht' (by rw [ip_toNat (by omega)]; omega) (by rw [ip_toNat (by omega)]; omega)
      · intro _ _ hf; exact hf.elim

end
end Avian.Interp
