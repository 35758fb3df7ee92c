import Verif.Interp.SimObj
import Verif.Interp.SimSwitch
import Verif.Interp.SimCall
/-
The interpreter's dispatch agrees with the decoder of the specification; one turn of the loop
simulates one step.
-/
namespace Avian.Interp

open Spec

theorem bind_pure_unit (x : M Unit) : (x >>= fun _ => pure ()) = x := by
  funext s
  show M.bind x (fun _ => pure ()) s = x s
  unfold M.bind
  cases x s <;> rfl

/-- The bodies of the instructions without operands. -/
def simpleBody (env : Env) (base : Int) : Instr → M Unit
  | .op o => opBody env o
  | .load k n => loadBody env k n
  | .store k n => storeBody env k n
  | .aload k => xaloadBody env (AElem.of k)
  | .astore k => xastoreBody env (AElem.of k)
  | .return k => returnBody env base k
  | .arraylength => arraylengthBody env
  | .athrow => athrowBody env
  | .monitorenter => monitorBody env .acquire
  | .monitorexit => monitorBody env .release
  | _ => fail

theorem push1 (env : Env) (x : Slot) : opBody env (.const [x]) = pushSlot env x :=
  bind_pure_unit _

theorem push2 (env : Env) (x y : Slot) :
    opBody env (.const [x, y]) = (do pushSlot env y; pushSlot env x) := by
  show (pushSlot env y >>= fun _ => (pushSlot env x >>= fun _ => pure ())) = _
  rw [bind_pure_unit]

theorem simple_dispatch {env : Env} {base : Int} {n : Nat} {i : Instr} (h : simple n = some i) :
    dispatch env base n = simpleBody env base i := by
  unfold simple at h
  split at h
  all_goals first
    | (have h' := Option.some.inj h
       subst h'
       first
        | rfl
        | exact (push1 env _).symm
        | exact (push2 env _ _).symm)
    | exact absurd h (by simp)

/-- The instruction is an invoke. -/
def isInvoke : Instr → Bool
  | .invoke _ _ => true
  | _ => false

section
variable {env : Env} {pl : Place} {mem1 : Nat → Slot} {f : Frame} {rest : List Frame} {b : Nat}
  {nx : BitVec 32} {heap : Heap} {log : List Ev} {len : Nat} {iv : Bool} {s : St}

theorem sim_bipush {v : Int} (inv : Inv env pl mem1 f rest b nx)
    (ht : At env mem1 f b nx heap log (f.pc + 1) s) (hlen : len = 2)
    (hlb : f.pc + len ≤ (env.meth f.m).code.body.length)
    (hn : s1 (env.meth f.m).code.body (f.pc + 1) = some v) :
    InstrSim env pl mem1 f rest b nx heap log len iv
      (exec env f rest heap log len (kI v))
      (do pushInt env ((← fetch8 env).signExtend 32)) s := by
  intro out h
  obtain ⟨n, hu, rfl⟩ := map_some hn
  refine wp_bind (wp_fetchU1 ht inv.body rfl hu fun s1 h1 => ?_)
  rw [sext8 (u1_lt hu)]
  have := sim_op (iv := iv) (o := .const [.int (BitVec.ofInt 32 (signed 128 n))]) inv h1 (len := len)
    (by omega) (by omega) (by omega) id out h
  rw [push1] at this
  exact this

theorem sim_sipush {v : Int} (inv : Inv env pl mem1 f rest b nx)
    (ht : At env mem1 f b nx heap log (f.pc + 1) s) (hlen : len = 3)
    (hlb : f.pc + len ≤ (env.meth f.m).code.body.length)
    (hn : s2 (env.meth f.m).code.body (f.pc + 1) = some v) :
    InstrSim env pl mem1 f rest b nx heap log len iv
      (exec env f rest heap log len (kI v))
      (do pushInt env ((← fetch16 env).signExtend 32)) s := by
  intro out h
  obtain ⟨n, hu, rfl⟩ := map_some hn
  refine wp_bind (wp_fetchU2 ht inv.body rfl hu fun s1 h1 => ?_)
  rw [sext16 (u2_lt hu)]
  have := sim_op (iv := iv) (o := .const [.int (BitVec.ofInt 32 (signed 32768 n))]) inv h1
    (len := len) (by omega) (by omega) (by omega) id out h
  rw [push1] at this
  exact this

theorem sim_ldc8 {n : Nat} (inv : Inv env pl mem1 f rest b nx)
    (ht : At env mem1 f b nx heap log (f.pc + 1) s) (hlen : len = 2)
    (hn : u1 (env.meth f.m).code.body (f.pc + 1) = some n) :
    InstrSim env pl mem1 f rest b nx heap log len iv
      (exec env f rest heap log len (.ldc (BitVec.ofNat 16 n)))
      (do ldcBody env ((← fetch8 env).setWidth 16)) s := by
  intro out h
  refine wp_bind (wp_fetchU1 ht inv.body rfl hn fun s1 h1 => ?_)
  have e : (BitVec.ofNat 8 n).setWidth 16 = BitVec.ofNat 16 n := by
    apply BitVec.eq_of_toNat_eq
    have := u1_lt hn
    rw [BitVec.toNat_setWidth, BitVec.toNat_ofNat, BitVec.toNat_ofNat]
    omega
  rw [e]
  exact sim_ldc (iv := iv) inv h1 (by omega) out h

theorem sim_ldc16 {idx : BitVec 16} (inv : Inv env pl mem1 f rest b nx)
    (ht : At env mem1 f b nx heap log (f.pc + 1) s) (hlen : len = 3)
    (hn : cp (env.meth f.m).code.body (f.pc + 1) = some idx) :
    InstrSim env pl mem1 f rest b nx heap log len iv
      (exec env f rest heap log len (.ldc idx))
      (do ldcBody env (← fetch16 env)) s := by
  intro out h
  obtain ⟨n, hu, rfl⟩ := cp_some hn
  refine wp_bind (wp_fetchU2 ht inv.body rfl hu fun s1 h1 => ?_)
  exact sim_ldc (iv := iv) inv h1 (by omega) out h

/-- The second half of `wideBody`. -/
def wideRest (env : Env) : Nat → M Unit
  | 0x19 => withIndex16 env (aloadBody env)
  | 0x3a => withIndex16 env (wideAstoreBody env)
  | 0x84 => wideIincBody env
  | 0x15 => withIndex16 env (iloadBody env)
  | 0x36 => withIndex16 env (istoreBody env)
  | 0x16 => withIndex16 env (lloadBody env)
  | 0x37 => withIndex16 env (lstoreBody env)
  | 0xa9 => wideRetBody env
  | _ => fail

theorem sim_wide {R : Option SOut} {n : Nat} (inv : Inv env pl mem1 f rest b nx)
    (ht : At env mem1 f b nx heap log (f.pc + 1) s)
    (hn : u1 (env.meth f.m).code.body (f.pc + 1) = some n)
    (h : ∀ s', At env mem1 f b nx heap log (f.pc + 2) s' →
      InstrSim env pl mem1 f rest b nx heap log len iv R (wideRest env n) s') :
    InstrSim env pl mem1 f rest b nx heap log len iv R (wideBody env) s := by
  intro out hR
  refine wp_bind (wp_fetchU1 ht inv.body rfl hn fun s1 h1 => ?_)
  have : (BitVec.ofNat 8 n).toNat = n := by
    have := u1_lt hn
    rw [BitVec.toNat_ofNat]
    omega
  rw [this]
  exact h s1 h1 out hR

theorem cc_eq0 (a : BitVec 32) : (a == 0#32) = true ↔ Cond.eq.holds a.toInt 0 := by
  simp [Cond.holds, ← BitVec.toInt_inj]
theorem cc_ne0 (a : BitVec 32) : (a != 0#32) = true ↔ Cond.ne.holds a.toInt 0 := by
  simp [Cond.holds, ← BitVec.toInt_inj]
theorem cc_lt0 (a : BitVec 32) : a.slt 0#32 = true ↔ Cond.lt.holds a.toInt 0 := by
  simp [Cond.holds, BitVec.slt]
theorem cc_ge0 (a : BitVec 32) : (0#32).sle a = true ↔ Cond.ge.holds a.toInt 0 := by
  simp [Cond.holds, BitVec.sle]
theorem cc_gt0 (a : BitVec 32) : (0#32).slt a = true ↔ Cond.gt.holds a.toInt 0 := by
  simp [Cond.holds, BitVec.slt]
theorem cc_le0 (a : BitVec 32) : a.sle 0#32 = true ↔ Cond.le.holds a.toInt 0 := by
  simp [Cond.holds, BitVec.sle]
theorem cc_eq (a b : BitVec 32) : (a == b) = true ↔ Cond.eq.holds a.toInt b.toInt := by
  simp [Cond.holds, ← BitVec.toInt_inj]
theorem cc_ne (a b : BitVec 32) : (a != b) = true ↔ Cond.ne.holds a.toInt b.toInt := by
  simp [Cond.holds, ← BitVec.toInt_inj]
theorem cc_lt (a b : BitVec 32) : a.slt b = true ↔ Cond.lt.holds a.toInt b.toInt := by
  simp [Cond.holds, BitVec.slt]
theorem cc_ge (a b : BitVec 32) : b.sle a = true ↔ Cond.ge.holds a.toInt b.toInt := by
  simp [Cond.holds, BitVec.sle]
theorem cc_gt (a b : BitVec 32) : b.slt a = true ↔ Cond.gt.holds a.toInt b.toInt := by
  simp [Cond.holds, BitVec.slt]
theorem cc_le (a b : BitVec 32) : a.sle b = true ↔ Cond.le.holds a.toInt b.toInt := by
  simp [Cond.holds, BitVec.sle]

/-- What `ret` does with its index. -/
def retAt (env : Env) (n : Nat) : M Unit := do
  let v ← localInt env n
  modS fun s => { s with ip := v }

set_option maxHeartbeats 1000000 in
theorem sim_operands {i : Instr} {n : Nat} (inv : Inv env pl mem1 f rest b nx)
    (ht : At env mem1 f b nx heap log (f.pc + 1) s)
    (hdec : decode (env.meth f.m).code.body f.pc = some (i, len))
    (hn : u1 (env.meth f.m).code.body f.pc = some n)
    (hlb : f.pc + len ≤ (env.meth f.m).code.body.length)
    (hpcl : f.pc < (env.meth f.m).code.body.length) (hpc : f.pc < 2 ^ 31)
    (hwide : ¬ wideDeparts (env.meth f.m).code.body f.pc f.stack)
    (hgf : ∀ idx, i = .getfield idx → ∀ o st fd x, f.stack = .obj o :: st →
      env.resolveField f.m idx = some fd → heap o = some x → ¬ charDeparts fd x.bytes)
    (hgs : ∀ idx, i = .getstatic idx → ∀ fd x, env.resolveField f.m idx = some fd →
      heap fd.table = some x → ¬ charDeparts fd x.bytes)
    (h : withOperands (env.meth f.m).code.body f.pc n = some (i, len)) :
    InstrSim env pl mem1 f rest b nx heap log len (isInvoke i)
      (exec env f rest heap log len i) (dispatch env pl.base n) s := by
  unfold withOperands at h
  split at h
  · obtain ⟨x, hx, h⟩ := bind_some h
    cases h
    exact sim_bipush inv ht rfl hlb hx
  · obtain ⟨x, hx, h⟩ := bind_some h
    cases h
    exact sim_sipush inv ht rfl hlb hx
  · obtain ⟨x, hx, h⟩ := bind_some h
    cases h
    exact sim_ldc8 inv ht rfl hx
  · obtain ⟨x, hx, h⟩ := bind_some h
    cases h
    exact sim_ldc16 inv ht rfl hx
  · obtain ⟨x, hx, h⟩ := bind_some h
    cases h
    exact sim_ldc2 inv ht rfl hx
  · obtain ⟨x, hx, h⟩ := bind_some h
    cases h
    exact sim_index8 inv ht hx fun s' h' => sim_load (lk := .int) inv h' rfl
  · obtain ⟨x, hx, h⟩ := bind_some h
    cases h
    exact sim_index8 inv ht hx fun s' h' => sim_load (lk := .long) inv h' rfl
  · obtain ⟨x, hx, h⟩ := bind_some h
    cases h
    exact sim_index8 inv ht hx fun s' h' => sim_load (lk := .int) inv h' rfl
  · obtain ⟨x, hx, h⟩ := bind_some h
    cases h
    exact sim_index8 inv ht hx fun s' h' => sim_load (lk := .long) inv h' rfl
  · obtain ⟨x, hx, h⟩ := bind_some h
    cases h
    exact sim_index8 inv ht hx fun s' h' => sim_load (lk := .ref) inv h' rfl
  · obtain ⟨x, hx, h⟩ := bind_some h
    cases h
    exact sim_index8 inv ht hx fun s' h' => sim_store (lk := .int) inv h' rfl
  · obtain ⟨x, hx, h⟩ := bind_some h
    cases h
    exact sim_index8 inv ht hx fun s' h' => sim_store (lk := .long) inv h' rfl
  · obtain ⟨x, hx, h⟩ := bind_some h
    cases h
    exact sim_index8 inv ht hx fun s' h' => sim_store (lk := .int) inv h' rfl
  · obtain ⟨x, hx, h⟩ := bind_some h
    cases h
    exact sim_index8 inv ht hx fun s' h' => sim_store (lk := .long) inv h' rfl
  · obtain ⟨x, hx, h⟩ := bind_some h
    cases h
    exact sim_index8 inv ht hx fun s' h' => sim_store (lk := .ref) inv h' rfl
  · obtain ⟨x, hx, h⟩ := bind_some h
    obtain ⟨y, hy, h⟩ := bind_some h
    cases h
    exact sim_iinc inv ht rfl hx hy
  · obtain ⟨x, hx, h⟩ := bind_some h
    cases h
    exact sim_ifz inv ht rfl hx cc_eq0
  · obtain ⟨x, hx, h⟩ := bind_some h
    cases h
    exact sim_ifz inv ht rfl hx cc_ne0
  · obtain ⟨x, hx, h⟩ := bind_some h
    cases h
    exact sim_ifz inv ht rfl hx cc_lt0
  · obtain ⟨x, hx, h⟩ := bind_some h
    cases h
    exact sim_ifz inv ht rfl hx cc_ge0
  · obtain ⟨x, hx, h⟩ := bind_some h
    cases h
    exact sim_ifz inv ht rfl hx cc_gt0
  · obtain ⟨x, hx, h⟩ := bind_some h
    cases h
    exact sim_ifz inv ht rfl hx cc_le0
  · obtain ⟨x, hx, h⟩ := bind_some h
    cases h
    exact sim_ificmp inv ht rfl hx cc_eq
  · obtain ⟨x, hx, h⟩ := bind_some h
    cases h
    exact sim_ificmp inv ht rfl hx cc_ne
  · obtain ⟨x, hx, h⟩ := bind_some h
    cases h
    exact sim_ificmp inv ht rfl hx cc_lt
  · obtain ⟨x, hx, h⟩ := bind_some h
    cases h
    exact sim_ificmp inv ht rfl hx cc_ge
  · obtain ⟨x, hx, h⟩ := bind_some h
    cases h
    exact sim_ificmp inv ht rfl hx cc_gt
  · obtain ⟨x, hx, h⟩ := bind_some h
    cases h
    exact sim_ificmp inv ht rfl hx cc_le
  · obtain ⟨x, hx, h⟩ := bind_some h
    cases h
    exact sim_ifacmp inv ht rfl hx (fun a b => by simp)
  · obtain ⟨x, hx, h⟩ := bind_some h
    cases h
    exact sim_ifacmp inv ht rfl hx (fun a b => by simp)
  · obtain ⟨x, hx, h⟩ := bind_some h
    cases h
    exact sim_goto inv ht rfl hx
  · obtain ⟨x, hx, h⟩ := bind_some h
    cases h
    exact sim_jsr inv ht rfl hx
  · obtain ⟨x, hx, h⟩ := bind_some h
    cases h
    exact sim_index8 (g := retAt env) inv ht hx fun s' h' => sim_ret inv h'
  · simp only at h
    obtain ⟨d, hd, h⟩ := bind_some h
    obtain ⟨lo, hlo, h⟩ := bind_some h
    obtain ⟨hi, hhi, h⟩ := bind_some h
    split at h
    · obtain ⟨ts, hts, h⟩ := bind_some h
      cases h
      exact sim_tableswitch inv ht hpcl hd hlo hhi hts
    · exact absurd h (by simp)
  · simp only at h
    obtain ⟨d, hd, h⟩ := bind_some h
    obtain ⟨n, hn, h⟩ := bind_some h
    split at h
    · rename_i hn0
      obtain ⟨ps, hps, h⟩ := bind_some h
      split at h
      · rename_i hs
        cases h
        exact sim_lookupswitch inv ht hpcl hd hn hn0 hps hs
      · exact absurd h (by simp)
    · exact absurd h (by simp)
  · obtain ⟨x, hx, h⟩ := bind_some h
    cases h
    exact sim_getstatic inv ht rfl hx fun fd y e1 e2 => hgs _ rfl fd y e1 e2
  · obtain ⟨x, hx, h⟩ := bind_some h
    cases h
    exact sim_putstatic inv ht rfl hx
  · obtain ⟨x, hx, h⟩ := bind_some h
    cases h
    exact sim_getfield inv ht rfl hlb hx fun o st fd y e0 e1 e2 => hgf _ rfl o st fd y e0 e1 e2
  · obtain ⟨x, hx, h⟩ := bind_some h
    cases h
    exact sim_putfield inv ht rfl hlb hx
  · obtain ⟨x, hx, h⟩ := bind_some h
    cases h
    exact sim_invoke (k := .virtual) (skip := 0) (target := fun _ m c => env.findVirtual m c) inv ht rfl (by omega)
      hpc hdec hx nofun nofun fun _ _ _ => rfl
  · obtain ⟨x, hx, h⟩ := bind_some h
    cases h
    exact sim_invoke (k := .special) (skip := 0) (target := fun caller m _ => env.specialTarget caller m) inv ht rfl (by omega)
      hpc hdec hx nofun nofun fun _ _ _ => rfl
  · obtain ⟨x, hx, h⟩ := bind_some h
    cases h
    exact sim_invokestatic inv ht rfl hpc hdec hx
  · obtain ⟨x, hx, h⟩ := bind_some h
    cases h
    exact sim_invoke (k := .interface) (skip := 2) (target := fun _ m c => env.findInterface m c) inv ht rfl (by omega)
      hpc hdec hx nofun nofun fun _ _ _ => rfl
  · obtain ⟨x, hx, h⟩ := bind_some h
    cases h
    exact sim_invokedynamic inv ht rfl hpc hdec hx
  · obtain ⟨x, hx, h⟩ := bind_some h
    cases h
    exact sim_new inv ht rfl hx
  · obtain ⟨x, hx, h⟩ := bind_some h
    cases h
    exact sim_newarray inv ht rfl hlb hx
  · obtain ⟨x, hx, h⟩ := bind_some h
    cases h
    exact sim_anewarray inv ht rfl hlb hx
  · obtain ⟨x, hx, h⟩ := bind_some h
    cases h
    exact sim_checkcast inv ht rfl hlb hx
  · obtain ⟨x, hx, h⟩ := bind_some h
    cases h
    exact sim_instanceof inv ht rfl hx
  · obtain ⟨op, hop, h⟩ := bind_some h
    refine sim_wide inv ht hop fun s' ht => ?_
    have hu1 : u1 (env.meth f.m).code.body (f.pc + 1) = some op := hop
    have hwd := fun hq => hwide ⟨hn, hq⟩
    have hlt : op ≠ 132 → ∀ n, u2 (env.meth f.m).code.body (f.pc + 2) = some n → n < 32768 := by
      intro ho n hu
      refine Nat.lt_of_not_le fun hle => hwd (Or.inr (Or.inl ⟨⟨n, hu, hle⟩, ?_⟩))
      rw [hu1]
      exact fun e => ho (Option.some.inj e)
    split at h
    · obtain ⟨x, hx, h⟩ := bind_some h
      cases h
      exact sim_index16 inv ht hx (hlt (by decide) _ hx) fun s' h' => sim_load (lk := .int) inv h' rfl
    · obtain ⟨x, hx, h⟩ := bind_some h
      cases h
      exact sim_index16 inv ht hx (hlt (by decide) _ hx) fun s' h' => sim_load (lk := .long) inv h' rfl
    · exact absurd (Or.inl (by rw [hu1]; decide)) hwd
    · exact absurd (Or.inl (by rw [hu1]; decide)) hwd
    · obtain ⟨x, hx, h⟩ := bind_some h
      cases h
      exact sim_index16 inv ht hx (hlt (by decide) _ hx) fun s' h' => sim_load (lk := .ref) inv h' rfl
    · obtain ⟨x, hx, h⟩ := bind_some h
      cases h
      exact sim_index16 inv ht hx (hlt (by decide) _ hx) fun s' h' => sim_store (lk := .int) inv h' rfl
    · obtain ⟨x, hx, h⟩ := bind_some h
      cases h
      exact sim_index16 inv ht hx (hlt (by decide) _ hx) fun s' h' => sim_store (lk := .long) inv h' rfl
    · exact absurd (Or.inl (by rw [hu1]; decide)) hwd
    · exact absurd (Or.inl (by rw [hu1]; decide)) hwd
    · obtain ⟨x, hx, h⟩ := bind_some h
      cases h
      exact sim_index16 inv ht hx (hlt (by decide) _ hx) fun s' h' => sim_wideAstore inv h' rfl
        fun ⟨v, st, e⟩ => hwd (Or.inr (Or.inr ⟨hu1, v, st, e⟩))
    · obtain ⟨x, hx, h⟩ := bind_some h
      obtain ⟨y, hy, h⟩ := bind_some h
      cases h
      exact sim_wideIinc inv ht rfl hx hy
    · obtain ⟨x, hx, h⟩ := bind_some h
      cases h
      exact sim_index16 (g := retAt env) inv ht hx (hlt (by decide) _ hx) fun s' h' => sim_ret inv h'
    · exact absurd h (by simp)
  · obtain ⟨x, hx, h⟩ := bind_some h
    cases h
    exact sim_ifnull inv ht rfl hx (fun a => by simp)
  · obtain ⟨x, hx, h⟩ := bind_some h
    cases h
    exact sim_ifnull inv ht rfl hx (fun a => by simp)
  · obtain ⟨x, hx, h⟩ := bind_some h
    cases h
    exact sim_gotoW inv ht rfl hx
  · obtain ⟨x, hx, h⟩ := bind_some h
    cases h
    exact sim_jsrW inv ht rfl hx
  · exact absurd h (by simp)

end
end Avian.Interp
