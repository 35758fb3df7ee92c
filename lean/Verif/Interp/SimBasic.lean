import Verif.Interp.Sim
/-
Simulation of the instructions on local variables, constants, branches, arrays and objects.
-/
namespace Avian.Interp

open Spec

section
variable {env : Env} {pl : Place} {mem1 : Nat → Slot} {f : Frame} {rest : List Frame} {b : Nat}
  {nx : BitVec 32} {heap : Heap} {log : List Ev} {len : Nat} {iv : Bool} {s : St}

/-- The current frame with the position at `k`. -/
abbrev At (env : Env) (mem1 : Nat → Slot) (f : Frame) (b : Nat) (nx : BitVec 32) (heap : Heap)
    (log : List Ev) (k : Nat) (s : St) : Prop :=
  Top env mem1 ⟨b, f.m, nx, f.locals, f.stack, BitVec.ofNat 32 k, 0#64, heap, log⟩ s

/-! ### Operands -/

theorem sim_index8 {R : Option SOut} {g : Nat → M Unit} {n : Nat} (inv : Inv env pl mem1 f rest b nx)
    (ht : At env mem1 f b nx heap log (f.pc + 1) s)
    (hn : u1 (env.meth f.m).code.body (f.pc + 1) = some n)
    (h : ∀ s', At env mem1 f b nx heap log (f.pc + 2) s' →
      InstrSim env pl mem1 f rest b nx heap log len iv R (g n) s') :
    InstrSim env pl mem1 f rest b nx heap log len iv R (withIndex8 env g) s := by
  intro out ho
  unfold withIndex8
  refine wp_bind (wp_fetchU1 ht inv.body rfl hn fun s1 h1 => ?_)
  rw [BitVec.toNat_ofNat, Nat.mod_eq_of_lt (u1_lt hn)]
  exact h s1 h1 out ho

theorem sim_index16 {R : Option SOut} {g : Nat → M Unit} {n k : Nat}
    (inv : Inv env pl mem1 f rest b nx)
    (ht : At env mem1 f b nx heap log k s)
    (hn : u2 (env.meth f.m).code.body k = some n) (hlt : n < 32768)
    (h : ∀ s', At env mem1 f b nx heap log (k + 2) s' →
      InstrSim env pl mem1 f rest b nx heap log len iv R (g n) s') :
    InstrSim env pl mem1 f rest b nx heap log len iv R (withIndex16 env g) s := by
  intro out ho
  unfold withIndex16
  refine wp_bind (wp_fetchU2 ht inv.body rfl hn fun s1 h1 => ?_)
  have : ((BitVec.ofNat 16 n).signExtend 32).toNat = n := by
    rw [sext16 (by omega), signed, if_pos hlt, ofInt_natCast, ip_toNat (by omega)]
  rw [this]
  exact h s1 h1 out ho

/-! ### Local variables -/

/-- The interpreter's code for loads. -/
def loadBody (env : Env) : LKind → Nat → M Unit
  | .int => iloadBody env
  | .long => lloadBody env
  | .ref => aloadBody env

theorem exec_load_int (n : Nat) : exec env f rest heap log len (.load .int n) =
    match f.locals[n]? with
    | some (.int v) => continueAt env f rest heap log (f.pc + len) f.locals (.int v :: f.stack)
    | _ => none := rfl

theorem exec_load_ref (n : Nat) : exec env f rest heap log len (.load .ref n) =
    match f.locals[n]? with
    | some (.obj v) => continueAt env f rest heap log (f.pc + len) f.locals (.obj v :: f.stack)
    | _ => none := rfl

theorem exec_load_long (n : Nat) : exec env f rest heap log len (.load .long n) =
    match f.locals[n]?, f.locals[n + 1]? with
    | some (.int hi), some (.int lo) =>
      continueAt env f rest heap log (f.pc + len) f.locals (.int lo :: .int hi :: f.stack)
    | _, _ => none := rfl

theorem sim_load {lk : LKind} {n k : Nat} (inv : Inv env pl mem1 f rest b nx)
    (ht : At env mem1 f b nx heap log k s) (hk : k = f.pc + len) :
    InstrSim env pl mem1 f rest b nx heap log len iv
      (exec env f rest heap log len (.load lk n)) (loadBody env lk n) s := by
  intro out h
  cases lk with
  | int =>
    rw [exec_load_int] at h
    split at h
    · rename_i v hv
      have hf := continueAt_fits h
      simp only [List.length_cons] at hf
      exact wp_bind (wp_localInt ht hv (wp_pushInt ht (by simp only; omega) fun s' ht' =>
        cont_next inv h rfl ht' hk))
    · exact absurd h nofun
  | ref =>
    rw [exec_load_ref] at h
    split at h
    · rename_i v hv
      have hf := continueAt_fits h
      simp only [List.length_cons] at hf
      exact wp_bind (wp_localObject ht hv (wp_pushObject ht (by simp only; omega) fun s' ht' =>
        cont_next inv h rfl ht' hk))
    · exact absurd h nofun
  | long =>
    rw [exec_load_long] at h
    split at h
    · rename_i hi lo h1 h2
      have hf := continueAt_fits h
      simp only [List.length_cons] at hf
      refine wp_bind (wp_localLong ht h1 h2 (wp_pushLong ht (by simp only; omega) fun s' ht' =>
        cont_next inv h rfl ?_ hk))
      rw [BitVec.extractLsb'_append_eq_left, BitVec.extractLsb'_append_eq_right] at ht'
      exact ht'
    · exact absurd h nofun

/-- The interpreter's code for stores. -/
def storeBody (env : Env) : LKind → Nat → M Unit
  | .int => istoreBody env
  | .long => lstoreBody env
  | .ref => store env

theorem exec_store_int {n : Nat} {out : SOut}
    (h : exec env f rest heap log len (.store .int n) = some out) :
    ∃ v st, f.stack = .int v :: st ∧ n < f.locals.length ∧
      continueAt env f rest heap log (f.pc + len) (f.locals.set n (.int v)) st = some out := by
  obtain ⟨m, pc, locals, stack, lock⟩ := f
  match stack, h with
  | [], h => exact absurd h nofun
  | .obj _ :: _, h => exact absurd h nofun
  | .int v :: st, h =>
    refine ⟨v, st, rfl, ?_⟩
    replace h : (if n < locals.length then _ else _) = some out := h
    split at h
    · exact ⟨‹_›, h⟩
    · exact absurd h nofun

theorem exec_store_ref {n : Nat} {out : SOut}
    (h : exec env f rest heap log len (.store .ref n) = some out) :
    ∃ x st, f.stack = x :: st ∧ n < f.locals.length ∧
      continueAt env f rest heap log (f.pc + len) (f.locals.set n x) st = some out := by
  obtain ⟨m, pc, locals, stack, lock⟩ := f
  match stack, h with
  | [], h => exact absurd h nofun
  | x :: st, h =>
    refine ⟨x, st, rfl, ?_⟩
    replace h : (if n < locals.length then
        continueAt env ⟨m, pc, locals, x :: st, lock⟩ rest heap log (pc + len) (locals.set n x) st
        else none) = some out := by cases x <;> exact h
    split at h
    · exact ⟨‹_›, h⟩
    · exact absurd h nofun

theorem exec_store_long {n : Nat} {out : SOut}
    (h : exec env f rest heap log len (.store .long n) = some out) :
    ∃ lo hi st, f.stack = .int lo :: .int hi :: st ∧ n + 1 < f.locals.length ∧
      continueAt env f rest heap log (f.pc + len)
        ((f.locals.set n (.int hi)).set (n + 1) (.int lo)) st = some out := by
  obtain ⟨m, pc, locals, stack, lock⟩ := f
  match stack, h with
  | [], h => exact absurd h nofun
  | [.int _], h => exact absurd h nofun
  | .obj _ :: _, h => exact absurd h nofun
  | .int _ :: .obj _ :: _, h => exact absurd h nofun
  | .int lo :: .int hi :: st, h =>
    refine ⟨lo, hi, st, rfl, ?_⟩
    replace h : (if n + 1 < locals.length then _ else _) = some out := h
    split at h
    · exact ⟨‹_›, h⟩
    · exact absurd h nofun

theorem sim_store {lk : LKind} {n k : Nat} (inv : Inv env pl mem1 f rest b nx)
    (ht : At env mem1 f b nx heap log k s) (hk : k = f.pc + len) :
    InstrSim env pl mem1 f rest b nx heap log len iv
      (exec env f rest heap log len (.store lk n)) (storeBody env lk n) s := by
  intro out h
  cases lk with
  | int =>
    obtain ⟨v, st, hst, hn, h⟩ := exec_store_int h
    exact wp_bind (wp_popInt ht hst fun s1 h1 => wp_setLocalInt h1 hn fun s2 h2 =>
      cont_next inv h (by simp only [List.length_set]) h2 hk)
  | ref =>
    obtain ⟨v, st, hst, hn, h⟩ := exec_store_ref h
    exact wp_store ht hst hn fun s2 h2 => cont_next inv h (by simp only [List.length_set]) h2 hk
  | long =>
    obtain ⟨lo, hi, st, hst, hn, h⟩ := exec_store_long h
    exact wp_bind (wp_popLong ht hst fun s1 h1 => wp_setLocalLong h1 hn fun s2 h2 =>
      cont_next inv h (by simp only [List.length_set]) h2 hk)

theorem sim_wideAstore {n k : Nat} (inv : Inv env pl mem1 f rest b nx)
    (ht : At env mem1 f b nx heap log k s) (hk : k = f.pc + len)
    (hd : ¬ ∃ v st, f.stack = .int v :: st) :
    InstrSim env pl mem1 f rest b nx heap log len iv
      (exec env f rest heap log len (.store .ref n)) (wideAstoreBody env n) s := by
  intro out h
  obtain ⟨x, st, hst, hn, h⟩ := exec_store_ref h
  cases x with
  | int v => exact absurd ⟨v, st, hst⟩ hd
  | obj o =>
    exact wp_bind (wp_popObject ht hst fun s1 h1 => wp_setLocalObject h1 hn fun s2 h2 =>
      cont_next inv h (by simp only [List.length_set]) h2 hk)

theorem exec_iinc (n : Nat) (c : Int) : exec env f rest heap log len (.iinc n c) =
    match f.locals[n]? with
    | some (.int v) =>
      continueAt env f rest heap log (f.pc + len) (f.locals.set n (i32 (v.toInt + c))) f.stack
    | _ => none := rfl

theorem add_ofInt (v : BitVec 32) (c : Int) :
    v + BitVec.ofInt 32 c = BitVec.ofInt 32 (v.toInt + c) := by
  rw [BitVec.ofInt_add, BitVec.ofInt_toInt]

/-- The common part of the two forms of `iinc`. -/
theorem wp_iincTail {n k : Nat} {c : Int} {cv : BitVec 32} {out : SOut}
    (inv : Inv env pl mem1 f rest b nx)
    (ht : At env mem1 f b nx heap log k s) (hk : k = f.pc + len) (hc : cv = BitVec.ofInt 32 c)
    (h : exec env f rest heap log len (.iinc n c) = some out) :
    wp (do let v ← localInt env n; setLocalInt env n (v + cv) : M Unit)
      (fun _ s' => Cont env pl out s')
      (Thr env pl mem1 f rest b nx heap log len iv out) (Don env pl out) s := by
  rw [exec_iinc] at h
  split at h
  · rename_i v hv
    have hn : n < f.locals.length := (List.getElem?_eq_some_iff.1 hv).1
    refine wp_bind (wp_localInt ht hv (wp_setLocalInt ht hn fun s2 h2 =>
      cont_next inv h (by simp only [List.length_set]) ?_ hk))
    rw [hc, add_ofInt] at h2
    exact h2
  · exact absurd h nofun

theorem sim_iinc {n : Nat} {c : Int} (inv : Inv env pl mem1 f rest b nx)
    (ht : At env mem1 f b nx heap log (f.pc + 1) s) (hlen : len = 3)
    (hn : u1 (env.meth f.m).code.body (f.pc + 1) = some n)
    (hc : s1 (env.meth f.m).code.body (f.pc + 2) = some c) :
    InstrSim env pl mem1 f rest b nx heap log len iv
      (exec env f rest heap log len (.iinc n c)) (iincBody env) s := by
  intro out h
  obtain ⟨cn, hcn, rfl⟩ := map_some hc
  unfold iincBody
  refine wp_bind (wp_fetchU1 ht inv.body rfl hn fun s1 h1 => wp_bind
    (wp_fetchU1 h1 inv.body rfl hcn fun s2 h2 => ?_))
  rw [BitVec.toNat_ofNat, Nat.mod_eq_of_lt (u1_lt hn)]
  exact wp_iincTail inv h2 (by omega) (sext8 (u1_lt hcn)) h

theorem sim_wideIinc {n : Nat} {c : Int} (inv : Inv env pl mem1 f rest b nx)
    (ht : At env mem1 f b nx heap log (f.pc + 2) s) (hlen : len = 6)
    (hn : u2 (env.meth f.m).code.body (f.pc + 2) = some n)
    (hc : s2 (env.meth f.m).code.body (f.pc + 4) = some c) :
    InstrSim env pl mem1 f rest b nx heap log len iv
      (exec env f rest heap log len (.iinc n c)) (wideIincBody env) s := by
  intro out h
  obtain ⟨cn, hcn, rfl⟩ := map_some hc
  unfold wideIincBody
  refine wp_bind (wp_fetchU2 ht inv.body rfl hn fun s1 h1 => wp_bind
    (wp_fetchU2 h1 inv.body rfl hcn fun s2 h2 => ?_))
  rw [BitVec.toNat_ofNat, Nat.mod_eq_of_lt (u2_lt hn)]
  exact wp_iincTail inv h2 (by omega) (sext16 (u2_lt hcn)) h

/-! ### Branches -/

theorem jump_ip (pc len : Nat) (off : Int) :
    BitVec.ofNat 32 (pc + len) - BitVec.ofNat 32 len + BitVec.ofInt 32 off =
      BitVec.ofInt 32 ((pc : Int) + off) := by
  rw [BitVec.ofInt_add, ofInt_natCast, BitVec.ofNat_add, BitVec.add_sub_cancel]

theorem wp_branchIf {v : View} {Q : Unit → St → Prop} {T : St → Prop} {D : List Slot → St → Prop}
    {c : Bool} {pc len : Nat} {off : Int} (ht : Top env mem1 v s)
    (hip : v.ip = BitVec.ofNat 32 (pc + len))
    (h1 : c = true → ∀ s', Top env mem1 { v with ip := BitVec.ofInt 32 ((pc : Int) + off) } s' →
      Q () s')
    (h2 : c = false → Q () s) :
    wp (branchIf (BitVec.ofNat 32 len) c (BitVec.ofInt 32 off)) Q T D s := by
  refine wp_modS ?_
  cases c with
  | false => exact h2 rfl
  | true =>
    refine h1 rfl _ ?_
    have := ht.withIp (BitVec.ofInt 32 ((pc : Int) + off))
    simp only [if_true]
    rw [ht.ip, hip, jump_ip]
    exact this

theorem exec_ifz {c : Cond} {off : Int} {out : SOut}
    (h : exec env f rest heap log len (.ifz c off) = some out) :
    ∃ a st, f.stack = .int a :: st ∧
      (if c.holds a.toInt 0 then continueAt env f rest heap log (f.pc + off) f.locals st
        else continueAt env f rest heap log (f.pc + len) f.locals st) = some out := by
  obtain ⟨m, pc, locals, stack, lock⟩ := f
  match stack, h with
  | [], h => exact absurd h nofun
  | .obj _ :: _, h => exact absurd h nofun
  | .int a :: st, h => exact ⟨a, st, rfl, h⟩

theorem exec_ificmp {c : Cond} {off : Int} {out : SOut}
    (h : exec env f rest heap log len (.ificmp c off) = some out) :
    ∃ a b st, f.stack = .int b :: .int a :: st ∧
      (if c.holds a.toInt b.toInt then continueAt env f rest heap log (f.pc + off) f.locals st
        else continueAt env f rest heap log (f.pc + len) f.locals st) = some out := by
  obtain ⟨m, pc, locals, stack, lock⟩ := f
  match stack, h with
  | [], h => exact absurd h nofun
  | [.int _], h => exact absurd h nofun
  | .obj _ :: _, h => exact absurd h nofun
  | .int _ :: .obj _ :: _, h => exact absurd h nofun
  | .int b :: .int a :: st, h => exact ⟨a, b, st, rfl, h⟩

theorem exec_ifacmp {e : Bool} {off : Int} {out : SOut}
    (h : exec env f rest heap log len (.ifacmp e off) = some out) :
    ∃ a b st, f.stack = .obj b :: .obj a :: st ∧
      (if (a = b) ↔ (e = true) then continueAt env f rest heap log (f.pc + off) f.locals st
        else continueAt env f rest heap log (f.pc + len) f.locals st) = some out := by
  obtain ⟨m, pc, locals, stack, lock⟩ := f
  match stack, h with
  | [], h => exact absurd h nofun
  | [.obj _], h => exact absurd h nofun
  | .int _ :: _, h => exact absurd h nofun
  | .obj _ :: .int _ :: _, h => exact absurd h nofun
  | .obj b :: .obj a :: st, h => exact ⟨a, b, st, rfl, h⟩

theorem exec_ifnull {e : Bool} {off : Int} {out : SOut}
    (h : exec env f rest heap log len (.ifnull e off) = some out) :
    ∃ a st, f.stack = .obj a :: st ∧
      (if (a = 0#64) ↔ (e = true) then continueAt env f rest heap log (f.pc + off) f.locals st
        else continueAt env f rest heap log (f.pc + len) f.locals st) = some out := by
  obtain ⟨m, pc, locals, stack, lock⟩ := f
  match stack, h with
  | [], h => exact absurd h nofun
  | .int _ :: _, h => exact absurd h nofun
  | .obj a :: st, h => exact ⟨a, st, rfl, h⟩

/-- A conditional branch, once the operands are off the stack. -/
theorem wp_branch {p : Prop} [Decidable p] {c : Bool} {off : Int} {st : List Slot} {out : SOut}
    {L : BitVec 32} (hL : L = BitVec.ofNat 32 len)
    (inv : Inv env pl mem1 f rest b nx) (hc : c = true ↔ p)
    (ht : Top env mem1 ⟨b, f.m, nx, f.locals, st, BitVec.ofNat 32 (f.pc + len), 0#64, heap, log⟩ s)
    (h : (if p then continueAt env f rest heap log (f.pc + off) f.locals st
        else continueAt env f rest heap log (f.pc + len) f.locals st) = some out) :
    wp (branchIf L c (BitVec.ofInt 32 off)) (fun _ s' => Cont env pl out s')
      (Thr env pl mem1 f rest b nx heap log len iv out) (Don env pl out) s := by
  subst hL
  refine wp_branchIf (pc := f.pc) ht rfl (fun e s' h' => ?_) (fun e => ?_)
  · rw [if_pos (hc.1 e)] at h
    exact cont_of inv h rfl h' rfl
  · rw [if_neg (fun hp => by rw [hc.2 hp] at e; exact absurd e nofun)] at h
    exact cont_next inv h rfl ht rfl

theorem sim_ifz {c : Cond} {cc : BitVec 32 → Bool} {off : Int} (inv : Inv env pl mem1 f rest b nx)
    (ht : At env mem1 f b nx heap log (f.pc + 1) s) (hlen : len = 3)
    (hn : s2 (env.meth f.m).code.body (f.pc + 1) = some off)
    (hc : ∀ a, cc a = true ↔ c.holds a.toInt 0) :
    InstrSim env pl mem1 f rest b nx heap log len iv
      (exec env f rest heap log len (.ifz c off)) (ifBody env cc) s := by
  intro out h
  subst hlen
  obtain ⟨n, hu, rfl⟩ := map_some hn
  obtain ⟨a, st, hst, h⟩ := exec_ifz h
  unfold ifBody
  refine wp_bind (wp_fetchU2 ht inv.body rfl hu fun s1 h1 => wp_bind
    (wp_popInt h1 hst fun s2 h2 => ?_))
  rw [sext16 (u2_lt hu)]
  exact wp_branch rfl inv (hc a) h2 h

theorem sim_ificmp {c : Cond} {cc : BitVec 32 → BitVec 32 → Bool} {off : Int}
    (inv : Inv env pl mem1 f rest b nx)
    (ht : At env mem1 f b nx heap log (f.pc + 1) s) (hlen : len = 3)
    (hn : s2 (env.meth f.m).code.body (f.pc + 1) = some off)
    (hc : ∀ a b, cc a b = true ↔ c.holds a.toInt b.toInt) :
    InstrSim env pl mem1 f rest b nx heap log len iv
      (exec env f rest heap log len (.ificmp c off)) (ificmpBody env cc) s := by
  intro out h
  subst hlen
  obtain ⟨n, hu, rfl⟩ := map_some hn
  obtain ⟨a, b, st, hst, h⟩ := exec_ificmp h
  unfold ificmpBody
  refine wp_bind (wp_fetchU2 ht inv.body rfl hu fun s1 h1 => wp_bind
    (wp_popInt h1 hst fun s2 h2 => wp_bind (wp_popInt h2 rfl fun s3 h3 => ?_)))
  rw [sext16 (u2_lt hu)]
  exact wp_branch rfl inv (hc a b) h3 h

theorem sim_ifacmp {e : Bool} {cc : Ref → Ref → Bool} {off : Int}
    (inv : Inv env pl mem1 f rest b nx)
    (ht : At env mem1 f b nx heap log (f.pc + 1) s) (hlen : len = 3)
    (hn : s2 (env.meth f.m).code.body (f.pc + 1) = some off)
    (hc : ∀ a b, cc a b = true ↔ ((a = b) ↔ (e = true))) :
    InstrSim env pl mem1 f rest b nx heap log len iv
      (exec env f rest heap log len (.ifacmp e off)) (ifacmpBody env cc) s := by
  intro out h
  subst hlen
  obtain ⟨n, hu, rfl⟩ := map_some hn
  obtain ⟨a, b, st, hst, h⟩ := exec_ifacmp h
  unfold ifacmpBody
  refine wp_bind (wp_fetchU2 ht inv.body rfl hu fun s1 h1 => wp_bind
    (wp_popObject h1 hst fun s2 h2 => wp_bind (wp_popObject h2 rfl fun s3 h3 => ?_)))
  rw [sext16 (u2_lt hu)]
  exact wp_branch rfl inv (hc a b) h3 h

theorem sim_ifnull {e : Bool} {cc : Ref → Bool} {off : Int}
    (inv : Inv env pl mem1 f rest b nx)
    (ht : At env mem1 f b nx heap log (f.pc + 1) s) (hlen : len = 3)
    (hn : s2 (env.meth f.m).code.body (f.pc + 1) = some off)
    (hc : ∀ a, cc a = true ↔ ((a = 0#64) ↔ (e = true))) :
    InstrSim env pl mem1 f rest b nx heap log len iv
      (exec env f rest heap log len (.ifnull e off)) (ifnullBody env cc) s := by
  intro out h
  subst hlen
  obtain ⟨n, hu, rfl⟩ := map_some hn
  obtain ⟨a, st, hst, h⟩ := exec_ifnull h
  unfold ifnullBody
  refine wp_bind (wp_fetchU2 ht inv.body rfl hu fun s1 h1 => wp_bind
    (wp_popObject h1 hst fun s2 h2 => ?_))
  rw [sext16 (u2_lt hu)]
  exact wp_branch rfl inv (hc a) h2 h

theorem exec_goto (off : Int) : exec env f rest heap log len (.goto off) =
    continueAt env f rest heap log (f.pc + off) f.locals f.stack := rfl

theorem exec_jsr (off : Int) : exec env f rest heap log len (.jsr off) =
    continueAt env f rest heap log (f.pc + off) f.locals (i32 (f.pc + len) :: f.stack) := rfl

theorem sim_goto {off : Int} (inv : Inv env pl mem1 f rest b nx)
    (ht : At env mem1 f b nx heap log (f.pc + 1) s) (hlen : len = 3)
    (hn : s2 (env.meth f.m).code.body (f.pc + 1) = some off) :
    InstrSim env pl mem1 f rest b nx heap log len iv
      (exec env f rest heap log len (.goto off)) (gotoBody env) s := by
  intro out h
  subst hlen
  obtain ⟨n, hu, rfl⟩ := map_some hn
  rw [exec_goto] at h
  unfold gotoBody
  refine wp_bind (wp_fetchU2 ht inv.body rfl hu fun s1 h1 => ?_)
  rw [sext16 (u2_lt hu)]
  exact wp_branch (p := True) rfl inv (by simp) h1 (by rw [if_pos trivial]; exact h)

theorem sim_gotoW {off : Int} (inv : Inv env pl mem1 f rest b nx)
    (ht : At env mem1 f b nx heap log (f.pc + 1) s) (hlen : len = 5)
    (hn : s4 (env.meth f.m).code.body (f.pc + 1) = some off) :
    InstrSim env pl mem1 f rest b nx heap log len iv
      (exec env f rest heap log len (.goto off)) (gotoWBody env) s := by
  intro out h
  subst hlen
  obtain ⟨n, hu, rfl⟩ := map_some hn
  rw [exec_goto] at h
  unfold gotoWBody
  refine wp_bind (wp_fetchU4 ht inv.body rfl hu fun s1 h1 => ?_)
  rw [sext32 (u4_lt hu)]
  exact wp_branch (p := True) rfl inv (by simp) h1 (by rw [if_pos trivial]; exact h)

/-- The common part of the two forms of `jsr`. -/
theorem wp_jsrTail {off : Int} {out : SOut} {L : BitVec 32} (hL : L = BitVec.ofNat 32 len)
    (inv : Inv env pl mem1 f rest b nx)
    (ht : At env mem1 f b nx heap log (f.pc + len) s)
    (h : exec env f rest heap log len (.jsr off) = some out) :
    wp (do let s ← getS; pushInt env s.ip; branchIf L true (BitVec.ofInt 32 off) : M Unit)
      (fun _ s' => Cont env pl out s')
      (Thr env pl mem1 f rest b nx heap log len iv out) (Don env pl out) s := by
  rw [exec_jsr] at h
  have hf := continueAt_fits h
  simp only [List.length_cons] at hf
  refine wp_bind (wp_getS (wp_bind (wp_pushInt ht (by simp only; omega) fun s1 h1 => ?_)))
  refine wp_branch (p := True) (st := i32 (f.pc + len) :: f.stack) hL inv (by simp) ?_
    (by rw [if_pos trivial]; exact h)
  rw [ht.ip] at h1
  simp only at h1
  rw [show i32 ((f.pc : Int) + len) = .int (BitVec.ofNat 32 (f.pc + len)) by
    rw [← ofInt_natCast]; rfl]
  exact h1

theorem sim_jsr {off : Int} (inv : Inv env pl mem1 f rest b nx)
    (ht : At env mem1 f b nx heap log (f.pc + 1) s) (hlen : len = 3)
    (hn : s2 (env.meth f.m).code.body (f.pc + 1) = some off) :
    InstrSim env pl mem1 f rest b nx heap log len iv
      (exec env f rest heap log len (.jsr off)) (jsrBody env) s := by
  intro out h
  subst hlen
  obtain ⟨n, hu, rfl⟩ := map_some hn
  unfold jsrBody
  refine wp_bind (wp_fetchU2 ht inv.body rfl hu fun s1 h1 => ?_)
  rw [sext16 (u2_lt hu)]
  exact wp_jsrTail rfl inv h1 h

theorem sim_jsrW {off : Int} (inv : Inv env pl mem1 f rest b nx)
    (ht : At env mem1 f b nx heap log (f.pc + 1) s) (hlen : len = 5)
    (hn : s4 (env.meth f.m).code.body (f.pc + 1) = some off) :
    InstrSim env pl mem1 f rest b nx heap log len iv
      (exec env f rest heap log len (.jsr off)) (jsrWBody env) s := by
  intro out h
  subst hlen
  obtain ⟨n, hu, rfl⟩ := map_some hn
  unfold jsrWBody
  refine wp_bind (wp_fetchU4 ht inv.body rfl hu fun s1 h1 => ?_)
  rw [sext32 (u4_lt hu)]
  exact wp_jsrTail rfl inv h1 h

theorem exec_ret (n : Nat) : exec env f rest heap log len (.ret n) =
    match f.locals[n]? with
    | some (.int v) => continueAt env f rest heap log v.toNat f.locals f.stack
    | _ => none := rfl

theorem sim_ret {n k : Nat} (inv : Inv env pl mem1 f rest b nx)
    (ht : At env mem1 f b nx heap log k s) :
    InstrSim env pl mem1 f rest b nx heap log len iv
      (exec env f rest heap log len (.ret n))
      (do let v ← localInt env n; modS fun s => { s with ip := v }) s := by
  intro out h
  rw [exec_ret] at h
  split at h
  · rename_i v hv
    refine wp_bind (wp_localInt ht hv (wp_modS ?_))
    refine cont_of inv h rfl (ht.withIp v) ?_
    rw [ofInt_natCast, BitVec.ofNat_toNat, BitVec.setWidth_eq]
  · exact absurd h nofun

/-! ### Constants -/

theorem exec_ldc (idx : BitVec 16) : exec env f rest heap log len (.ldc idx) =
    match env.constant f.m idx with
    | some (.int v) => continueAt env f rest heap log (f.pc + len) f.locals (.int v :: f.stack)
    | some (.obj o) => continueAt env f rest heap log (f.pc + len) f.locals (.obj o :: f.stack)
    | none => none := rfl

theorem sim_ldc {idx : BitVec 16} {k : Nat} (inv : Inv env pl mem1 f rest b nx)
    (ht : At env mem1 f b nx heap log k s) (hk : k = f.pc + len) :
    InstrSim env pl mem1 f rest b nx heap log len iv
      (exec env f rest heap log len (.ldc idx)) (ldcBody env idx) s := by
  intro out h
  rw [exec_ldc] at h
  unfold ldcBody
  refine wp_bind (wp_getS (wp_bind (wp_frameMethod ht (wp_bind ?_))))
  split at h
  · rename_i v hv
    have hf := continueAt_fits h
    simp only [List.length_cons] at hf
    exact wp_ofOpt hv (wp_pushInt ht (by simp only; omega) fun s' ht' => cont_next inv h rfl ht' hk)
  · rename_i v hv
    have hf := continueAt_fits h
    simp only [List.length_cons] at hf
    exact wp_ofOpt hv (wp_pushObject ht (by simp only; omega) fun s' ht' =>
      cont_next inv h rfl ht' hk)
  · exact absurd h nofun

theorem exec_ldc2 (idx : BitVec 16) : exec env f rest heap log len (.ldc2 idx) =
    (env.constant2 f.m idx).bind fun v =>
      continueAt env f rest heap log (f.pc + len) f.locals (pushL v f.stack) := rfl

theorem bind_some {α β : Type} {o : Option α} {g : α → Option β} {y : β} (h : o.bind g = some y) :
    ∃ a, o = some a ∧ g a = some y := by
  cases o with
  | none => exact absurd h nofun
  | some a => exact ⟨a, rfl, h⟩

theorem cp_some {c : List (BitVec 8)} {k : Nat} {idx : BitVec 16} (h : cp c k = some idx) :
    ∃ n, u2 c k = some n ∧ BitVec.ofNat 16 n = idx := map_some h

theorem sim_ldc2 {idx : BitVec 16} (inv : Inv env pl mem1 f rest b nx)
    (ht : At env mem1 f b nx heap log (f.pc + 1) s) (hlen : len = 3)
    (hn : cp (env.meth f.m).code.body (f.pc + 1) = some idx) :
    InstrSim env pl mem1 f rest b nx heap log len iv
      (exec env f rest heap log len (.ldc2 idx)) (ldc2Body env) s := by
  intro out h
  obtain ⟨n, hu, rfl⟩ := cp_some hn
  rw [exec_ldc2] at h
  obtain ⟨v, hv, h⟩ := bind_some h
  have hf := continueAt_fits h
  simp only [pushL, List.length_cons] at hf
  unfold ldc2Body
  refine wp_bind (wp_fetchU2 ht inv.body rfl hu fun s1 h1 => wp_bind (wp_getS (wp_bind
    (wp_frameMethod h1 (wp_bind (wp_ofOpt hv (wp_pushLong h1 (by simp only; omega) fun s2 h2 =>
      cont_next inv h rfl h2 (by omega))))))))

end
end Avian.Interp
