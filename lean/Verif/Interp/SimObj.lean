import Verif.Interp.SimBasic
/-
Simulation of the instructions on arrays, objects, fields and monitors.
-/
namespace Avian.Interp

open Spec

section
variable {env : Env} {pl : Place} {mem1 : Nat → Slot} {f : Frame} {rest : List Frame} {b : Nat}
  {nx : BitVec 32} {heap : Heap} {log : List Ev} {len : Nat} {iv : Bool} {s : St}

/-- Raising a built-in exception inside the current instruction. -/
theorem wp_raise {k : ExKind} {out : SOut} {st : List Slot} {p : Nat}
    (inv : Inv env pl mem1 f rest b nx)
    (ht : Top env mem1 ⟨b, f.m, nx, f.locals, st, BitVec.ofNat 32 p, 0#64, heap, log⟩ s)
    (hlb : f.pc + len ≤ (env.meth f.m).code.body.length)
    (h1 : f.pc < p) (h2 : p ≤ f.pc + len)
    (h : raiseNew env k ⟨f :: rest, heap, log⟩ = some out) :
    wp (throwNew env k : M Unit) (fun _ s' => Cont env pl out s')
      (Thr env pl mem1 f rest b nx heap log len iv out) (Don env pl out) s := by
  have hb := inv.body
  exact wp_throwNew ht fun s' ht' => thr_of h ht' (by rw [ip_toNat (by omega)]; omega)
    (by rw [ip_toNat (by omega)]; omega)

/-! ### Array elements -/

theorem inBounds_iff {i : BitVec 32} {n : Nat} :
    inBounds i n = true ↔ 0 ≤ i.toInt ∧ i.toInt < n := by
  unfold inBounds
  rw [Bool.and_eq_true, decide_eq_true_eq, decide_eq_true_eq]
  constructor
  · rintro ⟨h1, h2⟩
    refine ⟨h1, ?_⟩
    have : (i.signExtend 64).toInt = i.toInt := BitVec.toInt_signExtend_of_le (by omega)
    have h3 := BitVec.toInt_eq_toNat_cond (i.signExtend 64)
    split at h3 <;> omega
  · rintro ⟨h1, h2⟩
    refine ⟨h1, ?_⟩
    have : (i.signExtend 64).toInt = i.toInt := BitVec.toInt_signExtend_of_le (by omega)
    have h3 := BitVec.toInt_eq_toNat_cond (i.signExtend 64)
    have := (i.signExtend 64).isLt
    split at h3 <;> omega

theorem toNat_of_nonneg {i : BitVec 32} (h : 0 ≤ i.toInt) : i.toNat = i.toInt.toNat := by
  have h3 := BitVec.toInt_eq_toNat_cond i
  have := i.isLt
  split at h3 <;> omega

/-- The interpreter's element kind. -/
def AElem.of : EKind → AElem
  | .int => .i
  | .long => .l
  | .float => .f
  | .double => .d
  | .ref => .a
  | .byte => .b
  | .char => .c
  | .short => .s

theorem sext8' (v : BitVec 8) : v.signExtend 32 = BitVec.ofInt 32 v.toInt := rfl
theorem sext16' (v : BitVec 16) : v.signExtend 32 = BitVec.ofInt 32 v.toInt := rfl
theorem zext8' (v : BitVec 8) : v.setWidth 32 = BitVec.ofInt 32 (v.toNat : Int) := by
  rw [ofInt_natCast]; exact BitVec.eq_of_toNat_eq (by simp)
theorem zext16' (v : BitVec 16) : v.setWidth 32 = BitVec.ofInt 32 (v.toNat : Int) := by
  rw [ofInt_natCast]; exact BitVec.eq_of_toNat_eq (by simp)

theorem wp_pushElem {v : View} {Q : Unit → St → Prop} {T : St → Prop} {D : List Slot → St → Prop}
    {ek : EKind} {arr : Arr} {i : Nat} {sl : List Slot} (ht : Top env mem1 v s)
    (he : elemSlots ek arr i = some sl)
    (hl : sl.length + v.stack.length ≤ (env.meth v.m).code.maxStack)
    (h : ∀ s', Top env mem1 { v with stack := sl ++ v.stack } s' → Q () s') :
    wp (pushElem env (AElem.of ek) arr i) Q T D s := by
  cases ek <;> cases arr <;> first
    | exact absurd (show (none : Option (List Slot)) = some sl from he) nofun
    | (obtain ⟨x, hx, rfl⟩ := map_some he
       simp only [List.length_cons, List.length_nil, pushL] at hl
       refine wp_bind (wp_ofOpt hx ?_)
       first
        | exact wp_pushObject ht (by omega) h
        | exact wp_pushLong ht (by omega) h
        | (refine wp_pushInt ht (by omega) ?_
           first
            | exact h
            | (rw [zext8']; exact h)
            | (rw [zext16']; exact h)))

theorem exec_aload {ek : EKind} {out : SOut}
    (h : exec env f rest heap log len (.aload ek) = some out) :
    ∃ i a st, f.stack = .int i :: .obj a :: st ∧
      (if a = 0#64 then raiseNew env .nullPointer ⟨f :: rest, heap, log⟩
      else (heap a).bind fun x => x.arr.bind fun arr =>
        if 0 ≤ i.toInt ∧ i.toInt < arr.length then
          (elemSlots ek arr i.toInt.toNat).bind fun sl =>
            continueAt env f rest heap log (f.pc + len) f.locals (sl ++ st)
        else raiseNew env .arrayIndex ⟨f :: rest, heap, log⟩) = some out := by
  obtain ⟨m, pc, locals, stack, lock⟩ := f
  match stack, h with
  | [], h => exact absurd h nofun
  | [.int _], h => exact absurd h nofun
  | .obj _ :: _, h => exact absurd h nofun
  | .int _ :: .int _ :: _, h => exact absurd h nofun
  | .int i :: .obj a :: st, h => exact ⟨i, a, st, rfl, h⟩

theorem sim_aload {ek : EKind} (inv : Inv env pl mem1 f rest b nx)
    (ht : At env mem1 f b nx heap log (f.pc + 1) s) (hlen : len = 1)
    (hlb : f.pc + len ≤ (env.meth f.m).code.body.length) :
    InstrSim env pl mem1 f rest b nx heap log len iv
      (exec env f rest heap log len (.aload ek)) (xaloadBody env (AElem.of ek)) s := by
  intro out h
  obtain ⟨i, a, st, hst, h⟩ := exec_aload h
  unfold xaloadBody
  refine wp_bind (wp_popInt ht hst fun s1 h1 => wp_bind (wp_popObject h1 rfl fun s2 h2 => ?_))
  by_cases ha : a = 0#64
  · rw [if_pos ha] at h
    rw [if_neg (by simpa using ha)]
    exact wp_raise inv h2 hlb (by omega) (by omega) h
  · rw [if_neg ha] at h
    rw [if_pos ha]
    obtain ⟨x, hx, h⟩ := bind_some h
    obtain ⟨arr, harr, h⟩ := bind_some h
    refine wp_bind (wp_getS (wp_bind (wp_ofOpt (a := arr) ?_ ?_)))
    · rw [h2.heap]; simp only [arrayAt, hx, Option.bind_some, harr]
    · by_cases hb : 0 ≤ i.toInt ∧ i.toInt < arr.length
      · rw [if_pos hb] at h
        rw [if_pos (inBounds_iff.2 hb)]
        obtain ⟨sl, hsl, h⟩ := bind_some h
        have hf := continueAt_fits h
        simp only [List.length_append] at hf
        rw [toNat_of_nonneg hb.1]
        exact wp_pushElem h2 hsl hf fun s3 h3 => cont_next inv h rfl h3 (by omega)
      · rw [if_neg hb] at h
        rw [if_neg (fun hh => hb (inBounds_iff.1 hh))]
        exact wp_raise inv h2 hlb (by omega) (by omega) h

/-- The popped value corresponds to the slots. -/
def AVal.slots : AVal → List Slot
  | .w v => [.int v]
  | .l v => [.int (v.extractLsb' 0 32), .int (v.extractLsb' 32 32)]
  | .o v => [.obj v]

theorem wp_popElem {v : View} {Q : AVal → St → Prop} {T : St → Prop} {D : List Slot → St → Prop}
    {ek : EKind} (ht : Top env mem1 v s)
    (hty : elemTyped ek (v.stack.take ek.slots) = true)
    (h : ∀ av s', Top env mem1 { v with stack := v.stack.drop ek.slots } s' →
      v.stack.take ek.slots = av.slots → Q av s') :
    wp (popElem env (AElem.of ek)) Q T D s := by
  obtain ⟨vb, m, next, locals, stack, ip, exc, heap, log⟩ := v
  simp only at hty h
  cases ek <;> (
    simp only [EKind.slots] at hty h
    simp only [AElem.of, popElem]
    match stack, hty with
    | [], hty => exact absurd hty Bool.false_ne_true
    | [x], hty =>
      cases x <;> first
      | exact absurd hty Bool.false_ne_true
      | exact wp_bind (wp_popInt ht rfl fun s1 h1 => wp_pure (h _ s1 h1 rfl))
      | exact wp_bind (wp_popObject ht rfl fun s1 h1 => wp_pure (h _ s1 h1 rfl))
    | x :: y :: st, hty =>
      cases x <;> cases y <;> first
      | exact absurd hty Bool.false_ne_true
      | exact wp_bind (wp_popInt ht rfl fun s1 h1 => wp_pure (h _ s1 h1 rfl))
      | exact wp_bind (wp_popObject ht rfl fun s1 h1 => wp_pure (h _ s1 h1 rfl))
      | exact wp_bind (wp_popLong ht rfl fun s1 h1 => wp_pure (h _ s1 h1 (by
          simp only [AVal.slots, BitVec.extractLsb'_append_eq_left,
            BitVec.extractLsb'_append_eq_right, List.take])))
  )

theorem long_split (v : BitVec 64) : v.extractLsb' 32 32 ++ v.extractLsb' 0 32 = v := by
  apply BitVec.eq_of_getLsbD_eq
  intro i hi
  rw [BitVec.getLsbD_append]
  split
  · rw [BitVec.getLsbD_extractLsb']; simp_all
  · rw [BitVec.getLsbD_extractLsb']
    simp only [show i - 32 < 32 by omega, decide_true, Bool.true_and]
    congr 1; omega

theorem ofInt8_toInt (v : BitVec 32) : BitVec.ofInt 8 v.toInt = v.setWidth 8 := by
  apply BitVec.eq_of_toNat_eq
  rw [BitVec.toNat_ofInt, BitVec.toNat_setWidth]
  have h3 := BitVec.toInt_eq_toNat_cond v
  have := v.isLt
  split at h3 <;> omega

theorem ofInt16_toInt (v : BitVec 32) : BitVec.ofInt 16 v.toInt = v.setWidth 16 := by
  apply BitVec.eq_of_toNat_eq
  rw [BitVec.toNat_ofInt, BitVec.toNat_setWidth]
  have h3 := BitVec.toInt_eq_toNat_cond v
  have := v.isLt
  split at h3 <;> omega

theorem setElem_of {ek : EKind} {arr arr' : Arr} {i : Nat} {av : AVal}
    (h : storeElem ek arr i av.slots = some arr') :
    setElem (AElem.of ek) arr i av = some arr' := by
  cases ek <;> cases arr <;> cases av <;> first
    | exact absurd (show (none : Option Arr) = some arr' from h) nofun
    | (simp only [AVal.slots, storeElem, asLong, long_split, ofInt8_toInt, ofInt16_toInt] at h
       exact h)

theorem exec_astore {ek : EKind} {out : SOut}
    (h : exec env f rest heap log len (.astore ek) = some out) :
    ∃ i a st', f.stack.drop ek.slots = .int i :: .obj a :: st' ∧
      elemTyped ek (f.stack.take ek.slots) = true ∧
      (if a = 0#64 then raiseNew env .nullPointer ⟨f :: rest, heap, log⟩
      else (heap a).bind fun x => x.arr.bind fun arr =>
        (storeElem ek arr i.toInt.toNat (f.stack.take ek.slots)).bind fun arr' =>
        if 0 ≤ i.toInt ∧ i.toInt < arr.length then
          if storeAllowed env heap x.cls (f.stack.take ek.slots) then
            continueAt env f rest (heap.set a { x with arr := some arr' }) log (f.pc + len)
              f.locals st'
          else raiseNew env .arrayStore ⟨f :: rest, heap, log⟩
        else raiseNew env .arrayIndex ⟨f :: rest, heap, log⟩) = some out := by
  replace h : (match f.stack.drop ek.slots with
    | .int i :: .obj a :: st' =>
      if elemTyped ek (f.stack.take ek.slots) = false then none
      else if a = 0#64 then raiseNew env .nullPointer ⟨f :: rest, heap, log⟩
      else (heap a).bind fun x => x.arr.bind fun arr =>
        (storeElem ek arr i.toInt.toNat (f.stack.take ek.slots)).bind fun arr' =>
        if 0 ≤ i.toInt ∧ i.toInt < arr.length then
          if storeAllowed env heap x.cls (f.stack.take ek.slots) then
            continueAt env f rest (heap.set a { x with arr := some arr' }) log (f.pc + len)
              f.locals st'
          else raiseNew env .arrayStore ⟨f :: rest, heap, log⟩
        else raiseNew env .arrayIndex ⟨f :: rest, heap, log⟩
    | _ => none) = some out := h
  split at h
  · rename_i i a st' hst
    split at h
    · exact absurd h nofun
    · rename_i hty
      exact ⟨i, a, st', hst, by simpa using hty, h⟩
  · exact absurd h nofun

theorem sim_astore {ek : EKind} (inv : Inv env pl mem1 f rest b nx)
    (ht : At env mem1 f b nx heap log (f.pc + 1) s) (hlen : len = 1)
    (hlb : f.pc + len ≤ (env.meth f.m).code.body.length)
    (hd : ∀ i a st' x arr, f.stack.drop ek.slots = .int i :: .obj a :: st' → heap a = some x →
      x.arr = some arr → 0 ≤ i.toInt → i.toInt < arr.length →
      elemTyped ek (f.stack.take ek.slots) = true →
      storeAllowed env heap x.cls (f.stack.take ek.slots) = true) :
    InstrSim env pl mem1 f rest b nx heap log len iv
      (exec env f rest heap log len (.astore ek)) (xastoreBody env (AElem.of ek)) s := by
  intro out h
  obtain ⟨i, a, st', hst, hty, h⟩ := exec_astore h
  unfold xastoreBody
  refine wp_bind (wp_popElem ht hty fun av s0 h0 hav => wp_bind (wp_popInt h0 hst fun s1 h1 =>
    wp_bind (wp_popObject h1 rfl fun s2 h2 => ?_)))
  by_cases ha : a = 0#64
  · rw [if_pos ha] at h
    rw [if_neg (by simpa using ha)]
    exact wp_raise inv h2 hlb (by omega) (by omega) h
  · rw [if_neg ha] at h
    rw [if_pos ha]
    obtain ⟨x, hx, h⟩ := bind_some h
    obtain ⟨arr, harr, h⟩ := bind_some h
    obtain ⟨arr', harr', h⟩ := bind_some h
    have hh : s2.heap = heap := h2.heap
    refine wp_bind (wp_getS (wp_bind (wp_ofOpt (a := x) (by rw [hh]; exact hx)
      (wp_bind (wp_ofOpt harr ?_)))))
    by_cases hb : 0 ≤ i.toInt ∧ i.toInt < arr.length
    · rw [if_pos hb, if_pos (hd i a st' x arr hst hx harr hb.1 hb.2 hty)] at h
      rw [if_pos (inBounds_iff.2 hb)]
      simp only at hav
      rw [hav] at harr'
      refine wp_bind (wp_ofOpt (a := arr') ?_ (wp_modS ?_))
      · rw [toNat_of_nonneg hb.1]; exact setElem_of harr'
      · rw [hh]
        exact cont_next inv h rfl (h2.withHeap _) (by omega)
    · rw [if_neg hb] at h
      rw [if_neg (fun hh => hb (inBounds_iff.1 hh))]
      exact wp_raise inv h2 hlb (by omega) (by omega) h

/-! ### Objects -/

theorem exec_arraylength {out : SOut}
    (h : exec env f rest heap log len .arraylength = some out) :
    ∃ a st, f.stack = .obj a :: st ∧
      (if a = 0#64 then raiseNew env .nullPointer ⟨f :: rest, heap, log⟩
      else (heap a).bind fun x => x.arr.bind fun arr =>
        continueAt env f rest heap log (f.pc + len) f.locals (i32 arr.length :: st)) = some out := by
  obtain ⟨m, pc, locals, stack, lock⟩ := f
  match stack, h with
  | [], h => exact absurd h nofun
  | .int _ :: _, h => exact absurd h nofun
  | .obj a :: st, h => exact ⟨a, st, rfl, h⟩

theorem sim_arraylength (inv : Inv env pl mem1 f rest b nx)
    (ht : At env mem1 f b nx heap log (f.pc + 1) s) (hlen : len = 1)
    (hlb : f.pc + len ≤ (env.meth f.m).code.body.length) :
    InstrSim env pl mem1 f rest b nx heap log len iv
      (exec env f rest heap log len .arraylength) (arraylengthBody env) s := by
  intro out h
  obtain ⟨a, st, hst, h⟩ := exec_arraylength h
  unfold arraylengthBody
  refine wp_bind (wp_popObject ht hst fun s2 h2 => ?_)
  by_cases ha : a = 0#64
  · rw [if_pos ha] at h
    rw [if_neg (by simpa using ha)]
    exact wp_raise inv h2 hlb (by omega) (by omega) h
  · rw [if_neg ha] at h
    rw [if_pos ha]
    obtain ⟨x, hx, h⟩ := bind_some h
    obtain ⟨arr, harr, h⟩ := bind_some h
    have hf := continueAt_fits h
    simp only [List.length_cons] at hf
    refine wp_bind (wp_getS (wp_bind (wp_ofOpt (a := arr) ?_ (wp_pushInt h2 (by simp only; omega)
      fun s3 h3 => cont_next inv h rfl ?_ (show f.pc + 1 = _ by omega)))))
    · rw [h2.heap]; simp only [arrayAt, hx, Option.bind_some, harr]
    · unfold i32; rw [ofInt_natCast]; exact h3

theorem wp_pushNew {v : View} {Q : Unit → St → Prop} {T : St → Prop} {D : List Slot → St → Prop}
    {x : Obj} (ht : Top env mem1 v s) (hl : v.stack.length < (env.meth v.m).code.maxStack)
    (h : ∀ s', Top env mem1 { v with
      stack := .obj (env.alloc v.heap x).2 :: v.stack, heap := (env.alloc v.heap x).1 } s' →
      Q () s') :
    wp (pushNew env x) Q T D s := by
  unfold pushNew
  refine wp_bind (wp_getS (wp_bind (wp_modS ?_)))
  rw [ht.heap]
  exact wp_pushObject (ht.withHeap (env.alloc v.heap x).1) hl h

theorem BitVec.setWidth_eq_ofNat' {n m : Nat} (x : BitVec n) :
    x.setWidth m = BitVec.ofNat m x.toNat := BitVec.eq_of_toNat_eq (by simp)

theorem exec_newarray {t : BitVec 8} {out : SOut}
    (h : exec env f rest heap log len (.newarray t) = some out) :
    ∃ n st, f.stack = .int n :: st ∧
      (if n.toInt < 0 then raiseNew env .negativeSize ⟨f :: rest, heap, log⟩
      else (primArray t n.toInt.toNat).bind fun arr =>
        continueAt env f rest (env.alloc heap
          ⟨env.arrayClass (BitVec.ofNat 64 t.toNat), some arr, zeroBytes⟩).1 log (f.pc + len) f.locals
          (.obj (env.alloc heap
            ⟨env.arrayClass (BitVec.ofNat 64 t.toNat), some arr, zeroBytes⟩).2 :: st)) =
        some out := by
  obtain ⟨m, pc, locals, stack, lock⟩ := f
  match stack, h with
  | [], h => exact absurd h nofun
  | .obj _ :: _, h => exact absurd h nofun
  | .int a :: st, h => exact ⟨a, st, rfl, h⟩

theorem sim_newarray {n : Nat} (inv : Inv env pl mem1 f rest b nx)
    (ht : At env mem1 f b nx heap log (f.pc + 1) s) (hlen : len = 2)
    (hlb : f.pc + len ≤ (env.meth f.m).code.body.length)
    (hn : u1 (env.meth f.m).code.body (f.pc + 1) = some n) :
    InstrSim env pl mem1 f rest b nx heap log len iv
      (exec env f rest heap log len (.newarray (BitVec.ofNat 8 n))) (newarrayBody env) s := by
  intro out h
  obtain ⟨c, st, hst, h⟩ := exec_newarray h
  have hfits := ht.fits
  simp only [hst, List.length_cons] at hfits
  unfold newarrayBody
  refine wp_bind (wp_popInt ht hst fun s1 h1 => ?_)
  by_cases hc : c.toInt < 0
  · rw [if_pos hc] at h
    rw [if_neg (by omega)]
    exact wp_raise inv h1 hlb (by omega) (by omega) h
  · rw [if_neg hc] at h
    rw [if_pos (by omega)]
    obtain ⟨arr, harr, h⟩ := bind_some h
    refine wp_bind (wp_fetchU1 h1 inv.body rfl hn fun s2 h2 => wp_bind (wp_ofOpt (a := arr) ?_
      ?_))
    rotate_left
    · rw [BitVec.setWidth_eq_ofNat']
      exact (wp_pushNew h2 (by simp only; omega) fun s3 h3 => cont_next inv h rfl h3 (by omega))
    rw [toNat_of_nonneg (by omega)]
    exact harr

theorem exec_anewarray {idx : BitVec 16} {out : SOut}
    (h : exec env f rest heap log len (.anewarray idx) = some out) :
    ∃ n st, f.stack = .int n :: st ∧
      (if n.toInt < 0 then raiseNew env .negativeSize ⟨f :: rest, heap, log⟩
      else (env.resolveClass f.m idx).bind fun c =>
        continueAt env f rest (env.alloc heap ⟨env.arrayClass c,
            some (.ref (List.replicate n.toInt.toNat 0#64)), zeroBytes⟩).1 log (f.pc + len) f.locals
          (.obj (env.alloc heap ⟨env.arrayClass c,
            some (.ref (List.replicate n.toInt.toNat 0#64)), zeroBytes⟩).2 :: st)) =
        some out := by
  obtain ⟨m, pc, locals, stack, lock⟩ := f
  match stack, h with
  | [], h => exact absurd h nofun
  | .obj _ :: _, h => exact absurd h nofun
  | .int a :: st, h => exact ⟨a, st, rfl, h⟩

theorem sim_anewarray {idx : BitVec 16} (inv : Inv env pl mem1 f rest b nx)
    (ht : At env mem1 f b nx heap log (f.pc + 1) s) (hlen : len = 3)
    (hlb : f.pc + len ≤ (env.meth f.m).code.body.length)
    (hn : cp (env.meth f.m).code.body (f.pc + 1) = some idx) :
    InstrSim env pl mem1 f rest b nx heap log len iv
      (exec env f rest heap log len (.anewarray idx)) (anewarrayBody env) s := by
  intro out h
  obtain ⟨n, hu, rfl⟩ := cp_some hn
  obtain ⟨c, st, hst, h⟩ := exec_anewarray h
  have hfits := ht.fits
  simp only [hst, List.length_cons] at hfits
  unfold anewarrayBody
  refine wp_bind (wp_popInt ht hst fun s1 h1 => ?_)
  by_cases hc : c.toInt < 0
  · rw [if_pos hc] at h
    rw [if_neg (by omega)]
    exact wp_raise inv h1 hlb (by omega) (by omega) h
  · rw [if_neg hc] at h
    rw [if_pos (by omega)]
    obtain ⟨k, hk, h⟩ := bind_some h
    refine wp_bind (wp_fetchU2 h1 inv.body rfl hu fun s2 h2 => wp_bind (wp_getS (wp_bind
      (wp_frameMethod h2 (wp_bind (wp_ofOpt hk ?_))))))
    rw [toNat_of_nonneg (by omega)]
    exact wp_pushNew h2 (by simp only; omega) fun s3 h3 => cont_next inv h rfl h3 (by omega)

theorem exec_new (idx : BitVec 16) : exec env f rest heap log len (.new idx) =
    (env.resolveClass f.m idx).bind fun c =>
      continueAt env f rest (env.alloc heap ⟨c, none, zeroBytes⟩).1 log (f.pc + len) f.locals
        (.obj (env.alloc heap ⟨c, none, zeroBytes⟩).2 :: f.stack) := rfl

theorem sim_new {idx : BitVec 16} (inv : Inv env pl mem1 f rest b nx)
    (ht : At env mem1 f b nx heap log (f.pc + 1) s) (hlen : len = 3)
    (hn : cp (env.meth f.m).code.body (f.pc + 1) = some idx) :
    InstrSim env pl mem1 f rest b nx heap log len iv
      (exec env f rest heap log len (.new idx)) (newBody env) s := by
  intro out h
  obtain ⟨n, hu, rfl⟩ := cp_some hn
  rw [exec_new] at h
  obtain ⟨c, hc, h⟩ := bind_some h
  have hf := continueAt_fits h
  simp only [List.length_cons] at hf
  unfold newBody
  exact wp_bind (wp_fetchU2 ht inv.body rfl hu fun s2 h2 => wp_bind (wp_getS (wp_bind
    (wp_frameMethod h2 (wp_bind (wp_ofOpt hc (wp_pushNew h2 (by simp only; omega) fun s3 h3 =>
      cont_next inv h rfl h3 (by omega))))))))

/-! ### Fields -/

theorem leNat_lt (bytes : Nat → BitVec 8) (n : Nat) : ∀ off, leNat bytes off n < 256 ^ n := by
  induction n with
  | zero => intro off; simp [leNat]
  | succ n ih =>
    intro off
    have h1 := (bytes off).isLt
    have h2 := ih (off + 1)
    rw [Nat.pow_succ]
    unfold leNat
    omega

theorem wp_pushField {v : View} {Q : Unit → St → Prop} {T : St → Prop} {D : List Slot → St → Prop}
    {bytes : Nat → BitVec 8} {fd : Field} (ht : Top env mem1 v s)
    (hl : (fieldSlots bytes fd).length + v.stack.length ≤ (env.meth v.m).code.maxStack)
    (hd : ¬ charDeparts fd bytes)
    (h : ∀ s', Top env mem1 { v with stack := fieldSlots bytes fd ++ v.stack } s' → Q () s') :
    wp (pushField env bytes fd) Q T D s := by
  obtain ⟨kind, offset, table⟩ := fd
  have b1 := leNat_lt bytes 1 offset
  have b2 := leNat_lt bytes 2 offset
  have b4 := leNat_lt bytes 4 offset
  cases kind <;>
    simp only [fieldSlots, pushL, List.length_cons, List.length_nil, charDeparts, pushField, i32]
      at hl h hd ⊢ <;>
    try simp only [true_and, Nat.not_le] at hd
  · rw [sext8 (by omega)]; exact wp_pushInt ht (by omega) h
  · rw [sext8 (by omega)]; exact wp_pushInt ht (by omega) h
  · rw [sext16 (by omega), signed, if_pos hd]; exact wp_pushInt ht (by omega) h
  · rw [sext16 (by omega)]; exact wp_pushInt ht (by omega) h
  · rw [← ofInt_natCast]; exact wp_pushInt ht (by omega) h
  · rw [← ofInt_natCast]; exact wp_pushInt ht (by omega) h
  · exact wp_pushLong ht (by omega) h
  · exact wp_pushLong ht (by omega) h
  · exact wp_pushObject ht (by omega) h

/-- Reading the top of the stack. -/
theorem wp_peekTop {v : View} {Q : Ref → St → Prop} {T : St → Prop} {D : List Slot → St → Prop}
    {o : Ref} {n : Nat} (ht : Top env mem1 v s) (hn : 0 < n) (ho : v.stack[n - 1]? = some (.obj o))
    (h : Q o s) : wp (do let i ← spMinus n; peekObject env i : M Ref) Q T D s := by
  have h1 := ht.room
  have h2 := ht.fits
  have h3 : n - 1 < v.stack.length := (List.getElem?_eq_some_iff.1 ho).1
  refine wp_bind (wp_spMinus ht (by omega) (wp_peekObject (by omega) ?_ h))
  have := ht.stk.get ho
  rw [← this]
  congr 1
  omega

theorem exec_getfield {idx : BitVec 16} {out : SOut}
    (h : exec env f rest heap log len (.getfield idx) = some out) :
    ∃ o st, f.stack = .obj o :: st ∧
      (if o = 0#64 then raiseNew env .nullPointer ⟨f :: rest, heap, log⟩
      else (env.resolveField f.m idx).bind fun fd => (heap o).bind fun x =>
        continueAt env f rest heap log (f.pc + len) f.locals (fieldSlots x.bytes fd ++ st)) =
        some out := by
  obtain ⟨m, pc, locals, stack, lock⟩ := f
  match stack, h with
  | [], h => exact absurd h nofun
  | .int _ :: _, h => exact absurd h nofun
  | .obj a :: st, h => exact ⟨a, st, rfl, h⟩

theorem sim_getfield {idx : BitVec 16} (inv : Inv env pl mem1 f rest b nx)
    (ht : At env mem1 f b nx heap log (f.pc + 1) s) (hlen : len = 3)
    (hlb : f.pc + len ≤ (env.meth f.m).code.body.length)
    (hn : cp (env.meth f.m).code.body (f.pc + 1) = some idx)
    (hd : ∀ o st fd x, f.stack = .obj o :: st → env.resolveField f.m idx = some fd →
      heap o = some x → ¬ charDeparts fd x.bytes) :
    InstrSim env pl mem1 f rest b nx heap log len iv
      (exec env f rest heap log len (.getfield idx)) (getfieldBody env) s := by
  intro out h
  obtain ⟨n, hu, rfl⟩ := cp_some hn
  obtain ⟨o, st, hst, h⟩ := exec_getfield h
  unfold getfieldBody
  refine wp_bind (wp_spMinus ht (by simp only [hst, List.length_cons]; omega) (wp_bind
    (wp_peekObject (x := o) ?_ ?_ ?_)))
  · have h1 := ht.room
    have h2 := ht.fits
    simp only at h1 h2 ⊢
    simp only [hst, List.length_cons] at h2 ⊢
    omega
  · have := ht.stk.get (i := 0) (x := .obj o) (by simp only [hst]; rfl)
    rw [← this]
    congr 1
    simp only [hst, List.length_cons]
    omega
  · by_cases ho : o = 0#64
    · rw [if_pos ho] at h
      rw [if_neg (by simpa using ho)]
      exact wp_raise inv ht hlb (by omega) (by omega) h
    · rw [if_neg ho] at h
      rw [if_pos ho]
      obtain ⟨fd, hfd, h⟩ := bind_some h
      obtain ⟨x, hx, h⟩ := bind_some h
      have hf := continueAt_fits h
      simp only [List.length_append] at hf
      refine wp_bind (wp_fetchU2 ht inv.body rfl hu fun s1 h1 => wp_bind (wp_getS (wp_bind
        (wp_frameMethod h1 (wp_bind (wp_ofOpt hfd (wp_bind (wp_popObject h1 hst fun s2 h2 =>
        wp_bind (wp_ofOpt (by rw [h1.heap]; exact hx) (wp_pushField h2 hf ?_ fun s3 h3 =>
          cont_next inv h rfl h3 (by omega)))))))))))
      exact hd o st fd x hst hfd hx

theorem exec_getstatic (idx : BitVec 16) : exec env f rest heap log len (.getstatic idx) =
    (env.resolveField f.m idx).bind fun fd => (heap fd.table).bind fun x =>
      continueAt env f rest heap log (f.pc + len) f.locals (fieldSlots x.bytes fd ++ f.stack) := rfl

theorem sim_getstatic {idx : BitVec 16} (inv : Inv env pl mem1 f rest b nx)
    (ht : At env mem1 f b nx heap log (f.pc + 1) s) (hlen : len = 3)
    (hn : cp (env.meth f.m).code.body (f.pc + 1) = some idx)
    (hd : ∀ fd x, env.resolveField f.m idx = some fd →
      heap fd.table = some x → ¬ charDeparts fd x.bytes) :
    InstrSim env pl mem1 f rest b nx heap log len iv
      (exec env f rest heap log len (.getstatic idx)) (getstaticBody env) s := by
  intro out h
  obtain ⟨n, hu, rfl⟩ := cp_some hn
  rw [exec_getstatic] at h
  obtain ⟨fd, hfd, h⟩ := bind_some h
  obtain ⟨x, hx, h⟩ := bind_some h
  have hf := continueAt_fits h
  simp only [List.length_append] at hf
  unfold getstaticBody
  refine wp_bind (wp_fetchU2 ht inv.body rfl hu fun s1 h1 => wp_bind (wp_getS (wp_bind
    (wp_frameMethod h1 (wp_bind (wp_ofOpt hfd (wp_bind (wp_ofOpt (by rw [h1.heap]; exact hx)
    (wp_pushField h1 hf ?_ fun s3 h3 => cont_next inv h rfl h3 (by omega))))))))))
  exact hd fd x hfd hx

theorem leStore_mod (n : Nat) : ∀ (bytes : Nat → BitVec 8) (off v : Nat),
    leStore bytes off n (v % 256 ^ n) = leStore bytes off n v := by
  induction n with
  | zero => intro bytes off v; rfl
  | succ n ih =>
    intro bytes off v
    unfold leStore
    rw [Nat.pow_succ]
    have e1 : BitVec.ofNat 8 (v % (256 ^ n * 256)) = BitVec.ofNat 8 v := by
      apply BitVec.eq_of_toNat_eq
      rw [BitVec.toNat_ofNat, BitVec.toNat_ofNat]
      exact Nat.mod_mod_of_dvd v (Nat.dvd_mul_left ..)
    have e2 : v % (256 ^ n * 256) / 256 = v / 256 % 256 ^ n := by
      rw [Nat.mul_comm, Nat.mod_mul_right_div_self]
    rw [e1, e2, ih]

theorem fieldStore_slots {bytes b' : Nat → BitVec 8} {fd : Field} {av : AVal}
    (h : fieldStore bytes fd av.slots = some b') : storeField bytes fd av = b' := by
  obtain ⟨kind, offset, table⟩ := fd
  cases kind <;> cases av <;> first
    | exact absurd (show (none : Option (Nat → BitVec 8)) = some b' from h) nofun
    | (simp only [AVal.slots, fieldStore, Option.some.injEq] at h
       simp only [storeField]
       subst h
       first
        | rfl
        | exact (leStore_mod 1 _ _ _).symm
        | exact (leStore_mod 2 _ _ _).symm
        | (congr 1
           rename_i v
           conv => lhs; rw [← long_split v]
           rw [BitVec.toNat_append, Nat.shiftLeft_eq, Nat.mul_comm,
             ← Nat.two_pow_add_eq_or_of_lt (BitVec.isLt _)]))

/-- The slots on the stack are a value of the field's type. -/
def fieldTyped (fd : Field) (l : List Slot) : Prop := ∃ b', fieldStore zeroBytes fd l = some b'

theorem fieldStore_typed {bytes b' : Nat → BitVec 8} {fd : Field} {l : List Slot}
    (h : fieldStore bytes fd l = some b') : fieldTyped fd l := by
  obtain ⟨kind, offset, table⟩ := fd
  cases kind <;> (
    match l, h with
    | [], h => exact absurd (show (none : Option (Nat → BitVec 8)) = some b' from h) nofun
    | [x], h =>
      cases x <;> first
      | exact absurd (show (none : Option (Nat → BitVec 8)) = some b' from h) nofun
      | exact ⟨_, rfl⟩
    | [x, y], h =>
      cases x <;> cases y <;> first
      | exact absurd (show (none : Option (Nat → BitVec 8)) = some b' from h) nofun
      | exact ⟨_, rfl⟩
    | x :: y :: z :: l, h =>
      cases x <;> cases y <;>
        exact absurd (show (none : Option (Nat → BitVec 8)) = some b' from h) nofun)

theorem wp_popFieldValue {v : View} {Q : AVal → St → Prop} {T : St → Prop}
    {D : List Slot → St → Prop} {fd : Field} (ht : Top env mem1 v s)
    (hty : fieldTyped fd (v.stack.take (fslots fd.kind)))
    (h : ∀ av s', Top env mem1 { v with stack := v.stack.drop (fslots fd.kind) } s' →
      v.stack.take (fslots fd.kind) = av.slots → Q av s') :
    wp (popFieldValue env fd) Q T D s := by
  obtain ⟨vb, m, next, locals, stack, ip, exc, heap, log⟩ := v
  obtain ⟨kind, offset, table⟩ := fd
  obtain ⟨b', hty⟩ := hty
  simp only at hty h
  cases kind <;> (
    simp only [fslots] at hty h
    simp only [popFieldValue]
    match stack, hty with
    | [], hty => exact absurd (show (none : Option (Nat → BitVec 8)) = some b' from hty) nofun
    | [x], hty =>
      cases x <;> first
      | exact absurd (show (none : Option (Nat → BitVec 8)) = some b' from hty) nofun
      | exact wp_bind (wp_popInt ht rfl fun s1 h1 => wp_pure (h _ s1 h1 rfl))
      | exact wp_bind (wp_popObject ht rfl fun s1 h1 => wp_pure (h _ s1 h1 rfl))
    | x :: y :: st, hty =>
      cases x <;> cases y <;> first
      | exact absurd (show (none : Option (Nat → BitVec 8)) = some b' from hty) nofun
      | exact wp_bind (wp_popInt ht rfl fun s1 h1 => wp_pure (h _ s1 h1 rfl))
      | exact wp_bind (wp_popObject ht rfl fun s1 h1 => wp_pure (h _ s1 h1 rfl))
      | exact wp_bind (wp_popLong ht rfl fun s1 h1 => wp_pure (h _ s1 h1 (by
          simp only [AVal.slots, BitVec.extractLsb'_append_eq_left,
            BitVec.extractLsb'_append_eq_right, List.take])))
  )

theorem exec_putfield {idx : BitVec 16} {out : SOut}
    (h : exec env f rest heap log len (.putfield idx) = some out) :
    ∃ fd o st', env.resolveField f.m idx = some fd ∧
      f.stack.drop (fslots fd.kind) = .obj o :: st' ∧
      fieldTyped fd (f.stack.take (fslots fd.kind)) ∧
      (if o = 0#64 then raiseNew env .nullPointer ⟨f :: rest, heap, log⟩
      else (heap o).bind fun x =>
        (fieldStore x.bytes fd (f.stack.take (fslots fd.kind))).bind fun b =>
        continueAt env f rest (heap.set o { x with bytes := b }) log (f.pc + len) f.locals st') =
        some out := by
  replace h : ((env.resolveField f.m idx).bind fun fd =>
    match f.stack.drop (fslots fd.kind) with
    | .obj o :: st' =>
      (fieldStore zeroBytes fd (f.stack.take (fslots fd.kind))).bind fun _ =>
      if o = 0#64 then raiseNew env .nullPointer ⟨f :: rest, heap, log⟩
      else (heap o).bind fun x =>
        (fieldStore x.bytes fd (f.stack.take (fslots fd.kind))).bind fun b =>
        continueAt env f rest (heap.set o { x with bytes := b }) log (f.pc + len) f.locals st'
    | _ => none) = some out := h
  obtain ⟨fd, hfd, h⟩ := bind_some h
  split at h
  · rename_i o st' hst
    obtain ⟨b', hb', h⟩ := bind_some h
    exact ⟨fd, o, st', hfd, hst, ⟨b', hb'⟩, h⟩
  · exact absurd h nofun

theorem sim_putfield {idx : BitVec 16} (inv : Inv env pl mem1 f rest b nx)
    (ht : At env mem1 f b nx heap log (f.pc + 1) s) (hlen : len = 3)
    (hlb : f.pc + len ≤ (env.meth f.m).code.body.length)
    (hn : cp (env.meth f.m).code.body (f.pc + 1) = some idx) :
    InstrSim env pl mem1 f rest b nx heap log len iv
      (exec env f rest heap log len (.putfield idx)) (putfieldBody env) s := by
  intro out h
  obtain ⟨n, hu, rfl⟩ := cp_some hn
  obtain ⟨fd, o, st', hfd, hst, hty, h⟩ := exec_putfield h
  unfold putfieldBody
  refine wp_bind (wp_fetchU2 ht inv.body rfl hu fun s1 h1 => wp_bind (wp_getS (wp_bind
    (wp_frameMethod h1 (wp_bind (wp_ofOpt hfd (wp_bind (wp_popFieldValue h1 hty fun av s2 h2 hav =>
    wp_bind (wp_popObject h2 hst fun s3 h3 => ?_)))))))))
  by_cases ho : o = 0#64
  · rw [if_pos ho] at h
    rw [if_neg (by simpa using ho)]
    exact wp_raise inv h3 hlb (by omega) (by omega) h
  · rw [if_neg ho] at h
    rw [if_pos ho]
    obtain ⟨x, hx, h⟩ := bind_some h
    obtain ⟨b', hb', h⟩ := bind_some h
    simp only at hav
    rw [hav] at hb'
    refine wp_bind (wp_ofOpt (a := x) (by rw [h1.heap]; exact hx) (wp_modS ?_))
    rw [fieldStore_slots hb', show s3.heap = heap from h3.heap]
    exact cont_next inv h rfl (h3.withHeap _) (by omega)

theorem exec_putstatic (idx : BitVec 16) : exec env f rest heap log len (.putstatic idx) =
    (env.resolveField f.m idx).bind fun fd => (heap fd.table).bind fun x =>
      (fieldStore x.bytes fd (f.stack.take (fslots fd.kind))).bind fun b =>
      continueAt env f rest (heap.set fd.table { x with bytes := b }) log (f.pc + len) f.locals
        (f.stack.drop (fslots fd.kind)) := rfl

theorem sim_putstatic {idx : BitVec 16} (inv : Inv env pl mem1 f rest b nx)
    (ht : At env mem1 f b nx heap log (f.pc + 1) s) (hlen : len = 3)
    (hn : cp (env.meth f.m).code.body (f.pc + 1) = some idx) :
    InstrSim env pl mem1 f rest b nx heap log len iv
      (exec env f rest heap log len (.putstatic idx)) (putstaticBody env) s := by
  intro out h
  obtain ⟨n, hu, rfl⟩ := cp_some hn
  rw [exec_putstatic] at h
  obtain ⟨fd, hfd, h⟩ := bind_some h
  obtain ⟨x, hx, h⟩ := bind_some h
  obtain ⟨b', hb', h⟩ := bind_some h
  unfold putstaticBody
  refine wp_bind (wp_fetchU2 ht inv.body rfl hu fun s1 h1 => wp_bind (wp_getS (wp_bind
    (wp_frameMethod h1 (wp_bind (wp_ofOpt hfd (wp_bind (wp_popFieldValue h1 (fieldStore_typed hb')
    fun av s2 h2 hav => wp_bind (wp_ofOpt (a := x) (by rw [h1.heap]; exact hx) (wp_modS ?_))))))))))
  simp only at hav
  rw [hav] at hb'
  rw [fieldStore_slots hb', show s2.heap = heap from h2.heap]
  exact cont_next inv h rfl (h2.withHeap _) (by omega)

/-! ### Casts, monitors, exceptions -/

theorem exec_checkcast {idx : BitVec 16} {out : SOut}
    (h : exec env f rest heap log len (.checkcast idx) = some out) :
    ∃ o st, f.stack = .obj o :: st ∧
      (if o = 0#64 then continueAt env f rest heap log (f.pc + len) f.locals (.obj o :: st)
      else (env.resolveClass f.m idx).bind fun c => (heap o).bind fun x =>
        if env.subclass x.cls c then
          continueAt env f rest heap log (f.pc + len) f.locals (.obj o :: st)
        else raiseNew env .classCast ⟨f :: rest, heap, log⟩) = some out := by
  obtain ⟨m, pc, locals, stack, lock⟩ := f
  match stack, h with
  | [], h => exact absurd h nofun
  | .int _ :: _, h => exact absurd h nofun
  | .obj a :: st, h => exact ⟨a, st, rfl, h⟩

/-- Reading the object on top of the stack. -/
theorem wp_peek0 {v : View} {Q : Unit → St → Prop} {T : St → Prop} {D : List Slot → St → Prop}
    {o : Ref} {st : List Slot} {g : Ref → M Unit} (ht : Top env mem1 v s)
    (hst : v.stack = .obj o :: st) (h : wp (g o) Q T D s) :
    wp (do let i ← spMinus 1; let o ← peekObject env i; g o : M Unit) Q T D s := by
  have h1 := ht.room
  have h2 := ht.fits
  rw [hst] at h2
  simp only [List.length_cons] at h2
  refine wp_bind (wp_spMinus ht (by rw [hst]; simp only [List.length_cons]; omega) (wp_bind
    (wp_peekObject (x := o) ?_ ?_ h)))
  · rw [hst]; simp only [List.length_cons]; omega
  · rw [← ht.stk.get (i := 0) (x := .obj o) (by rw [hst]; rfl)]
    congr 1
    rw [hst]
    simp only [List.length_cons]
    omega

theorem sim_checkcast {idx : BitVec 16} (inv : Inv env pl mem1 f rest b nx)
    (ht : At env mem1 f b nx heap log (f.pc + 1) s) (hlen : len = 3)
    (hlb : f.pc + len ≤ (env.meth f.m).code.body.length)
    (hn : cp (env.meth f.m).code.body (f.pc + 1) = some idx) :
    InstrSim env pl mem1 f rest b nx heap log len iv
      (exec env f rest heap log len (.checkcast idx)) (checkcastBody env) s := by
  intro out h
  obtain ⟨n, hu, rfl⟩ := cp_some hn
  obtain ⟨o, st, hst, h⟩ := exec_checkcast h
  unfold checkcastBody
  refine wp_bind (wp_fetchU2 ht inv.body rfl hu fun s1 h1 => wp_peek0 h1 hst ?_)
  rw [← hst] at h
  by_cases ho : o = 0#64
  · rw [if_pos ho] at h
    rw [if_neg (by simpa using ho)]
    exact wp_pure (cont_next inv h rfl h1 (by omega))
  · rw [if_neg ho] at h
    rw [if_pos ho]
    obtain ⟨c, hc, h⟩ := bind_some h
    obtain ⟨x, hx, h⟩ := bind_some h
    refine wp_bind (wp_getS (wp_bind (wp_frameMethod h1 (wp_bind (wp_ofOpt hc (wp_bind
      (wp_ofOpt (a := x) (by rw [h1.heap]; exact hx) ?_)))))))
    by_cases hs : env.subclass x.cls c = true
    · rw [if_pos hs] at h
      rw [if_pos hs]
      exact wp_pure (cont_next inv h rfl h1 (by omega))
    · rw [if_neg hs] at h
      rw [if_neg hs]
      exact wp_raise inv h1 hlb (by omega) (by omega) h

theorem exec_instanceof {idx : BitVec 16} {out : SOut}
    (h : exec env f rest heap log len (.instanceof idx) = some out) :
    ∃ o st, f.stack = .obj o :: st ∧
      (if o = 0#64 then continueAt env f rest heap log (f.pc + len) f.locals (i32 0 :: st)
      else (env.resolveClass f.m idx).bind fun c => (heap o).bind fun x =>
        continueAt env f rest heap log (f.pc + len) f.locals
          (i32 (if env.subclass x.cls c then 1 else 0) :: st)) = some out := by
  obtain ⟨m, pc, locals, stack, lock⟩ := f
  match stack, h with
  | [], h => exact absurd h nofun
  | .int _ :: _, h => exact absurd h nofun
  | .obj a :: st, h => exact ⟨a, st, rfl, h⟩

theorem sim_instanceof {idx : BitVec 16} (inv : Inv env pl mem1 f rest b nx)
    (ht : At env mem1 f b nx heap log (f.pc + 1) s) (hlen : len = 3)
    (hn : cp (env.meth f.m).code.body (f.pc + 1) = some idx) :
    InstrSim env pl mem1 f rest b nx heap log len iv
      (exec env f rest heap log len (.instanceof idx)) (instanceofBody env) s := by
  intro out h
  obtain ⟨n, hu, rfl⟩ := cp_some hn
  obtain ⟨o, st, hst, h⟩ := exec_instanceof h
  have hfits := ht.fits
  simp only [hst, List.length_cons] at hfits
  unfold instanceofBody
  refine wp_bind (wp_fetchU2 ht inv.body rfl hu fun s1 h1 => wp_peek0 h1 hst ?_)
  by_cases ho : o = 0#64
  · rw [if_pos ho] at h
    rw [if_neg (by simpa using ho)]
    exact wp_bind (wp_popObject h1 hst fun s2 h2 => wp_pushInt h2 (by simp only; omega)
      fun s3 h3 => cont_next inv h rfl h3 (by omega))
  · rw [if_neg ho] at h
    rw [if_pos ho]
    obtain ⟨c, hc, h⟩ := bind_some h
    obtain ⟨x, hx, h⟩ := bind_some h
    refine wp_bind (wp_getS (wp_bind (wp_frameMethod h1 (wp_bind (wp_ofOpt hc (wp_bind
      (wp_popObject h1 hst fun s2 h2 => wp_bind
      (wp_ofOpt (a := x) (by rw [h1.heap]; exact hx) (wp_pushInt h2 (by simp only; omega)
      fun s3 h3 => cont_next inv h rfl ?_ (show f.pc + 1 + 2 = _ by omega))))))))))
    cases hs : env.subclass x.cls c <;> rw [hs] at h3 <;> exact h3

theorem exec_monitorenter {out : SOut}
    (h : exec env f rest heap log len .monitorenter = some out) :
    ∃ o st, f.stack = .obj o :: st ∧
      (if o = 0#64 then raiseNew env .nullPointer ⟨f :: rest, heap, log⟩
      else continueAt env f rest heap (.acquire o :: log) (f.pc + len) f.locals st) = some out := by
  obtain ⟨m, pc, locals, stack, lock⟩ := f
  match stack, h with
  | [], h => exact absurd h nofun
  | .int _ :: _, h => exact absurd h nofun
  | .obj a :: st, h => exact ⟨a, st, rfl, h⟩

theorem exec_monitorexit {out : SOut}
    (h : exec env f rest heap log len .monitorexit = some out) :
    ∃ o st, f.stack = .obj o :: st ∧
      (if o = 0#64 then raiseNew env .nullPointer ⟨f :: rest, heap, log⟩
      else continueAt env f rest heap (.release o :: log) (f.pc + len) f.locals st) = some out := by
  obtain ⟨m, pc, locals, stack, lock⟩ := f
  match stack, h with
  | [], h => exact absurd h nofun
  | .int _ :: _, h => exact absurd h nofun
  | .obj a :: st, h => exact ⟨a, st, rfl, h⟩

theorem wp_monitor {e : Ref → Ev} {out : SOut} {o : Ref} {st : List Slot}
    (inv : Inv env pl mem1 f rest b nx)
    (ht : At env mem1 f b nx heap log (f.pc + 1) s) (hlen : len = 1)
    (hlb : f.pc + len ≤ (env.meth f.m).code.body.length) (hst : f.stack = .obj o :: st)
    (h : (if o = 0#64 then raiseNew env .nullPointer ⟨f :: rest, heap, log⟩
      else continueAt env f rest heap (e o :: log) (f.pc + len) f.locals st) = some out) :
    wp (monitorBody env e) (fun _ s' => Cont env pl out s')
      (Thr env pl mem1 f rest b nx heap log len iv out) (Don env pl out) s := by
  unfold monitorBody
  refine wp_bind (wp_popObject ht hst fun s1 h1 => ?_)
  by_cases ho : o = 0#64
  · rw [if_pos ho] at h
    rw [if_neg (by simpa using ho)]
    exact wp_raise inv h1 hlb (by omega) (by omega) h
  · rw [if_neg ho] at h
    rw [if_pos ho]
    refine wp_modS ?_
    rw [show s1.log = log from h1.log]
    exact cont_next inv h rfl (h1.withLog _) (by omega)

theorem sim_monitorenter (inv : Inv env pl mem1 f rest b nx)
    (ht : At env mem1 f b nx heap log (f.pc + 1) s) (hlen : len = 1)
    (hlb : f.pc + len ≤ (env.meth f.m).code.body.length) :
    InstrSim env pl mem1 f rest b nx heap log len iv
      (exec env f rest heap log len .monitorenter) (monitorBody env .acquire) s := by
  intro out h
  obtain ⟨o, st, hst, h⟩ := exec_monitorenter h
  exact wp_monitor inv ht hlen hlb hst h

theorem sim_monitorexit (inv : Inv env pl mem1 f rest b nx)
    (ht : At env mem1 f b nx heap log (f.pc + 1) s) (hlen : len = 1)
    (hlb : f.pc + len ≤ (env.meth f.m).code.body.length) :
    InstrSim env pl mem1 f rest b nx heap log len iv
      (exec env f rest heap log len .monitorexit) (monitorBody env .release) s := by
  intro out h
  obtain ⟨o, st, hst, h⟩ := exec_monitorexit h
  exact wp_monitor inv ht hlen hlb hst h

theorem exec_athrow {out : SOut}
    (h : exec env f rest heap log len .athrow = some out) :
    ∃ e st, f.stack = .obj e :: st ∧
      (if e = 0#64 then raiseNew env .nullPointer ⟨f :: rest, heap, log⟩
      else (heap e).bind fun x => raise env e x.cls heap log (f :: rest)) = some out := by
  obtain ⟨m, pc, locals, stack, lock⟩ := f
  match stack, h with
  | [], h => exact absurd h nofun
  | .int _ :: _, h => exact absurd h nofun
  | .obj a :: st, h => exact ⟨a, st, rfl, h⟩

theorem sim_athrow (inv : Inv env pl mem1 f rest b nx)
    (ht : At env mem1 f b nx heap log (f.pc + 1) s) (hlen : len = 1)
    (hlb : f.pc + len ≤ (env.meth f.m).code.body.length) :
    InstrSim env pl mem1 f rest b nx heap log len iv
      (exec env f rest heap log len .athrow) (athrowBody env) s := by
  intro out h
  have hb := inv.body
  obtain ⟨e, st, hst, h⟩ := exec_athrow h
  unfold athrowBody
  refine wp_bind (wp_popObject ht hst fun s1 h1 => ?_)
  by_cases he : e = 0#64
  · rw [if_pos he] at h
    rw [if_pos he]
    exact wp_raise inv h1 hlb (by omega) (by omega) h
  · rw [if_neg he] at h
    rw [if_neg he]
    obtain ⟨x, hx, h⟩ := bind_some h
    refine wp_bind (wp_modS ?_)
    refine ⟨st, BitVec.ofNat 32 (f.pc + 1), e, heap, x, ?_, ?_, ?_, hx, Or.inl h⟩
    · have := h1.withExc s1.heap e
      rw [show s1.heap = heap from h1.heap] at this
      have e2 : s1.heap = heap := h1.heap
      subst e2
      exact this
    · rw [ip_toNat (by omega)]; omega
    · rw [ip_toNat (by omega)]; omega

end
end Avian.Interp
