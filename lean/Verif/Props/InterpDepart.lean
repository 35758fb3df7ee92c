import Verif.Props.Interp

/-
Where the interpreter departs from the specification: the parts of C41, C44, C46, C47, C50 and C51
that do not hold, with witnesses.
-/
namespace Avian.Interp

open Spec

/-- Nothing defined happens. -/
def Out.isUndef {α : Type} : Out α → Bool
  | .undef => true
  | _ => false

theorem Out.isUndef_iff {α : Type} {r : Out α} : r.isUndef = true ↔ r = .undef := by
  cases r <;> simp [Out.isUndef]

/-- A state represents a thread for which the specification defines the next step, but the
interpreter's step is undefined. -/
def UndefinedStep (code : List (BitVec 8)) (locals stack : List Slot) : Prop :=
  let f : Frame := ⟨1#64, 0, locals, stack, none⟩
  let env := exEnv (exMeth 0 locals.length 8 code []) exInc ⟨.int, 8, 0#64⟩
  Rep env (bottom f) (mkState f (fun _ => none) []) ⟨[f], fun _ => none, []⟩ ∧
    (∃ ss', Spec.step env ⟨[f], fun _ => none, []⟩ = some (.next ss')) ∧
    step env (bottom f).base (mkState f (fun _ => none) []) = .undef

/-- The step is defined and continues. -/
def continues : Option SOut → Bool
  | some (.next _) => true
  | _ => false

private theorem of_continues {r : Option SOut} (h : continues r = true) : ∃ ss', r = some (.next ss') := by
  unfold continues at h
  split at h
  · exact ⟨_, rfl⟩
  · exact absurd h Bool.false_ne_true

private theorem undefinedStep {code : List (BitVec 8)} {locals stack : List Slot}
    (h1 : stack.length ≤ 8) (h2 : locals.length ≤ 100)
    (h3 : continues (Spec.step (exEnv (exMeth 0 locals.length 8 code []) exInc ⟨.int, 8, 0#64⟩)
      ⟨[⟨1#64, 0, locals, stack, none⟩], fun _ => none, []⟩) = true)
    (h4 : (step (exEnv (exMeth 0 locals.length 8 code []) exInc ⟨.int, 8, 0#64⟩)
      (bottom ⟨1#64, 0, locals, stack, none⟩).base
      (mkState ⟨1#64, 0, locals, stack, none⟩ (fun _ => none) [])).isUndef = true) :
    UndefinedStep code locals stack := by
  refine ⟨rep_single (show 1000 < 2 ^ 31 by decide) ⟨rfl, rfl, ⟨fun _ => rfl, nofun, nofun⟩⟩ h1
    ?_ (show 0 < 2 ^ 31 by decide), of_continues h3, Out.isUndef_iff.1 h4⟩
  show locals.length + 4 + 8 ≤ 1000
  omega

/-- `idiv`, `irem`, `ldiv` and `lrem` of the most negative value by -1 are undefined, although
Java defines them. -/
theorem idiv_min_undefined :
    UndefinedStep [0x6c, 0xb1] [] [.int (-1#32), .int 0x80000000#32] ∧
    UndefinedStep [0x70, 0xb1] [] [.int (-1#32), .int 0x80000000#32] ∧
    UndefinedStep [0x6d, 0xb1] [] [.int (-1#32), .int (-1#32), .int 0#32, .int 0x80000000#32] ∧
    UndefinedStep [0x71, 0xb1] [] [.int (-1#32), .int (-1#32), .int 0#32, .int 0x80000000#32] :=
  ⟨undefinedStep (by decide) (by decide) (by decide +kernel) (by decide +kernel),
   undefinedStep (by decide) (by decide) (by decide +kernel) (by decide +kernel),
   undefinedStep (by decide) (by decide) (by decide +kernel) (by decide +kernel),
   undefinedStep (by decide) (by decide) (by decide +kernel) (by decide +kernel)⟩

/-- `f2l` of 2^63 is undefined, although Java defines it to saturate. -/
theorem f2l_large_undefined : UndefinedStep [0x8c, 0xb1] [] [.int 0x5f000000#32] :=
  undefinedStep (by decide) (by decide) (by decide +kernel) (by decide +kernel)

/-- The wide forms of the floating-point loads and stores are missing. -/
theorem wide_float_undefined :
    UndefinedStep [0xc4, 0x17, 0, 0, 0xb1] [.int 1#32] [] ∧
    UndefinedStep [0xc4, 0x38, 0, 0, 0xb1] [.int 1#32] [.int 2#32] ∧
    UndefinedStep [0xc4, 0x18, 0, 0, 0xb1] [.int 1#32, .int 2#32] [] ∧
    UndefinedStep [0xc4, 0x39, 0, 0, 0xb1] [.int 1#32, .int 2#32] [.int 2#32, .int 3#32] :=
  ⟨undefinedStep (by decide) (by decide) (by decide +kernel) (by decide +kernel),
   undefinedStep (by decide) (by decide) (by decide +kernel) (by decide +kernel),
   undefinedStep (by decide) (by decide) (by decide +kernel) (by decide +kernel),
   undefinedStep (by decide) (by decide) (by decide +kernel) (by decide +kernel)⟩

/-- `wide astore` of a return address is undefined (`popObject` on an integer slot). -/
theorem wide_astore_undefined : UndefinedStep [0xc4, 0x3a, 0, 0, 0xb1] [.int 1#32] [.int 7#32] :=
  undefinedStep (by decide) (by decide) (by decide +kernel) (by decide +kernel)

section
variable {env : Env} {pl : Place} {s : St} {f : Frame} {rest : List Frame} {heap : Heap}
  {log : List Ev} {st : List Slot}

private theorem ok_of_wp {x : M Unit} {P : St → Prop}
    (h : wp x (fun _ s' => P s') (fun _ => False) (fun _ _ => False) s) :
    ∃ s', x s = .ok () s' ∧ P s' := by
  unfold wp at h
  revert h
  generalize x s = r
  intro h
  cases r with
  | ok a s' => exact ⟨s', rfl, h⟩
  | _ => exact h.elim

private theorem nan_pushes {n : BitVec 32} {a b : FVal} (h : a = .nan ∨ b = .nan) :
    cmpPushes n a b = [n, n] := by
  rcases h with rfl | rfl
  · cases b <;> rfl
  · cases a with
    | nan => rfl
    | inf neg => cases neg <;> rfl
    | fin v => rfl

/-- `fcmpl` and `fcmpg` with an operand that is not a number push their result twice: the operand
stack has one slot more than specified. -/
theorem fcmp_nan_pushes_two {g : Bool} {a b : BitVec 32}
    (hbody : (env.meth f.m).code.body.length < 2 ^ 31)
    (hr : Rep env pl s ⟨f :: rest, heap, log⟩)
    (hx : (env.meth f.m).code.body[f.pc]? = some (if g then 0x96#8 else 0x95#8))
    (hst : f.stack = .int b :: .int a :: st) (hn : fval a = .nan ∨ fval b = .nan)
    (hnext : f.pc + 1 < (env.meth f.m).code.body.length) :
    ∃ s', step env pl.base s = .ok () s' ∧
      Rep env pl s' ⟨{ f with
        pc := f.pc + 1
        stack := i32 (if g then 1 else -1) :: i32 (if g then 1 else -1) :: st } :: rest, heap, log⟩ := by
  obtain ⟨b0, nx, ht, hg, hpc, hch, hlow⟩ := hr
  have hroom := ht.room
  have hfits := ht.fits
  simp only at ht hroom hfits
  rw [hst] at hfits
  simp only [List.length_cons] at hfits
  refine ok_of_wp (x := step env pl.base) (P := fun s' => Rep env pl s' _) (wp_step ?_)
  have hx' : u1 (env.meth f.m).code.body f.pc = some (if g then 0x96 else 0x95) := by
    unfold u1; rw [hx]; cases g <;> rfl
  have hdis : dispatch env pl.base ((BitVec.ofNat 8 (if g then 0x96 else 0x95)).toNat) =
      fcmpBody env (BitVec.ofInt 32 (if g then 1 else -1)) := by
    cases g <;> rfl
  refine wp_bind (wp_fetchU1 ht hbody rfl hx' fun s1 h1 => ?_)
  rw [hdis]
  refine wp_bind (wp_popInt h1 hst fun s2 h2 => wp_bind (wp_popInt h2 rfl fun s3 h3 => ?_))
  rw [nan_pushes hn]
  refine wp_bind (wp_pushInt h3 (by simp only; omega) fun s4 h4 => wp_bind
    (wp_pushInt h4 (by simp only [List.length_cons]; omega) fun s5 h5 => wp_pure ?_))
  obtain ⟨_, _, hb0, _⟩ := hch.bounds (by omega)
  refine ⟨b0, nx, h5.self, ⟨hg.locals, hg.native, hg.lock⟩, by simp only; omega,
    hch.congr h5.below, ?_⟩
  intro i hi
  rw [h5.below i (by simp only; omega)]
  exact hlow i hi

/-- Such a state exists: 0.0 compared with a quiet not-a-number. -/
example : fval 0x7fc00000#32 = .nan ∧ ∃ s',
    step (exEnv (exMeth 0 0 8 [0x95, 0xb1] []) exInc ⟨.int, 8, 0#64⟩) 0
      (mkState ⟨1#64, 0, [], [.int 0x7fc00000#32, .int 0#32], none⟩ (fun _ => none) []) = .ok () s' ∧
    Rep (exEnv (exMeth 0 0 8 [0x95, 0xb1] []) exInc ⟨.int, 8, 0#64⟩)
      (bottom ⟨1#64, 0, [], [.int 0x7fc00000#32, .int 0#32], none⟩) s'
      ⟨[⟨1#64, 1, [], [.int (-1#32), .int (-1#32)], none⟩], fun _ => none, []⟩ :=
  ⟨by decide +kernel, fcmp_nan_pushes_two (g := false) (st := [])
    (f := ⟨1#64, 0, [], [.int 0x7fc00000#32, .int 0#32], none⟩)
    (pl := bottom ⟨1#64, 0, [], [.int 0x7fc00000#32, .int 0#32], none⟩)
    (by decide)
    (rep_single (by decide) ⟨rfl, rfl, ⟨fun _ => rfl, nofun, nofun⟩⟩ (by decide) (by decide)
      (by decide)) rfl rfl (Or.inr (by decide +kernel)) (by decide)⟩

/-- Reading a `char` field of 32768 or more gives a negative `int`. -/
theorem char_field_negative {o : Ref} {x : Obj} {hi lo : BitVec 8} {idx : Nat} {fd : Field}
    (hbody : (env.meth f.m).code.body.length < 2 ^ 31)
    (hr : Rep env pl s ⟨f :: rest, heap, log⟩)
    (hx : (env.meth f.m).code.body[f.pc]? = some 0xb4#8)
    (h1 : (env.meth f.m).code.body[f.pc + 1]? = some hi)
    (h2 : (env.meth f.m).code.body[f.pc + 2]? = some lo)
    (hidx : idx = hi.toNat * 256 + lo.toNat)
    (hfd : env.resolveField f.m (BitVec.ofNat 16 idx) = some fd) (hk : fd.kind = .char)
    (hst : f.stack = .obj o :: st) (ho : o ≠ 0#64) (hox : heap o = some x)
    (hbig : 32768 ≤ leNat x.bytes fd.offset 2)
    (hnext : f.pc + 3 < (env.meth f.m).code.body.length) :
    ∃ s', step env pl.base s = .ok () s' ∧
      Rep env pl s' ⟨{ f with
        pc := f.pc + 3
        stack := i32 (leNat x.bytes fd.offset 2 - 65536) :: st } :: rest, heap, log⟩ := by
  obtain ⟨b0, nx, ht, hg, hpc, hch, hlow⟩ := hr
  have hroom := ht.room
  have hfits := ht.fits
  simp only at ht hroom hfits
  rw [hst] at hfits
  simp only [List.length_cons] at hfits
  refine ok_of_wp (x := step env pl.base) (P := fun s' => Rep env pl s' _) (wp_step ?_)
  have hx' : u1 (env.meth f.m).code.body f.pc = some 0xb4 := by unfold u1; rw [hx]; rfl
  have hi' : u2 (env.meth f.m).code.body (f.pc + 1) = some idx := by
    unfold u2 u1; rw [h1, h2, hidx]; rfl
  refine wp_bind (wp_fetchU1 ht hbody rfl hx' fun s1 t1 => ?_)
  show wp (getfieldBody env) _ _ _ s1
  unfold getfieldBody
  refine wp_peek0 t1 hst ?_
  rw [if_pos ho]
  refine wp_bind (wp_fetchU2 t1 hbody rfl hi' fun s2 t2 => ?_)
  refine wp_bind (wp_getS (wp_bind (wp_frameMethod t2 (wp_bind (wp_ofOpt hfd ?_)))))
  refine wp_bind (wp_popObject t2 hst fun s3 t3 => wp_bind (wp_ofOpt (a := x) ?_ ?_))
  · rw [t2.heap]; exact hox
  · unfold pushField
    rw [hk]
    simp only
    refine wp_pushInt t3 (by simp only; omega) fun s4 t4 => ?_
    have hlt := leNat_lt x.bytes 2 fd.offset
    rw [sext16 (by omega)] at t4
    have e : signed 32768 (leNat x.bytes fd.offset 2) = leNat x.bytes fd.offset 2 - 65536 := by
      unfold signed
      split <;> omega
    rw [e] at t4
    obtain ⟨_, _, hb0, _⟩ := hch.bounds (by omega)
    refine ⟨b0, nx, t4.self, ⟨hg.locals, hg.native, hg.lock⟩, by simp only; omega,
      hch.congr t4.below, ?_⟩
    intro i hi
    rw [t4.below i (by simp only; omega)]
    exact hlow i hi

/-- Such a state exists. -/
example : ∃ s', step (exEnv (exMeth 0 0 8 [180, 0, 2, 0xb1] []) exInc ⟨.char, 8, 0#64⟩) 0
      (mkState ⟨1#64, 0, [], [.obj 5], none⟩
        (fun o => if o = 5#64 then some ⟨7#64, none, fun _ => 0xff#8⟩ else none) []) = .ok () s' ∧
    Rep (exEnv (exMeth 0 0 8 [180, 0, 2, 0xb1] []) exInc ⟨.char, 8, 0#64⟩)
      (bottom ⟨1#64, 0, [], [.obj 5], none⟩) s'
      ⟨[⟨1#64, 3, [], [.int (-1#32)], none⟩],
        fun o => if o = 5#64 then some ⟨7#64, none, fun _ => 0xff#8⟩ else none, []⟩ :=
  char_field_negative (f := ⟨1#64, 0, [], [.obj 5], none⟩)
    (pl := bottom ⟨1#64, 0, [], [.obj 5], none⟩) (o := 5) (x := ⟨7#64, none, fun _ => 0xff#8⟩)
    (fd := ⟨.char, 8, 0#64⟩) (hi := 0) (lo := 2) (idx := 2)
    (by decide)
    (rep_single (by decide) ⟨rfl, rfl, ⟨fun _ => rfl, nofun, nofun⟩⟩ (by decide) (by decide)
      (by decide)) rfl rfl rfl rfl rfl rfl rfl (by decide) rfl (by decide) (by decide)

/-- The monitor operations and the first array element of object 5 after some steps. -/
def observe : RunRes → Option (List Ev × Option Ref)
  | .running s | .done _ s => some (s.log,
    match s.heap 5 with
    | some x => match x.arr with
      | some (.ref (v :: _)) => some v
      | _ => none
    | none => none)
  | _ => none

/-- `aastore` does not check the class of the value: object 6 of class 8 is stored in array 5 of
element class 7, where the specification raises an exception. -/
theorem aastore_unchecked :
    let heap : Heap := fun o =>
      if o = 5#64 then some ⟨7#64, some (.ref [0#64]), zeroBytes⟩
      else if o = 6#64 then some ⟨8#64, none, zeroBytes⟩ else none
    let f : Frame := ⟨1#64, 0, [], [.obj 6, .int 0, .obj 5], none⟩
    let env := exEnv (exMeth 0 0 8 [0x53, 0xb1] []) exInc ⟨.int, 8, 0#64⟩
    storeAllowed env heap 7#64 [.obj 6] = false ∧
    (∃ h l, Spec.step env ⟨[f], heap, []⟩ = some (.uncaught 100#64 h l)) ∧
    observe (run env 0 1 (mkState f heap [])) = some ([], some 6#64) :=
  ⟨by decide +kernel, ⟨_, _, rfl⟩, by decide +kernel⟩

/-- A synchronized instance method that assigns its variable 0 releases the monitor of whatever
object that variable then holds: here it locked object 5 and releases object 6. -/
theorem unlock_wrong_object :
    let m : Meth := ⟨false, true, false, 2, 0#64, ⟨[0x2b, 0x4b, 0xb1], 2, 8, []⟩⟩
    let main : Meth := exMeth 0 0 8 [0xb6, 0, 1, 0xb1] []
    let env := exEnv main m ⟨.int, 8, 0#64⟩
    let heap : Heap := fun o => some ⟨7#64, none, zeroBytes⟩
    observe (run env 0 4 (mkState ⟨1#64, 0, [], [.obj 6, .obj 5], none⟩ heap [])) =
      some ([.release 6, .acquire 5], none) := by decide +kernel

end

end Avian.Interp
