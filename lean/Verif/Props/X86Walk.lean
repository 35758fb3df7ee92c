import Verif.Codegen.Walk
import Verif.Props.X86Call

/-
**C91.** Walking the stack of compiled methods.
-/
namespace Avian.X86

open Cpu (Byte Width R State Fpu)

/-! ### Specification -/

/-- What is at the place that a call in a compiled method returns to.  The called method has `site` words of arguments, rounded up; where there
are tail calls, it pops them, and the stack pointer is set back, if there are more than two. -/
structure Returned (fp tails : Bool) (code : List Byte) (k site : Nat) : Prop where
  inside : k ≤ code.length
  entered : skipCheck code + (if fp then 4 else 0) < k
  here : code.getD k 0 ≠ 0xc3#8 ∧ (fp = true → code.getD k 0 ≠ 0x5d#8)
  args : 2 ≤ site ∧ site < 2 ^ 26
  adjust : tails = true → if 2 < site then ∃ tmp rest, code.drop k = adjustFrame (site - 2) tmp ++ rest
    else ¬ (code.getD k 0 = 0x48#8 ∧ (code.getD (k + 1) 0 = 0x83#8 ∨ code.getD (k + 1) 0 = 0x81#8) ∧ code.getD (k + 2) 0 = 0xec#8)

/-- By how much the return address of the running method is lower than the calling one has left it: methods that were called by tail calls
move it, if they have more arguments. -/
def moved (tails : Bool) (target : Option Nat) (site : Nat) : Int :=
  match tails, target with
  | true, some p => argumentFootprint p - site
  | _, _ => 0

/-- A method that has called another one: where it will go on, and the words of arguments of the method that it has called. -/
structure Caller where
  method : Compiled
  at_ : Nat
  site : Nat

/-- The frames of `l`, from the last one called; `slot` is the address of the return address that leads to the first of them, `target` is the
parameter footprint of the method that is running.  At the end is the return address `ip` in `last`. -/
inductive Frames (fp tails : Bool) (mem : BitVec 64 → Byte) : Option Nat → BitVec 64 → List Caller → BitVec 64 → BitVec 64 → Prop
  | done {target : Option Nat} {slot ip : BitVec 64} (h : Holds mem slot .q ip) : Frames fp tails mem target slot [] ip slot
  | call {target : Option Nat} {slot S ip last : BitVec 64} {c : Caller} {l : List Caller}
    (h : Holds mem slot .q (c.method.start + BitVec.ofNat 64 c.at_))
    (hr : Returned fp tails c.method.code c.at_ c.site)
    (hsize : c.method.footprint < 2 ^ 26 ∧ c.method.code.length < 2 ^ 31 ∧ ∀ p, target = some p → p < 2 ^ 26)
    (hfit : tails = true → (c.site : Int) ≤ c.method.footprint + argumentFootprint (target.getD 0))
    (hS : S = slot + BitVec.ofInt 64 (8 * (c.method.footprint + frameHeaderSize fp + moved tails target c.site)))
    (hp : fp = true → Holds mem (slot - 8) .q (S - 8 : BitVec 64))
    (rest : Frames fp tails mem (some c.method.parameters) S l ip last) : Frames fp tails mem target slot (c :: l) ip last

/-! ### The next frame -/

theorem read_holds {mem : BitVec 64 → Byte} {a v : BitVec 64} (h : Holds mem a .q v) : Cpu.readMem mem a .q = v := by
  have := holds_unique (holds_read mem a .q) h
  rwa [lo_q] at this

theorem drop_getD {l : List Byte} {k : Nat} {m : List Byte} (h : l.drop k = m) (i : Nat) : l.getD (k + i) 0 = m.getD i 0 := by
  rw [← h, List.getD_eq_getElem?_getD, List.getD_eq_getElem?_getD, List.getElem?_drop]

theorem adjust_bytes (d : Nat) (h0 : 0 < d) (hd : d < 2 ^ 26) (tmp : Register) :
    adjustFrame d tmp = if d < 16 then [0x48#8, 0x83#8, 0xec#8, BitVec.ofNat 8 (d * 8)] else [0x48#8, 0x81#8, 0xec#8] ++ append4 (BitVec.ofNat 64 (d * 8)) := by
  have hn : ¬ BitVec.ofNat 64 (d * 8) = 0 := by
    intro h
    have := congrArg BitVec.toNat h
    rw [BitVec.toNat_ofNat] at this
    simp at this
    omega
  have h8 : fitsInInt8 (BitVec.ofNat 64 (d * 8)) = decide (d < 16) := by
    rw [Bool.eq_iff_iff, decide_eq_true_iff, fitsInInt8, beq_iff_eq, ← BitVec.toInt_inj]
    rw [BitVec.toInt_signExtend_of_le (by omega), BitVec.toInt_setWidth]
    rw [BitVec.toInt_eq_toNat_cond, BitVec.toNat_ofNat]
    rw [Nat.mod_eq_of_lt (a := d * 8) (by omega), Int.bmod_def]
    omega
  unfold adjustFrame subtractCR
  rw [if_neg hn, if_pos (small_fits d (by omega)), immediateR, h8]
  by_cases h : d < 16
  · have e : append (BitVec.ofNat 64 (d * 8)) = [BitVec.ofNat 8 (d * 8)] := by
      simp only [append, List.cons.injEq, and_true]
      apply BitVec.eq_of_toNat_eq
      simp only [BitVec.toNat_setWidth, BitVec.toNat_ofNat]
      omega
    rw [if_pos h, decide_eq_true h, if_pos rfl, e]
    rfl
  · rw [if_neg h, decide_eq_false h]
    rfl

theorem read4_append (v : Nat) (hv : v < 2 ^ 32) (code rest : List Byte) (k : Nat) (h : code.drop k = append4 (BitVec.ofNat 64 v) ++ rest) :
    read4 code k = v := by
  unfold read4
  have h0 := drop_getD h 0
  rw [drop_getD h 1, drop_getD h 2, drop_getD h 3]
  rw [Nat.add_zero] at h0
  rw [h0]
  have : ((append4 (BitVec.ofNat 64 v) ++ rest).getD 3 0 ++ ((append4 (BitVec.ofNat 64 v) ++ rest).getD 2 0 ++
      ((append4 (BitVec.ofNat 64 v) ++ rest).getD 1 0 ++ (append4 (BitVec.ofNat 64 v) ++ rest).getD 0 0 : BitVec 16) : BitVec 24) : BitVec 32) =
      (BitVec.ofNat 64 v).setWidth 32 := by
    generalize BitVec.ofNat 64 v = w
    simp only [append4, List.cons_append, List.nil_append, List.getD_cons_zero, List.getD_cons_succ]
    apply BitVec.eq_of_getLsbD_eq
    intro i hi
    simp only [BitVec.getLsbD_append, BitVec.getLsbD_extractLsb', BitVec.getLsbD_setWidth]
    grind
  rw [this, BitVec.toNat_setWidth, BitVec.toNat_ofNat]
  omega

theorem adjustment_site {fp : Bool} {code : List Byte} {k site : Nat} (h : Returned fp true code k site) : adjustment code k = site - 2 := by
  have ha := h.adjust rfl
  have hb := h.args
  unfold adjustment
  by_cases hs : 2 < site
  · rw [if_pos hs] at ha
    obtain ⟨tmp, rest, ha⟩ := ha
    rw [adjust_bytes _ (by omega) (by omega)] at ha
    have h0 := drop_getD ha 0
    have h1 := drop_getD ha 1
    have h2 := drop_getD ha 2
    have h3 := drop_getD ha 3
    rw [Nat.add_zero] at h0
    by_cases hl : site - 2 < 16
    · rw [if_pos hl] at h0 h1 h2 h3
      rw [h0, h1, h2, h3]
      simp
      omega
    · rw [if_neg hl] at h0 h1 h2 ha
      have h4 : code.drop (k + 3) = append4 (BitVec.ofNat 64 ((site - 2) * 8)) ++ rest := by
        rw [← List.drop_drop, ha]
        rfl
      rw [h0, h1, h2, read4_append _ (by omega) code rest (k + 3) h4]
      simp
  · rw [if_neg hs] at ha
    rw [if_neg ha]
    omega

theorem offset_site {fp tails : Bool} {code : List Byte} {k site n : Nat} {target : Option Nat} (h : Returned fp tails code k site) :
    frameOffset fp tails code n false target k = n + frameHeaderSize fp + moved tails target site := by
  have hb := h.args
  unfold frameOffset moved
  cases tails with
  | false => simp
  | true =>
    cases target with
    | none => simp
    | some p =>
      simp only [adjustment_site h]
      simp only [Bool.false_eq_true, if_false]
      omega

theorem words (x : Int) (h : 0 ≤ x ∧ x < 2 ^ 30) : (BitVec.ofInt 32 x).setWidth 64 * 8 = BitVec.ofInt 64 (8 * x) := by
  rw [ofInt_setWidth x (by omega), BitVec.ofInt_mul, BitVec.mul_comm]
  rfl

theorem argument_bounds (p : Nat) : 2 ≤ argumentFootprint p ∧ argumentFootprint p ≤ p + 2 := by
  unfold argumentFootprint
  omega

/-- **The caller's frame.**  From the address of the return address to it, and from the size of the frame of the calling method, one gets to
the return address of that one. -/
theorem next_ok {fp tails : Bool} {mem : BitVec 64 → Byte} {code : List Byte} {k site n : Nat} {target : Option Nat} {slot S back : BitVec 64}
    (hr : Returned fp tails code k site) (hn : n < 2 ^ 26) (ht : ∀ p, target = some p → p < 2 ^ 26)
    (hfit : tails = true → (site : Int) ≤ n + argumentFootprint (target.getD 0))
    (hS : S = slot + BitVec.ofInt 64 (8 * (n + frameHeaderSize fp + moved tails target site)))
    (hp : fp = true → Holds mem (slot - 8) .q (S - 8 : BitVec 64)) (hb : Holds mem S .q back) :
    nextFrame fp tails mem code n false target k slot = some (back, S) := by
  have hent := hr.entered
  have hargs := hr.args
  have hh : frameHeaderSize fp ≤ 2 ∧ 1 ≤ frameHeaderSize fp := by unfold frameHeaderSize; split <;> omega
  have hx : (0 : Int) ≤ n + frameHeaderSize fp + moved tails target site ∧ n + frameHeaderSize fp + moved tails target site < (2 : Int) ^ 30 := by
    cases tails with
    | false => simp only [moved]; omega
    | true =>
      cases target with
      | none => simp only [moved]; omega
      | some p =>
        have := ht p rfl
        have h1 := hfit rfl
        have h2 := argument_bounds p
        simp only [Option.getD_some] at h1
        simp only [moved]
        omega
  unfold nextFrame
  simp only
  rw [if_neg (by have := hr.inside; omega), if_neg (by omega), if_neg, if_neg hr.here.1, offset_site hr, words _ hx, ← hS]
  · have e : ¬ (fp = true ∧ True ∧ (Cpu.readMem mem (slot - 8) .q + 8 ≠ S ∨
        Cpu.readMem mem (Cpu.readMem mem (slot - 8) .q + 8) .q ≠ Cpu.readMem mem S .q)) := by
      rintro ⟨hfp, _, h⟩
      rw [read_holds (hp hfp), BitVec.sub_add_cancel] at h
      simp at h
    rw [if_neg e, read_holds hb]
  · rintro ⟨hfp, h⟩
    rcases h with h | h
    · rw [hfp] at hent
      simp at hent
      omega
    · exact hr.here.2 hfp h

theorem frames_slot {fp tails : Bool} {mem : BitVec 64 → Byte} {target : Option Nat} {slot ip last : BitVec 64} {l : List Caller}
    (h : Frames fp tails mem target slot l ip last) :
    ∃ v, Holds mem slot .q v ∧ v = (match l with | [] => ip | c :: _ => c.method.start + BitVec.ofNat 64 c.at_) := by
  cases h with
  | done h => exact ⟨_, h, rfl⟩
  | call h => exact ⟨_, h, rfl⟩

theorem ip_offset {fp tails : Bool} {code : List Byte} {k site : Nat} (hr : Returned fp tails code k site) (hl : code.length < 2 ^ 31)
    (start : BitVec 64) : (start + BitVec.ofNat 64 k - start).toNat = k := by
  have := hr.inside
  rw [BitVec.add_comm, BitVec.add_sub_cancel, BitVec.toNat_ofNat]
  omega

/-- **The whole stack.**  The walk finds the methods that are on the stack, each with the place where it will go on, in order, and where the
first of them was called from. -/
theorem walk_ok {fp tails : Bool} {mem : BitVec 64 → Byte} {lookup : BitVec 64 → Option Compiled} {target : Option Nat} {slot ip last : BitVec 64}
    {l : List Caller} (h : Frames fp tails mem target slot l ip last)
    (hf : ∀ c ∈ l, lookup (c.method.start + BitVec.ofNat 64 c.at_) = some c.method) (hend : lookup ip = none) (fuel : Nat) (hfuel : l.length < fuel) :
    walk fp tails mem lookup fuel false target (Cpu.readMem mem slot .q) slot =
      some (l.map fun c => (c.method, c.method.start + BitVec.ofNat 64 c.at_), ip, last) := by
  induction h generalizing fuel with
  | done h =>
    obtain ⟨f, rfl⟩ : ∃ f, fuel = f + 1 := ⟨fuel - 1, by simp at hfuel; omega⟩
    rw [walk, read_holds h, hend]
    rfl
  | @call target slot S ip last c l h hr hsize hfit hS hp rest ih =>
    obtain ⟨f, rfl⟩ : ∃ f, fuel = f + 1 := ⟨fuel - 1, by omega⟩
    obtain ⟨v, hv, _⟩ := frames_slot rest
    have ih := ih (fun c hc => hf c (List.mem_cons_of_mem _ hc)) hend f (by simp only [List.length_cons] at hfuel; omega)
    rw [read_holds hv] at ih
    rw [walk, read_holds h, hf c (by simp)]
    simp only
    rw [ip_offset hr hsize.2.1, next_ok hr hsize.1 hsize.2.2 hfit hS hp hv]
    simp only
    rw [ih]
    rfl

/-! ### What the processor has left on the stack -/

theorem frame_distance {fp : Bool} {n : Nat} {T S : BitVec 64} (h : word T (n + if fp then 1 else 0) = S) :
    S = (T - 8) + BitVec.ofInt 64 (8 * (n + frameHeaderSize fp + 0)) := by
  rw [← h, word]
  have : (8 * ((n : Int) + frameHeaderSize fp + 0)) = ((8 * (n + frameHeaderSize fp) : Nat) : Int) := by omega
  rw [this, BitVec.ofInt_natCast, show n + frameHeaderSize fp = n + (if fp then 1 else 0) + 1 by unfold frameHeaderSize; split <;> omega]
  rw [Nat.mul_add 8 _ 1, Nat.mul_one, BitVec.ofNat_add (8 * (n + _)) 8, BitVec.add_comm (BitVec.ofNat 64 _) (BitVec.ofNat 64 8), ← BitVec.add_assoc]
  rw [show T - 8 + BitVec.ofNat 64 8 = T from BitVec.sub_add_cancel T 8]

/-- **After a call.**  A method that was entered in the state `s` and has a frame has called another one, which has a frame, too: from the address
at which that one has its return address, and with the memory as it is then, one gets to the return address of the first, if that has not been
overwritten. -/
theorem called_frame {fp tails : Bool} {n m : Nat} {s t u u' t' w : State} {r back : BitVec 64} {scratch : List R} {code : List Byte} {k site : Nat}
    {target : Option Nat} (hn : n < 2 ^ 26) (he : Entered fp n s t) (hm : Minded fp s t u) (hc : Called u u' r scratch)
    (hsc : fp = true → num4 rbp ∉ scratch) (he' : Entered fp m u' t') (hm' : Minded fp u' t' w)
    (hr : Returned fp tails code k site) (ht : tails = true → ∀ p, target = some p → argumentFootprint p = site)
    (hb : Holds w.mem (s.gpr (num4 rsp)) .q back) :
    Holds w.mem (u'.gpr (num4 rsp)) .q r ∧
      nextFrame fp tails w.mem code n false target k (u'.gpr (num4 rsp)) = some (back, s.gpr (num4 rsp)) := by
  have hv : Holds u'.mem (u'.gpr (num4 rsp)) .q r := by
    rw [hc.stack]
    exact hc.stored.value
  refine ⟨minded_back he' hm' hv, ?_⟩
  have hmv : moved tails target site = 0 := by
    unfold moved
    split
    · rename_i p
      rw [ht rfl p rfl]
      omega
    · rfl
  have hargs := hr.args
  have e4 : u.gpr (num4 rsp) - 8 = u'.gpr (num4 rsp) := hc.stack.symm
  have eS : s.gpr (num4 rsp) = u'.gpr (num4 rsp) + BitVec.ofInt 64 (8 * (n + frameHeaderSize fp + 0)) := by
    rw [← e4, hm.stack]
    exact frame_distance he.stack
  cases htl : tails with
  | false =>
    subst htl
    have hr' : Returned fp false code k 2 := ⟨hr.inside, hr.entered, hr.here, by omega, fun h => by cases h⟩
    have : nextFrame fp false w.mem code n false none k (u'.gpr (num4 rsp)) = some (back, s.gpr (num4 rsp)) := by
      refine next_ok hr' hn (fun p h => by cases h) (fun h => by cases h) (by simpa [moved] using eS) (fun hfp => ?_) hb
      obtain ⟨h1, h2⟩ := he'.pointer hfp
      obtain ⟨h3, h4⟩ := hm'.pointer hfp
      have e : u'.gpr (num4 rbp) = s.gpr (num4 rsp) - 8 := by
        rw [hc.stored.gpr _ (by simp only [List.mem_cons, not_or]; exact ⟨by decide, hsc hfp⟩), (hm.pointer hfp).1, ← (he.pointer hfp).1]
        exact (BitVec.add_sub_cancel _ _).symm
      rw [← e]
      intro i hi
      rw [h2 i hi, h4 i hi]
    rw [← this]
    unfold nextFrame frameOffset
    cases target <;> rfl
  | true =>
    subst htl
    have hp : fp = true → Holds w.mem (u'.gpr (num4 rsp) - 8) .q (s.gpr (num4 rsp) - 8 : BitVec 64) := by
      intro hfp
      obtain ⟨h1, h2⟩ := he'.pointer hfp
      obtain ⟨h3, h4⟩ := hm'.pointer hfp
      have e : u'.gpr (num4 rbp) = s.gpr (num4 rsp) - 8 := by
        rw [hc.stored.gpr _ (by simp only [List.mem_cons, not_or]; exact ⟨by decide, hsc hfp⟩), (hm.pointer hfp).1, ← (he.pointer hfp).1]
        exact (BitVec.add_sub_cancel _ _).symm
      rw [← e]
      intro i hi
      rw [h2 i hi, h4 i hi]
    cases target with
    | some p =>
      have := ht rfl p rfl
      have hb2 := argument_bounds p
      have hpp : p < 2 ^ 26 := by unfold argumentFootprint at this; omega
      exact next_ok hr hn (fun q h => by simp only [Option.some.injEq] at h; omega) (fun _ => by simp only [Option.getD_some]; omega) (by rw [hmv]; exact eS) hp hb
    | none =>
      have e : nextFrame fp true w.mem code n false none k (u'.gpr (num4 rsp)) = nextFrame fp false w.mem code n false none k (u'.gpr (num4 rsp)) := rfl
      rw [e]
      have hr' : Returned fp false code k 2 := ⟨hr.inside, hr.entered, hr.here, by omega, fun h => by cases h⟩
      exact next_ok hr' hn (fun p h => by cases h) (fun h => by cases h) (by simpa [moved] using eS) hp hb

/-- A tail call (`tail_ok`) moves the return address by just as much as the distance to the return address of the caller changes. -/
theorem tail_moves (x : Int) (site p q : Nat) (slot S : BitVec 64) (h : S = slot + BitVec.ofInt 64 (8 * (x + moved true (some p) site))) :
    S = (slot - BitVec.ofInt 64 (8 * ((argumentFootprint q : Int) - argumentFootprint p))) + BitVec.ofInt 64 (8 * (x + moved true (some q) site)) := by
  rw [h]
  simp only [moved]
  rw [show (8 * (x + ((argumentFootprint q : Int) - site))) = 8 * ((argumentFootprint q : Int) - argumentFootprint p) + 8 * (x + ((argumentFootprint p : Int) - site)) by omega,
    BitVec.ofInt_add, ← BitVec.add_assoc, BitVec.sub_add_cancel]

/-! ### The method that is running -/

/-- The first bytes of a method: maybe a check for stack overflow, and the allocation of the frame. -/
structure Starts (fp : Bool) (n : Nat) (code chk : List Byte) : Prop where
  check : chk = [] ∨ chk.length = 13 ∧ chk.getD 0 0 = 0x48#8 ∧ chk.getD 1 0 = 0x39#8
  start : ∃ tmp rest, code = chk ++ allocateFrame fp n tmp ++ rest
  size : 0 < n ∧ n < 2 ^ 26

theorem check_bytes (handler pc : BitVec 64) (offset : BitVec 32) (ho : fitsInInt8 (offset.signExtend 64) = false) (chk : List Byte)
    (h : resolve pc (checkStackOverflow handler offset).tasks (checkStackOverflow handler offset).code = some chk) :
    chk.length = 13 ∧ chk.getD 0 0 = 0x48#8 ∧ chk.getD 1 0 = 0x39#8 := by
  have e : compareRM .q rsp ⟨rbx, offset, none, 1⟩ = [0x48#8, 0x39#8, 0xa3#8] ++ append4 (offset.signExtend 64) := by
    unfold compareRM modrmSibImm
    have h0 : ¬ (offset = 0 ∧ regCode rbx ≠ 5#8) := by
      rintro ⟨rfl, _⟩
      revert ho
      decide
    simp only
    have h1 : maybeRexRM .q rsp ⟨rbx, offset, none, 1⟩ = [0x48#8] := by
      unfold maybeRexRM
      simp only
      decide
    have h2 : modrmSib 0x80#8 rsp 1 none rbx = [0xa3#8] := by decide
    rw [if_neg h0, ho, h1, h2]
    rfl
  have e2 : checkStackOverflow handler offset = emitAll ⟨[], []⟩ [.code (compareRM .q rsp ⟨rbx, offset, none, 1⟩), .jump [0x0f#8, 0x8d#8] handler] := by
    unfold checkStackOverflow branchRM
    rfl
  rw [e2, resolve_linked, e] at h
  simp only [linked] at h
  split at h
  · simp only [Option.map_some, Option.some.injEq] at h
    rw [← h]
    exact ⟨rfl, rfl, rfl⟩
  · cases h

theorem getD_left (a b : List Byte) (i : Nat) (h : i < a.length) : (a ++ b).getD i 0 = a.getD i 0 := by
  rw [List.getD_eq_getElem?_getD, List.getD_eq_getElem?_getD, List.getElem?_append_left h]

theorem alloc_bytes (fp : Bool) (n : Nat) (h : 0 < n ∧ n < 2 ^ 26) (tmp : Register) :
    (allocateFrame fp n tmp).getD 0 0 = (if fp then 0x55#8 else 0x48#8) ∧ (allocateFrame fp n tmp).getD 1 0 ≠ 0x39#8 ∧
      (if fp then 4 else 0) + 4 ≤ (allocateFrame fp n tmp).length := by
  have e : subtractCR .q (BitVec.ofNat 64 (n * 8)) rsp tmp = adjustFrame n tmp := rfl
  unfold allocateFrame
  rw [e, adjust_bytes n h.1 h.2]
  cases fp with
  | false =>
    by_cases h : n < 16
    · rw [if_pos h]; simp
    · rw [if_neg h]; simp [append4]
  | true =>
    have e1 : pushR rbp = [0x55#8] := by decide
    have e2 : moveRR .q rsp .q rbp = [0x48#8, 0x89#8, 0xe5#8] := by decide
    rw [e1, e2]
    by_cases h : n < 16
    · rw [if_pos h]; simp
    · rw [if_neg h]; simp [append4]

/-- The check is recognised if it is there, and only then. -/
theorem skip_check {fp : Bool} {n : Nat} {code chk : List Byte} (h : Starts fp n code chk) :
    skipCheck code = chk.length ∧ chk.length + (if fp then 4 else 0) + 4 ≤ code.length := by
  obtain ⟨tmp, rest, rfl⟩ := h.start
  obtain ⟨a0, a1, al⟩ := alloc_bytes fp n h.size tmp
  refine ⟨?_, by simp only [List.length_append]; omega⟩
  unfold skipCheck
  rcases h.check with rfl | ⟨hl, h0, h1⟩
  · rw [List.nil_append, getD_left _ _ 1 (by omega), if_neg (fun h => a1 h.2)]
    rfl
  · rw [List.append_assoc, getD_left _ _ 0 (by omega), getD_left _ _ 1 (by omega), h0, h1, if_pos ⟨rfl, rfl⟩, hl]

/-- Where a method can be interrupted, and by how many words the stack pointer is below the return address there. -/
inductive Depth (fp : Bool) (n : Nat) (code chk : List Byte) : Nat → Nat → Prop
  | entry {k : Nat} (h : k ≤ chk.length) : Depth fp n code chk k 0
  | pushed {k : Nat} (hf : fp = true) (h : chk.length < k) (h' : k ≤ chk.length + 4) : Depth fp n code chk k 1
  | body {k : Nat} (h : chk.length + (if fp then 4 else 0) < k) (hl : k < code.length) (h1 : code.getD k 0 ≠ 0xc3#8)
    (h2 : fp = true → code.getD k 0 ≠ 0x5d#8) : Depth fp n code chk k (n + if fp then 1 else 0)
  | popping {k : Nat} (hf : fp = true) (h : chk.length + 4 < k) (hl : k < code.length) (h1 : code.getD k 0 = 0x5d#8) : Depth fp n code chk k 1
  | leaving {k : Nat} (h : chk.length + (if fp then 4 else 0) < k) (hl : k < code.length) (h1 : code.getD k 0 = 0xc3#8) : Depth fp n code chk k 0

/-- **The running method.**  Wherever it is interrupted, with the stack pointer of then, its return address is found. -/
theorem recent_ok {fp tails : Bool} {n k d : Nat} {code chk : List Byte} (h : Starts fp n code chk) (hd : Depth fp n code chk k d)
    (target : Option Nat) (ht : tails = true → target = none) (mem : BitVec 64 → Byte) (S back : BitVec 64) (hb : Holds mem S .q back)
    (sp : BitVec 64) (hsp : word sp d = S) : nextFrame fp tails mem code n true target k sp = some (back, S) := by
  obtain ⟨hs, hl⟩ := skip_check h
  have hsz := h.size
  unfold nextFrame
  simp only [hs, if_true]
  cases hd with
  | entry hk =>
    rw [if_neg (by omega), if_pos hk]
    have : sp = S := by rw [← hsp]; simp [word]
    rw [this, read_holds hb]
  | pushed hf h1 h2 =>
    rw [hf] at hl
    simp only [if_true] at hl
    rw [if_neg (by omega), if_neg (by omega), if_pos ⟨hf, Or.inl h2⟩]
    have : sp + 8 = S := by rw [← hsp]; rfl
    rw [this, read_holds hb]
  | body h1 h2 h3 h4 =>
    rw [if_neg (by omega), if_neg (by omega), if_neg, if_neg h3]
    · have eo : frameOffset fp tails code n true target k = (n + if fp then 1 else 0 : Nat) := by
        unfold frameOffset frameHeaderSize
        cases tails with
        | false => cases fp <;> simp <;> omega
        | true => rw [ht rfl]; cases fp <;> simp <;> omega
      have en : sp + (BitVec.ofInt 32 (frameOffset fp tails code n true target k)).setWidth 64 * 8 = S := by
        rw [eo, words _ (by split <;> omega), ← hsp, word]
        congr 1
      rw [en, if_neg (by simp), read_holds hb]
    · rintro ⟨hf, h | h⟩
      · rw [hf] at h1
        simp only [if_true] at h1
        omega
      · exact h4 hf h
  | popping hf h1 h2 h3 =>
    rw [if_neg (by omega), if_neg (by omega), if_pos ⟨hf, Or.inr h3⟩]
    have : sp + 8 = S := by rw [← hsp]; rfl
    rw [this, read_holds hb]
  | leaving h1 h2 h3 =>
    rw [if_neg (by omega), if_neg (by omega), if_neg, if_pos h3]
    · have : sp = S := by rw [← hsp]; simp [word]
      rw [this, read_holds hb]
    · rintro ⟨hf, h | h⟩
      · rw [hf] at h1
        simp only [if_true] at h1
        omega
      · rw [h3] at h
        revert h
        decide

/-- **The whole stack of a method that was interrupted.**  It comes first, and its callers are found as in `walk_ok`. -/
theorem walk_recent_ok {fp tails : Bool} {mem : BitVec 64 → Byte} {lookup : BitVec 64 → Option Compiled} {m : Compiled} {k d : Nat} {chk : List Byte}
    {slot ip last : BitVec 64} {l : List Caller} (h : Starts fp m.footprint m.code chk) (hd : Depth fp m.footprint m.code chk k d) (hk : k < 2 ^ 64)
    {sp : BitVec 64} (hsp : word sp d = slot) (hm : lookup (m.start + BitVec.ofNat 64 k) = some m)
    (hl : Frames fp tails mem (some m.parameters) slot l ip last)
    (hf : ∀ c ∈ l, lookup (c.method.start + BitVec.ofNat 64 c.at_) = some c.method) (hend : lookup ip = none) (fuel : Nat)
    (hfuel : l.length + 1 < fuel) :
    walk fp tails mem lookup fuel true none (m.start + BitVec.ofNat 64 k) sp =
      some ((m, m.start + BitVec.ofNat 64 k) :: l.map (fun c => (c.method, c.method.start + BitVec.ofNat 64 c.at_)), ip, last) := by
  obtain ⟨f, rfl⟩ : ∃ f, fuel = f + 1 := ⟨fuel - 1, by omega⟩
  obtain ⟨v, hv, _⟩ := frames_slot hl
  have hw := walk_ok hl hf hend f (by omega)
  rw [read_holds hv] at hw
  have e : (m.start + BitVec.ofNat 64 k - m.start).toNat = k := by
    rw [BitVec.add_comm, BitVec.add_sub_cancel, BitVec.toNat_ofNat]
    omega
  rw [walk, hm]
  simp only
  rw [e, recent_ok h hd none (fun _ => rfl) mem slot v hv sp hsp]
  simp only
  rw [hw]
  rfl

/-! These are the depths that there are. -/

/-- In the frame. -/
theorem depth_body {fp : Bool} {n : Nat} {s t u : State} (he : Entered fp n s t) (hm : Minded fp s t u) {back : BitVec 64}
    (hb : Holds s.mem (s.gpr (num4 rsp)) .q back) :
    word (u.gpr (num4 rsp)) (n + if fp then 1 else 0) = s.gpr (num4 rsp) ∧ Holds u.mem (s.gpr (num4 rsp)) .q back := by
  rw [hm.stack]
  exact ⟨he.stack, minded_back he hm hb⟩

/-- On the way into it: behind the push, and behind the move of the stack pointer; the code goes on with the allocation. -/
theorem depth_pushed (n : Nat) (hn : n < 2 ^ 26) (tmp : Register) (fpu : Fpu) (pc : BitVec 64) (s : State) (back : BitVec 64)
    (hb : Holds s.mem (s.gpr (num4 rsp)) .q back) :
    ∃ t1 t2 t, allocateFrame true n tmp = pushR rbp ++ moveRR .q rsp .q rbp ++ subtractCR .q (BitVec.ofNat 64 (n * 8)) rsp tmp ∧
      (pushR rbp).length = 1 ∧ (moveRR .q rsp .q rbp).length = 3 ∧
      Runs fpu (pushR rbp) pc s t1 ∧ Runs fpu (moveRR .q rsp .q rbp) (pc + 1) t1 t2 ∧
      Runs fpu (subtractCR .q (BitVec.ofNat 64 (n * 8)) rsp tmp) (pc + 4) t2 t ∧
      word (t1.gpr (num4 rsp)) 1 = s.gpr (num4 rsp) ∧ Holds t1.mem (s.gpr (num4 rsp)) .q back ∧
      word (t2.gpr (num4 rsp)) 1 = s.gpr (num4 rsp) ∧ Holds t2.mem (s.gpr (num4 rsp)) .q back ∧
      word (t.gpr (num4 rsp)) (n + 1) = s.gpr (num4 rsp) ∧ Holds t.mem (s.gpr (num4 rsp)) .q back := by
  obtain ⟨t1, r1, st, h1⟩ := push_ok rbp fpu pc s
  obtain ⟨t2, r2, h2, k2⟩ := mov_q rsp rbp (by decide) (by decide) fpu (pc + 1) t1
  obtain ⟨t, r3, h3, k3⟩ := sub_rsp _ (small_fits n (by omega)) tmp fpu (pc + 4) t2
  have hb1 : Holds t1.mem (s.gpr (num4 rsp)) .q back := by
    intro i hi
    rw [hb i hi]
    exact (st.others _ (fun j hj => word_zero_side _ i j hi hj)).symm
  have e2 : t2.gpr (num4 rsp) = t1.gpr (num4 rsp) := k2.gpr _ (by decide)
  have e1 : word (t1.gpr (num4 rsp)) 1 = s.gpr (num4 rsp) := by
    rw [h1]
    exact BitVec.sub_add_cancel _ _
  refine ⟨t1, t2, t, by simp [allocateFrame], by decide, by decide, r1, r2, r3, e1, hb1, by rw [e2]; exact e1, by rw [k2.mem]; exact hb1, ?_,
    by rw [k3.mem, k2.mem]; exact hb1⟩
  rw [h3, e2, ← e1]
  simp only [word, Nat.mul_add, Nat.mul_one, BitVec.ofNat_add, Nat.mul_comm n 8, ← BitVec.add_assoc, BitVec.sub_add_cancel]

/-- On the way out of it, without frame pointers: behind the addition is the return. -/
theorem depth_leaving {n : Nat} (hn : n < 2 ^ 26) (tmp : Register) (fpu : Fpu) (pc : BitVec 64) {s t u : State} (he : Entered false n s t)
    (hm : Minded false s t u) {back : BitVec 64} (hb : Holds s.mem (s.gpr (num4 rsp)) .q back) (m : Nat) :
    ∃ v, popFrameAndPopArgumentsAndReturn false false n m tmp = addCR .q (BitVec.ofNat 64 (n * 8)) rsp tmp ++ [0xc3#8] ∧
      Runs fpu (addCR .q (BitVec.ofNat 64 (n * 8)) rsp tmp) pc u v ∧
      word (v.gpr (num4 rsp)) 0 = s.gpr (num4 rsp) ∧ Holds v.mem (s.gpr (num4 rsp)) .q back := by
  obtain ⟨v, hr, hl⟩ := pop_frame_ok false n (by omega) tmp fpu pc s t u he hm
  refine ⟨v, rfl, hr, ?_, ?_⟩
  · rw [hl.stack]
    simp [word]
  · rw [hl.mem]
    exact minded_back he hm hb

/-- With frame pointers: behind the move is a pop, and behind that the return. -/
theorem depth_popping {n : Nat} (tmp : Register) (fpu : Fpu) (pc : BitVec 64) {s t u : State} (he : Entered true n s t)
    (hm : Minded true s t u) {back : BitVec 64} (hb : Holds s.mem (s.gpr (num4 rsp)) .q back) (m : Nat) :
    ∃ v1 v, popFrameAndPopArgumentsAndReturn true false n m tmp = moveRR .q rbp .q rsp ++ [0x5d#8] ++ [0xc3#8] ∧
      Runs fpu (moveRR .q rbp .q rsp) pc u v1 ∧ Runs fpu [0x5d#8] (behind pc (moveRR .q rbp .q rsp)) v1 v ∧
      word (v1.gpr (num4 rsp)) 1 = s.gpr (num4 rsp) ∧ Holds v1.mem (s.gpr (num4 rsp)) .q back ∧
      word (v.gpr (num4 rsp)) 0 = s.gpr (num4 rsp) ∧ Holds v.mem (s.gpr (num4 rsp)) .q back := by
  obtain ⟨v1, r1, h1, k1⟩ := mov_q rbp rsp (by decide) (by decide) fpu pc u
  obtain ⟨hp, hs⟩ := he.pointer rfl
  obtain ⟨hq, hbb⟩ := hm.pointer rfl
  have e1 : v1.gpr (num4 rsp) = s.gpr (num4 rsp) - 8 := by
    rw [h1, hq, ← hp]
    exact (BitVec.add_sub_cancel _ _).symm
  obtain ⟨v, r2, h2, h3, k2, kx, km⟩ := pop_ok (w := .q) (Or.inr rfl) rbp (by decide) (by decide) fpu
    (behind pc (moveRR .q rbp .q rsp)) v1 (s.gpr (num4 rbp)) (by
      intro i hi
      rw [hs i hi, e1, k1.mem]
      exact (hbb i hi).symm)
  have hb1 : Holds v1.mem (s.gpr (num4 rsp)) .q back := by
    rw [k1.mem]
    exact minded_back he hm hb
  have ep : popR .q rbp = [0x5d#8] := by decide
  rw [ep] at r2
  refine ⟨v1, v, ?_, r1, r2, by rw [e1]; exact BitVec.sub_add_cancel _ _, hb1, ?_, by rw [km]; exact hb1⟩
  · simp [popFrameAndPopArgumentsAndReturn, popFrame, ep, return_]
  · rw [h3, e1]
    simp only [word, Nat.mul_zero]
    rw [BitVec.sub_add_cancel]
    simp

/-- **Not with tail calls.**  Where a method ends with another instruction than a return, behind the frame having been popped (in builds with tail
calls it may be `pop`, `add` or `jmp`), the wrong return address is found: one that is as far above the right one as the frame was large. -/
theorem recent_tails_wrong {tails : Bool} {n k : Nat} {code chk : List Byte} (h : Starts false n code chk) (hk : chk.length < k) (hl : k < code.length)
    (h1 : code.getD k 0 ≠ 0xc3#8) (mem : BitVec 64 → Byte) (S : BitVec 64) :
    nextFrame false tails mem code n true none k S = some (Cpu.readMem mem (word S n) .q, word S n) ∧ word S n ≠ S := by
  have hb : Holds mem (word S n) .q (Cpu.readMem mem (word S n) .q) := by
    have := holds_read mem (word S n) .q
    rwa [lo_q] at this
  refine ⟨recent_ok h (.body (by simpa using hk) hl h1 (fun h => by cases h)) none (fun _ => rfl) mem _ _ hb S rfl, fun e => ?_⟩
  have hs := h.size
  have := congrArg (fun x => (x - S).toNat) e
  simp only [word] at this
  rw [BitVec.add_comm, BitVec.add_sub_cancel, BitVec.sub_self, BitVec.toNat_ofNat] at this
  simp at this
  omega

/-! ### Concrete cases -/

/-- A frame of three words, a call, and the return. -/
def exCaller : Compiled :=
  ⟨0x1000, [0x48#8, 0x83#8, 0xec#8, 0x18#8, 0xe8#8, 0#8, 0#8, 0#8, 0#8, 0x48#8, 0x83#8, 0xc4#8, 0x18#8, 0xc3#8], 3, 1⟩

/-- A check for stack overflow, a frame of five words, a call of a method with four words of arguments that it pops, and a jump. -/
def exOuter : Compiled :=
  ⟨0x2000, [0x48#8, 0x39#8, 0xa3#8, 0x50#8, 0x09#8, 0#8, 0#8, 0x0f#8, 0x8d#8, 0#8, 0#8, 0#8, 0#8, 0x48#8, 0x83#8, 0xec#8, 0x28#8,
    0xe8#8, 0#8, 0#8, 0#8, 0#8, 0x48#8, 0x83#8, 0xec#8, 0x10#8, 0xeb#8, 0xfe#8], 5, 2⟩

/-- The return address of the running method is at 0x7000; the outer method has called one with four words, which has made a tail call to the one with one. -/
def exStacked : BitVec 64 → Byte :=
  Cpu.writeMem (Cpu.writeMem (Cpu.writeMem (fun _ => 0xee#8) 0x7000 .q 0x1009) 0x7020 .q 0x2016) 0x7040 .q 0x42

def exLookup (ip : BitVec 64) : Option Compiled :=
  if ip - 0x1000 < 14 then some exCaller else if ip - 0x2000 < 28 then some exOuter else none

example : Returned false true exCaller.code 9 2 :=
  ⟨by decide, by decide, by decide, by decide, fun _ => by rw [if_neg (by decide)]; decide⟩

example : Returned false true exOuter.code 22 4 :=
  ⟨by decide, by decide, by decide, by decide, fun _ => by rw [if_pos (by decide)]; exact ⟨10#5, [0xeb#8, 0xfe#8], by decide +kernel⟩⟩

theorem exFrames : Frames false true exStacked none 0x7000 [⟨exCaller, 9, 2⟩, ⟨exOuter, 22, 4⟩] 0x42 0x7040 := by
  refine .call (S := 0x7020) ?_ ⟨by decide, by decide, by decide, by decide, fun _ => by rw [if_neg (by decide)]; decide⟩ ⟨by decide, by decide, fun p h => by cases h⟩
    (fun _ => by decide) (by decide) (fun h => by cases h)
    (.call (S := 0x7040) ?_ ⟨by decide, by decide, by decide, by decide, fun _ => by rw [if_pos (by decide)]; exact ⟨10#5, [0xeb#8, 0xfe#8], by decide +kernel⟩⟩
      ⟨by decide, by decide, fun p h => by cases h; decide⟩ (fun _ => by decide) (by decide) (fun h => by cases h) (.done ?_)) <;>
    (intro i hi; revert i; decide +kernel)

example : walk false true exStacked exLookup 3 false none 0x1009 0x7000 =
    some ([(exCaller, 0x1009), (exOuter, 0x2016)], 0x42, 0x7040) := by
  have := walk_ok (lookup := exLookup) exFrames (by
    intro c hc
    simp only [List.mem_cons, List.not_mem_nil, or_false] at hc
    rcases hc with rfl | rfl <;> decide) (by decide) 3 (by decide)
  rw [read_holds (show Holds exStacked 0x7000 .q 0x1009#64 by intro i hi; revert i; decide +kernel)] at this
  exact this

/-- The calling method was interrupted in its frame, and was called from the outer one. -/
example : walk false true exStacked exLookup 3 true none 0x1009 0x7008 =
    some ([(exCaller, 0x1009), (exOuter, 0x2016)], 0x42, 0x7040) := by
  refine walk_recent_ok (m := exCaller) (k := 9) (d := 3) (chk := []) (slot := 0x7020) (l := [⟨exOuter, 22, 4⟩])
    ⟨Or.inl rfl, ⟨10#5, exCaller.code.drop 4, by decide +kernel⟩, by decide⟩
    (.body (by decide) (by decide) (by decide) (fun h => by cases h)) (by decide) (by decide) (by decide) ?_ ?_ (by decide) 3 (by decide)
  · exact .call (S := 0x7040) (by intro i hi; revert i; decide +kernel)
      ⟨by decide, by decide, by decide, by decide, fun _ => by rw [if_pos (by decide)]; exact ⟨10#5, [0xeb#8, 0xfe#8], by decide +kernel⟩⟩
      ⟨by decide, by decide, fun p h => by cases h; decide⟩ (fun _ => by decide) (by decide) (fun h => by cases h)
      (.done (by intro i hi; revert i; decide +kernel))
  · intro c hc
    simp only [List.mem_cons, List.not_mem_nil, or_false] at hc
    subst hc
    decide

example : Starts false 3 exCaller.code [] ∧ Starts false 5 exOuter.code (exOuter.code.take 13) :=
  ⟨⟨Or.inl rfl, ⟨10#5, exCaller.code.drop 4, by decide +kernel⟩, by decide⟩,
    ⟨Or.inr (by decide), ⟨10#5, exOuter.code.drop 17, by decide +kernel⟩, by decide⟩⟩

/-- The offset of the stack limit in the thread (src/avian/target-fields.h:34) needs four bytes. -/
example : fitsInInt8 ((2384#32).signExtend 64) = false := by decide

/-- At the return of the calling method the return address is the word on the stack; in front of it the frame is in between. -/
example : nextFrame false false exStacked exCaller.code 3 true none 13 0x7000 = some (0x1009, 0x7000) ∧
    nextFrame false false exStacked exCaller.code 3 true none 9 0x6fe8 = some (0x1009, 0x7000) ∧
    nextFrame false false exStacked exCaller.code 3 true none 0 0x7000 = some (0x1009, 0x7000) ∧
    nextFrame false false exStacked exOuter.code 5 true none 7 0x7000 = some (0x1009, 0x7000) := by decide +kernel

end Avian.X86
