import Verif.Codegen.NativeCall

/-
C103: native functions get the arguments of their Java methods, and Java methods those given by native code.
-/
namespace Avian.NativeCall

open Descriptor (FieldCode)

/-! ### Values of Java and where they lie -/

/-- An argument of a Java method: an int (also booleans, bytes, chars and shorts), the bits of a float, a long or the bits of a double, or an object. -/
inductive JVal where
  | word (v : BitVec 32)
  | wide (v : BitVec 64)
  | obj (v : Word)
  deriving DecidableEq

/-- What kind of value a parameter takes. -/
def Fits : FieldCode → JVal → Prop
  | .void, _ => False
  | .object, .obj _ => True
  | .long, .wide _ => True
  | .double, .wide _ => True
  | .object, _ => False
  | .long, _ => False
  | .double, _ => False
  | _, .word _ => True
  | _, _ => False

/-- The parameters of the method take these values. -/
def FitsAll : List FieldCode → List JVal → Prop
  | [], [] => True
  | c :: codes, v :: vals => Fits c v ∧ FitsAll codes vals
  | _, _ => False

/-- The arguments lie as compiled code puts them, from the address on: longs and doubles take two words, of which the first is the value; of ints the lower
half of the word counts. -/
def Laid (mem : Mem) : Nat → List JVal → Prop
  | _, [] => True
  | sp, .word v :: vals => (mem sp).setWidth 32 = v ∧ Laid mem (sp + 8) vals
  | sp, .wide v :: vals => mem sp = v ∧ Laid mem (sp + 16) vals
  | sp, .obj v :: vals => mem sp = v ∧ Laid mem (sp + 8) vals

/-- How many words they take. -/
def footprint : List JVal → Nat
  | [] => 0
  | .word _ :: vals => footprint vals + 1
  | .wide _ :: vals => footprint vals + 2
  | .obj _ :: vals => footprint vals + 1

/-! ### Where a function finds its arguments (System V ABI, AMD64, 3.2.3) -/

def isSse : Ty → Bool
  | .float => true
  | .double => true
  | _ => false

/-- How many arguments of the same class are in front. -/
def before (ts : List Ty) (i : Nat) (sse : Bool) : Nat := (ts.take i).countP fun t => isSse t == sse

/-- The argument does not fit into registers. -/
def inMemory (ts : List Ty) (i : Nat) : Bool :=
  match ts[i]? with
  | none => false
  | some t => if isSse t then 8 ≤ before ts i true else 6 ≤ before ts i false

/-- How many arguments in memory are in front. -/
def memBefore (ts : List Ty) (i : Nat) : Nat := (List.range i).countP (inMemory ts)

/-- The word in which a function with parameters of these types finds its `i`-th. -/
def calleeArg (cpu : Cpu) (ts : List Ty) (i : Nat) : Option Word :=
  match ts[i]? with
  | none => none
  | some t =>
    if inMemory ts i then some (cpu.mem (cpu.rsp + 8 * memBefore ts i))
    else if isSse t then cpu.sse[before ts i true]? else cpu.gpr[before ts i false]?

/-! ### The tables -/

theorem before_succ {ts : List Ty} {i : Nat} {t : Ty} (h : ts[i]? = some t) (sse : Bool) :
    before ts (i + 1) sse = before ts i sse + if isSse t == sse then 1 else 0 := by
  unfold before
  rw [List.take_add_one, h, List.countP_append]
  show _ + [t].countP _ = _
  rw [List.countP_singleton]

theorem memBefore_succ (ts : List Ty) (i : Nat) : memBefore ts (i + 1) = memBefore ts i + if inMemory ts i then 1 else 0 := by
  unfold memBefore
  rw [List.range_succ, List.countP_append, List.countP_singleton]

theorem before_mono (ts : List Ty) (i : Nat) (sse : Bool) : before ts i sse ≤ before ts (i + 1) sse := by
  cases h : ts[i]? with
  | none =>
    unfold before
    rw [List.take_add_one, h]
    simp only [Option.toList_none, List.append_nil, Nat.le_refl]
  | some t => rw [before_succ h]; omega

theorem place_sse {t : Tables} {a : Word × Ty} (h : isSse a.2 = true) :
    place t a = if t.sse.length < 8 then { t with sse := t.sse ++ [a.1] } else { t with stack := t.stack ++ [a.1] } := by
  obtain ⟨w, ty⟩ := a
  unfold place
  cases ty <;> first | rfl | cases h

theorem place_gpr {t : Tables} {a : Word × Ty} (h : isSse a.2 = false) :
    place t a = if t.gpr.length < 6 then { t with gpr := t.gpr ++ [a.1] } else { t with stack := t.stack ++ [a.1] } := by
  obtain ⟨w, ty⟩ := a
  unfold place
  cases ty <;> first | rfl | cases h

/-- Where the tables have the `i`-th argument. -/
def inTables (t : Tables) (ts : List Ty) (i : Nat) (ty : Ty) : Option Word :=
  if inMemory ts i then t.stack[memBefore ts i]?
  else if isSse ty then t.sse[before ts i true]? else t.gpr[before ts i false]?

structure Placed (args : List (Word × Ty)) (n : Nat) (t : Tables) : Prop where
  gpr : t.gpr.length = min 6 (before (args.map (·.2)) n false)
  sse : t.sse.length = min 8 (before (args.map (·.2)) n true)
  stack : t.stack.length = memBefore (args.map (·.2)) n
  vals : ∀ i, i < n → ∀ a, args[i]? = some a → inTables t (args.map (·.2)) i a.2 = some a.1

theorem getElem?_grow {l : List Word} {i : Nat} {v x : Word} (h : l[i]? = some v) : (l ++ [x])[i]? = some v := by
  rw [List.getElem?_append_left (List.getElem?_eq_some_iff.mp h).1]; exact h

theorem placed (args : List (Word × Ty)) : ∀ n, n ≤ args.length → Placed args n ((args.take n).foldl place ⟨[], [], []⟩)
  | 0, _ => ⟨rfl, rfl, rfl, fun i hi => absurd hi (Nat.not_lt_zero i)⟩
  | n + 1, hn => by
    obtain ⟨h1, h2, h3, h4⟩ := placed args n (by omega)
    have ha : args[n]? = some (args[n]'(by omega)) := List.getElem?_eq_getElem (by omega)
    generalize args[n]'(by omega) = a at ha
    have hty : (args.map (·.2))[n]? = some a.2 := by rw [List.getElem?_map, ha]; rfl
    rw [List.take_add_one, ha, List.foldl_append]
    show Placed args (n + 1) (place ((args.take n).foldl place ⟨[], [], []⟩) a)
    generalize (args.take n).foldl place ⟨[], [], []⟩ = t at h1 h2 h3 h4
    generalize hts : args.map (·.2) = ts at h1 h2 h3 h4 hty
    have hb := before_succ hty
    have hm := memBefore_succ ts n
    have him : inMemory ts n = if isSse a.2 then decide (8 ≤ before ts n true) else decide (6 ≤ before ts n false) := by
      unfold inMemory; rw [hty]
    have ext : ∀ t' : Tables, (∃ x, t'.gpr = t.gpr ++ x ∧ x.length ≤ 1) → (∃ x, t'.sse = t.sse ++ x ∧ x.length ≤ 1) → (∃ x, t'.stack = t.stack ++ x ∧ x.length ≤ 1) →
        inTables t' ts n a.2 = some a.1 → ∀ i, i < n + 1 → ∀ b, args[i]? = some b → inTables t' ts i b.2 = some b.1 := by
      rintro t' ⟨x, hx, _⟩ ⟨y, hy, _⟩ ⟨z, hz, _⟩ hnew i hi b hab
      by_cases hin : i = n
      · subst hin
        rw [ha] at hab
        cases hab
        exact hnew
      · have := h4 i (by omega) b hab
        unfold inTables at this ⊢
        rw [hx, hy, hz]
        by_cases c1 : inMemory ts i = true
        · rw [if_pos c1] at this ⊢
          rw [List.getElem?_append_left (List.getElem?_eq_some_iff.mp this).1]; exact this
        · rw [if_neg c1] at this ⊢
          by_cases c2 : isSse b.2 = true
          · rw [if_pos c2] at this ⊢
            rw [List.getElem?_append_left (List.getElem?_eq_some_iff.mp this).1]; exact this
          · rw [if_neg c2] at this ⊢
            rw [List.getElem?_append_left (List.getElem?_eq_some_iff.mp this).1]; exact this
    have zero : ∀ l : List Word, ∃ x, l = l ++ x ∧ x.length ≤ 1 := fun l => ⟨[], (List.append_nil l).symm, Nat.zero_le _⟩
    have one : ∀ (l : List Word) (w : Word), ∃ x, l ++ [w] = l ++ x ∧ x.length ≤ 1 := fun l w => ⟨[w], rfl, Nat.le_refl _⟩
    cases hs : isSse a.2 with
    | true =>
      have hbt := hb true
      have hbf := hb false
      rw [hs] at hbt hbf him
      simp only [beq_self_eq_true, if_true, Bool.true_beq, Bool.false_eq_true, if_false, Nat.add_zero] at hbt hbf him
      rw [place_sse hs]
      by_cases hl : t.sse.length < 8
      · rw [if_pos hl]
        have hlt : before ts n true < 8 := by omega
        have hi0 : inMemory ts n = false := by rw [him]; exact decide_eq_false (by omega)
        rw [hi0] at hm
        simp only [Bool.false_eq_true, if_false, Nat.add_zero] at hm
        refine ⟨by rw [hts, hbf]; exact h1, ?_, by rw [hts, hm]; exact h3, ?_⟩
        · rw [hts, hbt]
          show (t.sse ++ [a.1]).length = _
          rw [List.length_append, List.length_singleton]; omega
        · rw [hts]
          refine ext _ (zero _) (one _ _) (zero _) ?_
          unfold inTables
          rw [hi0, hs]
          simp only [Bool.false_eq_true, if_false, if_true]
          have : before ts n true = t.sse.length := by omega
          rw [this, List.getElem?_concat_length]
      · rw [if_neg hl]
        have hi1 : inMemory ts n = true := by rw [him]; exact decide_eq_true (by omega)
        rw [hi1] at hm
        simp only [if_true] at hm
        refine ⟨by rw [hts, hbf]; exact h1, by rw [hts, hbt]; show t.sse.length = _; omega, ?_, ?_⟩
        · rw [hts, hm]
          show (t.stack ++ [a.1]).length = _
          rw [List.length_append, List.length_singleton]; omega
        · rw [hts]
          refine ext _ (zero _) (zero _) (one _ _) ?_
          unfold inTables
          rw [hi1]
          simp only [if_true]
          rw [← h3, List.getElem?_concat_length]
    | false =>
      have hbt := hb true
      have hbf := hb false
      rw [hs] at hbt hbf him
      simp only [beq_self_eq_true, if_true, Bool.false_beq, Bool.not_true, Bool.false_eq_true, if_false, Nat.add_zero] at hbt hbf him
      rw [place_gpr hs]
      by_cases hl : t.gpr.length < 6
      · rw [if_pos hl]
        have hlt : before ts n false < 6 := by omega
        have hi0 : inMemory ts n = false := by rw [him]; exact decide_eq_false (by omega)
        rw [hi0] at hm
        simp only [Bool.false_eq_true, if_false, Nat.add_zero] at hm
        refine ⟨?_, by rw [hts, hbt]; exact h2, by rw [hts, hm]; exact h3, ?_⟩
        · rw [hts, hbf]
          show (t.gpr ++ [a.1]).length = _
          rw [List.length_append, List.length_singleton]; omega
        · rw [hts]
          refine ext _ (one _ _) (zero _) (zero _) ?_
          unfold inTables
          rw [hi0, hs]
          simp only [Bool.false_eq_true, if_false]
          have : before ts n false = t.gpr.length := by omega
          rw [this, List.getElem?_concat_length]
      · rw [if_neg hl]
        have hi1 : inMemory ts n = true := by rw [him]; exact decide_eq_true (by omega)
        rw [hi1] at hm
        simp only [if_true] at hm
        refine ⟨by rw [hts, hbf]; show t.gpr.length = _; omega, by rw [hts, hbt]; exact h2, ?_, ?_⟩
        · rw [hts, hm]
          show (t.stack ++ [a.1]).length = _
          rw [List.length_append, List.length_singleton]; omega
        · rw [hts]
          refine ext _ (zero _) (zero _) (one _ _) ?_
          unfold inTables
          rw [hi1]
          simp only [if_true]
          rw [← h3, List.getElem?_concat_length]

/-! ### The loop that copies -/

theorem copyLoop_ok (src rsp size : Nat) (hd : rsp + size ≤ src) : ∀ (fuel rcx : Nat) (mem : Mem), size < rcx + 8 * fuel → rcx % 8 = 0 → size % 8 = 0 →
    (∀ i, rcx ≤ 8 * i → 8 * i < size → copyLoop src rsp size fuel rcx mem (rsp + 8 * i) = mem (src + 8 * i)) ∧
    (∀ a, a < rsp + rcx ∨ rsp + size ≤ a → copyLoop src rsp size fuel rcx mem a = mem a)
  | 0, rcx, mem, hf, _, _ => ⟨fun i h1 h2 => by omega, fun a _ => rfl⟩
  | fuel + 1, rcx, mem, hf, hr, hs => by
    unfold copyLoop
    by_cases hc : rcx < size
    · rw [if_pos hc]
      obtain ⟨i1, i2⟩ := copyLoop_ok src rsp size hd fuel (rcx + 8) (fun a => if a = rsp + rcx then mem (src + rcx) else mem a) (by omega) (by omega) hs
      refine ⟨?_, ?_⟩
      · intro i h1 h2
        by_cases he : 8 * i = rcx
        · rw [i2 (rsp + 8 * i) (Or.inl (by omega))]
          rw [if_pos (by omega), he]
        · rw [i1 i (by omega) h2]
          rw [if_neg (by omega)]
      · intro a ha
        rw [i2 a (by omega)]
        rw [if_neg (by omega)]
    · rw [if_neg hc]
      exact ⟨fun i h1 h2 => by omega, fun a _ => rfl⟩

/-! ### C103, calls of native functions -/

/-- The array `stack` of `dynamicCall` lies at the address. -/
def StackAt (mem : Mem) (src : Nat) (stack : List Word) : Prop := ∀ i w, stack[i]? = some w → mem (src + 8 * i) = w

/-- Whatever arguments there are, the called function finds each of them where the convention says; its stack is aligned, and nothing at or above the frame is changed. -/
theorem dynamicCall_ok (args : List (Word × Ty)) (mem : Mem) (rbp src : Nat) (junk regs : List Word × List Word)
    (hrbp : 64 + 8 * args.length ≤ rbp) (hsrc : rbp ≤ src) (hst : StackAt mem src (distribute args).stack) :
    let cpu := vmNativeCall mem rbp src (distribute args) junk regs
    (∀ i a, args[i]? = some a → calleeArg cpu (args.map (·.2)) i = some a.1) ∧ cpu.rsp % 16 = 0 ∧ ∀ a, rbp - 48 ≤ a → cpu.mem a = mem a := by
  intro cpu
  have hp : Placed args args.length (distribute args) := by
    have := placed args args.length (Nat.le_refl _)
    rw [List.take_length] at this
    exact this
  have hmb : ∀ n, memBefore (args.map (·.2)) n ≤ n := by
    intro n
    unfold memBefore
    have := List.countP_le_length (p := inMemory (args.map (·.2))) (l := List.range n)
    rw [List.length_range] at this
    exact this
  have hlen : (distribute args).stack.length ≤ args.length := by
    rw [hp.stack]; exact hmb _
  generalize hd : distribute args = t at hp hst hlen
  have hrsp : cpu.rsp = (rbp - 48 - t.stack.length * 8) / 16 * 16 := by simp only [cpu, vmNativeCall, hd]
  have hle : cpu.rsp + t.stack.length * 8 ≤ rbp - 48 := by omega
  have hcopy := copyLoop_ok src cpu.rsp (t.stack.length * 8) (by omega) (t.stack.length + 1) 0 mem (by omega) rfl (by omega)
  have hmem : cpu.mem = copyLoop src cpu.rsp (t.stack.length * 8) (t.stack.length + 1) 0 mem := by
    rw [hrsp]; simp only [cpu, vmNativeCall, hd]
  have hg : cpu.gpr = if t.gpr.length = 0 then regs.1 else (t.gpr ++ junk.1).take 6 := by simp only [cpu, vmNativeCall, hd]
  have hs : cpu.sse = if t.sse.length = 0 then regs.2 else (t.sse ++ junk.2).take 8 := by simp only [cpu, vmNativeCall, hd]
  refine ⟨?_, by omega, ?_⟩
  · intro i a ha
    have hi : i < args.length := (List.getElem?_eq_some_iff.mp ha).1
    have hv := hp.vals i hi a ha
    have hty : (args.map (·.2))[i]? = some a.2 := by rw [List.getElem?_map, ha]; rfl
    unfold calleeArg
    rw [hty]
    simp only
    unfold inTables at hv
    by_cases c1 : inMemory (args.map (·.2)) i = true
    · rw [if_pos c1] at hv ⊢
      have hlt := (List.getElem?_eq_some_iff.mp hv).1
      rw [hmem, hcopy.1 _ (Nat.zero_le _) (by omega), hst _ _ hv]
    · rw [if_neg c1] at hv ⊢
      by_cases c2 : isSse a.2 = true
      · rw [if_pos c2] at hv ⊢
        have hlt := (List.getElem?_eq_some_iff.mp hv).1
        have h8 : t.sse.length ≤ 8 := by rw [hp.sse]; exact Nat.min_le_left _ _
        rw [hs, if_neg (by omega), List.getElem?_take_of_lt (by omega), List.getElem?_append_left hlt, hv]
      · rw [if_neg c2] at hv ⊢
        have hlt := (List.getElem?_eq_some_iff.mp hv).1
        have h6 : t.gpr.length ≤ 6 := by rw [hp.gpr]; exact Nat.min_le_left _ _
        rw [hg, if_neg (by omega), List.getElem?_take_of_lt (by omega), List.getElem?_append_left hlt, hv]
  · intro a ha
    rw [hmem]
    exact hcopy.2 a (Or.inr (by omega))

/-- What native code may rely on about one argument: the lower half of the word is an int, or the bits of a float (of smaller types the lowest bits); a long, or the
bits of a double; null, or the address of a word with the object. -/
def Received (mem : Mem) (w : Word) : JVal → Prop
  | .word v => w.setWidth 32 = v
  | .wide v => w = v
  | .obj v => (v = 0 → w = 0) ∧ (v ≠ 0 → w ≠ 0 ∧ mem w.toNat = v)

/-- The type of a native function's parameter (jboolean, jbyte, …). -/
def cType : FieldCode → Ty
  | .boolean => .int8
  | .byte => .int8
  | .char => .int16
  | .short => .int16
  | .int => .int32
  | .long => .int64
  | .float => .float
  | .double => .double
  | .object => .pointer
  | .void => .void

theorem marshal_ok (mem : Mem) : ∀ (codes : List FieldCode) (vals : List JVal) (sp : Nat), FitsAll codes vals → Laid mem sp vals → 0 < sp →
    sp + 8 * footprint vals < 2 ^ 64 → ∃ args, marshal mem sp codes = some args ∧ args.map (·.2) = codes.map cType ∧ args.length = vals.length ∧
      ∀ (k : Nat) (v : JVal), vals[k]? = some v → ∃ a : Word × Ty, args[k]? = some a ∧ (∀ m : Mem, (∀ x, sp ≤ x → m x = mem x) → Received m a.1 v)
  | [], [], _, _, _, _, _ => ⟨[], rfl, rfl, rfl, fun k v h => by cases h⟩
  | [], _ :: _, _, h, _, _, _ => h.elim
  | _ :: _, [], _, h, _, _, _ => h.elim
  | c :: codes, v :: vals, sp, hf, hl, h0, hb => by
    obtain ⟨hc, hf⟩ := hf
    have fin : ∀ (w : Word) (ty : Ty) (step : Nat) (rest : List (Word × Ty)), 8 ≤ step → marshal mem (sp + step) codes = some rest →
        rest.map (·.2) = codes.map cType → rest.length = vals.length →
        (∀ (k : Nat) (v : JVal), vals[k]? = some v → ∃ a : Word × Ty, rest[k]? = some a ∧ (∀ m : Mem, (∀ x, sp + step ≤ x → m x = mem x) → Received m a.1 v)) →
        cType c = ty → (∀ m : Mem, (∀ x, sp ≤ x → m x = mem x) → Received m w v) →
        marshal mem sp (c :: codes) = (marshal mem (sp + step) codes).map ((w, ty) :: ·) →
        ∃ args, marshal mem sp (c :: codes) = some args ∧ args.map (·.2) = (c :: codes).map cType ∧ args.length = (v :: vals).length ∧
          ∀ (k : Nat) (v' : JVal), (v :: vals)[k]? = some v' → ∃ a : Word × Ty, args[k]? = some a ∧ (∀ m : Mem, (∀ x, sp ≤ x → m x = mem x) → Received m a.1 v') := by
      intro w ty step rest h8 hm ht hlen hr hcty hw he
      refine ⟨(w, ty) :: rest, by rw [he, hm]; rfl, by rw [List.map_cons, List.map_cons, ht, hcty], by rw [List.length_cons, List.length_cons, hlen], ?_⟩
      intro k v' hk
      cases k with
      | zero =>
        cases hk
        exact ⟨(w, ty), rfl, hw⟩
      | succ k =>
        obtain ⟨a, ha, hrec⟩ := hr k v' hk
        exact ⟨a, ha, fun m hmm => hrec m fun x hx => hmm x (by omega)⟩
    cases v with
    | word v =>
      obtain ⟨hl1, hl2⟩ := hl
      have hb' : sp + 8 + 8 * footprint vals < 2 ^ 64 := by simp only [footprint] at hb; omega
      obtain ⟨rest, hm, ht, hlen, hr⟩ := marshal_ok mem codes vals (sp + 8) hf hl2 (by omega) hb'
      cases c <;> first
        | exact hc.elim
        | exact fin (mem sp) _ 8 rest (Nat.le_refl _) hm ht hlen hr rfl (fun _ _ => hl1) rfl
    | wide v =>
      obtain ⟨hl1, hl2⟩ := hl
      have hb' : sp + 16 + 8 * footprint vals < 2 ^ 64 := by simp only [footprint] at hb; omega
      obtain ⟨rest, hm, ht, hlen, hr⟩ := marshal_ok mem codes vals (sp + 16) hf hl2 (by omega) hb'
      cases c <;> first
        | exact hc.elim
        | exact fin (mem sp) _ 16 rest (by decide) hm ht hlen hr rfl (fun _ _ => hl1) rfl
    | obj v =>
      obtain ⟨hl1, hl2⟩ := hl
      have hb' : sp + 8 + 8 * footprint vals < 2 ^ 64 := by simp only [footprint] at hb; omega
      obtain ⟨rest, hm, ht, hlen, hr⟩ := marshal_ok mem codes vals (sp + 8) hf hl2 (by omega) hb'
      cases c <;> first
        | exact hc.elim
        | refine fin (if mem sp ≠ 0 then BitVec.ofNat 64 sp else 0) _ 8 rest (Nat.le_refl _) hm ht hlen hr rfl ?_ rfl
          intro m hmm
          rw [hl1]
          refine ⟨fun h => by rw [if_neg (by rw [h]; exact fun x => x rfl)], fun h => ?_⟩
          rw [if_pos h]
          have hsp : (BitVec.ofNat 64 sp).toNat = sp := by rw [BitVec.toNat_ofNat]; omega
          refine ⟨fun e => ?_, ?_⟩
          · have := congrArg BitVec.toNat e
            rw [hsp] at this
            simp only [BitVec.ofNat_eq_ofNat, BitVec.toNat_zero] at this
            omega
          · rw [hsp, hmm sp (Nat.le_refl _)]; exact hl1

/-- The native function of a Java method finds, as a function with the C types of its parameters, the thread, the address of the class or of the receiver, and
the Java arguments in order. -/
theorem native_args_ok (mem : Mem) (thread : Word) (static_ : Bool) (cell sp rbp src : Nat) (codes : List FieldCode) (vals : List JVal) (this_ : Word)
    (junk regs : List Word × List Word) (hf : FitsAll codes vals)
    (hl : Laid mem sp (if static_ then vals else .obj this_ :: vals)) (hb : sp + 8 * footprint vals + 8 < 2 ^ 64) (hcell : cell < 2 ^ 64) :
    ∃ args, arguments mem thread static_ cell sp codes = some args ∧
      (64 + 8 * (vals.length + 2) ≤ rbp → rbp ≤ src → rbp ≤ sp → rbp ≤ cell → StackAt mem src (distribute args).stack →
        let cpu := vmNativeCall mem rbp src (distribute args) junk regs
        let ts := .pointer :: .pointer :: codes.map cType
        calleeArg cpu ts 0 = some thread ∧
        (∃ h, calleeArg cpu ts 1 = some h ∧ cpu.mem h.toNat = if static_ then mem cell else this_) ∧
        (∀ (k : Nat) (v : JVal), vals[k]? = some v → ∃ w, calleeArg cpu ts (k + 2) = some w ∧ Received cpu.mem w v) ∧
        cpu.rsp % 16 = 0) := by
  by_cases h0 : 0 < sp
  · have main : ∀ (sp' : Nat) (second : Nat) (rest : List (Word × Ty)), sp ≤ sp' → second < 2 ^ 64 → rest.map (·.2) = codes.map cType → rest.length = vals.length →
        (∀ (k : Nat) (v : JVal), vals[k]? = some v → ∃ a : Word × Ty, rest[k]? = some a ∧ (∀ m : Mem, (∀ x, sp' ≤ x → m x = mem x) → Received m a.1 v)) →
        (second = cell ∨ second = sp) →
        let args := (thread, .pointer) :: (BitVec.ofNat 64 second, .pointer) :: rest
        (64 + 8 * (vals.length + 2) ≤ rbp → rbp ≤ src → rbp ≤ sp → rbp ≤ cell → StackAt mem src (distribute args).stack →
          let cpu := vmNativeCall mem rbp src (distribute args) junk regs
          let ts := .pointer :: .pointer :: codes.map cType
          calleeArg cpu ts 0 = some thread ∧
          (∃ h, calleeArg cpu ts 1 = some h ∧ cpu.mem h.toNat = mem second) ∧
          (∀ (k : Nat) (v : JVal), vals[k]? = some v → ∃ w, calleeArg cpu ts (k + 2) = some w ∧ Received cpu.mem w v) ∧
          cpu.rsp % 16 = 0) := by
      intro sp' second rest hle hsec ht hlen hr hor args h1 h2 h3 h4 h5 cpu ts
      have hts : args.map (·.2) = ts := by
        show Ty.pointer :: Ty.pointer :: rest.map (·.2) = _
        rw [ht]
      have hal : args.length = vals.length + 2 := by
        show rest.length + 1 + 1 = _
        omega
      obtain ⟨d1, d2, d3⟩ := dynamicCall_ok args mem rbp src junk regs (by omega) h2 h5
      rw [hts] at d1
      refine ⟨d1 0 _ rfl, ⟨_, d1 1 _ rfl, ?_⟩, ?_, d2⟩
      · show cpu.mem (BitVec.ofNat 64 second).toNat = _
        have : (BitVec.ofNat 64 second).toNat = second := by rw [BitVec.toNat_ofNat]; omega
        rw [this]
        exact d3 second (by omega)
      · intro k v hk
        obtain ⟨a, ha, hrec⟩ := hr k v hk
        refine ⟨a.1, d1 (k + 2) a ha, hrec _ ?_⟩
        intro x hx
        exact d3 x (by omega)
    unfold arguments
    cases static_ with
    | true =>
      simp only [if_true] at hl ⊢
      obtain ⟨rest, hm, ht, hlen, hr⟩ := marshal_ok mem codes vals sp hf hl h0 (by omega)
      rw [hm]
      exact ⟨_, rfl, main sp cell rest (Nat.le_refl _) hcell ht hlen hr (Or.inl rfl)⟩
    | false =>
      simp only [Bool.false_eq_true, if_false] at hl ⊢
      obtain ⟨hl1, hl2⟩ := hl
      obtain ⟨rest, hm, ht, hlen, hr⟩ := marshal_ok mem codes vals (sp + 8) hf hl2 (by omega) (by omega)
      rw [hm]
      have := main (sp + 8) sp rest (by omega) (by omega) ht hlen hr (Or.inr rfl)
      rw [hl1] at this
      exact ⟨_, rfl, this⟩
  · -- there is no frame at address 0
    have hsp : sp = 0 := by omega
    subst hsp
    have hex : ∀ (codes : List FieldCode) (vals : List JVal) (sp : Nat), FitsAll codes vals → ∃ r, marshal mem sp codes = some r := by
      intro codes
      induction codes with
      | nil => intro vals sp _; exact ⟨[], rfl⟩
      | cons c codes ih =>
        intro vals sp hf
        cases vals with
        | nil => exact hf.elim
        | cons v vals =>
          obtain ⟨hc, hf⟩ := hf
          obtain ⟨r1, e1⟩ := ih vals (sp + 8) hf
          obtain ⟨r2, e2⟩ := ih vals (sp + 16) hf
          cases c <;> first
            | exact hc.elim
            | exact ⟨_, by simp only [marshal, fieldType, e1, e2]; rfl⟩
    unfold arguments
    cases static_ with
    | true =>
      obtain ⟨r, e⟩ := hex codes vals 0 hf
      simp only [if_true]
      rw [e]
      exact ⟨_, rfl, fun h1 _ h3 => by omega⟩
    | false =>
      obtain ⟨r, e⟩ := hex codes vals (0 + 8) hf
      simp only [Bool.false_eq_true, if_false]
      rw [e]
      exact ⟨_, rfl, fun h1 _ h3 => by omega⟩

/-! ### Results of native functions -/

/-- What a native function returns by the convention: small values in the lowest bits of rax (the others are arbitrary), floating point in xmm0, a reference or null. -/
def cResult (mem : Mem) (rax xmm0 : Word) : FieldCode → Option JVal
  | .void => none
  | .byte => some (.word ((rax.setWidth 8).signExtend 32))
  | .boolean => some (.word ((rax.setWidth 8).setWidth 32))
  | .char => some (.word ((rax.setWidth 16).setWidth 32))
  | .short => some (.word ((rax.setWidth 16).signExtend 32))
  | .int => some (.word (rax.setWidth 32))
  | .long => some (.wide rax)
  | .float => some (.word (xmm0.setWidth 32))
  | .double => some (.wide xmm0)
  | .object => some (.obj (if rax = 0 then 0 else mem rax.toNat))

/-- What compiled code takes of a result. -/
def Sees (w : Word) : JVal → Prop
  | .word v => w.setWidth 32 = v
  | .wide v => w = v
  | .obj v => w = v

theorem sext_low {n : Nat} (hn : n ≤ 32) (x : BitVec n) : (x.signExtend 64).setWidth 32 = x.signExtend 32 := by
  apply BitVec.eq_of_getLsbD_eq
  intro i hi
  simp only [BitVec.getLsbD_setWidth, BitVec.getLsbD_signExtend, hi, decide_true, Bool.true_and, show i < 64 by omega]

theorem zext_low {n : Nat} (x : BitVec n) : (x.setWidth 64).setWidth 32 = x.setWidth 32 := by
  apply BitVec.eq_of_getLsbD_eq
  intro i hi
  simp only [BitVec.getLsbD_setWidth, hi, decide_true, Bool.true_and, show i < 64 by omega]

theorem sext_self (x : BitVec 32) : x.signExtend 32 = x := BitVec.signExtend_eq x

theorem follow_eq (mem : Mem) (v : Word) : follow mem v = if v = 0 then 0 else mem v.toNat := by
  unfold follow
  by_cases h : v = 0
  · rw [if_neg (fun x => x h), if_pos h]
  · rw [if_pos h, if_neg h]

/-- Java gets the result of the native function, whatever it leaves in the other bits of the registers (booleans are 0 or 1). -/
theorem result_ok (mem : Mem) (rax xmm0 : Word) (c : FieldCode) (v : JVal) (hb : c = .boolean → rax.setWidth 8 = 0#8 ∨ rax.setWidth 8 = 1#8)
    (h : cResult mem rax xmm0 c = some v) : Sees (convert mem c (returned (fieldType c) rax xmm0)) v := by
  cases c <;> simp only [cResult, Option.some.injEq, reduceCtorEq] at h <;> subst h <;> simp only [convert, returned, fieldType, Sees]
  · exact sext_low (by decide) _
  · exact zext_low _
  · rw [sext_low (by decide), sext_self]
  · rw [sext_low (by decide), sext_self]
  · exact sext_low (by decide) _
  · rcases hb rfl with e | e <;> rw [e] <;> decide
  · exact follow_eq mem rax

/-! ### C103, calls of Java methods by native code -/

/-- The words hold the values. -/
def Enc : List Word → List JVal → Prop
  | [], [] => True
  | w :: ws, .word v :: vals => w.setWidth 32 = v ∧ Enc ws vals
  | w :: _ :: ws, .wide v :: vals => w = v ∧ Enc ws vals
  | w :: ws, .obj v :: vals => w = v ∧ Enc ws vals
  | _, _ => False

/-- Which of the words are objects. -/
def maskOf : List JVal → List Bool
  | [] => []
  | .word _ :: vals => false :: maskOf vals
  | .wide _ :: vals => false :: false :: maskOf vals
  | .obj _ :: vals => true :: maskOf vals

theorem enc_laid (mem : Mem) : ∀ (vals : List JVal) (ws : List Word) (src : Nat), Enc ws vals → StackAt mem src ws → Laid mem src vals
  | [], _, _, _, _ => trivial
  | .word v :: vals, [], _, h, _ => h.elim
  | .word v :: vals, w :: ws, src, h, hs => by
    refine ⟨?_, enc_laid mem vals ws (src + 8) h.2 ?_⟩
    · have := hs 0 w rfl
      rw [Nat.mul_zero, Nat.add_zero] at this
      rw [this]; exact h.1
    · intro i x hx
      have := hs (i + 1) x hx
      rw [show src + 8 + 8 * i = src + 8 * (i + 1) by omega]; exact this
  | .wide v :: vals, [], _, h, _ => h.elim
  | .wide v :: vals, [_], _, h, _ => h.elim
  | .wide v :: vals, w :: j :: ws, src, h, hs => by
    refine ⟨?_, enc_laid mem vals ws (src + 16) h.2 ?_⟩
    · have := hs 0 w rfl
      rw [Nat.mul_zero, Nat.add_zero] at this
      rw [this]; exact h.1
    · intro i x hx
      have := hs (i + 2) x hx
      rw [show src + 16 + 8 * i = src + 8 * (i + 2) by omega]; exact this
  | .obj v :: vals, [], _, h, _ => h.elim
  | .obj v :: vals, w :: ws, src, h, hs => by
    refine ⟨?_, enc_laid mem vals ws (src + 8) h.2 ?_⟩
    · have := hs 0 w rfl
      rw [Nat.mul_zero, Nat.add_zero] at this
      rw [this]; exact h.1
    · intro i x hx
      have := hs (i + 1) x hx
      rw [show src + 8 + 8 * i = src + 8 * (i + 1) by omega]; exact this

theorem enc_length : ∀ (vals : List JVal) (ws : List Word), Enc ws vals → ws.length = footprint vals
  | [], [], _ => rfl
  | [], _ :: _, h => h.elim
  | .word v :: vals, [], h => h.elim
  | .word v :: vals, w :: ws, h => by simp only [List.length_cons, footprint, enc_length vals ws h.2]
  | .wide v :: vals, [], h => h.elim
  | .wide v :: vals, [_], h => h.elim
  | .wide v :: vals, w :: j :: ws, h => by simp only [List.length_cons, footprint, enc_length vals ws h.2]
  | .obj v :: vals, [], h => h.elim
  | .obj v :: vals, w :: ws, h => by simp only [List.length_cons, footprint, enc_length vals ws h.2]

/-- The argument list has the receiver, if any, and the values; it takes as many words as the method takes, and the mask tells which are objects. -/
structure Good (l : ArgList) (this_ : Word) (vals : List JVal) : Prop where
  laid : ∀ mem src, StackAt mem src l.array → Laid mem src (if this_ ≠ 0 then .obj this_ :: vals else vals)
  length : l.array.length = footprint (if this_ ≠ 0 then .obj this_ :: vals else vals)
  mask : l.mask = maskOf (if this_ ≠ 0 then .obj this_ :: vals else vals)

/-- One list is another with words for the values behind it. -/
def Ext (l l' : ArgList) (vals : List JVal) : Prop := ∃ ws, l'.array = l.array ++ ws ∧ Enc ws vals ∧ l'.mask = l.mask ++ maskOf vals

theorem ext_word {l l' : ArgList} {w : Word} {v : BitVec 32} {vals : List JVal} (hw : w.setWidth 32 = v) (h : Ext (l.addInt w) l' vals) : Ext l l' (.word v :: vals) := by
  obtain ⟨ws, h1, h2, h3⟩ := h
  refine ⟨w :: ws, ?_, ⟨hw, h2⟩, ?_⟩
  · rw [h1]; simp only [ArgList.addInt, List.append_assoc, List.singleton_append]
  · rw [h3]; simp only [ArgList.addInt, List.append_assoc, List.singleton_append, maskOf]

theorem ext_wide {l l' : ArgList} {junk v : Word} {vals : List JVal} (h : Ext (l.addLong junk v) l' vals) : Ext l l' (.wide v :: vals) := by
  obtain ⟨ws, h1, h2, h3⟩ := h
  refine ⟨v :: junk :: ws, ?_, ⟨rfl, h2⟩, ?_⟩
  · rw [h1]; simp only [ArgList.addLong, List.append_assoc, List.cons_append, List.nil_append]
  · rw [h3]; simp only [ArgList.addLong, List.append_assoc, List.cons_append, List.nil_append, maskOf]

theorem ext_obj {l l' : ArgList} {v : Word} {vals : List JVal} (h : Ext (l.addObject v) l' vals) : Ext l l' (.obj v :: vals) := by
  obtain ⟨ws, h1, h2, h3⟩ := h
  refine ⟨v :: ws, ?_, ⟨rfl, h2⟩, ?_⟩
  · rw [h1]; simp only [ArgList.addObject, List.append_assoc, List.singleton_append]
  · rw [h3]; simp only [ArgList.addObject, List.append_assoc, List.singleton_append, maskOf]

theorem ext_nil (l : ArgList) : Ext l l [] := ⟨[], (List.append_nil _).symm, trivial, (List.append_nil _).symm⟩

theorem ext_good {l : ArgList} {this_ : Word} {vals : List JVal} (h : Ext (ArgList.start this_) l vals) : Good l this_ vals := by
  have key : ∀ vs, Ext ⟨[], []⟩ l vs → (∀ mem src, StackAt mem src l.array → Laid mem src vs) ∧ l.array.length = footprint vs ∧ l.mask = maskOf vs := by
    rintro vs ⟨ws, h1, h2, h3⟩
    rw [List.nil_append] at h1 h3
    rw [h1]
    exact ⟨fun mem src hs => enc_laid mem vs ws src h2 hs, enc_length vs ws h2, h3⟩
  unfold ArgList.start at h
  by_cases h0 : this_ ≠ 0
  · rw [if_pos h0] at h
    obtain ⟨a, b, c⟩ := key _ (ext_obj h)
    constructor <;> rw [if_pos h0] <;> assumption
  · rw [if_neg h0] at h
    obtain ⟨a, b, c⟩ := key _ h
    constructor <;> rw [if_neg h0] <;> assumption

/-- The value an argument of a function with variable arguments stands for. -/
def vaMeans (mem : Mem) (indirect : Bool) : VArg → JVal
  | .ptr v => .obj (if indirect then (if v = 0 then 0 else mem v.toNat) else v)
  | .int v => .word v
  | .long v => .wide v
  | .float v => .word v
  | .double v => .wide v

/-- The caller passes what the parameter is declared as, promoted as C does. -/
def VFits : FieldCode → VArg → Prop
  | .object, .ptr _ => True
  | .long, .long _ => True
  | .double, .double _ => True
  | .float, .float _ => True
  | .int, .int _ => True
  | .short, .int _ => True
  | .char, .int _ => True
  | .byte, .int _ => True
  | .boolean, .int _ => True
  | _, _ => False

def VFitsAll : List FieldCode → List VArg → Prop
  | [], [] => True
  | c :: codes, a :: args => VFits c a ∧ VFitsAll codes args
  | _, _ => False

theorem low_zext (v : BitVec 32) : (v.setWidth 64).setWidth 32 = v := by
  rw [zext_low, BitVec.setWidth_eq]

theorem vaLoop_ok (mem : Mem) (indirect : Bool) (junk : Word) : ∀ (codes : List FieldCode) (args : List VArg) (l : ArgList), VFitsAll codes args →
    ∃ l', vaLoop mem indirect junk codes args l = some l' ∧ Ext l l' (args.map (vaMeans mem indirect))
  | [], [], l, _ => ⟨l, rfl, ext_nil l⟩
  | [], _ :: _, _, h => h.elim
  | _ :: _, [], _, h => h.elim
  | c :: codes, a :: args, l, h => by
    obtain ⟨hc, hr⟩ := h
    cases c <;> cases a <;> first
      | exact hc.elim
      | (rename_i v
         obtain ⟨l', e, hx⟩ := vaLoop_ok mem indirect junk codes args (l.addInt (v.setWidth 64)) hr
         exact ⟨l', e, ext_word (low_zext v) hx⟩)
      | (rename_i v
         obtain ⟨l', e, hx⟩ := vaLoop_ok mem indirect junk codes args (l.addLong junk v) hr
         exact ⟨l', e, ext_wide hx⟩)
      | (rename_i v
         obtain ⟨l', e, hx⟩ := vaLoop_ok mem indirect junk codes args (l.addObject (if indirect then follow mem v else v)) hr
         refine ⟨l', e, ?_⟩
         have e' : vaMeans mem indirect (.ptr v) = .obj (if indirect then follow mem v else v) := by unfold vaMeans; simp only; rw [follow_eq]
         rw [List.map_cons, e']
         exact ext_obj hx)

/-- `CallXMethod` and `CallXMethodV`: the method gets the receiver and what the arguments stand for. -/
theorem va_ok (mem : Mem) (indirect : Bool) (junk this_ : Word) (codes : List FieldCode) (args : List VArg) (h : VFitsAll codes args) :
    ∃ l, vaLoop mem indirect junk codes args (ArgList.start this_) = some l ∧ Good l this_ (args.map (vaMeans mem indirect)) := by
  obtain ⟨l, e, hx⟩ := vaLoop_ok mem indirect junk codes args (ArgList.start this_) h
  exact ⟨l, e, ext_good hx⟩

/-- The value of the union for a parameter: only the bytes of the member of its type count. -/
def jMeans (mem : Mem) (v : Word) : FieldCode → JVal
  | .byte => .word ((v.setWidth 8).signExtend 32)
  | .boolean => .word ((v.setWidth 8).setWidth 32)
  | .char => .word ((v.setWidth 16).setWidth 32)
  | .short => .word ((v.setWidth 16).signExtend 32)
  | .long => .wide v
  | .double => .wide v
  | .object => .obj (if v = 0 then 0 else mem v.toNat)
  | _ => .word (v.setWidth 32)

/-- The member was stored as an int. -/
def Clean (mem : Mem) (c : FieldCode) (v : Word) : Prop := ∀ x, jMeans mem v c = .word x → v.setWidth 32 = x

def CleanAll (mem : Mem) : List FieldCode → List Word → Prop
  | [], [] => True
  | c :: codes, v :: args => Clean mem c v ∧ CleanAll mem codes args
  | _, _ => False

theorem low_sext (v : Word) : ((v.setWidth 32).signExtend 64).setWidth 32 = v.setWidth 32 := by
  rw [sext_low (by decide), sext_self]

theorem jvalueLoop_ok (mem : Mem) (junk : Word) : ∀ (codes : List FieldCode) (args : List Word) (l : ArgList), CleanAll mem codes args →
    ∃ l', jvalueLoop mem junk codes args l = some l' ∧ Ext l l' (List.zipWith (fun c v => jMeans mem v c) codes args)
  | [], [], l, _ => ⟨l, rfl, ext_nil l⟩
  | [], _ :: _, _, h => h.elim
  | _ :: _, [], _, h => h.elim
  | c :: codes, v :: args, l, h => by
    obtain ⟨hc, hr⟩ := h
    rw [List.zipWith_cons_cons]
    obtain ⟨l1, e1, x1⟩ := jvalueLoop_ok mem junk codes args (l.addInt ((v.setWidth 32).signExtend 64)) hr
    obtain ⟨l2, e2, x2⟩ := jvalueLoop_ok mem junk codes args (l.addLong junk v) hr
    obtain ⟨l3, e3, x3⟩ := jvalueLoop_ok mem junk codes args (l.addObject (follow mem v)) hr
    obtain ⟨l4, e4, x4⟩ := jvalueLoop_ok mem junk codes args (l.addInt ((v.setWidth 32).setWidth 64)) hr
    cases c with
    | float => exact ⟨l4, e4, ext_word (low_zext _) x4⟩
    | long => exact ⟨l2, e2, ext_wide x2⟩
    | double => exact ⟨l2, e2, ext_wide x2⟩
    | object =>
      refine ⟨l3, e3, ?_⟩
      unfold jMeans
      rw [← follow_eq]
      exact ext_obj x3
    | _ => exact ⟨l1, e1, ext_word ((low_sext v).trans (hc _ rfl)) x1⟩

/-- `CallXMethodA`, for unions in which small values were stored as ints. -/
theorem jvalue_ok_partial (mem : Mem) (junk this_ : Word) (codes : List FieldCode) (args : List Word) (h : CleanAll mem codes args) :
    ∃ l, jvalueLoop mem junk codes args (ArgList.start this_) = some l ∧ Good l this_ (List.zipWith (fun c v => jMeans mem v c) codes args) := by
  obtain ⟨l, e, hx⟩ := jvalueLoop_ok mem junk codes args (ArgList.start this_) h
  exact ⟨l, e, ext_good hx⟩

/-- Otherwise the other bytes of the union get through. -/
theorem jvalue_wrong (mem : Mem) (junk v : Word) (c : FieldCode) (hc : c = .byte ∨ c = .boolean ∨ c = .char ∨ c = .short) (h : ¬ Clean mem c v) :
    ∃ l, jvalueLoop mem junk [c] [v] (ArgList.start 0) = some l ∧ ∀ m src, StackAt m src l.array → ¬ Laid m src [jMeans mem v c] := by
  refine ⟨⟨[(v.setWidth 32).signExtend 64], [false]⟩, ?_, ?_⟩
  · rcases hc with rfl | rfl | rfl | rfl <;> rfl
  · intro m src hs hl
    have h0 := hs 0 _ rfl
    rw [Nat.mul_zero, Nat.add_zero] at h0
    apply h
    intro x hx
    rw [hx] at hl
    have := hl.1
    rw [h0, low_sext] at this
    exact this

/-! ### Calls by reflection -/

/-- The value of a box: the field behind the header has the size of its type. -/
def boxMeans (mem : Mem) (v : Word) : FieldCode → JVal
  | .object => .obj v
  | .byte => .word (((mem (v.toNat + 8)).setWidth 8).signExtend 32)
  | .boolean => .word (((mem (v.toNat + 8)).setWidth 8).setWidth 32)
  | .char => .word (((mem (v.toNat + 8)).setWidth 16).setWidth 32)
  | .short => .word (((mem (v.toNat + 8)).setWidth 16).signExtend 32)
  | .long => .wide (mem (v.toNat + 8))
  | .double => .wide (mem (v.toNat + 8))
  | _ => .word ((mem (v.toNat + 8)).setWidth 32)

/-- A box as it was allocated: what lies behind the value is zero. -/
def IsBox (mem : Mem) (v : Word) : FieldCode → Prop
  | .byte => mem (v.toNat + 8) = ((mem (v.toNat + 8)).setWidth 8).setWidth 64
  | .boolean => mem (v.toNat + 8) = ((mem (v.toNat + 8)).setWidth 8).setWidth 64
  | .char => mem (v.toNat + 8) = ((mem (v.toNat + 8)).setWidth 16).setWidth 64
  | .short => mem (v.toNat + 8) = ((mem (v.toNat + 8)).setWidth 16).setWidth 64
  | _ => True

/-- Bytes and shorts are not negative. -/
def NotNegative (mem : Mem) (v : Word) : FieldCode → Prop
  | .byte => ((mem (v.toNat + 8)).setWidth 8).msb = false
  | .short => ((mem (v.toNat + 8)).setWidth 16).msb = false
  | _ => True

def BoxAll (mem : Mem) : List FieldCode → List Word → Prop
  | [], [] => True
  | c :: codes, v :: args => IsBox mem v c ∧ NotNegative mem v c ∧ BoxAll mem codes args
  | _, _ => False

theorem boxed_word {mem : Mem} {c : FieldCode} {v : Word} (hb : IsBox mem v c) (hn : NotNegative mem v c) :
    ∀ x, boxMeans mem v c = .word x → (((mem (v.toNat + 8)).setWidth 32).signExtend 64).setWidth 32 = x := by
  intro x hx
  rw [low_sext]
  cases c <;> simp only [boxMeans, JVal.word.injEq, reduceCtorEq] at hx <;> subst hx <;> simp only [IsBox, NotNegative] at hb hn <;> try rfl
  case byte =>
    rw [BitVec.signExtend_eq_setWidth_of_msb_false hn]
    conv => lhs; rw [hb]
    exact zext_low _
  case short =>
    rw [BitVec.signExtend_eq_setWidth_of_msb_false hn]
    conv => lhs; rw [hb]
    exact zext_low _
  case char =>
    conv => lhs; rw [hb]
    exact zext_low _
  case boolean =>
    conv => lhs; rw [hb]
    exact zext_low _

theorem boxedLoop_ok (mem : Mem) (junk : Word) : ∀ (codes : List FieldCode) (args : List Word) (l : ArgList), BoxAll mem codes args →
    ∃ l', boxedLoop mem junk codes args l = some l' ∧ Ext l l' (List.zipWith (fun c v => boxMeans mem v c) codes args)
  | [], [], l, _ => ⟨l, rfl, ext_nil l⟩
  | [], _ :: _, _, h => h.elim
  | _ :: _, [], _, h => h.elim
  | c :: codes, v :: args, l, h => by
    obtain ⟨hb, hn, hr⟩ := h
    rw [List.zipWith_cons_cons]
    have hw := boxed_word hb hn
    obtain ⟨l1, e1, x1⟩ := boxedLoop_ok mem junk codes args (l.addInt (((mem (v.toNat + 8)).setWidth 32).signExtend 64)) hr
    obtain ⟨l2, e2, x2⟩ := boxedLoop_ok mem junk codes args (l.addLong junk (mem (v.toNat + 8))) hr
    obtain ⟨l3, e3, x3⟩ := boxedLoop_ok mem junk codes args (l.addObject v) hr
    cases c with
    | long => exact ⟨l2, e2, ext_wide x2⟩
    | double => exact ⟨l2, e2, ext_wide x2⟩
    | object => exact ⟨l3, e3, ext_obj x3⟩
    | _ => exact ⟨l1, e1, ext_word (hw _ rfl) x1⟩

/-- `Method.invoke` with arguments of the declared types, of which bytes and shorts are not negative. -/
theorem reflect_ok_partial (mem : Mem) (junk this_ : Word) (codes : List FieldCode) (args : List Word) (h : BoxAll mem codes args) :
    ∃ l, boxedLoop mem junk codes args (ArgList.start this_) = some l ∧ Good l this_ (List.zipWith (fun c v => boxMeans mem v c) codes args) := by
  obtain ⟨l, e, hx⟩ := boxedLoop_ok mem junk codes args (ArgList.start this_) h
  exact ⟨l, e, ext_good hx⟩

theorem msb_ext {n : Nat} (hn : n < 32) (x : BitVec n) (h : x.msb = true) : x.setWidth 32 ≠ x.signExtend 32 := by
  intro e
  have := congrArg (fun y => y.getLsbD n) e
  simp only [BitVec.getLsbD_setWidth, BitVec.getLsbD_signExtend, hn, decide_true, Bool.true_and, Nat.lt_irrefl, if_false, h] at this
  have h2 : x.getLsbD n = false := BitVec.getLsbD_of_ge x n (Nat.le_refl n)
  rw [h2] at this
  cases this

/-- A negative byte or short given to `Method.invoke` arrives as another number. -/
theorem reflect_negative_wrong (mem : Mem) (junk v : Word) (c : FieldCode) (hc : c = .byte ∨ c = .short) (hb : IsBox mem v c) (hn : ¬ NotNegative mem v c) :
    ∃ l, boxedLoop mem junk [c] [v] (ArgList.start 0) = some l ∧ ∀ m src, StackAt m src l.array → ¬ Laid m src [boxMeans mem v c] := by
  refine ⟨⟨[((mem (v.toNat + 8)).setWidth 32).signExtend 64], [false]⟩, ?_, ?_⟩
  · rcases hc with rfl | rfl <;> rfl
  · intro m src hs hl
    have h0 := hs 0 _ rfl
    rw [Nat.mul_zero, Nat.add_zero] at h0
    rcases hc with rfl | rfl
    · have h1 := hl.1
      rw [h0, low_sext] at h1
      simp only [IsBox, NotNegative, Bool.not_eq_false] at hb hn
      rw [hb] at h1
      rw [zext_low] at h1
      have e8 : ((((mem (v.toNat + 8)).setWidth 8).setWidth 64).setWidth 8) = (mem (v.toNat + 8)).setWidth 8 := by rw [← hb]
      rw [e8] at h1
      exact msb_ext (by decide) _ hn h1
    · have h1 := hl.1
      rw [h0, low_sext] at h1
      simp only [IsBox, NotNegative, Bool.not_eq_false] at hb hn
      rw [hb] at h1
      rw [zext_low] at h1
      have e8 : ((((mem (v.toNat + 8)).setWidth 16).setWidth 64).setWidth 16) = (mem (v.toNat + 8)).setWidth 16 := by rw [← hb]
      rw [e8] at h1
      exact msb_ext (by decide) _ hn h1

/-- An `Integer` given for a parameter of type long, which Java widens: a negative one arrives as another number. -/
theorem reflect_widening_wrong (mem : Mem) (junk v : Word) (i : BitVec 32) (hbox : mem (v.toNat + 8) = i.setWidth 64) (hneg : i.msb = true) :
    ∃ l, boxedLoop mem junk [.long] [v] (ArgList.start 0) = some l ∧ ∀ m src, StackAt m src l.array → ¬ Laid m src [.wide (i.signExtend 64)] := by
  refine ⟨⟨[mem (v.toNat + 8), junk], [false, false]⟩, rfl, ?_⟩
  intro m src hs hl
  have h0 := hs 0 _ rfl
  rw [Nat.mul_zero, Nat.add_zero] at h0
  have h1 := hl.1
  rw [h0, hbox] at h1
  have := congrArg (fun y => y.getLsbD 32) h1
  simp only [BitVec.getLsbD_setWidth, BitVec.getLsbD_signExtend, show (32 : Nat) < 64 by decide, decide_true, Bool.true_and, Nat.lt_irrefl, if_false, hneg] at this
  have h2 : i.getLsbD 32 = false := BitVec.getLsbD_of_ge i 32 (Nat.le_refl 32)
  rw [h2] at this
  cases this

/-- Objects of whatever type are taken for whatever parameter: nothing is refused. -/
theorem reflect_unchecked_wrong (mem : Mem) (junk : Word) : ∀ (codes : List FieldCode) (args : List Word) (l : ArgList), args.length = codes.length →
    ∃ l', boxedLoop mem junk codes args l = some l'
  | [], _, l, _ => ⟨l, rfl⟩
  | c :: codes, v :: args, l, h => by
    have hl : args.length = codes.length := by simp only [List.length_cons] at h; omega
    cases c <;> exact reflect_unchecked_wrong mem junk codes args _ hl

/-! ### Cases that meet the hypotheses -/

/-- A method with (int, long, Object, double, Object) of which the last is null. -/
def exampleMem : Mem := fun a =>
  if a = 4000 then 7000 else if a = 4008 then 0xABCD00000005 else if a = 4016 then 77 else if a = 4032 then 8000 else if a = 4040 then 99 else 0

example : Laid exampleMem 4000 [.obj 7000, .word 5, .wide 77, .obj 8000, .wide 99, .obj 0] ∧
    FitsAll [.int, .long, .object, .double, .object] [.word 5, .wide 77, .obj 8000, .wide 99, .obj 0] := by
  refine ⟨⟨?_, ?_, ?_, ?_, ?_, ?_, trivial⟩, trivial, trivial, trivial, trivial, trivial, trivial⟩ <;> decide +kernel

example : arguments exampleMem 1 false 0 4000 [.int, .long, .object, .double, .object] =
    some [(1, .pointer), (4000, .pointer), (0xABCD00000005, .int32), (77, .int64), (4032, .pointer), (99, .double), (0, .pointer)] := by decide +kernel

/-- Seven ints and one double: two words go to the stack. -/
example : distribute [(1, .pointer), (2, .pointer), (3, .int32), (4, .int32), (5, .int8), (6, .int32), (7, .int32), (8, .double), (9, .int64)] =
    ⟨[1, 2, 3, 4, 5, 6], [8], [7, 9]⟩ := by decide +kernel

example : memBefore [.pointer, .pointer, .int32, .int32, .int8, .int32, .int32, .double, .int64] 8 = 1 := by decide +kernel

example : cResult exampleMem 0xFFFFFFFFFFFFFF80 0 .byte = some (.word 0xFFFFFF80) := by decide +kernel

example : VFitsAll [.object, .byte, .float, .long] [.ptr 4000, .int 0xFFFFFFFF, .float 1, .long 5] := ⟨trivial, trivial, trivial, trivial, trivial⟩

example : vaLoop exampleMem true 0 [.object, .byte, .float, .long] [.ptr 4000, .int 0xFFFFFFFF, .float 1, .long 5] (ArgList.start 9000) =
    some ⟨[9000, 7000, 0xFFFFFFFF, 1, 5, 0], [true, true, false, false, false, false]⟩ := by decide +kernel

example : CleanAll exampleMem [.byte, .object, .char] [0xFFFFFFFFFFFFFFFF, 4000, 0xABCD] := by
  refine ⟨?_, ?_, ?_, trivial⟩ <;> intro x hx <;> simp only [jMeans, JVal.word.injEq, reduceCtorEq] at hx <;> subst hx <;> decide

example : ¬ Clean exampleMem .byte 0xFF := by
  intro h
  have := h _ rfl
  revert this
  decide

/-- Boxes of the byte 5 and the int −1. -/
example : BoxAll (fun a => if a = 108 then 5 else if a = 208 then 0xFFFFFFFF else 0) [.byte, .int] [100, 200] := by
  refine ⟨?_, ?_, trivial, trivial, trivial⟩ <;> simp only [IsBox, NotNegative] <;> decide

/-- A box of the byte −1. -/
example : IsBox (fun _ => 0xFF) 100 .byte ∧ ¬ NotNegative (fun _ => 0xFF) 100 .byte := by
  simp only [IsBox, NotNegative]; decide

end Avian.NativeCall
