import Verif.Lib.OutStreams
import Verif.Props.ArrayList

/-
C75: output streams keep and pass on what is written to them.
-/
namespace Avian.OutStreams

open ArrayList (Exn copy wrap copy_ok)

/-! ### Specification: the bytes written so far -/

/-- Whether a part is within an array. -/
def Within (b : List Byte) (offset length : Int) : Prop := 0 ≤ offset ∧ 0 ≤ length ∧ offset + length ≤ b.length

instance (b : List Byte) (offset length : Int) : Decidable (Within b offset length) := by unfold Within; infer_instance

/-- The bytes of a part of an array. -/
def part (b : List Byte) (offset length : Int) : List Byte := (b.drop offset.toNat).take length.toNat

/-- The low eight bits of an int. -/
def low (c : BitVec 32) : Byte := BitVec.ofNat 8 c.toNat

/-- Calls of a byte array stream. -/
inductive Op where
  | write (c : BitVec 32)
  | writeAll (b : List Byte) (offset length : BitVec 32)
  | reset
  | size
  | toByteArray
  /-- to a stream that was given some bytes already -/
  | writeTo (before : List Byte)

/-- What a caller sees. -/
inductive Reply where
  | done
  | failed
  | number (n : Int)
  | bytes (b : List Byte)
  deriving DecidableEq

/-- What the calls mean for the bytes written since the last reset. -/
def spec (es : List Byte) : Op → List Byte × Reply
  | .write c => (es ++ [low c], .done)
  | .writeAll b o n =>
    if Within b o.toInt n.toInt then (es ++ part b o.toInt n.toInt, .done) else (es, .failed)
  | .reset => ([], .done)
  | .size => (es, .number es.length)
  | .toByteArray => (es, .bytes es)
  | .writeTo before => (es, .bytes (before ++ es))

def specRun (es : List Byte) : List Op → List Reply
  | [] => []
  | op :: ops => (spec es op).2 :: specRun (spec es op).1 ops

/-- How a call ended. -/
def ended : Option Exn → Reply
  | none => .done
  | some _ => .failed

/-- The same calls on the stream. -/
def step (s : Baos) : Op → Baos × Reply
  | .write c => ((write s c).1, ended (write s c).2)
  | .writeAll b o n => ((writeAll s b o.toInt n.toInt).1, ended (writeAll s b o.toInt n.toInt).2)
  | .reset => (reset, .done)
  | .size => (s, .number (size s))
  | .toByteArray => ((toByteArray s).1, match (toByteArray s).2 with | .ok b => .bytes b | .error _ => .failed)
  | .writeTo before =>
    ((writeTo s ⟨before, 0⟩).1, match (writeTo s ⟨before, 0⟩).2 with | (o, none) => .bytes o.bytes | (_, some _) => .failed)

def run (s : Baos) : List Op → List Reply
  | [] => []
  | op :: ops => (step s op).2 :: run (step s op).1 ops

/-! ### Byte array streams -/

def Cell.bytes (c : Cell) : List Byte := (c.array.drop c.offset.toNat).take c.length.toNat

def Cell.Ok (c : Cell) : Prop := c.offset = 0 ∧ 0 ≤ c.length ∧ c.length ≤ c.array.length

/-- The stream holds the bytes `es`. -/
structure Rep (s : Baos) (es : List Byte) : Prop where
  cells : ∀ c ∈ s.cells, c.Ok
  content : es = s.cells.flatMap Cell.bytes ++ (s.buffer.getD []).take s.position.toNat
  length : s.length = es.length
  empty : s.buffer = none → s.position = 0
  full : ∀ b, s.buffer = some b → b.length = 32 ∧ 0 ≤ s.position ∧ s.position ≤ 32

theorem low_ok (c : BitVec 32) : BitVec.setWidth 8 (c &&& 0xFF#32) = low c := by
  unfold low
  apply BitVec.eq_of_toNat_eq
  simp only [BitVec.toNat_setWidth, BitVec.toNat_and, BitVec.toNat_ofNat]
  have : c.toNat &&& (255 % 2 ^ 32) = c.toNat % 2 ^ 8 := Nat.and_two_pow_sub_one_eq_mod c.toNat 8
  rw [this]
  omega

theorem rep_reset : Rep reset [] := ⟨by simp [reset], by simp [reset], by simp [reset], by simp [reset], by simp [reset]⟩

theorem storeByte_ok {a : List Byte} {i : Nat} (h : i < a.length) (v : Byte) : storeByte a i v = .ok (a.set i v) := by
  unfold storeByte
  rw [if_pos (by omega), Int.toNat_natCast]

theorem take_set_succ {a : List Byte} {i : Nat} (h : i < a.length) (v : Byte) : (a.set i v).take (i + 1) = a.take i ++ [v] := by
  rw [List.take_succ_eq_append_getElem (by simpa using h), List.take_set_of_le (by omega)]
  simp

theorem flush_rep {s : Baos} {es : List Byte} (h : Rep s es) : Rep (flushBuffer s) es ∧ (flushBuffer s).position = 0 ∧
    (s.position = 0 → flushBuffer s = s) ∧ (flushBuffer s).length = s.length := by
  unfold flushBuffer
  by_cases hp : s.position > 0
  · rw [if_pos hp]
    have hb : ∃ b, s.buffer = some b := by
      cases hb : s.buffer with
      | none => exact absurd (h.empty hb) (by omega)
      | some b => exact ⟨b, rfl⟩
    obtain ⟨b, hb⟩ := hb
    obtain ⟨h1, h2, h3⟩ := h.full b hb
    refine ⟨⟨?_, ?_, h.length, fun _ => rfl, by simp [chainCell]⟩, rfl, fun h0 => by omega, rfl⟩
    · intro c hc
      simp only [chainCell, List.mem_append, List.mem_singleton] at hc
      rcases hc with hc | rfl
      · exact h.cells c hc
      · refine ⟨rfl, h2, ?_⟩
        simp only [hb, Option.getD_some, h1]
        omega
    · rw [h.content]
      simp [chainCell, Cell.bytes]
  · rw [if_neg hp]
    have h0 : s.position = 0 := by
      cases hb : s.buffer with
      | none => exact h.empty hb
      | some b => have := h.full b hb; omega
    exact ⟨h, h0, fun _ => rfl, rfl⟩

theorem write_rep {s : Baos} {es : List Byte} (h : Rep s es) (c : BitVec 32) :
    Rep (write s c).1 (es ++ [low c]) ∧ (write s c).2 = none := by
  have hroom : Rep { (room s).1 with buffer := some (room s).2 } es ∧ 0 ≤ (room s).1.position ∧ (room s).1.position < 32 ∧
      (room s).2.length = 32 := by
    unfold room
    cases hb : s.buffer with
    | none =>
      have h0 := h.empty hb
      refine ⟨⟨h.cells, ?_, h.length, by simp, ?_⟩, by simp [h0], by simp [h0], by simp⟩
      · rw [h.content]; simp [hb, h0]
      · intro b hb'
        simp only [Option.some.injEq] at hb'
        subst hb'
        exact ⟨by simp, by simp [h0], by simp [h0]⟩
    | some b =>
      obtain ⟨h1, h2, h3⟩ := h.full b hb
      simp only
      by_cases hp : s.position ≥ b.length
      · rw [if_pos hp]
        obtain ⟨r, r0, _, rl⟩ := flush_rep h
        refine ⟨⟨r.cells, ?_, r.length, by simp, ?_⟩, by simp [r0], by simp [r0], by simp⟩
        · rw [r.content]; simp [r0]
        · intro b' hb'
          simp only [Option.some.injEq] at hb'
          subst hb'
          exact ⟨by simp, by simp [r0], by simp [r0]⟩
      · rw [if_neg hp]
        refine ⟨⟨h.cells, ?_, h.length, by simp, ?_⟩, h2, by simp only; omega, h1⟩
        · rw [h.content]; simp [hb]
        · intro b' hb'
          simp only [Option.some.injEq] at hb'
          subst hb'
          exact h.full _ hb
  obtain ⟨r, p0, p1, pl⟩ := hroom
  obtain ⟨p, hp⟩ : ∃ p : Nat, (room s).1.position = p := ⟨_, (Int.toNat_of_nonneg p0).symm⟩
  unfold write
  rw [hp, storeByte_ok (by omega), low_ok]
  refine ⟨⟨r.cells, ?_, ?_, by simp, ?_⟩, rfl⟩
  · have hc := r.content
    simp only [Option.getD_some, hp, Int.toNat_natCast] at hc ⊢
    have e : ((p : Int) + 1).toNat = p + 1 := by omega
    rw [e, take_set_succ (by omega), ← List.append_assoc, ← hc]
  · have := r.length
    simp only [List.length_append, List.length_cons, List.length_nil] at this ⊢
    omega
  · intro b hb
    simp only [Option.some.injEq] at hb
    subst hb
    refine ⟨by simp [pl], ?_, ?_⟩ <;> simp only <;> omega

theorem copy_bad {A : Type} (src dst : List A) (s d n : Int) (h : n < 0 ∨ (0 < n ∧ (s < 0 ∨ s + n > src.length))) :
    copy src dst s d n = .error .indexOutOfBounds := by
  unfold copy
  rcases h with h | ⟨h1, h2⟩
  · rw [if_neg (by omega), if_pos h]
  · rw [if_pos h1, if_neg (by omega)]

theorem writeCell_rep {s : Baos} {es : List Byte} (h : Rep s es) (b : List Byte) (o n : Nat) (hw : o + n ≤ b.length) :
    Rep (writeCell s b o n).1 (es ++ (b.drop o).take n) ∧ (writeCell s b o n).2 = none := by
  have hc := copy_ok b (List.replicate n (0 : Byte)) o 0 n hw (by simp)
  have e : copyOf b o n = .ok ((b.drop o).take n) := by
    unfold copyOf newBytes
    rw [if_neg (by omega)]
    simp only [Except.bind, Int.toNat_natCast]
    rw [show copy b (List.replicate n (0 : Byte)) (o : Int) 0 (n : Int) = _ from hc]
    simp
  obtain ⟨r, r0, _, rl⟩ := flush_rep h
  unfold writeCell
  rw [e]
  refine ⟨⟨?_, ?_, ?_, r.empty, r.full⟩, rfl⟩
  · intro c hc
    simp only [chainCell, List.mem_append, List.mem_singleton] at hc
    rcases hc with hc | rfl
    · exact r.cells c hc
    · refine ⟨rfl, by simp only; omega, ?_⟩
      simp only [List.length_take, List.length_drop]
      omega
  · conv => lhs; rw [r.content]
    simp [chainCell, Cell.bytes, r0, List.take_take]
  · have := h.length
    simp only [List.length_append, List.length_take, List.length_drop]
    omega

theorem writeCell_bad {s : Baos} {es : List Byte} (h : Rep s es) (b : List Byte) (o n : Int)
    (hw : n < 0 ∨ (0 < n ∧ (o < 0 ∨ o + n > b.length))) :
    Rep (writeCell s b o n).1 es ∧ ∃ e, (writeCell s b o n).2 = some e := by
  have e : ∃ e, copyOf b o n = .error e := by
    unfold copyOf newBytes
    by_cases hn : n < 0
    · rw [if_pos hn]; exact ⟨_, rfl⟩
    · rw [if_neg hn]
      simp only [Except.bind]
      rw [copy_bad _ _ _ _ _ hw]
      exact ⟨_, rfl⟩
  obtain ⟨e, he⟩ := e
  unfold writeCell
  rw [he]
  exact ⟨(flush_rep h).1, e, rfl⟩

theorem wrap_small {i : Int} (h1 : -2 ^ 31 ≤ i) (h2 : i < 2 ^ 31) : wrap i = i := by
  unfold wrap
  omega

theorem wrap_large {i : Int} (h1 : 2 ^ 31 ≤ i) (h2 : i < 2 ^ 32) : wrap i = i - 2 ^ 32 := by
  unfold wrap
  omega

theorem writeAll_rep {s : Baos} {es : List Byte} (h : Rep s es) (b : List Byte) (o n : Nat) (hw : o + n ≤ b.length)
    (hi : o + n < 2 ^ 31) :
    Rep (writeAll s b o n).1 (es ++ (b.drop o).take n) ∧ (writeAll s b o n).2 = none := by
  unfold writeAll
  rw [wrap_small (by omega) (by omega), if_neg (by omega)]
  by_cases h0 : n = 0
  · subst h0
    rw [if_pos (by rfl)]
    simp only [List.take_zero, List.append_nil]
    exact ⟨h, trivial⟩
  · rw [if_neg (by omega)]
    cases hb : s.buffer with
    | none => exact writeCell_rep h b o n hw
    | some buf =>
      obtain ⟨h1, h2, h3⟩ := h.full buf hb
      simp only
      by_cases hl : (n : Int) ≤ buf.length - s.position
      · rw [if_pos hl]
        obtain ⟨p, hp⟩ : ∃ p : Nat, s.position = p := ⟨_, (Int.toNat_of_nonneg h2).symm⟩
        have hc := copy_ok b buf o p n hw (by omega)
        rw [hp, hc]
        refine ⟨⟨h.cells, ?_, ?_, by simp, ?_⟩, rfl⟩
        · have hc := h.content
          simp only [hb, Option.getD_some, hp, Int.toNat_natCast] at hc ⊢
          rw [hc]
          have e : ((p : Int) + n).toNat = p + n := by omega
          have hl1 : (buf.take p ++ (b.drop o).take n).length = p + n := by simp; omega
          rw [e, List.take_append_of_le_length (by omega), List.take_of_length_le (l := buf.take p ++ _) (by omega)]
          simp
        · have := h.length
          simp only [List.length_append, List.length_take, List.length_drop]
          omega
        · intro b' hb'
          simp only [Option.some.injEq] at hb'
          subst hb'
          refine ⟨?_, ?_, ?_⟩
          · simp; omega
          · simp only; omega
          · simp only; omega
      · rw [if_neg hl]
        exact writeCell_rep h b o n hw

theorem writeAll_bad {s : Baos} {es : List Byte} (h : Rep s es) (b : List Byte) (o n : Int)
    (ho : -2 ^ 31 ≤ o ∧ o < 2 ^ 31) (hn : -2 ^ 31 ≤ n ∧ n < 2 ^ 31) (hw : ¬ Within b o n) :
    Rep (writeAll s b o n).1 es ∧ ∃ e, (writeAll s b o n).2 = some e := by
  unfold Within at hw
  unfold writeAll
  by_cases hc : o < 0 ∨ wrap (o + n) > b.length
  · rw [if_pos hc]
    exact ⟨h, _, rfl⟩
  · rw [if_neg hc]
    have hbad : n < 0 ∨ (0 < n ∧ (o < 0 ∨ o + n > b.length)) := by
      by_cases hs : o + n < 2 ^ 31
      · rw [wrap_small (by omega) (by omega)] at hc
        omega
      · by_cases hb : (b.length : Int) < o + n
        · omega
        · omega
    rw [if_neg (by omega)]
    cases hb : s.buffer with
    | none => exact writeCell_bad h b o n hbad
    | some buf =>
      simp only
      by_cases hl : n ≤ buf.length - s.position
      · rw [if_pos hl, copy_bad _ _ _ _ _ hbad]
        exact ⟨h, _, rfl⟩
      · rw [if_neg hl]
        exact writeCell_bad h b o n hbad

theorem gather_ok : ∀ (cs : List Cell) (array : List Byte) (pos : Nat), (∀ c ∈ cs, c.Ok) →
    pos + (cs.flatMap Cell.bytes).length = array.length →
    gather cs array pos = .ok (array.take pos ++ cs.flatMap Cell.bytes) := by
  intro cs
  induction cs with
  | nil =>
    intro array pos _ h
    simp only [List.flatMap_nil, List.length_nil, Nat.add_zero] at h
    simp [gather, h]
  | cons c cs ih =>
    intro array pos hc h
    obtain ⟨h1, h2, h3⟩ := hc c (by simp)
    obtain ⟨k, hk⟩ : ∃ k : Nat, c.length = k := ⟨_, (Int.toNat_of_nonneg h2).symm⟩
    have hb : c.bytes = c.array.take k := by simp [Cell.bytes, h1, hk]
    have hbl : c.bytes.length = k := by rw [hb]; simp; omega
    rw [List.flatMap_cons, List.length_append, hbl] at h
    have e := copy_ok c.array array 0 pos k (by omega) (by omega)
    rw [gather, h1, hk]
    rw [show copy c.array array 0 (pos : Int) (k : Int) = _ from e]
    simp only [Except.bind]
    have ep : (pos : Int) + k = ((pos + k : Nat) : Int) := by omega
    rw [ep, ih _ _ (fun c hc' => hc c (by simp [hc']))]
    · rw [List.flatMap_cons, hb, List.drop_zero]
      congr 1
      rw [← List.append_assoc]
      congr 1
      have hl : (array.take pos ++ c.array.take k).length = pos + k := by simp; omega
      rw [List.take_append_of_le_length (by omega), List.take_of_length_le (by omega)]
    · simp only [List.length_append, List.length_take, List.length_drop, List.drop_zero]
      omega

theorem toByteArray_rep {s : Baos} {es : List Byte} (h : Rep s es) :
    Rep (toByteArray s).1 es ∧ (toByteArray s).2 = .ok es := by
  obtain ⟨r, r0, _, rl⟩ := flush_rep h
  refine ⟨r, ?_⟩
  have hc := r.content
  rw [r0] at hc
  simp only [Int.toNat_zero, List.take_zero, List.append_nil] at hc
  unfold toByteArray newBytes
  rw [h.length, if_neg (by omega)]
  simp only [Except.bind]
  rw [show (0 : Int) = ((0 : Nat) : Int) from rfl, gather_ok _ _ 0 r.cells]
  · simp [← hc]
  · rw [← hc]; simp

theorem writeCells_ok : ∀ (cs : List Cell) (o : Sink), (∀ c ∈ cs, c.Ok) →
    writeCells cs o = ({ o with bytes := o.bytes ++ cs.flatMap Cell.bytes }, none) := by
  intro cs
  induction cs with
  | nil => intro o _; simp [writeCells]
  | cons c cs ih =>
    intro o hc
    obtain ⟨h1, h2, h3⟩ := hc c (by simp)
    unfold writeCells sinkWrite
    rw [if_pos (by omega)]
    simp only
    rw [ih _ fun c hc' => hc c (by simp [hc'])]
    simp [Cell.bytes]

theorem writeTo_rep {s : Baos} {es : List Byte} (h : Rep s es) (o : Sink) :
    Rep (writeTo s o).1 es ∧ (writeTo s o).2 = ({ o with bytes := o.bytes ++ es }, none) := by
  unfold writeTo
  by_cases h0 : s.length = 0
  · rw [if_pos h0]
    have : es = [] := by
      have := h.length
      exact List.eq_nil_of_length_eq_zero (by omega)
    subst this
    exact ⟨h, by simp⟩
  · rw [if_neg h0]
    obtain ⟨r, r0, _, rl⟩ := flush_rep h
    refine ⟨r, ?_⟩
    have hc := r.content
    rw [r0] at hc
    simp only [Int.toNat_zero, List.take_zero, List.append_nil] at hc
    rw [writeCells_ok _ _ r.cells, ← hc]

theorem part_nat (b : List Byte) {o n : Int} (h : Within b o n) :
    ∃ i k : Nat, o = i ∧ n = k ∧ i + k ≤ b.length ∧ part b o n = (b.drop i).take k := by
  obtain ⟨h1, h2, h3⟩ := h
  refine ⟨o.toNat, n.toNat, by omega, by omega, by omega, rfl⟩

/-- A call leaves the stream with the bytes the specification says. -/
theorem step_rep {s : Baos} {es : List Byte} (h : Rep s es) (op : Op)
    (hb : ∀ b o n, op = .writeAll b o n → b.length < 2 ^ 31) :
    Rep (step s op).1 (spec es op).1 ∧ (step s op).2 = (spec es op).2 := by
  cases op with
  | write c =>
    obtain ⟨h1, h2⟩ := write_rep h c
    exact ⟨h1, by simp [step, spec, h2, ended]⟩
  | writeAll b o n =>
    have hbl := hb b o n rfl
    have ho := BitVec.le_toInt o
    have ho' := BitVec.toInt_lt (x := o)
    have hn := BitVec.le_toInt n
    have hn' := BitVec.toInt_lt (x := n)
    simp only [step, spec]
    by_cases hw : Within b o.toInt n.toInt
    · rw [if_pos hw]
      obtain ⟨i, k, e1, e2, e3, e4⟩ := part_nat b hw
      rw [e4, e1, e2]
      obtain ⟨h1, h2⟩ := writeAll_rep h b i k e3 (by omega)
      exact ⟨h1, by rw [h2]; rfl⟩
    · rw [if_neg hw]
      obtain ⟨h1, e, h2⟩ := writeAll_bad h b o.toInt n.toInt ⟨by simpa using ho, by simpa using ho'⟩ ⟨by simpa using hn, by simpa using hn'⟩ hw
      exact ⟨h1, by rw [h2]; rfl⟩
  | reset => exact ⟨rep_reset, rfl⟩
  | size => exact ⟨h, by simp [step, spec, size, h.length]⟩
  | toByteArray =>
    obtain ⟨h1, h2⟩ := toByteArray_rep h
    exact ⟨h1, by simp [step, spec, h2]⟩
  | writeTo before =>
    obtain ⟨h1, h2⟩ := writeTo_rep h ⟨before, 0⟩
    exact ⟨h1, by simp [step, spec, h2]⟩

theorem run_rep {s : Baos} {es : List Byte} (h : Rep s es) (ops : List Op)
    (hb : ∀ b o n, Op.writeAll b o n ∈ ops → b.length < 2 ^ 31) : run s ops = specRun es ops := by
  induction ops generalizing s es with
  | nil => rfl
  | cons op ops ih =>
    obtain ⟨h1, h2⟩ := step_rep h op fun b o n e => hb b o n (by simp [e])
    rw [run, specRun, h2, ih h1 fun b o n hm => hb b o n (by simp [hm])]

/-- A byte array stream gives back exactly the bytes written since the last reset, in whatever pieces they were written and
    however often they were asked for in between; writing a part that is not within the array is refused and changes nothing. -/
theorem baos_ok (ops : List Op) (hb : ∀ b o n, Op.writeAll b o n ∈ ops → b.length < 2 ^ 31) :
    run reset ops = specRun [] ops := run_rep rep_reset ops hb

example : run reset [.write 1#32, .writeAll [2, 3, 4] 1 2, .toByteArray, .writeAll [5] 1 1, .write 0x1FF#32, .size, .toByteArray] =
    [.done, .done, .bytes [1, 3, 4], .failed, .done, .number 4, .bytes [1, 3, 4, 0xFF]] := by decide +kernel

/-! ### Buffered streams -/

/-- Calls of a buffered stream. -/
inductive BOp where
  | write (c : BitVec 32)
  | writeAll (b : List Byte) (offset length : BitVec 32)
  | flush

/-- The bytes a call adds. -/
def added : BOp → List Byte
  | .write c => [low c]
  | .writeAll b o n => if Within b o.toInt n.toInt then part b o.toInt n.toInt else []
  | .flush => []

def bstep (s : Bos) : BOp → Bos × Option Exn
  | .write c => bosWrite s c
  | .writeAll b o n => bosWriteAll s b o.toInt n.toInt
  | .flush => bosFlush s

def brun (s : Bos) : List BOp → Bos
  | [] => s
  | op :: ops => brun (bstep s op).1 ops

/-- The stream passed on `sent` and holds `held`. -/
structure BRep (s : Bos) (sent held : List Byte) : Prop where
  sent : s.out.bytes = sent
  held : held = s.buffer.take s.position.toNat
  lower : 0 ≤ s.position
  upper : s.position ≤ s.buffer.length

theorem drain_rep {s : Bos} {p q : List Byte} (h : BRep s p q) :
    BRep (drain s).1 (p ++ q) [] ∧ (drain s).2 = none ∧ (drain s).1.position = 0 ∧ (drain s).1.buffer = s.buffer ∧
      (drain s).1.out.flushes = s.out.flushes := by
  obtain ⟨h1, h2, h3, h4⟩ := h
  unfold drain
  by_cases hp : s.position > 0
  · rw [if_pos hp]
    unfold sinkWrite
    rw [if_pos (by omega)]
    exact ⟨⟨by simp [h1, h2], by simp, by simp, by simp⟩, rfl, rfl, rfl, rfl⟩
  · rw [if_neg hp]
    have : s.position = 0 := by omega
    have hq : q = [] := by rw [h2, this]; simp
    subst hq
    exact ⟨⟨by simp [h1], by simp [this], h3, h4⟩, rfl, this, rfl, rfl⟩

theorem put_rep {s : Bos} {p q : List Byte} (h : BRep s p q) (hs : s.position < s.buffer.length) (c : BitVec 32) :
    BRep (put s c).1 p (q ++ [low c]) ∧ (put s c).2 = none ∧ (put s c).1.buffer.length = s.buffer.length := by
  obtain ⟨h1, h2, h3, h4⟩ := h
  obtain ⟨k, hk⟩ : ∃ k : Nat, s.position = k := ⟨_, (Int.toNat_of_nonneg h3).symm⟩
  unfold put
  rw [hk, storeByte_ok (by omega), low_ok]
  refine ⟨⟨h1, ?_, by simp only; omega, ?_⟩, rfl, by simp⟩
  · rw [h2, hk]
    simp only [Int.toNat_natCast]
    have e : ((k : Int) + 1).toNat = k + 1 := by omega
    rw [e, take_set_succ (by omega)]
  · simp only [List.length_set]
    omega

/-- A call of a buffered stream with at least one place: the bytes passed on and the bytes held are together those written;
    after a flush nothing is held back. -/
theorem bstep_rep {s : Bos} {p q : List Byte} (h : BRep s p q) (hs : s.buffer ≠ []) (op : BOp) :
    ∃ p' q', BRep (bstep s op).1 p' q' ∧ p' ++ q' = p ++ q ++ added op ∧ (bstep s op).1.buffer.length = s.buffer.length ∧
      (op = .flush → q' = [] ∧ (bstep s op).1.out.flushes = s.out.flushes + 1) ∧
      ((bstep s op).2 = none ↔ ∀ b o n, op = .writeAll b o n → Within b o.toInt n.toInt ∨ n = 0) := by
  have hsl : 0 < s.buffer.length := List.length_pos_iff.2 hs
  cases op with
  | write c =>
    simp only [bstep, added]
    unfold bosWrite
    by_cases hp : s.position ≥ s.buffer.length
    · rw [if_pos hp]
      obtain ⟨d1, d2, d3, d4, d5⟩ := drain_rep h
      have : drain s = ((drain s).1, none) := by rw [← d2]
      rw [this]
      simp only
      obtain ⟨r1, r2, r3⟩ := put_rep d1 (by rw [d3, d4]; omega) c
      refine ⟨_, _, r1, by simp, by rw [r3, d4], by simp, by simp [r2]⟩
    · rw [if_neg hp]
      obtain ⟨r1, r2, r3⟩ := put_rep h (by omega) c
      refine ⟨_, _, r1, by simp, r3, by simp, by simp [r2]⟩
  | writeAll b o n =>
    have hn0 : n = 0 ↔ n.toInt = 0 := by
      constructor
      · rintro rfl; rfl
      · intro h; exact BitVec.eq_of_toInt_eq (by simpa using h)
    simp only [bstep, added]
    unfold bosWriteAll
    by_cases hl : n.toInt > s.buffer.length - s.position
    · rw [if_pos hl]
      obtain ⟨d1, d2, d3, d4, d5⟩ := drain_rep h
      have e : drain s = ((drain s).1, none) := by rw [← d2]
      rw [e]
      simp only
      unfold pass sinkWrite
      have hu := h.upper
      by_cases hw : Within b o.toInt n.toInt
      · have hw' : 0 ≤ o.toInt ∧ 0 ≤ n.toInt ∧ o.toInt + n.toInt ≤ b.length := hw
        rw [if_pos hw', if_pos hw]
        refine ⟨_, _, ⟨rfl, d1.held, d1.lower, d1.upper⟩, ?_, by simp [d4], by simp, by simp [hw]⟩
        rw [d1.sent]
        simp [part]
      · have hw' : ¬ (0 ≤ o.toInt ∧ 0 ≤ n.toInt ∧ o.toInt + n.toInt ≤ b.length) := hw
        rw [if_neg hw', if_neg hw]
        refine ⟨_, _, ⟨rfl, d1.held, d1.lower, d1.upper⟩, ?_, by simp [d4], by simp, ?_⟩
        · rw [d1.sent]
        · simp only [reduceCtorEq, false_iff]
          intro hh
          rcases hh b o n rfl with h' | h'
          · exact hw h'
          · rw [hn0] at h'; omega
    · rw [if_neg hl]
      by_cases hw : Within b o.toInt n.toInt
      · rw [if_pos hw]
        obtain ⟨i, k, e1, e2, e3, e4⟩ := part_nat b hw
        obtain ⟨h1, h2, h3, h4⟩ := h
        obtain ⟨j, hj⟩ : ∃ j : Nat, s.position = j := ⟨_, (Int.toNat_of_nonneg h3).symm⟩
        have hc := copy_ok b s.buffer i j k e3 (by omega)
        rw [e4, e1, e2, hj, hc]
        refine ⟨p, q ++ (b.drop i).take k, ⟨h1, ?_, by simp only; omega, ?_⟩, by simp, ?_, by simp, by simp [hw]⟩
        · have e : ((j : Int) + k).toNat = j + k := by omega
          have hl1 : (s.buffer.take j ++ (b.drop i).take k).length = j + k := by simp; omega
          simp only [e]
          rw [h2, hj, Int.toNat_natCast, List.take_append_of_le_length (by omega),
            List.take_of_length_le (l := s.buffer.take j ++ _) (by omega)]
        · simp
          omega
        · simp
          omega
      · rw [if_neg hw]
        have hw' : ¬ (0 ≤ o.toInt ∧ 0 ≤ n.toInt ∧ o.toInt + n.toInt ≤ b.length) := hw
        by_cases h0 : n.toInt = 0
        · have : copy b s.buffer o.toInt s.position n.toInt = .ok s.buffer := by
            unfold copy
            rw [if_neg (by omega), if_neg (by omega)]
          rw [this, h0]
          refine ⟨p, q, ⟨h.sent, by simpa using h.held, by simpa using h.lower, by simpa using h.upper⟩, by simp, rfl, by simp, ?_⟩
          simp only [true_iff]
          intro b' o' n' he
          cases he
          exact .inr (hn0.2 h0)
        · rw [copy_bad _ _ _ _ _ (by omega)]
          refine ⟨p, q, h, by simp, rfl, by simp, ?_⟩
          simp only [reduceCtorEq, false_iff]
          intro hh
          rcases hh b o n rfl with h' | h'
          · exact hw h'
          · exact h0 (hn0.1 h')
  | flush =>
    obtain ⟨d1, d2, d3, d4, d5⟩ := drain_rep h
    have e : drain s = ((drain s).1, none) := by rw [← d2]
    simp only [bstep, added]
    unfold bosFlush
    rw [e]
    refine ⟨_, _, ⟨d1.sent, d1.held, d1.lower, d1.upper⟩, by simp, by simp [d4], ?_, by simp⟩
    intro _
    exact ⟨rfl, by simp [d5]⟩

theorem brun_rep {s : Bos} {p q : List Byte} (h : BRep s p q) (hs : s.buffer ≠ []) (ops : List BOp) :
    ∃ p' q', BRep (brun s ops) p' q' ∧ p' ++ q' = p ++ q ++ ops.flatMap added ∧ (brun s ops).buffer.length = s.buffer.length := by
  induction ops generalizing s p q with
  | nil => exact ⟨p, q, h, by simp, rfl⟩
  | cons op ops ih =>
    obtain ⟨p1, q1, r1, r2, r3, _⟩ := bstep_rep h hs op
    obtain ⟨p2, q2, s1, s2, s3⟩ := ih r1 (by
      intro h0
      rw [h0] at r3
      exact hs (List.eq_nil_of_length_eq_zero r3.symm))
    exact ⟨p2, q2, s1, by rw [s2, r2]; simp, by rw [brun, s3, r3]⟩

/-- What was written to a buffered stream reaches the stream behind it in order: at any time a part of it from the beginning,
    after a flush all of it.  A stream is made with at least one place. -/
theorem bos_partial (before : List Byte) (size : Nat) (hs : 0 < size) (ops : List BOp) :
    ∃ s, newBos ⟨before, 0⟩ size = .ok s ∧ (brun s ops).out.bytes <+: before ++ ops.flatMap added ∧
      (brun s (ops ++ [.flush])).out.bytes = before ++ ops.flatMap added := by
  refine ⟨⟨⟨before, 0⟩, List.replicate size 0, 0⟩, ?_, ?_, ?_⟩
  · unfold newBos newBytes
    rw [if_neg (by omega)]
    simp [Except.bind]
  · obtain ⟨p, q, h1, h2, _⟩ := brun_rep (s := ⟨⟨before, 0⟩, List.replicate size 0, 0⟩) (p := before) (q := [])
      ⟨rfl, by simp, by simp, by simp⟩ (by simp; omega) ops
    rw [h1.sent]
    exact ⟨q, by simpa using h2⟩
  · obtain ⟨p, q, h1, h2, h3⟩ := brun_rep (s := ⟨⟨before, 0⟩, List.replicate size 0, 0⟩) (p := before) (q := [])
      ⟨rfl, by simp, by simp, by simp⟩ (by simp; omega) ops
    obtain ⟨p', q', g1, g2, g3, g4, _⟩ := bstep_rep h1 (by
      intro h0
      rw [h0] at h3
      simp at h3
      omega) .flush
    have e : ∀ (s : Bos) (ops : List BOp), brun s (ops ++ [.flush]) = (bstep (brun s ops) .flush).1 := by
      intro s ops
      induction ops generalizing s with
      | nil => rfl
      | cons op ops ih => simp only [List.cons_append, brun]; exact ih _
    rw [e, g1.sent]
    obtain ⟨hq, _⟩ := g4 rfl
    subst hq
    simp only [List.append_nil, added] at g2
    rw [g2, h2]
    simp

example : (brun ⟨⟨[9], 0⟩, [0, 0], 0⟩ [.write 1#32, .write 2#32, .write 3#32]).out.bytes = [9, 1, 2] := by decide +kernel
example : (brun ⟨⟨[9], 0⟩, [0, 0], 0⟩ [.write 1#32, .writeAll [2, 3, 4] 0 3, .write 5#32, .flush]).out.bytes = [9, 1, 2, 3, 4, 5] := by
  decide +kernel

/-- A buffered stream without places cannot take a single byte, and not even an array afterwards. -/
theorem no_places (before : List Byte) (c : BitVec 32) (b : List Byte) (hb : b ≠ []) :
    ∃ s, newBos ⟨before, 0⟩ 0 = .ok s ∧ (bosWrite s c).2 = some .indexOutOfBounds ∧
      (bosWriteAll (bosWrite s c).1 b 0 b.length).2 = some .indexOutOfBounds := by
  refine ⟨⟨⟨before, 0⟩, [], 0⟩, rfl, rfl, ?_⟩
  have hl : 0 < b.length := List.length_pos_iff.2 hb
  have e : (bosWrite ⟨⟨before, 0⟩, [], 0⟩ c).1 = ⟨⟨before, 0⟩, [], 1⟩ := rfl
  rw [e]
  unfold bosWriteAll
  rw [if_pos (by simp only [List.length_nil]; omega)]
  rfl

end Avian.OutStreams
