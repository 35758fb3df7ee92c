import Verif.Util.Stream
import Verif.Props.Stream

/-
The class file reader as the class parser uses it: a reported error ends the virtual machine
(src/machine.cpp:4746-4761: `handleError` calls `abort`).
-/
namespace Avian.ClassFile
open Avian.Stream

/-- A parser on the stream; `none` is an abort or undefined behaviour. -/
abbrev P := StateT Stream Option

/-- src/machine.cpp:4754-4757: a request after which the client was told of an error aborts. -/
def guarded {α : Type} (f : Stream → Option (α × Stream)) : P α := fun s =>
  (f s).bind fun r => if r.2.errors = s.errors then some r else none

/-- include/avian/util/stream.h:61-66. -/
def read1 : P (BitVec 8) := guarded Stream.read1
/-- include/avian/util/stream.h:68-73. -/
def read2 : P (BitVec 16) := guarded Stream.read2
/-- include/avian/util/stream.h:75-80. -/
def read4 : P (BitVec 32) := guarded Stream.read4
/-- include/avian/util/stream.h:82-87. -/
def read8 : P (BitVec 64) := guarded Stream.read8
/-- include/avian/util/stream.h:49-59. -/
def readBytes (n : BitVec 32) : P (List (BitVec 8)) := guarded fun s => s.read n
/-- include/avian/util/stream.h:40-47. -/
def skip (n : BitVec 32) : P Unit := guarded fun s => some ((), s.skip n)
/-- include/avian/util/stream.h:30-33. -/
def position : P (BitVec 32) := fun s => some (s.position, s)
/-- include/avian/util/stream.h:35-38. -/
def setPosition (p : BitVec 32) : P Unit := fun s => some ((), s.setPosition p)
/-- Abort, or undefined behaviour. -/
def fail {α : Type} : P α := fun _ => none
/-- Something that may be undefined. -/
def lift {α : Type} (o : Option α) : P α := fun s => o.map fun a => (a, s)

/-! ### Written integers -/

def be1 (n : Nat) : List (BitVec 8) := [BitVec.ofNat 8 n]
/-- The two bytes of a 16-bit integer, most significant first. -/
def be2 (n : Nat) : List (BitVec 8) := be1 (n / 256) ++ be1 n
def be4 (n : Nat) : List (BitVec 8) := be2 (n / 65536) ++ be2 n
def be8 (n : Nat) : List (BitVec 8) := be4 (n / 4294967296) ++ be4 n

/-! ### Reasoning -/

/-- The stream stands at offset `p` of the image `d`, and errors are still `e`. -/
structure On (d : List (BitVec 8)) (e : Nat) (s : Stream) (p : Nat) : Prop where
  data : s.data = d
  small : d.length < 2 ^ 32
  size : s.size.toNat = d.length
  pos : s.position.toNat = p
  le : p ≤ d.length
  errors : s.errors = e

/-- The image has the bytes `l` at offset `p`. -/
def Has (d : List (BitVec 8)) (p : Nat) (l : List (BitVec 8)) : Prop := ∃ r, d.drop p = l ++ r

/-- Wherever the bytes `l` stand, the parser reads exactly these, delivers `v` and reports no
error. -/
def Reads {α : Type} (f : P α) (l : List (BitVec 8)) (v : α) : Prop :=
  ∀ d e s p, On d e s p → Has d p l → ∃ s', f s = some (v, s') ∧ On d e s' (p + l.length)

theorem Has.left {d : List (BitVec 8)} {p : Nat} {a b : List (BitVec 8)} (h : Has d p (a ++ b)) :
    Has d p a := by
  obtain ⟨r, h⟩ := h
  exact ⟨b ++ r, by rw [h, List.append_assoc]⟩

theorem Has.right {d : List (BitVec 8)} {p : Nat} {a b : List (BitVec 8)} (h : Has d p (a ++ b)) :
    Has d (p + a.length) b := by
  obtain ⟨r, h⟩ := h
  refine ⟨r, ?_⟩
  rw [← List.drop_drop, h, List.append_assoc, List.drop_left]

theorem Has.intro (pre l post : List (BitVec 8)) : Has (pre ++ l ++ post) pre.length l :=
  ⟨post, by rw [List.append_assoc, List.drop_left]⟩

theorem Has.le {d : List (BitVec 8)} {p : Nat} {l : List (BitVec 8)} (h : Has d p l)
    (hp : p ≤ d.length) : p + l.length ≤ d.length := by
  obtain ⟨r, h⟩ := h
  have := congrArg List.length h
  simp only [List.length_drop, List.length_append] at this
  omega

theorem Reads.bind {α β : Type} {f : P α} {g : α → P β} {l m : List (BitVec 8)} {v : α} {w : β}
    (h1 : Reads f l v) (h2 : Reads (g v) m w) : Reads (f >>= g) (l ++ m) w := by
  intro d e s p hon hhas
  obtain ⟨s1, e1, o1⟩ := h1 d e s p hon hhas.left
  obtain ⟨s2, e2, o2⟩ := h2 d e s1 _ o1 hhas.right
  refine ⟨s2, ?_, by rw [List.length_append, ← Nat.add_assoc]; exact o2⟩
  show (f s).bind (fun r => g r.1 r.2) = _
  rw [e1]; exact e2

theorem Reads.pure {α : Type} (v : α) : Reads (pure v : P α) [] v := by
  intro d e s p hon _
  exact ⟨s, rfl, by simpa using hon⟩

theorem Reads.lift {α : Type} {o : Option α} {v : α} (h : o = some v) :
    Reads (ClassFile.lift o) [] v := by
  intro d e s p hon _
  subst h
  exact ⟨s, rfl, by simpa using hon⟩

/-- Sequencing when the last part reads nothing. -/
theorem Reads.map {α β : Type} {f : P α} {g : α → P β} {l : List (BitVec 8)} {v : α} {w : β}
    (h1 : Reads f l v) (h2 : Reads (g v) [] w) : Reads (f >>= g) l w := by
  have := h1.bind h2
  rwa [List.append_nil] at this

/-- Sequencing when the first part reads nothing. -/
theorem Reads.seq {α β : Type} {f : P α} {g : α → P β} {l : List (BitVec 8)} {v : α} {w : β}
    (h1 : Reads f [] v) (h2 : Reads (g v) l w) : Reads (f >>= g) l w := by
  have := h1.bind h2
  rwa [List.nil_append] at this

/-! The requests. -/

private theorem rel_of_on {d e s p} (h : On d e s p) : Rel d s ⟨d.drop p, e⟩ :=
  ⟨h.data, by rw [h.data]; exact h.small, by rw [h.data]; exact h.size,
    by rw [h.data, h.pos]; exact h.le, by rw [h.data, h.pos], h.errors.symm⟩

private theorem on_of_rel {d s e p rest} (h : Rel d s ⟨rest, e⟩) (hr : rest = d.drop p)
    (hp : p ≤ d.length) : On d e s p := by
  have h1 := h.rest; have h2 := h.data; have h3 := h.pos
  rw [h2] at h1 h3
  simp only at h1
  refine ⟨h2, h2 ▸ h.small, h2 ▸ h.size, ?_, hp, h.errors.symm⟩
  have := congrArg List.length (h1.symm.trans hr)
  simp only [List.length_drop] at this
  omega

private theorem spec_int {d : List (BitVec 8)} {p e : Nat} {l : List (BitVec 8)} (h : Has d p l) :
    (Spec.int ⟨d.drop p, e⟩ l.length).1 = beValue l ∧
    (Spec.int ⟨d.drop p, e⟩ l.length).2 = ⟨d.drop (p + l.length), e⟩ := by
  obtain ⟨r, h⟩ := h
  unfold Spec.int
  have h0 : l.length - (d.drop p).length = 0 := by rw [h]; simp
  rw [h0]
  simp only [h, List.take_left, List.replicate_zero, List.append_nil, true_and,
    List.drop_left, Spec.mk.injEq, Nat.add_zero, and_true]
  rw [← List.drop_drop, h, List.drop_left]

private theorem reads_int {w : Nat} (f : Stream → Option (BitVec w × Stream)) (k : Nat)
    (hf : ∀ {d s a}, Rel d s a →
      ∃ v s', f s = some (v, s') ∧ v.toNat = (a.int k).1 ∧ Rel d s' (a.int k).2)
    (l : List (BitVec 8)) (hl : l.length = k) (v : BitVec w) (hv : v.toNat = beValue l) :
    Reads (guarded f) l v := by
  intro d e s p hon hhas
  obtain ⟨x, s', h1, h2, h3⟩ := hf (rel_of_on hon)
  subst hl
  obtain ⟨i1, i2⟩ := spec_int (e := e) hhas
  rw [i1] at h2; rw [i2] at h3
  have hx : x = v := BitVec.eq_of_toNat_eq (h2.trans hv.symm)
  subst hx
  have ho := on_of_rel h3 rfl (hhas.le hon.le)
  refine ⟨s', ?_, ho⟩
  unfold guarded
  rw [h1, Option.bind_some, if_pos (by rw [ho.errors, hon.errors])]

theorem beValue_be1 (n : Nat) : beValue (be1 n) = n % 256 := by
  simp [be1, beValue]

theorem beValue_be2 (n : Nat) : beValue (be2 n) = n % 65536 := by
  simp [be2, be1, beValue]; omega

theorem beValue_be4 (n : Nat) : beValue (be4 n) = n % 4294967296 := by
  simp [be4, be2, be1, beValue]; omega

theorem beValue_be8 (n : Nat) : beValue (be8 n) = n % 18446744073709551616 := by
  simp [be8, be4, be2, be1, beValue]; omega

theorem be1_length (n : Nat) : (be1 n).length = 1 := rfl
theorem be2_length (n : Nat) : (be2 n).length = 2 := rfl
theorem be4_length (n : Nat) : (be4 n).length = 4 := rfl
theorem be8_length (n : Nat) : (be8 n).length = 8 := rfl

theorem reads_read1 (n : Nat) : Reads read1 (be1 n) (BitVec.ofNat 8 n) :=
  reads_int _ 1 read1_rel _ rfl _ (by rw [beValue_be1]; simp)

theorem reads_read2 (n : Nat) : Reads read2 (be2 n) (BitVec.ofNat 16 n) :=
  reads_int _ 2 read2_rel _ rfl _ (by rw [beValue_be2]; simp)

theorem reads_read4 (n : Nat) : Reads read4 (be4 n) (BitVec.ofNat 32 n) :=
  reads_int _ 4 read4_rel _ rfl _ (by rw [beValue_be4]; simp)

theorem reads_read8 (n : Nat) : Reads read8 (be8 n) (BitVec.ofNat 64 n) :=
  reads_int _ 8 read8_rel _ rfl _ (by rw [beValue_be8]; simp)

theorem reads_bytes (n : BitVec 32) (l : List (BitVec 8)) (h : l.length = n.toNat) :
    Reads (readBytes n) l l := by
  intro d e s p hon hhas
  obtain ⟨b, s', h1, h2⟩ := read_rel (rel_of_on hon) n
  obtain ⟨r, hr⟩ := hhas
  simp only [hr] at h2
  rw [if_pos (by rw [List.length_append]; omega), ← h, List.take_left, List.drop_left] at h2
  obtain ⟨rfl, h3⟩ := h2
  have ho := on_of_rel h3 (p := p + b.length) (by rw [← List.drop_drop, hr, List.drop_left])
    (Has.le ⟨r, hr⟩ hon.le)
  refine ⟨s', ?_, ho⟩
  show (s.read n).bind _ = _
  rw [h1, Option.bind_some, if_pos (by rw [ho.errors, hon.errors])]

theorem reads_skip (n : BitVec 32) (l : List (BitVec 8)) (h : l.length = n.toNat) :
    Reads (skip n) l () := by
  intro d e s p hon hhas
  obtain ⟨s', h1, h2⟩ := step_rel (rel_of_on hon) (.skip n)
  obtain ⟨r, hr⟩ := hhas
  simp only [Spec.step, hr] at h2 h1
  rw [if_pos (by rw [List.length_append]; omega), ← h, List.drop_left] at h2
  have ho := on_of_rel h2 (p := p + l.length) (by rw [← List.drop_drop, hr, List.drop_left])
    (Has.le ⟨r, hr⟩ hon.le)
  refine ⟨s', ?_, ho⟩
  have h3 : s.skip n = s' := by
    simp only [Stream.step, Option.some.injEq, Prod.mk.injEq] at h1
    exact h1.2
  show (if (s.skip n).errors = s.errors then some ((), s.skip n) else none) = _
  rw [h3, if_pos (by rw [ho.errors, hon.errors])]

theorem on_new (d : List (BitVec 8)) (h : d.length < 2 ^ 32) : On d 0 (Stream.new d) 0 :=
  ⟨rfl, h, by simp only [Stream.new, BitVec.toNat_ofNat]; exact Nat.mod_eq_of_lt h, rfl,
    Nat.zero_le _, rfl⟩

theorem on_setPosition {d e s p} (q : Nat) (hon : On d e s p) (hq : q ≤ d.length) :
    On d e (s.setPosition (BitVec.ofNat 32 q)) q := by
  have h1 := hon.small
  refine ⟨hon.data, h1, hon.size, ?_, hq, hon.errors⟩
  simp only [Stream.setPosition, BitVec.toNat_ofNat]
  exact Nat.mod_eq_of_lt (by omega)

theorem on_position {d e s p} (hon : On d e s p) : s.position = BitVec.ofNat 32 p := by
  apply BitVec.eq_of_toNat_eq
  have h1 := hon.small; have h2 := hon.le
  rw [hon.pos, BitVec.toNat_ofNat, Nat.mod_eq_of_lt (by omega)]

end Avian.ClassFile
