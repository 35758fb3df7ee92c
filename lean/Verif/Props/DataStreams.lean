import Verif.Lib.DataStreams
import Verif.Props.OutStreams
import Verif.Props.InStreams
import Verif.Props.JUtf8

/-
C77: what is written to a data stream is read back.
-/
namespace Avian.DataStreams

open OutStreams (Byte Bos BOp low added)
open InStreams (Buf Inv left Src)

/-! ### Specification -/

/-- The `k` bytes of a number, the highest first. -/
def big {w : Nat} (k : Nat) (x : BitVec w) : List Byte := (List.range k).map fun i => x.extractLsb' (8 * (k - 1 - i)) 8

/-- Values that can be written. -/
inductive Val where
  | bool (b : Bool)
  | byte (b : BitVec 8)
  | short (s : BitVec 16)
  | char (c : BitVec 16)
  | int (i : BitVec 32)
  | long (l : BitVec 64)
  | utf (s : List Nat)
  deriving DecidableEq

/-- The bytes of a value. -/
def bytesOf : Val → List Byte
  | .bool b => [if b then 1 else 0]
  | .byte b => [b]
  | .short s => big 2 s
  | .char c => big 2 c
  | .int i => big 4 i
  | .long l => big 8 l
  | .utf s => big 2 (BitVec.ofNat 16 (JUtf8.encode s).length) ++ (JUtf8.encode s).map (BitVec.ofNat 8)

/-- The call with which a value is written; smaller numbers are passed as int. -/
def emit : Val → List Out
  | .bool b => writeBoolean b
  | .byte b => writeByte (b.signExtend 32)
  | .short s => writeShort (s.signExtend 32)
  | .char c => writeChar (c.setWidth 32)
  | .int i => writeInt i
  | .long l => writeLong l
  | .utf s => writeUTF s

/-- The call with which a value of the same kind is read. -/
def accept (v : Val) (s : Buf Byte) : Except Err (Val × Buf Byte) :=
  match v with
  | .bool _ => (readBoolean s).bind fun r => .ok (.bool r.1, r.2)
  | .byte _ => (readByte s).bind fun r => .ok (.byte r.1, r.2)
  | .short _ => (readShort s).bind fun r => .ok (.short r.1, r.2)
  | .char _ => (readChar s).bind fun r => .ok (.char r.1, r.2)
  | .int _ => (readInt s).bind fun r => .ok (.int r.1, r.2)
  | .long _ => (readLong s).bind fun r => .ok (.long r.1, r.2)
  | .utf _ => (readUTF s).bind fun r => .ok (.utf r.1, r.2)

/-- Strings that survive: C58, and their encoding has a length that fits. -/
def Ok : Val → Prop
  | .utf s => (∀ c ∈ s, c < 65536) ∧ (0 ∉ s ∨ ∃ c ∈ s, 128 ≤ c) ∧ (JUtf8.encode s).length < 65536
  | _ => True

/-! ### Writing -/

/-- The call as one of a buffered stream. -/
def asBOp : Out → BOp
  | .byte c => .write c
  | .array b => .writeAll b 0 (BitVec.ofNat 32 b.length)

theorem low_cast (b : BitVec 8) : low (b.signExtend 32) = b := by
  rw [← OutStreams.low_ok]
  apply BitVec.eq_of_getLsbD_eq
  intro i hi
  have e : (0xFF#32).getLsbD i = true := by
    have : i = 0 ∨ i = 1 ∨ i = 2 ∨ i = 3 ∨ i = 4 ∨ i = 5 ∨ i = 6 ∨ i = 7 := by omega
    rcases this with rfl | rfl | rfl | rfl | rfl | rfl | rfl | rfl <;> rfl
  rw [BitVec.getLsbD_setWidth, BitVec.getLsbD_and, BitVec.getLsbD_signExtend, e]
  simp [hi, show i < 32 by omega]

theorem low_castByte (x : BitVec 32) (k : Nat) (hk : k ≤ 24) : low (castByte (x.sshiftRight k)) = x.extractLsb' k 8 := by
  unfold castByte
  rw [low_cast]
  apply BitVec.eq_of_getLsbD_eq
  intro i hi
  rw [BitVec.getLsbD_setWidth, BitVec.getLsbD_sshiftRight, BitVec.getLsbD_extractLsb']
  simp [hi, show ¬ 32 ≤ i by omega, show k + i < 32 by omega]

theorem low_castLong (x : BitVec 64) (k : Nat) (hk : k ≤ 56) : low (castLong (x.sshiftRight k)) = x.extractLsb' k 8 := by
  unfold castLong
  rw [low_cast]
  apply BitVec.eq_of_getLsbD_eq
  intro i hi
  rw [BitVec.getLsbD_setWidth, BitVec.getLsbD_sshiftRight, BitVec.getLsbD_extractLsb']
  simp [hi, show ¬ 64 ≤ i by omega, show k + i < 64 by omega]

theorem sshift0 {w : Nat} (x : BitVec w) : x.sshiftRight 0 = x := by simp

theorem extract_sign (s : BitVec 16) (k : Nat) (hk : k ≤ 8) : (s.signExtend 32).extractLsb' k 8 = s.extractLsb' k 8 := by
  apply BitVec.eq_of_getLsbD_eq
  intro i hi
  rw [BitVec.getLsbD_extractLsb', BitVec.getLsbD_extractLsb', BitVec.getLsbD_signExtend]
  simp [hi, show k + i < 32 by omega, show k + i < 16 by omega]

theorem extract_zero (s : BitVec 16) (k : Nat) (hk : k ≤ 8) : (s.setWidth 32).extractLsb' k 8 = s.extractLsb' k 8 := by
  apply BitVec.eq_of_getLsbD_eq
  intro i hi
  rw [BitVec.getLsbD_extractLsb', BitVec.getLsbD_extractLsb', BitVec.getLsbD_setWidth]
  simp [show k + i < 32 by omega]

theorem big2 (s : BitVec 16) : big 2 s = [s.extractLsb' 8 8, s.extractLsb' 0 8] := rfl
theorem big4 (s : BitVec 32) : big 4 s = [s.extractLsb' 24 8, s.extractLsb' 16 8, s.extractLsb' 8 8, s.extractLsb' 0 8] := rfl
theorem big8 (s : BitVec 64) : big 8 s = [s.extractLsb' 56 8, s.extractLsb' 48 8, s.extractLsb' 40 8, s.extractLsb' 32 8,
  s.extractLsb' 24 8, s.extractLsb' 16 8, s.extractLsb' 8 8, s.extractLsb' 0 8] := rfl

theorem low_castByte0 (x : BitVec 32) : low (castByte x) = x.extractLsb' 0 8 := by
  have := low_castByte x 0 (by omega)
  rwa [sshift0] at this

theorem low_castLong0 (x : BitVec 64) : low (castLong x) = x.extractLsb' 0 8 := by
  have := low_castLong x 0 (by omega)
  rwa [sshift0] at this

theorem short_bytes (s : BitVec 16) : (writeShort (s.signExtend 32)).flatMap (fun o => added (asBOp o)) = big 2 s := by
  simp only [writeShort, List.flatMap_cons, List.flatMap_nil, asBOp, added, low_castByte _ 8 (by omega), low_castByte0,
    extract_sign s 8 (by omega), extract_sign s 0 (by omega), big2, List.cons_append, List.nil_append]

/-- The calls for a value write its bytes. -/
theorem emit_ok (v : Val) (h : ∀ s, v = .utf s → (JUtf8.encode s).length < 2 ^ 31) :
    (emit v).flatMap (fun o => added (asBOp o)) = bytesOf v := by
  cases v with
  | bool b => cases b <;> decide
  | byte b => simp [emit, writeByte, asBOp, added, low_cast, bytesOf]
  | short s => exact short_bytes s
  | char c =>
    simp only [emit, bytesOf, writeChar, List.flatMap_cons, List.flatMap_nil, asBOp, added, low_castByte _ 8 (by omega),
      low_castByte0, extract_zero c 8 (by omega), extract_zero c 0 (by omega), big2, List.cons_append, List.nil_append]
  | int i =>
    simp only [emit, bytesOf, writeInt, List.flatMap_cons, List.flatMap_nil, asBOp, added, low_castByte _ 24 (by omega),
      low_castByte _ 16 (by omega), low_castByte _ 8 (by omega), low_castByte0, big4, List.cons_append, List.nil_append]
  | long l =>
    simp only [emit, bytesOf, writeLong, List.flatMap_cons, List.flatMap_nil, asBOp, added, low_castLong _ 56 (by omega),
      low_castLong _ 48 (by omega), low_castLong _ 40 (by omega), low_castLong _ 32 (by omega), low_castLong _ 24 (by omega),
      low_castLong _ 16 (by omega), low_castLong _ 8 (by omega), low_castLong0, big8, List.cons_append, List.nil_append]
  | utf s =>
    have hl := h s rfl
    simp only [emit, bytesOf, writeUTF, List.flatMap_append, List.length_map]
    rw [short_bytes]
    congr 1
    · congr 1
      apply BitVec.eq_of_toNat_eq
      simp only [BitVec.toNat_setWidth, BitVec.toNat_ofNat]
      omega
    · have e : (BitVec.ofNat 32 (JUtf8.encode s).length).toInt = (JUtf8.encode s).length := by
        rw [BitVec.toInt_eq_toNat_of_lt] <;> simp only [BitVec.toNat_ofNat] <;> omega
      simp only [List.flatMap_cons, List.flatMap_nil, asBOp, added, List.append_nil, List.length_map]
      rw [e, if_pos ⟨by simp, by simp, by simp⟩]
      unfold OutStreams.part
      simp only [Int.toNat_natCast]
      have z : ((0 : BitVec 32).toInt).toNat = 0 := by decide
      rw [z, List.drop_zero, List.take_of_length_le (by simp)]

/-! ### Reading -/

theorem zext (b : BitVec 8) : b.signExtend 32 &&& 0xFF#32 = b.setWidth 32 := by
  apply BitVec.eq_of_toNat_eq
  have h1 : (b.signExtend 32 &&& 0xFF#32).toNat = (b.signExtend 32).toNat % 2 ^ 8 := by
    rw [BitVec.toNat_and]
    exact Nat.and_two_pow_sub_one_eq_mod _ 8
  have h2 : ((b.signExtend 32).setWidth 8).toNat = (b.signExtend 32).toNat % 2 ^ 8 := by rw [BitVec.toNat_setWidth]
  have h3 : (b.signExtend 32).setWidth 8 = b := by
    apply BitVec.eq_of_getLsbD_eq
    intro i hi
    rw [BitVec.getLsbD_setWidth, BitVec.getLsbD_signExtend]
    simp [hi, show i < 32 by omega]
  rw [h1, ← h2, h3, BitVec.toNat_setWidth]
  have := b.isLt
  omega

theorem read0_ok {s : Buf Byte} (h : Inv s) {x : Byte} {r : List Byte} (hl : left s = x :: r) :
    ∃ s', read0 s = .ok (x.setWidth 32, s') ∧ Inv s' ∧ left s' = r := by
  obtain ⟨s', e, i, l⟩ := InStreams.read_ok h
  rw [hl] at e l
  refine ⟨s', ?_, i, l⟩
  unfold read0
  rw [e]
  simp only [List.head?_cons]
  rw [zext]

theorem read0_end {s : Buf Byte} (h : Inv s) (hl : left s = []) : read0 s = .error .eof := by
  obtain ⟨s', e, i, l⟩ := InStreams.read_ok h
  rw [hl] at e
  unfold read0
  rw [e]
  rfl

theorem join_short (s : BitVec 16) :
    ((((s.extractLsb' 8 8).setWidth 32) <<< 8) ||| ((s.extractLsb' 0 8).setWidth 32)).setWidth 16 = s := by
  apply BitVec.eq_of_getLsbD_eq
  intro i hi
  simp only [BitVec.getLsbD_setWidth, BitVec.getLsbD_or, BitVec.getLsbD_shiftLeft, BitVec.getLsbD_extractLsb']
  by_cases h8 : i < 8
  · simp [hi, h8, show i < 32 by omega]
  · have e : 8 + (i - 8) = i := by omega
    simp [hi, h8, show i < 32 by omega, show i - 8 < 8 by omega, show i - 8 < 32 by omega, e]

theorem join_int (x : BitVec 32) :
    (((x.extractLsb' 24 8).setWidth 32) <<< 24) ||| (((x.extractLsb' 16 8).setWidth 32) <<< 16) |||
      (((x.extractLsb' 8 8).setWidth 32) <<< 8) ||| ((x.extractLsb' 0 8).setWidth 32) = x := by
  apply BitVec.eq_of_getLsbD_eq
  intro i hi
  simp only [BitVec.getLsbD_setWidth, BitVec.getLsbD_or, BitVec.getLsbD_shiftLeft, BitVec.getLsbD_extractLsb']
  by_cases h8 : i < 8
  · simp [hi, h8, show i < 16 by omega, show i < 24 by omega]
  · by_cases h16 : i < 16
    · have e : 8 + (i - 8) = i := by omega
      simp [hi, h8, h16, show i < 24 by omega, show i - 8 < 8 by omega, show i - 8 < 32 by omega, e]
    · by_cases h24 : i < 24
      · have e : 16 + (i - 16) = i := by omega
        simp [hi, h8, h16, h24, show i - 16 < 8 by omega, show i - 16 < 32 by omega, show ¬ i - 8 < 8 by omega, e]
      · have e : 24 + (i - 24) = i := by omega
        simp [hi, h8, h16, h24, show i - 24 < 8 by omega, show i - 24 < 32 by omega, show ¬ i - 8 < 8 by omega,
          show ¬ i - 16 < 8 by omega, e]

theorem readShort_ok {s : Buf Byte} (h : Inv s) (x : BitVec 16) {r : List Byte} (hl : left s = big 2 x ++ r) :
    ∃ s', readShort s = .ok (x, s') ∧ Inv s' ∧ left s' = r := by
  rw [big2] at hl
  obtain ⟨s1, e1, i1, l1⟩ := read0_ok h hl
  obtain ⟨s2, e2, i2, l2⟩ := read0_ok i1 l1
  refine ⟨s2, ?_, i2, l2⟩
  unfold readShort
  rw [e1]
  simp only [Except.bind]
  rw [e2]
  simp only
  rw [join_short]

theorem readInt_ok {s : Buf Byte} (h : Inv s) (x : BitVec 32) {r : List Byte} (hl : left s = big 4 x ++ r) :
    ∃ s', readInt s = .ok (x, s') ∧ Inv s' ∧ left s' = r := by
  rw [big4] at hl
  obtain ⟨s1, e1, i1, l1⟩ := read0_ok h hl
  obtain ⟨s2, e2, i2, l2⟩ := read0_ok i1 l1
  obtain ⟨s3, e3, i3, l3⟩ := read0_ok i2 l2
  obtain ⟨s4, e4, i4, l4⟩ := read0_ok i3 l3
  refine ⟨s4, ?_, i4, l4⟩
  unfold readInt
  rw [e1]
  simp only [Except.bind]
  rw [e2]
  simp only
  rw [e3]
  simp only
  rw [e4]
  simp only
  rw [join_int]

theorem mask_int (x : BitVec 32) : x.signExtend 64 &&& 0xFFFFFFFF#64 = x.setWidth 64 := by
  apply BitVec.eq_of_toNat_eq
  have h1 : (x.signExtend 64 &&& 0xFFFFFFFF#64).toNat = (x.signExtend 64).toNat % 2 ^ 32 := by
    rw [BitVec.toNat_and]
    exact Nat.and_two_pow_sub_one_eq_mod _ 32
  have h2 : ((x.signExtend 64).setWidth 32).toNat = (x.signExtend 64).toNat % 2 ^ 32 := by rw [BitVec.toNat_setWidth]
  have h3 : (x.signExtend 64).setWidth 32 = x := by
    apply BitVec.eq_of_getLsbD_eq
    intro i hi
    rw [BitVec.getLsbD_setWidth, BitVec.getLsbD_signExtend]
    simp [hi, show i < 64 by omega]
  rw [h1, ← h2, h3, BitVec.toNat_setWidth]
  have := x.isLt
  omega

theorem join_long (x : BitVec 64) :
    (((x.extractLsb' 32 32).setWidth 64) <<< 32) ||| ((x.extractLsb' 0 32).setWidth 64) = x := by
  apply BitVec.eq_of_getLsbD_eq
  intro i hi
  simp only [BitVec.getLsbD_setWidth, BitVec.getLsbD_or, BitVec.getLsbD_shiftLeft, BitVec.getLsbD_extractLsb']
  by_cases h8 : i < 32
  · simp [hi, h8]
  · have e : 32 + (i - 32) = i := by omega
    simp [hi, h8, show i - 32 < 32 by omega, show i - 32 < 64 by omega, e]

theorem big_long (x : BitVec 64) : big 8 x = big 4 (x.extractLsb' 32 32) ++ big 4 (x.extractLsb' 0 32) := by
  have e : ∀ a b : Nat, b + 8 ≤ 32 → (x.extractLsb' a 32).extractLsb' b 8 = x.extractLsb' (a + b) 8 := by
    intro a b hb
    apply BitVec.eq_of_getLsbD_eq
    intro i hi
    simp only [BitVec.getLsbD_extractLsb']
    simp [hi, show b + i < 32 by omega, Nat.add_assoc]
  rw [big8, big4, big4, e 32 24 (by omega), e 32 16 (by omega), e 32 8 (by omega), e 32 0 (by omega), e 0 24 (by omega),
    e 0 16 (by omega), e 0 8 (by omega), e 0 0 (by omega)]
  rfl

theorem readLong_ok {s : Buf Byte} (h : Inv s) (x : BitVec 64) {r : List Byte} (hl : left s = big 8 x ++ r) :
    ∃ s', readLong s = .ok (x, s') ∧ Inv s' ∧ left s' = r := by
  rw [big_long, List.append_assoc] at hl
  obtain ⟨s1, e1, i1, l1⟩ := readInt_ok h _ hl
  obtain ⟨s2, e2, i2, l2⟩ := readInt_ok i1 _ l1
  refine ⟨s2, ?_, i2, l2⟩
  unfold readLong
  rw [e1]
  simp only [Except.bind]
  rw [e2]
  simp only
  rw [mask_int, mask_int, join_long]

theorem readUnsignedShort_ok {s : Buf Byte} (h : Inv s) (x : BitVec 16) {r : List Byte} (hl : left s = big 2 x ++ r) :
    ∃ s', readUnsignedShort s = .ok (x.setWidth 32, s') ∧ Inv s' ∧ left s' = r := by
  obtain ⟨s1, e1, i1, l1⟩ := readShort_ok h x hl
  refine ⟨s1, ?_, i1, l1⟩
  unfold readUnsignedShort
  rw [e1]
  simp only [Except.bind]
  have : x.signExtend 32 &&& 0xFFFF#32 = x.setWidth 32 := by
    apply BitVec.eq_of_toNat_eq
    have h1 : (x.signExtend 32 &&& 0xFFFF#32).toNat = (x.signExtend 32).toNat % 2 ^ 16 := by
      rw [BitVec.toNat_and]
      exact Nat.and_two_pow_sub_one_eq_mod _ 16
    have h2 : ((x.signExtend 32).setWidth 16).toNat = (x.signExtend 32).toNat % 2 ^ 16 := by rw [BitVec.toNat_setWidth]
    have h3 : (x.signExtend 32).setWidth 16 = x := by
      apply BitVec.eq_of_getLsbD_eq
      intro i hi
      rw [BitVec.getLsbD_setWidth, BitVec.getLsbD_signExtend]
      simp [hi, show i < 32 by omega]
    rw [h1, ← h2, h3, BitVec.toNat_setWidth]
    have := x.isLt
    omega
  rw [this]

theorem fullyLoop_ok : ∀ (m : Nat) (s : Buf Byte) (b : List Byte) (o n : Nat), n < m → Inv s → o + n ≤ b.length →
    (n ≤ (left s).length → ∃ s', fullyLoop m s b o n = .ok (b.take o ++ (left s).take n ++ b.drop (o + n), s') ∧ Inv s' ∧
      left s' = (left s).drop n) ∧
    ((left s).length < n → fullyLoop m s b o n = .error .eof) := by
  intro m
  induction m with
  | zero => intro s b o n h; omega
  | succ m ih =>
    intro s b o n hm hi hb
    unfold fullyLoop
    by_cases h0 : n = 0
    · subst h0
      rw [if_neg (by omega)]
      exact ⟨fun _ => ⟨s, by simp, hi, by simp⟩, fun h => by omega⟩
    · rw [if_pos (by omega)]
      obtain ⟨c, b', s', e, i', d⟩ := InStreams.readArray_ok hi b o n hb
      rw [e]
      simp only
      rcases d with ⟨d1, d2, d3, d4⟩ | ⟨k, d1, d2, d3, d4, d5, d6⟩
      · rw [if_pos (by omega), d1]
        exact ⟨fun h => by simp at h; omega, fun _ => rfl⟩
      · have hk := d4 (by omega)
        rw [if_neg (by omega), d1]
        have e1 : (o : Int) + k = ((o + k : Nat) : Int) := by omega
        have e2 : (n : Int) - k = ((n - k : Nat) : Int) := by omega
        have hlen : b'.length = b.length := by rw [d5]; simp; omega
        rw [e1, e2]
        obtain ⟨r1, r2⟩ := ih s' b' (o + k) (n - k) (by omega) i' (by omega)
        rw [d6, List.length_drop] at r1 r2
        refine ⟨fun h => ?_, fun h => r2 (by omega)⟩
        obtain ⟨s2, e2, i2, l2⟩ := r1 (by omega)
        refine ⟨s2, ?_, i2, by rw [l2, List.drop_drop]; congr 1; omega⟩
        rw [e2, d5, InStreams.put_more b (left s) o k (n - k) (by omega) (by omega)]
        have : k + (n - k) = n := by omega
        rw [this]

/-- `readFully` fills the part of the array with the next bytes, or fails at the end of the stream. -/
theorem readFully_ok {s : Buf Byte} (h : Inv s) (b : List Byte) (o n : Nat) (hb : o + n ≤ b.length) :
    (n ≤ (left s).length → ∃ s', readFully s b o n = .ok (b.take o ++ (left s).take n ++ b.drop (o + n), s') ∧ Inv s' ∧
      left s' = (left s).drop n) ∧
    ((left s).length < n → readFully s b o n = .error .eof) := by
  have := fullyLoop_ok (n + 1) s b o n (by omega) h hb
  unfold readFully
  exact this

theorem readUTF_ok {s : Buf Byte} (h : Inv s) (t : List Nat) (ht : Ok (.utf t)) {r : List Byte} (hl : left s = bytesOf (.utf t) ++ r) :
    ∃ s', readUTF s = .ok (t, s') ∧ Inv s' ∧ left s' = r := by
  obtain ⟨t1, t2, t3⟩ := ht
  unfold bytesOf at hl
  rw [List.append_assoc] at hl
  obtain ⟨s1, e1, i1, l1⟩ := readUnsignedShort_ok h _ hl
  have en : ((BitVec.ofNat 16 (JUtf8.encode t).length).setWidth 32).toNat = (JUtf8.encode t).length := by
    simp only [BitVec.toNat_setWidth, BitVec.toNat_ofNat]
    omega
  obtain ⟨s2, e2, i2, l2⟩ := (readFully_ok i1 (List.replicate (JUtf8.encode t).length 0) 0 (JUtf8.encode t).length (by simp)).1
    (by rw [l1]; simp)
  refine ⟨s2, ?_, i2, by rw [l2, l1, List.drop_append_of_le_length (by simp), List.drop_of_length_le (by simp)]; rfl⟩
  unfold readUTF
  rw [e1]
  simp only [Except.bind, en]
  rw [show readFully s1 (List.replicate (JUtf8.encode t).length 0) 0 ((JUtf8.encode t).length : Int) = _ from e2]
  simp only
  have eb : (List.take 0 (List.replicate (JUtf8.encode t).length (0 : Byte)) ++ (left s1).take (JUtf8.encode t).length ++
      (List.replicate (JUtf8.encode t).length 0).drop (0 + (JUtf8.encode t).length)).map BitVec.toNat = JUtf8.encode t := by
    have ta : (left s1).take (JUtf8.encode t).length = (JUtf8.encode t).map (BitVec.ofNat 8) := by
      rw [l1, List.take_append_of_le_length (by simp), List.take_of_length_le (by simp)]
    rw [ta, List.drop_of_length_le (by simp)]
    simp only [List.take_zero, List.nil_append, List.append_nil, List.map_map]
    conv => rhs; rw [← List.map_id (JUtf8.encode t)]
    apply List.map_congr_left
    intro x hx
    have := JUtf8.encode_bytes t x hx
    simp only [Function.comp, BitVec.toNat_ofNat, id]
    omega
  rw [eb]
  obtain ⟨b, d1, d2, _⟩ := JUtf8.decode_encode t t1 t2
  rw [d1]
  simp [d2]

/-- Any byte but zero is read as true. -/
theorem readBoolean_any {s : Buf Byte} (h : Inv s) {x : Byte} {r : List Byte} (hl : left s = x :: r) :
    ∃ s', readBoolean s = .ok (decide (x ≠ 0), s') ∧ left s' = r := by
  obtain ⟨s1, e1, _, l1⟩ := read0_ok h hl
  refine ⟨s1, ?_, l1⟩
  simp only [readBoolean, e1, Except.bind]
  congr 2
  have hx : ((BitVec.setWidth 32 x : BitVec 32) = 0#32) ↔ x = 0#8 := by
    constructor
    · intro h
      apply BitVec.eq_of_toNat_eq
      have := congrArg BitVec.toNat h
      simp only [BitVec.toNat_setWidth, BitVec.toNat_ofNat] at this
      have := x.isLt
      simp only [BitVec.toNat_ofNat]
      omega
    · rintro rfl; rfl
  by_cases h0 : x = 0#8
  · subst h0; rfl
  · have := fun e => h0 (hx.1 e)
    simp [h0]
    exact this

/-- The byte 2, followed by another. -/
example : (readBoolean ⟨⟨[2, 7], fun _ => 9, fun _ => 0, 0⟩, [0, 0], 0, 0⟩).toOption.map (·.1) = some true := by
  decide +kernel

/-- A value is read back from its bytes, and nothing after them is touched. -/
theorem accept_ok {s : Buf Byte} (h : Inv s) (v : Val) (hv : Ok v) {r : List Byte} (hl : left s = bytesOf v ++ r) :
    ∃ s', accept v s = .ok (v, s') ∧ Inv s' ∧ left s' = r := by
  cases v with
  | bool b =>
    obtain ⟨s1, e1, i1, l1⟩ := read0_ok h hl
    refine ⟨s1, ?_, i1, l1⟩
    simp only [accept, readBoolean, e1, Except.bind]
    cases b <;> rfl
  | byte b =>
    obtain ⟨s1, e1, i1, l1⟩ := read0_ok h hl
    refine ⟨s1, ?_, i1, l1⟩
    simp only [accept, readByte, e1, Except.bind]
    congr 3
    apply BitVec.eq_of_toNat_eq
    simp only [BitVec.toNat_setWidth]
    have := b.isLt
    omega
  | short x =>
    obtain ⟨s1, e1, i1, l1⟩ := readShort_ok h x hl
    exact ⟨s1, by simp only [accept, e1, Except.bind], i1, l1⟩
  | char x =>
    obtain ⟨s1, e1, i1, l1⟩ := readShort_ok h x hl
    exact ⟨s1, by simp only [accept, readChar, e1, Except.bind], i1, l1⟩
  | int x =>
    obtain ⟨s1, e1, i1, l1⟩ := readInt_ok h x hl
    exact ⟨s1, by simp only [accept, e1, Except.bind], i1, l1⟩
  | long x =>
    obtain ⟨s1, e1, i1, l1⟩ := readLong_ok h x hl
    exact ⟨s1, by simp only [accept, e1, Except.bind], i1, l1⟩
  | utf t =>
    obtain ⟨s1, e1, i1, l1⟩ := readUTF_ok h t hv hl
    exact ⟨s1, by simp only [accept, e1, Except.bind], i1, l1⟩

/-- Reading values of the same kinds one after another. -/
def acceptAll : List Val → Buf Byte → Except Err (List Val × Buf Byte)
  | [], s => .ok ([], s)
  | v :: vs, s => (accept v s).bind fun r => (acceptAll vs r.2).bind fun q => .ok (r.1 :: q.1, q.2)

theorem acceptAll_ok {s : Buf Byte} (h : Inv s) (vs : List Val) (hv : ∀ v ∈ vs, Ok v) {r : List Byte}
    (hl : left s = vs.flatMap bytesOf ++ r) : ∃ s', acceptAll vs s = .ok (vs, s') ∧ Inv s' ∧ left s' = r := by
  induction vs generalizing s with
  | nil => exact ⟨s, rfl, h, by simpa using hl⟩
  | cons v vs ih =>
    rw [List.flatMap_cons, List.append_assoc] at hl
    obtain ⟨s1, e1, i1, l1⟩ := accept_ok h v (hv v (by simp)) hl
    obtain ⟨s2, e2, i2, l2⟩ := ih i1 (fun x hx => hv x (by simp [hx])) l1
    exact ⟨s2, by simp only [acceptAll, e1, Except.bind, e2], i2, l2⟩

/-- Values written through a buffer of any size and flushed, then read through a buffer of any size, from a stream that divides
    its bytes in any way, are the values written; after them the end of the stream is noticed.  Missing: float and double. -/
theorem roundtrip_partial (vs : List Val) (hv : ∀ v ∈ vs, Ok v) (outSize inSize : Nat) (h1 : 0 < outSize) (h2 : 0 < inSize)
    (chunk : Nat → Nat) (avail : Nat → Int) :
    ∃ o i s, OutStreams.newBos ⟨[], 0⟩ outSize = .ok o ∧
      InStreams.new ⟨(OutStreams.brun o ((vs.flatMap emit).map asBOp ++ [.flush])).out.bytes, chunk, avail, 0⟩ 0 inSize = .ok i ∧
      acceptAll vs i = .ok (vs, s) ∧ readByte s = .error .eof := by
  obtain ⟨o, e1, e5, e2⟩ := OutStreams.bos_partial [] outSize h1 ((vs.flatMap emit).map asBOp)
  obtain ⟨i, e3, i3, l3⟩ := InStreams.new_ok (A := Byte) ⟨(OutStreams.brun o ((vs.flatMap emit).map asBOp ++ [.flush])).out.bytes, chunk, avail, 0⟩ 0
    inSize h2
  have hb : ((vs.flatMap emit).map asBOp).flatMap added = vs.flatMap bytesOf := by
    rw [List.flatMap_map, List.flatMap_assoc]
    clear e1 e2 e3 i3 l3 e5
    induction vs with
    | nil => rfl
    | cons v vs ih =>
      have e := emit_ok v (by
        rintro s rfl
        have := (hv _ (List.mem_cons_self)).2.2
        omega)
      have e' := ih fun x hx => hv x (by simp [hx])
      rw [List.flatMap_cons, List.flatMap_cons, e', e]
  rw [e2, List.nil_append, hb] at l3
  obtain ⟨s, e4, i4, l4⟩ := acceptAll_ok (r := []) i3 vs hv (by simpa using l3)
  refine ⟨o, i, s, e1, e3, e4, ?_⟩
  unfold readByte
  rw [read0_end i4 l4]
  rfl

example : ∀ v ∈ [Val.int 0xFFFFFFFE#32, .utf [97, 0xE9, 0x20AC], .long 0x8000000000000001#64, .char 0xD83D#16, .bool true], Ok v := by
  intro v hv
  simp only [List.mem_cons, List.not_mem_nil, or_false] at hv
  rcases hv with rfl | rfl | rfl | rfl | rfl
  · trivial
  · refine ⟨by simp, .inl (by simp), by decide⟩
  all_goals trivial

/-- "aé€" has the bytes 0 6 61 C3 A9 E2 82 AC. -/
example : bytesOf (.utf [97, 0xE9, 0x20AC]) = [0, 6, 0x61, 0xC3, 0xA9, 0xE2, 0x82, 0xAC] := by decide

/-- Unsigned reads give the numbers of the bytes. -/
theorem readUnsigned_ok {s : Buf Byte} (h : Inv s) (x : BitVec 16) (b : BitVec 8) {r : List Byte} :
    (left s = big 2 x ++ r → ∃ s', readUnsignedShort s = .ok (x.setWidth 32, s') ∧ Inv s' ∧ left s' = r) ∧
    (left s = b :: r → ∃ s', readUnsignedByte s = .ok (b.setWidth 32, s') ∧ Inv s' ∧ left s' = r) := by
  refine ⟨readUnsignedShort_ok h x, ?_⟩
  intro hl
  obtain ⟨s1, e1, i1, l1⟩ := read0_ok h hl
  refine ⟨s1, ?_, i1, l1⟩
  unfold readUnsignedByte readByte
  rw [e1]
  simp only [Except.bind]
  have : (b.setWidth 32).setWidth 8 = b := by
    apply BitVec.eq_of_toNat_eq
    simp only [BitVec.toNat_setWidth]
    have := b.isLt
    omega
  rw [this, zext]

/-- The chars of a string are written two bytes each, the high one first. -/
theorem writeChars_ok (s : List Nat) : (writeChars s).flatMap (fun o => added (asBOp o)) = s.flatMap fun c => big 2 (BitVec.ofNat 16 c) := by
  unfold writeChars
  rw [List.flatMap_assoc]
  congr 1
  funext c
  have e : BitVec.ofNat 32 c &&& 0xFFFF#32 = (BitVec.ofNat 16 c).setWidth 32 := by
    apply BitVec.eq_of_toNat_eq
    have h1 : (BitVec.ofNat 32 c &&& 0xFFFF#32).toNat = (BitVec.ofNat 32 c).toNat % 2 ^ 16 := by
      rw [BitVec.toNat_and]
      exact Nat.and_two_pow_sub_one_eq_mod _ 16
    rw [h1]
    simp only [BitVec.toNat_ofNat, BitVec.toNat_setWidth]
    omega
  rw [e]
  exact emit_ok (.char (BitVec.ofNat 16 c)) (by simp)

theorem skipLoop_ok : ∀ (m : Nat) (s : Buf Byte) (c : Nat), Inv s →
    ∃ s', skipLoop m s c = .ok (c + min m (left s).length, s') ∧ Inv s' ∧ left s' = (left s).drop m := by
  intro m
  induction m with
  | zero => intro s c h; exact ⟨s, by simp [skipLoop], h, by simp⟩
  | succ m ih =>
    intro s c h
    obtain ⟨s', e, i, l⟩ := InStreams.read_ok h
    unfold skipLoop
    rw [e]
    cases hl : left s with
    | nil =>
      rw [hl] at l
      exact ⟨s', by simp, i, by simp [l]⟩
    | cons x xs =>
      rw [hl] at l
      obtain ⟨s2, e2, i2, l2⟩ := ih s' (c + 1) i
      simp only [List.head?_cons]
      refine ⟨s2, ?_, i2, by rw [l2, l]; rfl⟩
      rw [e2, l]
      simp only [List.tail_cons, List.length_cons]
      congr 2
      omega

/-- `skipBytes` leaves out as many bytes as it says. -/
theorem skipBytes_ok {s : Buf Byte} (h : Inv s) (n : Nat) :
    ∃ s', skipBytes s n = .ok ((min n (left s).length : Nat), s') ∧ Inv s' ∧ left s' = (left s).drop n := by
  unfold skipBytes
  by_cases h0 : n = 0
  · subst h0
    exact ⟨s, by simp, h, by simp⟩
  · rw [if_neg (by omega), Int.toNat_natCast]
    obtain ⟨s', e, i, l⟩ := skipLoop_ok n s 0 h
    rw [e]
    exact ⟨s', by simp [Except.bind], i, l⟩

theorem lineLoop_ok : ∀ (xs : List Byte) (s : Buf Byte) (sb : List Nat) (c m : Nat) (r : List Byte), xs.length < m → Inv s →
    (∀ x ∈ xs, x.toNat ≠ 10) → (left s = xs ++ (10 : Byte) :: r ∨ (left s = xs ∧ r = [])) →
    ∃ s', lineLoop m s sb c = .ok (sb ++ c :: xs.map BitVec.toNat, s') ∧ Inv s' ∧ left s' = r := by
  intro xs
  induction xs with
  | nil =>
    intro s sb c m r hm h hx hl
    obtain ⟨m, rfl⟩ : ∃ k, m = k + 1 := ⟨m - 1, by omega⟩
    obtain ⟨s', e, i, l⟩ := InStreams.read_ok h
    unfold lineLoop
    rw [e]
    rcases hl with hl | ⟨hl, rfl⟩
    · rw [hl] at l
      refine ⟨s', ?_, i, l⟩
      rw [hl]
      simp
    · rw [hl] at l
      refine ⟨s', ?_, i, l⟩
      rw [hl]
      simp
  | cons x xs ih =>
    intro s sb c m r hm h hx hl
    obtain ⟨m, rfl⟩ : ∃ k, m = k + 1 := ⟨m - 1, by simp at hm; omega⟩
    obtain ⟨s', e, i, l⟩ := InStreams.read_ok h
    unfold lineLoop
    rw [e]
    have hh : (left s).head? = some x := by
      rcases hl with hl | ⟨hl, _⟩ <;> rw [hl] <;> rfl
    have ht : left s' = xs ++ (10 : Byte) :: r ∨ (left s' = xs ∧ r = []) := by
      rw [l]
      rcases hl with hl | ⟨hl, hr⟩
      · left; rw [hl]; rfl
      · right; rw [hl]; exact ⟨rfl, hr⟩
    rw [hh]
    simp only
    rw [if_neg (hx x (by simp))]
    obtain ⟨s2, e2, i2, l2⟩ := ih s' (sb ++ [c]) x.toNat m r (by simp at hm; omega) i (fun y hy => hx y (by simp [hy])) ht
    exact ⟨s2, by rw [e2]; simp, i2, l2⟩

/-- `readLine` gives the bytes before the next line feed as chars, or null at the end of the stream.  Missing: the carriage
    return before a line feed, which is to be left out, is kept. -/
theorem readLine_partial {s : Buf Byte} (h : Inv s) (xs r : List Byte) (hx : ∀ x ∈ xs, x.toNat ≠ 10) (m : Nat) (hm : xs.length < m) :
    (left s = xs ++ (10 : Byte) :: r → ∃ s', readLine m s = .ok (some (xs.map BitVec.toNat), s') ∧ Inv s' ∧ left s' = r) ∧
    (left s = xs → ∃ s', readLine m s = .ok (if xs = [] then none else some (xs.map BitVec.toNat), s') ∧ Inv s' ∧ left s' = []) := by
  obtain ⟨s', e, i, l⟩ := InStreams.read_ok h
  cases xs with
  | nil =>
    refine ⟨fun hl => ?_, fun hl => ?_⟩
    · rw [hl] at l e
      refine ⟨s', ?_, i, l⟩
      unfold readLine
      rw [e]
      rfl
    · rw [hl] at l e
      refine ⟨s', ?_, i, l⟩
      unfold readLine
      rw [e]
      rfl
  | cons x xs =>
    have hx0 := hx x (by simp)
    refine ⟨fun hl => ?_, fun hl => ?_⟩
    · rw [hl] at l e
      obtain ⟨s2, e2, i2, l2⟩ := lineLoop_ok xs s' [] x.toNat m r (by simp at hm; omega) i (fun y hy => hx y (by simp [hy])) (.inl l)
      refine ⟨s2, ?_, i2, l2⟩
      unfold readLine
      rw [e]
      simp only [List.cons_append, List.head?_cons]
      rw [if_neg hx0, e2]
      rfl
    · rw [hl] at l e
      obtain ⟨s2, e2, i2, l2⟩ := lineLoop_ok xs s' [] x.toNat m [] (by simp at hm; omega) i (fun y hy => hx y (by simp [hy]))
        (.inr ⟨l, rfl⟩)
      refine ⟨s2, ?_, i2, l2⟩
      unfold readLine
      rw [e]
      simp only [List.head?_cons]
      rw [if_neg hx0, e2, if_neg (by simp)]
      rfl

/-! ### Where the code fails -/

/-- The bits of 1.0f come back as those of 1316880384.0f. -/
theorem float_wrong (s : Buf Byte) (h : Inv s) (r : List Byte) (hl : left s = bytesOf (.int 0x3F800000#32) ++ r) :
    writeFloat 0x3F800000#32 = emit (.int 0x3F800000#32) ∧ ∃ s', readFloat s = .ok (0x4E9CFC00#32, s') := by
  obtain ⟨s1, e1, _, _⟩ := readInt_ok h _ hl
  refine ⟨rfl, s1, ?_⟩
  unfold readFloat
  rw [e1]
  have : intToFloat (intToFloat 0x3F800000#32) = 0x4E9CFC00#32 := by decide +kernel
  simp only [Except.bind, this]

/-- The bits of 1.0 come back as other bits. -/
theorem double_wrong (s : Buf Byte) (h : Inv s) (r : List Byte) (hl : left s = bytesOf (.long 0x3FF0000000000000#64) ++ r) :
    ∃ x s', readDouble s = .ok (x, s') ∧ x ≠ 0x3FF0000000000000#64 := by
  obtain ⟨s1, e1, _, _⟩ := readLong_ok h _ hl
  refine ⟨longToDouble (longToDouble 0x3FF0000000000000#64), s1, ?_, by decide +kernel⟩
  unfold readDouble
  rw [e1]
  simp only [Except.bind]

/-- A string with a longer encoding is written with the length modulo 65536, and no exception is thrown; the reader takes what
    follows for other values. -/
theorem utf_long (n : Nat) (h1 : 0 < n) (h2 : n < 65536) (s : Buf Byte) (hs : Inv s) (r : List Byte)
    (hl : left s = bytesOf (.utf (List.replicate (65536 + n) 97)) ++ r) :
    ∃ s', readUTF s = .ok (List.replicate n 97, s') := by
  have henc : ∀ k, JUtf8.encode (List.replicate k 97) = List.replicate k 97 := by
    intro k
    unfold JUtf8.encode
    have : JUtf8.encodeChar 97 = [97] := by decide
    induction k with
    | zero => rfl
    | succ k ih => rw [List.replicate_succ, List.flatMap_cons, ih, this]; rfl
  have e : left s = bytesOf (.utf (List.replicate n 97)) ++ ((List.replicate 65536 97).map (BitVec.ofNat 8) ++ r) := by
    rw [hl]
    simp only [bytesOf, henc, List.length_replicate, List.map_replicate]
    have e1 : BitVec.ofNat 16 (65536 + n) = BitVec.ofNat 16 n := by
      apply BitVec.eq_of_toNat_eq
      simp only [BitVec.toNat_ofNat]
      omega
    rw [e1, Nat.add_comm 65536 n, ← List.replicate_append_replicate]
    simp only [List.append_assoc]
  obtain ⟨s', e', _, _⟩ := readUTF_ok hs (List.replicate n 97) ⟨by intro c hc; rw [List.mem_replicate] at hc; omega, .inl (by
    intro hc; rw [List.mem_replicate] at hc; omega), by rw [henc]; simpa using h2⟩ e
  exact ⟨s', e'⟩

end Avian.DataStreams
