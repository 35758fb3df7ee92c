import Verif.Lib.ByteBuf

/-
C104: byte buffers.
-/
namespace Avian.ByteBuf

/-! ## Specification -/

/-- The number of a value. -/
def Val.num : Val → Nat
  | .byte v => v.toNat
  | .short v => v.toNat
  | .int v => v.toNat
  | .long v => v.toNat

/-- The number written by bytes, the highest one first. -/
def bigEndian (l : List Byte) : Nat := l.foldl (fun n x => n * 256 + x.toNat) 0

/-- A buffer whose position, limit and capacity are in order, and which lies within its array or its memory. -/
structure Ok (mem : List Byte) (b : Buf) : Prop where
  pos : 0 ≤ b.pos
  lim : b.pos ≤ b.lim
  cap : b.lim ≤ b.cap
  off : 0 ≤ b.off
  fits : b.off + b.cap ≤ mem.length
  small : (mem.length : Int) < 2147483648

/-- The `n` bytes of the buffer from index `p` on. -/
def slot (mem : List Byte) (b : Buf) (p : Int) (n : Nat) : List Byte := (mem.drop (b.off + p).toNat).take n

/-- The memory with other bytes from index `p` of the buffer on. -/
def written (mem : List Byte) (b : Buf) (p : Int) (l : List Byte) : List Byte :=
  mem.take (b.off + p).toNat ++ l ++ mem.drop ((b.off + p).toNat + l.length)

/-- The bytes between position and limit. -/
def rest (mem : List Byte) (b : Buf) : List Byte := slot mem b b.pos (b.lim - b.pos).toNat

/-! ## Values and their bytes -/

theorem or_part {w : Nat} (acc : BitVec w) (x : Byte) (s : Nat) (h : s + 8 ≤ w) (hd : 2 ^ (s + 8) ∣ acc.toNat) :
    (acc ||| part w x s).toNat = acc.toNat + x.toNat * 2 ^ s := by
  have hx : x.toNat * 2 ^ s < 2 ^ (s + 8) := by
    rw [Nat.pow_add, Nat.mul_comm]
    exact Nat.mul_lt_mul_of_pos_left x.isLt (Nat.two_pow_pos s)
  have hw : 2 ^ (s + 8) ≤ 2 ^ w := Nat.pow_le_pow_right (by omega) h
  have h8 : x.toNat % 2 ^ w = x.toNat := by
    apply Nat.mod_eq_of_lt
    exact Nat.lt_of_lt_of_le x.isLt (Nat.pow_le_pow_right (by omega) (by omega))
  have hp : (part w x s).toNat = x.toNat * 2 ^ s := by
    simp only [part, BitVec.toNat_shiftLeft, BitVec.toNat_setWidth, h8, Nat.shiftLeft_eq]
    exact Nat.mod_eq_of_lt (by omega)
  obtain ⟨q, hq⟩ := hd
  rw [BitVec.toNat_or, hp, hq, Nat.two_pow_add_eq_or_of_lt hx]

theorem part_toNat {w : Nat} (x : Byte) (s : Nat) (h : s + 8 ≤ w) : (part w x s).toNat = x.toNat * 2 ^ s := by
  have := or_part (0 : BitVec w) x s h (by simp)
  simpa using this

theorem byteOf_toNat {w : Nat} (v : BitVec w) (s : Nat) (h : s + 8 ≤ w) : (byteOf v s).toNat = v.toNat / 2 ^ s % 256 := by
  have : byteOf v s = v.extractLsb' s 8 := by
    ext i hi
    have h1 : i < w := by omega
    have h2 : s + i < w := by omega
    have h3 : (255 : Nat).testBit i = true := by
      have : (255 : Nat) = 2 ^ 8 - 1 := rfl
      rw [this, Nat.testBit_two_pow_sub_one]
      simpa using hi
    simp only [byteOf, BitVec.getElem_setWidth, BitVec.getElem_extractLsb', BitVec.getLsbD_and, BitVec.getLsbD_sshiftRight, BitVec.getLsbD_ofNat, h1,
      h2, h3, if_pos, Bool.and_true, decide_true, Bool.true_and]
    simp [h1]
  rw [this, BitVec.extractLsb'_toNat, Nat.shiftRight_eq_div_pow]

theorem bytes_length (v : Val) : v.bytes.length = v.kind.size' := by cases v <;> rfl

/-- A value is written with its highest byte first. -/
theorem bytes_bigEndian (v : Val) : bigEndian v.bytes = v.num := by
  cases v with
  | byte v => simp [bigEndian, Val.bytes, Val.num]
  | short v =>
    have := v.isLt
    simp only [bigEndian, Val.bytes, Val.num, List.foldl, byteOf_toNat v 8 (by omega), byteOf_toNat v 0 (by omega)]
    omega
  | int v =>
    have := v.isLt
    simp only [bigEndian, Val.bytes, Val.num, List.foldl, byteOf_toNat v 24 (by omega), byteOf_toNat v 16 (by omega),
      byteOf_toNat v 8 (by omega), byteOf_toNat v 0 (by omega)]
    omega
  | long v =>
    have := v.isLt
    simp only [bigEndian, Val.bytes, Val.num, List.foldl, byteOf_toNat v 56 (by omega), byteOf_toNat v 48 (by omega),
      byteOf_toNat v 40 (by omega), byteOf_toNat v 32 (by omega), byteOf_toNat v 24 (by omega), byteOf_toNat v 16 (by omega),
      byteOf_toNat v 8 (by omega), byteOf_toNat v 0 (by omega)]
    omega

example : (Val.int 0x01020304#32).bytes = [1, 2, 3, 4] := by decide

theorem eq_nil {l : List Byte} (h : l.length = 0) : l = [] := List.length_eq_zero_iff.mp h

theorem eq_cons {l : List Byte} {n : Nat} (h : l.length = n + 1) : ∃ a t, l = a :: t ∧ t.length = n := by
  cases l with
  | nil => simp at h
  | cons a t => exact ⟨a, t, rfl, by simpa using h⟩

/-- The value of bytes is the number they write, and of the kind asked for. -/
theorem value_bigEndian (k : Kind) (l : List Byte) (h : l.length = k.size') : (k.value l).num = bigEndian l ∧ (k.value l).kind = k := by
  cases k with
  | byte =>
    obtain ⟨a, t1, rfl, q1⟩ := eq_cons h
    obtain rfl := eq_nil q1
    simp [Kind.value, Val.num, Val.kind, bigEndian]
  | short =>
    obtain ⟨a, t1, rfl, q1⟩ := eq_cons h
    obtain ⟨b, t2, rfl, q2⟩ := eq_cons q1
    obtain rfl := eq_nil q2
    refine ⟨?_, rfl⟩
    have ha := part_toNat (w := 16) a 8 (by omega)
    simp only [Kind.value, Val.num, bigEndian, List.foldl]
    rw [or_part _ b 0 (by omega) (by omega), ha]
    omega
  | int =>
    obtain ⟨a, t1, rfl, q1⟩ := eq_cons h
    obtain ⟨b, t2, rfl, q2⟩ := eq_cons q1
    obtain ⟨c, t3, rfl, q3⟩ := eq_cons q2
    obtain ⟨d, t4, rfl, q4⟩ := eq_cons q3
    obtain rfl := eq_nil q4
    refine ⟨?_, rfl⟩
    have h1 := part_toNat (w := 32) a 24 (by omega)
    have h2 := or_part (part 32 a 24) b 16 (by omega) (by omega)
    have h3 := or_part (part 32 a 24 ||| part 32 b 16) c 8 (by omega) (by omega)
    have h4 := or_part (part 32 a 24 ||| part 32 b 16 ||| part 32 c 8) d 0 (by omega) (by omega)
    simp only [Kind.value, Val.num, bigEndian, List.foldl]
    omega
  | long =>
    obtain ⟨a, t1, rfl, q1⟩ := eq_cons h
    obtain ⟨b, t2, rfl, q2⟩ := eq_cons q1
    obtain ⟨c, t3, rfl, q3⟩ := eq_cons q2
    obtain ⟨d, t4, rfl, q4⟩ := eq_cons q3
    obtain ⟨e, t5, rfl, q5⟩ := eq_cons q4
    obtain ⟨f, t6, rfl, q6⟩ := eq_cons q5
    obtain ⟨g, t7, rfl, q7⟩ := eq_cons q6
    obtain ⟨i, t8, rfl, q8⟩ := eq_cons q7
    obtain rfl := eq_nil q8
    refine ⟨?_, rfl⟩
    have h1 := part_toNat (w := 64) a 56 (by omega)
    have h2 := or_part (part 64 a 56) b 48 (by omega) (by omega)
    have h3 := or_part _ c 40 (by omega) (show 2 ^ (40 + 8) ∣ (part 64 a 56 ||| part 64 b 48).toNat by omega)
    have h4 := or_part _ d 32 (by omega) (show 2 ^ (32 + 8) ∣ (part 64 a 56 ||| part 64 b 48 ||| part 64 c 40).toNat by omega)
    have h5 := or_part _ e 24 (by omega)
      (show 2 ^ (24 + 8) ∣ (part 64 a 56 ||| part 64 b 48 ||| part 64 c 40 ||| part 64 d 32).toNat by omega)
    have h6 := or_part _ f 16 (by omega)
      (show 2 ^ (16 + 8) ∣ (part 64 a 56 ||| part 64 b 48 ||| part 64 c 40 ||| part 64 d 32 ||| part 64 e 24).toNat by omega)
    have h7 := or_part _ g 8 (by omega)
      (show 2 ^ (8 + 8) ∣ (part 64 a 56 ||| part 64 b 48 ||| part 64 c 40 ||| part 64 d 32 ||| part 64 e 24 ||| part 64 f 16).toNat by omega)
    have h8 := or_part _ i 0 (by omega)
      (show 2 ^ (0 + 8) ∣ (part 64 a 56 ||| part 64 b 48 ||| part 64 c 40 ||| part 64 d 32 ||| part 64 e 24 ||| part 64 f 16 |||
        part 64 g 8).toNat by omega)
    simp only [Kind.value, Val.num, bigEndian, List.foldl]
    omega

example : Kind.short.value [0xFF, 0xFE] = .short 0xFFFE#16 := by decide

theorem num_inj (v w : Val) (hk : v.kind = w.kind) (h : v.num = w.num) : v = w := by
  cases v <;> cases w <;> simp_all [Val.kind, Val.num, BitVec.toNat_inj]

/-- The bytes of a value are read as the value. -/
theorem value_bytes (v : Val) : v.kind.value v.bytes = v := by
  have := value_bigEndian v.kind v.bytes (bytes_length v)
  exact num_inj _ _ this.2 (by rw [this.1, bytes_bigEndian])

/-! ## Reading and writing -/

theorem wrap_id (i : Int) (h : -2147483648 ≤ i) (h' : i < 2147483648) : wrap i = i := by unfold wrap; omega

theorem place_id {mem : List Byte} {b : Buf} (p : Int) (h0 : 0 ≤ b.off) (hp : 0 ≤ p) (h : b.off + p ≤ mem.length)
    (hs : (mem.length : Int) < 2147483648) : place b p = b.off + p := by
  unfold place
  by_cases hd : b.direct = true
  · rw [if_pos hd]
  · rw [if_neg hd, wrap_id _ (by omega) (by omega)]

theorem storeAll_ok (l : List Byte) (mem : List Byte) (b : Buf) (p : Int) (h0 : 0 ≤ b.off) (hp : 0 ≤ p) (h : b.off + p + l.length ≤ mem.length)
    (hs : (mem.length : Int) < 2147483648) : storeAll mem b p l = .ok (written mem b p l) := by
  induction l generalizing mem p with
  | nil => simp [storeAll, written]
  | cons x xs ih =>
    simp only [List.length_cons] at h
    have hpl := place_id (mem := mem) (b := b) p h0 hp (by omega) hs
    have hlt : (b.off + p).toNat < mem.length := by omega
    unfold storeAll store
    rw [hpl, if_pos (by omega)]
    simp only [Except.bind]
    rw [wrap_id _ (by omega) (by omega), ih _ _ (by omega) (by simp only [List.length_set]; omega) (by simpa using hs)]
    unfold written
    have ht : (b.off + (p + 1)).toNat = (b.off + p).toNat + 1 := by omega
    have hl : (x :: xs).length = xs.length + 1 := rfl
    rw [ht, hl, List.drop_set_of_lt (by omega), List.take_succ, List.take_set_of_le (Nat.le_refl _)]
    simp only [List.getElem?_set_self hlt, Option.toList, List.append_assoc, List.cons_append, List.nil_append]
    rw [show (b.off + p).toNat + 1 + xs.length = (b.off + p).toNat + (xs.length + 1) by omega]

theorem loadAll_ok (n : Nat) (mem : List Byte) (b : Buf) (p : Int) (h0 : 0 ≤ b.off) (hp : 0 ≤ p) (h : b.off + p + n ≤ mem.length)
    (hs : (mem.length : Int) < 2147483648) : loadAll mem b p n = .ok (slot mem b p n) := by
  induction n generalizing p with
  | zero => simp [loadAll, slot]
  | succ n ih =>
    have hpl := place_id (mem := mem) (b := b) p h0 hp (by omega) hs
    have hlt : (b.off + p).toNat < mem.length := by omega
    unfold loadAll load
    rw [hpl, if_pos (by omega)]
    simp only [Except.bind]
    rw [wrap_id _ (by omega) (by omega), ih _ (by omega) (by omega)]
    simp only [Except.map, slot]
    have ht : (b.off + (p + 1)).toNat = (b.off + p).toNat + 1 := by omega
    rw [ht, List.drop_eq_getElem_cons hlt, List.take_succ_cons]
    simp only [List.getD_eq_getElem?_getD, List.getElem?_eq_getElem hlt, Option.getD_some]

theorem written_length (mem : List Byte) (b : Buf) (p : Int) (l : List Byte) (h0 : 0 ≤ b.off) (hp : 0 ≤ p)
    (h : b.off + p + l.length ≤ mem.length) : (written mem b p l).length = mem.length := by
  simp only [written, List.length_append, List.length_take, List.length_drop]
  omega

/-- `put` writes the bytes of the value at the position, changes nothing else, and moves the position behind them. -/
theorem put_ok (mem : List Byte) (b : Buf) (v : Val) (hb : Ok mem b) (hr : b.ro = false) (h : b.pos + v.kind.size' ≤ b.lim) :
    put mem b v = .ok (written mem b b.pos v.bytes, { b with pos := b.pos + v.kind.size' }) := by
  obtain ⟨h1, h2, h3, h4, h5, h6⟩ := hb
  have hl := bytes_length v
  unfold put checkPut
  rw [hr, if_neg (by simp), wrap_id _ (by omega) (by omega), if_neg (by omega)]
  simp only [Except.bind]
  rw [storeAll_ok _ _ _ _ h4 h1 (by omega) h6]
  rfl

example : put [0, 0, 0, 0, 0, 0] ⟨false, 1, 4, 4, 1, false⟩ (.short 0x1234#16) = .ok ([0, 0, 0x12, 0x34, 0, 0], ⟨false, 1, 4, 4, 3, false⟩) := by
  decide

/-- The buffer is in order afterwards. -/
theorem put_keeps (mem : List Byte) (b : Buf) (v : Val) (hb : Ok mem b) (hr : b.ro = false) (h : b.pos + v.kind.size' ≤ b.lim) :
    ∃ (mem' : List Byte) (b' : Buf), put mem b v = .ok (mem', b') ∧ Ok mem' b' ∧ b'.ro = false := by
  refine ⟨_, _, put_ok mem b v hb hr h, ?_, hr⟩
  obtain ⟨h1, h2, h3, h4, h5, h6⟩ := hb
  have hl := bytes_length v
  have := written_length mem b b.pos v.bytes h4 h1 (by omega)
  exact ⟨by show 0 ≤ b.pos + v.kind.size'; omega, h, h3, h4, by rw [this]; exact h5, by rw [this]; exact h6⟩

/-- Without room for it, nothing is written. -/
theorem put_full (mem : List Byte) (b : Buf) (v : Val) (hb : Ok mem b) (hr : b.ro = false) (h : b.lim < b.pos + v.kind.size')
    (hs : b.lim + 8 < 2147483648) : put mem b v = .error .overflow := by
  obtain ⟨h1, h2, h3, h4, h5, h6⟩ := hb
  have : v.kind.size' ≤ 8 := by cases v <;> simp [Val.kind, Kind.size']
  unfold put checkPut
  rw [hr, if_neg (by simp), wrap_id _ (by omega) (by omega), if_pos (by omega)]
  rfl

/-- Nothing is written through a read-only buffer. -/
theorem put_readOnly (mem : List Byte) (b : Buf) (v : Val) (p : Int) (hr : b.ro = true) :
    put mem b v = .error .readOnly ∧ putAt mem b p v = .error .readOnly := by
  constructor <;> simp [put, putAt, checkPut, hr, Except.bind]

/-- `get` gives the number written by the bytes at the position and moves the position behind them. -/
theorem get_ok (mem : List Byte) (b : Buf) (k : Kind) (hb : Ok mem b) (h : b.pos + k.size' ≤ b.lim) :
    ∃ v : Val, get mem b k = .ok (v, { b with pos := b.pos + k.size' }) ∧ v.kind = k ∧ v.num = bigEndian (slot mem b b.pos k.size') := by
  obtain ⟨h1, h2, h3, h4, h5, h6⟩ := hb
  have hl : (slot mem b b.pos k.size').length = k.size' := by
    simp only [slot, List.length_take, List.length_drop]
    omega
  have hv := value_bigEndian k _ hl
  refine ⟨k.value (slot mem b b.pos k.size'), ?_, hv.2, hv.1⟩
  unfold get checkGet
  rw [wrap_id _ (by omega) (by omega), if_neg (by omega)]
  simp only [Except.bind]
  rw [loadAll_ok _ _ _ _ h4 h1 (by omega) h6, wrap_id _ (by omega) (by omega)]
  rfl

example : get [9, 0x12, 0x34, 7] ⟨true, 1, 3, 3, 0, true⟩ .short = .ok (.short 0x1234#16, ⟨true, 1, 3, 3, 2, true⟩) := by decide

theorem get_empty (mem : List Byte) (b : Buf) (k : Kind) (hb : Ok mem b) (h : b.lim < b.pos + k.size') :
    get mem b k = .error .underflow := by
  obtain ⟨h1, h2, h3, h4, h5, h6⟩ := hb
  unfold get checkGet
  rw [wrap_id _ (by omega) (by omega), if_pos (by omega)]
  rfl

/-- What was put is got back: by `get` after the position is set back. -/
theorem put_get (mem : List Byte) (b : Buf) (v : Val) (hb : Ok mem b) (hr : b.ro = false) (h : b.pos + v.kind.size' ≤ b.lim) :
    ∃ mem' : List Byte, put mem b v = .ok (mem', { b with pos := b.pos + v.kind.size' }) ∧
      get mem' b v.kind = .ok (v, { b with pos := b.pos + v.kind.size' }) := by
  refine ⟨_, put_ok mem b v hb hr h, ?_⟩
  have hl := bytes_length v
  obtain ⟨h1, h2, h3, h4, h5, h6⟩ := hb
  have hlen := written_length mem b b.pos v.bytes h4 h1 (by omega)
  obtain ⟨w, hw, hk, hn⟩ := get_ok (written mem b b.pos v.bytes) b v.kind ⟨h1, h2, h3, h4, by rw [hlen]; exact h5, by rw [hlen]; exact h6⟩ h
  have hsl : slot (written mem b b.pos v.bytes) b b.pos v.kind.size' = v.bytes := by
    unfold slot written
    rw [List.append_assoc, List.drop_append_of_le_length (by simp only [List.length_take]; omega), List.drop_take_self]
    simp only [List.nil_append]
    rw [List.take_append_of_le_length (by omega), List.take_of_length_le (by omega)]
  rw [hsl, bytes_bigEndian] at hn
  rw [hw, num_inj w v hk hn]

/-! ## Sequences of values -/

/-- Values put one after the other. -/
def putAll (mem : List Byte) (b : Buf) : List Val → Except Exn (List Byte × Buf)
  | [] => .ok (mem, b)
  | v :: vs => (put mem b v).bind fun (mem, b) => putAll mem b vs

/-- Values got one after the other. -/
def getAll (mem : List Byte) (b : Buf) : List Kind → Except Exn (List Val)
  | [] => .ok []
  | k :: ks => (get mem b k).bind fun (v, b) => (getAll mem b ks).map (v :: ·)

/-- The bytes of values. -/
def bytesOf (vs : List Val) : List Byte := vs.flatMap Val.bytes

theorem written_written (mem : List Byte) (b : Buf) (p : Int) (l l' : List Byte) (h0 : 0 ≤ b.off) (hp : 0 ≤ p)
    (h : b.off + p + l.length ≤ mem.length) (b' : Buf) (hb : b'.off = b.off) (p' : Int) (hp' : p' = p + l.length) :
    written (written mem b p l) b' p' l' = written mem b p (l ++ l') := by
  subst hp'
  unfold written
  have e : (b'.off + (p + l.length)).toNat = (b.off + p).toNat + l.length := by omega
  have e2 : (mem.take (b.off + p).toNat ++ l).length = (b.off + p).toNat + l.length := by
    simp only [List.length_append, List.length_take]; omega
  rw [e, ← e2, List.take_left, List.drop_append, List.drop_drop]
  have e3 : (mem.take (b.off + p).toNat ++ l).drop ((mem.take (b.off + p).toNat ++ l).length + l'.length) = [] :=
    List.drop_of_length_le (by omega)
  rw [e3, List.nil_append, e2, List.length_append, List.append_assoc, List.append_assoc, List.append_assoc,
    List.append_assoc,
    show (b.off + p).toNat + l.length + ((b.off + p).toNat + l.length + l'.length - ((b.off + p).toNat + l.length)) =
      (b.off + p).toNat + (l.length + l'.length) by omega]

theorem putAll_ok (vs : List Val) (mem : List Byte) (b : Buf) (hb : Ok mem b) (hr : b.ro = false) (h : b.pos + (bytesOf vs).length ≤ b.lim) :
    putAll mem b vs = .ok (written mem b b.pos (bytesOf vs), { b with pos := b.pos + (bytesOf vs).length }) := by
  induction vs generalizing mem b with
  | nil => simp [putAll, bytesOf, written]
  | cons v vs ih =>
    have hl := bytes_length v
    have hcons : bytesOf (v :: vs) = v.bytes ++ bytesOf vs := rfl
    rw [hcons, List.length_append] at h
    have h1 := hb.pos
    have h4 := hb.off
    have h5 := hb.fits
    have h3 := hb.cap
    have hw := written_length mem b b.pos v.bytes h4 h1 (by omega)
    unfold putAll
    rw [put_ok mem b v hb hr (by omega)]
    simp only [Except.bind]
    rw [ih _ { b with pos := b.pos + v.kind.size' } ⟨by show 0 ≤ b.pos + v.kind.size'; omega, by show b.pos + v.kind.size' ≤ b.lim; omega, h3, h4, by rw [hw]; exact h5,
      by rw [hw]; exact hb.small⟩ hr (by show b.pos + v.kind.size' + (bytesOf vs).length ≤ b.lim; omega)]
    rw [written_written mem b b.pos v.bytes (bytesOf vs) h4 h1 (by omega) _ (by rfl) _ (by show b.pos + v.kind.size' = _; omega), hcons]
    simp only [List.length_append, Except.ok.injEq, Prod.mk.injEq, true_and]
    congr 1
    omega

theorem getAll_ok (vs : List Val) (mem : List Byte) (b : Buf) (hb : Ok mem b) (tail : List Byte) (h : b.pos + (bytesOf vs).length ≤ b.lim)
    (hm : mem.drop (b.off + b.pos).toNat = bytesOf vs ++ tail) : getAll mem b (vs.map Val.kind) = .ok vs := by
  induction vs generalizing b with
  | nil => rfl
  | cons v vs ih =>
    have hl := bytes_length v
    have hcons : bytesOf (v :: vs) = v.bytes ++ bytesOf vs := rfl
    rw [hcons, List.length_append] at h
    have h1 := hb.pos
    have h4 := hb.off
    have h5 := hb.fits
    have h3 := hb.cap
    obtain ⟨w, hg, hk, hn⟩ := get_ok mem b v.kind hb (by omega)
    have hsl : slot mem b b.pos v.kind.size' = v.bytes := by
      unfold slot
      rw [hm, hcons, List.append_assoc, List.take_append_of_le_length (by omega), List.take_of_length_le (by omega)]
    rw [hsl, bytes_bigEndian] at hn
    have := num_inj w v hk hn
    subst this
    simp only [List.map_cons, getAll]
    rw [hg]
    simp only [Except.bind]
    rw [ih { b with pos := b.pos + w.kind.size' } ⟨by show 0 ≤ b.pos + w.kind.size'; omega, by show b.pos + w.kind.size' ≤ b.lim; omega, h3, h4, h5,
      hb.small⟩ (by show b.pos + w.kind.size' + (bytesOf vs).length ≤ b.lim; omega) (by
        show mem.drop (b.off + (b.pos + w.kind.size')).toNat = _
        have e : (b.off + (b.pos + w.kind.size')).toNat = (b.off + b.pos).toNat + w.bytes.length := by omega
        rw [e, ← List.drop_drop, hm, hcons, List.append_assoc, List.drop_left])]
    rfl

/-- Values of any kinds that are put into an empty buffer are, after `flip`, got back in their order. -/
theorem putAll_getAll (vs : List Val) (mem : List Byte) (b : Buf) (hb : Ok mem b) (hr : b.ro = false) (h0 : b.pos = 0)
    (h : (bytesOf vs).length ≤ b.lim) :
    ∃ (mem' : List Byte) (b' : Buf), putAll mem b vs = .ok (mem', b') ∧ getAll mem' b'.flip (vs.map Val.kind) = .ok vs := by
  refine ⟨_, _, putAll_ok vs mem b hb hr (by omega), ?_⟩
  have h4 := hb.off
  have h5 := hb.fits
  have h3 := hb.cap
  have hw := written_length mem b b.pos (bytesOf vs) h4 hb.pos (by omega)
  refine getAll_ok vs _ _ ⟨Int.le_refl _, by show 0 ≤ b.pos + (bytesOf vs).length; omega, by show b.pos + (bytesOf vs).length ≤ b.cap; omega, h4,
    by rw [hw]; exact h5, by rw [hw]; exact hb.small⟩ (mem.drop ((b.off + b.pos).toNat + (bytesOf vs).length))
    (by show 0 + ((bytesOf vs).length : Int) ≤ b.pos + (bytesOf vs).length; omega) ?_
  show (written mem b b.pos (bytesOf vs)).drop (b.off + 0).toNat = _
  unfold written
  rw [h0, List.append_assoc, List.drop_append_of_le_length (by simp only [List.length_take]; omega), List.drop_take_self, List.nil_append]

example : (putAll (allocate 7).1 (allocate 7).2 [.int 0xCAFEBABE#32, .byte 5, .short 0xFFFF#16]).bind (fun (m, b) =>
    getAll m b.flip [.int, .byte, .short]) = .ok [.int 0xCAFEBABE#32, .byte 5, .short 0xFFFF#16] := by decide +kernel

/-- New buffers are in order. -/
theorem allocate_ok (n : Nat) (h : n < 2147483648) : Ok (allocate n).1 (allocate n).2 ∧ Ok (allocateDirect n).1 (allocateDirect n).2 := by
  constructor
  · exact ⟨Int.le_refl _, Int.natCast_nonneg n, Int.le_refl _, Int.le_refl _, by simp [allocate], by simp [allocate]; omega⟩
  · exact ⟨Int.le_refl _, Int.natCast_nonneg n, Int.le_refl _, Int.le_refl _, by simp [allocateDirect], by simp [allocateDirect]; omega⟩

/-! ## Given positions -/

/-- Inside of the buffer, `put` with an index writes there. -/
theorem putAt_ok (mem : List Byte) (b : Buf) (p : Int) (v : Val) (hb : Ok mem b) (hr : b.ro = false) (hp : 0 ≤ p) (h : p + v.kind.size' ≤ b.lim) :
    putAt mem b p v = .ok (written mem b p v.bytes) := by
  obtain ⟨h1, h2, h3, h4, h5, h6⟩ := hb
  have hl := bytes_length v
  unfold putAt checkPut
  rw [hr, if_neg (by simp), wrap_id _ (by omega) (by omega), if_neg (by omega)]
  simp only [Except.bind]
  rw [storeAll_ok _ _ _ _ h4 hp (by omega) h6]

/-- Outside of it, an exception is thrown — for indices whose last byte is not beyond the largest `int`. -/
theorem putAt_outside_partial (mem : List Byte) (b : Buf) (p : Int) (v : Val) (hr : b.ro = false) (hl : -2147483648 ≤ p)
    (hp : p < 0 ∨ b.lim < p + v.kind.size') (hs : p + v.kind.size' < 2147483648) : putAt mem b p v = .error .index := by
  unfold putAt checkPut
  rw [hr, if_neg (by simp), wrap_id _ (by omega) (by omega), if_pos (by omega)]
  rfl

/-- Beyond that the check is passed, and a direct buffer writes outside of its memory. -/
theorem putAt_overflow_wrong (mem : List Byte) (b : Buf) (p : Int) (v : Val) (hb : Ok mem b) (hr : b.ro = false) (hd : b.direct = true)
    (hp : p < 2147483648) (ho : 2147483648 ≤ p + v.kind.size') (hm : (mem.length : Int) < 2147483640) : putAt mem b p v = .error .undef := by
  obtain ⟨h1, h2, h3, h4, h5, h6⟩ := hb
  have h8 : v.kind.size' ≤ 8 := by cases v <;> simp [Val.kind, Kind.size']
  have hw : wrap (p + v.kind.size') = p + v.kind.size' - 4294967296 := by unfold wrap; omega
  unfold putAt checkPut
  rw [hr, if_neg (by simp), hw, if_neg (by omega)]
  simp only [Except.bind]
  have hl := bytes_length v
  cases hv : v.bytes with
  | nil => rw [hv] at hl; cases v <;> simp [Val.kind, Kind.size'] at hl
  | cons x xs =>
    unfold storeAll store place
    rw [hd, if_pos rfl, if_neg (by omega)]
    rfl

example : putAt (allocateDirect 4).1 (allocateDirect 4).2 2147483647 (.byte 1) = .error .undef := by decide

/-- Inside of the buffer, `get` with an index reads there. -/
theorem getAt_ok (mem : List Byte) (b : Buf) (p : Int) (k : Kind) (hb : Ok mem b) (hp : 0 ≤ p) (h : p + k.size' ≤ b.lim) :
    ∃ v : Val, getAt mem b p k = .ok v ∧ v.kind = k ∧ v.num = bigEndian (slot mem b p k.size') := by
  obtain ⟨h1, h2, h3, h4, h5, h6⟩ := hb
  have hl : (slot mem b p k.size').length = k.size' := by
    simp only [slot, List.length_take, List.length_drop]
    omega
  have hv := value_bigEndian k _ hl
  refine ⟨k.value (slot mem b p k.size'), ?_, hv.2, hv.1⟩
  unfold getAt checkGet
  rw [wrap_id _ (by omega) (by omega), if_neg (by omega)]
  simp only [Except.bind]
  rw [loadAll_ok _ _ _ _ h4 hp (by omega) h6]
  rfl

/-- Beyond the limit, an exception is thrown; below zero see `getAt_negative_wrong`. -/
theorem getAt_outside_partial (mem : List Byte) (b : Buf) (p : Int) (k : Kind) (hb : Ok mem b) (hp : 0 ≤ p) (hi : p < 2147483648)
    (h : b.lim < p + k.size') : getAt mem b p k = .error .index := by
  obtain ⟨h1, h2, h3, h4, h5, h6⟩ := hb
  unfold getAt checkGet
  rw [wrap_id _ (by omega) (by omega), if_pos (by omega)]
  rfl

/-- An index below zero is not refused: the bytes before the buffer are read, if the array or the memory begins before it; otherwise a direct
buffer reads outside of its memory. -/
theorem getAt_negative_wrong (mem : List Byte) (b : Buf) (p : Int) (hb : Ok mem b) (hp : p < 0) (hs : b.lim - p < 2147483648) :
    (-b.off ≤ p → getAt mem b p .byte = .ok (.byte (mem.getD (b.off + p).toNat 0))) ∧
    (p < -b.off → b.direct = true → getAt mem b p .byte = .error .undef) := by
  obtain ⟨h1, h2, h3, h4, h5, h6⟩ := hb
  have hc : checkGet b p ((Kind.byte.size' : Nat) : Int) true = .ok () := by
    unfold checkGet
    rw [wrap_id _ (by omega) (by omega), if_neg (by simp only [Kind.size']; omega)]
  constructor
  · intro h
    have hpl : place b p = b.off + p := by
      unfold place
      by_cases hd : b.direct = true
      · rw [if_pos hd]
      · rw [if_neg hd, wrap_id _ (by omega) (by omega)]
    unfold getAt
    rw [hc]
    simp only [Except.bind, Kind.size', loadAll, load, hpl]
    rw [if_pos (by omega)]
    rfl
  · intro h hd
    unfold getAt
    rw [hc]
    have hpl : place b p = b.off + p := by unfold place; rw [if_pos hd]
    simp only [Except.bind, Kind.size', loadAll, load, hpl]
    rw [if_neg (by omega), if_pos hd]
    rfl

example : getAt [42, 1, 2, 3] (wrapArray 1 3) (-1) .byte = .ok (.byte 42) ∧
    getAt (allocateDirect 4).1 (allocateDirect 4).2 (-1) .byte = .error .undef := by decide

/-! ## Views -/

/-- A slice shows what is between position and limit, a duplicate and a read-only buffer what the buffer does. -/
theorem views_ok (mem : List Byte) (b : Buf) (hb : Ok mem b) :
    Ok mem b.slice ∧ rest mem b.slice = rest mem b ∧ b.slice.pos = 0 ∧ b.slice.lim = b.slice.cap ∧ b.duplicate = b ∧
    Ok mem b.asReadOnly ∧ rest mem b.asReadOnly = rest mem b ∧ b.asReadOnly.ro = true := by
  obtain ⟨h1, h2, h3, h4, h5, h6⟩ := hb
  have hr : b.remaining = b.lim - b.pos := by unfold Buf.remaining; rw [wrap_id _ (by omega) (by omega)]
  have ho : b.slice.off = b.off + b.pos := by
    unfold Buf.slice
    simp only
    by_cases hd : b.direct = true
    · rw [if_pos hd]
    · rw [if_neg hd, wrap_id _ (by omega) (by omega)]
  have hl : b.slice.lim = b.lim - b.pos := hr
  have hcap : b.slice.cap = b.lim - b.pos := hr
  have hp : b.slice.pos = 0 := rfl
  refine ⟨⟨by rw [hp]; exact Int.le_refl _, by omega, by omega, by omega, by omega, h6⟩, ?_, rfl, rfl, rfl, ⟨h1, h2, h3, h4, h5, h6⟩, rfl, rfl⟩
  unfold rest slot
  rw [ho, hl, hp]
  simp

/-- A slice of a buffer that can be written cannot be written. -/
theorem slice_readOnly_wrong (mem : List Byte) (b : Buf) (v : Val) : put mem b.slice v = .error .readOnly := (put_readOnly mem b.slice v 0 rfl).1

/-- `wrap(array, offset, length)` is not Java's: its position would be the offset and its capacity the length of the array. -/
theorem wrap_wrong (offset length : Int) (h : offset ≠ 0) : (wrapArray offset length).pos ≠ offset ∧ (wrapArray offset length).off ≠ 0 :=
  ⟨fun e => h e.symm, h⟩

/-! ## Arrays -/

/-- Putting a part of an array writes it at the position. -/
theorem putArray_ok (mem : List Byte) (b : Buf) (src : List Byte) (offset length : Nat) (hb : Ok mem b) (hr : b.ro = false)
    (hs : offset + length ≤ src.length) (hi : src.length < 2147483648) (h : b.pos + length ≤ b.lim) :
    putArray mem b src offset length = .ok (written mem b b.pos ((src.drop offset).take length), { b with pos := b.pos + length }) := by
  obtain ⟨h1, h2, h3, h4, h5, h6⟩ := hb
  have hc : checkPut b b.pos length false = .ok () := by
    unfold checkPut
    rw [hr, if_neg (by simp), wrap_id _ (by omega) (by omega), if_neg (by omega)]
  have hl : ((src.drop offset).take length).length = length := by simp only [List.length_take, List.length_drop]; omega
  have hsp : 0 < length → splice src offset mem (b.off + b.pos).toNat length = written mem b b.pos ((src.drop offset).take length) := by
    intro _
    unfold splice written
    rw [hl]
  have hz : length = 0 → written mem b b.pos ((src.drop offset).take length) = mem := by
    intro e
    subst e
    simp [written]
  unfold putArray
  by_cases hd : b.direct = true
  · rw [if_pos hd, wrap_id _ (by omega) (by omega), if_neg (by omega), hc]
    simp only [Except.bind, copyMemory]
    rw [wrap_id _ (by omega) (by omega)]
    by_cases h0 : length = 0
    · rw [if_pos (by omega), hz h0]
      rfl
    · rw [if_neg (by omega), if_pos ⟨by omega, by omega, by omega, by omega, by omega, by simp⟩, ← hsp (by omega)]
      rfl
  · rw [if_neg hd, hc]
    simp only [Except.bind, arraycopy]
    rw [wrap_id _ (by omega) (by omega), wrap_id _ (by omega) (by omega)]
    by_cases h0 : length = 0
    · rw [if_neg (by omega), if_neg (by omega), hz h0]
      rfl
    · rw [if_pos (by omega), if_pos ⟨by omega, by omega, by omega, by omega⟩, ← hsp (by omega)]
      rfl

example : putArray [0, 0, 0, 0] ⟨true, 0, 4, 4, 1, false⟩ [7, 8, 9] 1 2 = .ok ([0, 8, 9, 0], ⟨true, 0, 4, 4, 3, false⟩) := by decide

/-- Getting into a part of an array: it holds the bytes at the position.  The position of an array buffer is moved behind them, that of a direct
buffer is not. -/
theorem getArray_ok_partial (mem : List Byte) (b : Buf) (dst : List Byte) (offset length : Nat) (hb : Ok mem b) (hs : offset + length ≤ dst.length)
    (hi : dst.length < 2147483648) (h : b.pos + length ≤ b.lim) :
    getArray mem b dst offset length = .ok (dst.take offset ++ slot mem b b.pos length ++ dst.drop (offset + length),
      { b with pos := if b.direct then b.pos else b.pos + length }) := by
  obtain ⟨h1, h2, h3, h4, h5, h6⟩ := hb
  have hc : checkGet b b.pos length false = .ok () := by
    unfold checkGet
    rw [wrap_id _ (by omega) (by omega), if_neg (by omega)]
  have hz : length = 0 → dst.take offset ++ slot mem b b.pos length ++ dst.drop (offset + length) = dst := by
    intro e
    subst e
    simp [slot]
  unfold getArray
  by_cases hd : b.direct = true
  · rw [if_pos hd, wrap_id _ (by omega) (by omega), if_neg (by omega), hc, if_pos hd]
    simp only [Except.bind, copyMemory]
    by_cases h0 : length = 0
    · rw [if_pos (by omega), hz h0]
      rfl
    · rw [if_neg (by omega), if_pos ⟨by omega, by omega, by omega, by omega, by omega, by simp⟩]
      rfl
  · rw [if_neg hd, hc, if_neg hd]
    simp only [Except.bind, arraycopy]
    rw [wrap_id _ (by omega) (by omega), wrap_id _ (by omega) (by omega)]
    by_cases h0 : length = 0
    · rw [if_neg (by omega), if_neg (by omega), hz h0]
      rfl
    · rw [if_pos (by omega), if_pos ⟨by omega, by omega, by omega, by omega⟩]
      rfl

/-- So two parts got from a direct buffer one after the other are the same bytes. -/
theorem getArray_direct_wrong (mem : List Byte) (b : Buf) (dst : List Byte) (length : Nat) (hb : Ok mem b) (hd : b.direct = true)
    (hs : dst.length = length) (hi : dst.length < 2147483648) (h : b.pos + length ≤ b.lim) :
    ∃ b' : Buf, getArray mem b dst (0 : Nat) length = .ok (slot mem b b.pos length, b') ∧ b'.pos = b.pos := by
  have := getArray_ok_partial mem b dst 0 length hb (by omega) hi h
  rw [if_pos hd] at this
  refine ⟨_, ?_, rfl⟩
  rw [this, List.drop_of_length_le (by omega)]
  simp

example : getArray [1, 2, 3, 4] ⟨true, 0, 4, 4, 0, false⟩ [0, 0] 0 2 = .ok ([1, 2], ⟨true, 0, 4, 4, 0, false⟩) := by decide

/-- A length below zero, or an offset near the largest `int`, passes the checks of a direct buffer and copies outside of its memory or of the
array. -/
theorem putArray_direct_wrong (mem : List Byte) (b : Buf) (src : List Byte) (offset length : Int) (hb : Ok mem b) (hr : b.ro = false)
    (hd : b.direct = true) (h0 : 0 ≤ offset)
    (h : (length < 0 ∧ -2147483648 ≤ length ∧ offset ≤ src.length ∧ offset < 2147483648) ∨
      (0 < length ∧ 2147483648 ≤ offset + length ∧ offset < 2147483648 ∧ b.pos + length ≤ b.lim ∧ src.length < 2147483648)) :
    putArray mem b src offset length = .error .undef := by
  obtain ⟨h1, h2, h3, h4, h5, h6⟩ := hb
  have hw : ¬(offset < 0 ∨ wrap (offset + length) > src.length) := by unfold wrap; omega
  have hw2 : ¬(b.pos < 0 ∨ wrap (b.pos + length) > b.lim) := by unfold wrap; omega
  unfold putArray checkPut
  rw [if_pos hd, if_neg hw, hr, if_neg (by simp), if_neg hw2]
  simp only [Except.bind, copyMemory]
  rw [if_neg (by omega), if_neg (by omega)]
  rfl

example : putArray (allocateDirect 4).1 (allocateDirect 4).2 [1, 2] 2147483647 1 = .error .undef ∧
    putArray (allocateDirect 4).1 (allocateDirect 4).2 [1, 2] 0 (-1) = .error .undef := by decide

/-! ## compact -/

/-- `compact` moves what is between position and limit to the begin — of a direct buffer, if the places do not overlap. -/
theorem compact_ok_partial (mem : List Byte) (b : Buf) (hb : Ok mem b) (hr : b.ro = false)
    (h : b.direct = true → b.pos = 0 ∨ b.lim - b.pos ≤ b.pos) :
    compact mem b = .ok (written mem b 0 (rest mem b), { b with pos := b.lim - b.pos, lim := b.cap }) := by
  have hv := (views_ok mem b hb)
  have hvo := hv.1
  obtain ⟨h1, h2, h3, h4, h5, h6⟩ := hb
  have hrem : b.remaining = b.lim - b.pos := by unfold Buf.remaining; rw [wrap_id _ (by omega) (by omega)]
  have hrl : (rest mem b).length = (b.lim - b.pos).toNat := by
    simp only [rest, slot, List.length_take, List.length_drop]
    omega
  unfold compact
  by_cases hp : b.pos = 0
  · rw [if_neg (by omega), hrem]
    have : written mem b 0 (rest mem b) = mem := by
      unfold written
      rw [hrl]
      unfold rest slot
      rw [hp, ← List.drop_drop, List.append_assoc, List.take_append_drop, List.take_append_drop]
    rw [this]
  · rw [if_pos hp, hrem]
    have ho : b.slice.off = b.off + b.pos := by
      unfold Buf.slice
      simp only
      by_cases hd : b.direct = true
      · rw [if_pos hd]
      · rw [if_neg hd, wrap_id _ (by omega) (by omega)]
    have hsr : b.slice.remaining = b.lim - b.pos := by
      show wrap (b.remaining - 0) = _
      rw [hrem, wrap_id _ (by omega) (by omega)]
      omega
    have hsp : b.slice.pos = 0 := rfl
    have hsl : b.slice.lim = b.lim - b.pos := hrem
    have hc : checkPut { b with pos := 0 } 0 (b.lim - b.pos) false = .ok () := by
      unfold checkPut
      simp only
      rw [hr, if_neg (by simp), wrap_id _ (by omega) (by omega), if_neg (by omega)]
    have hres : splice mem (b.off + b.pos).toNat mem b.off.toNat (b.lim - b.pos).toNat = written mem b 0 (rest mem b) := by
      unfold splice written
      rw [hrl, Int.add_zero]
      rfl
    have hz : b.lim - b.pos = 0 → written mem b 0 (rest mem b) = mem := by
      intro e
      unfold written
      rw [hrl, e]
      unfold rest slot
      rw [e]
      simp
    unfold putSame
    simp only [hsr, ho, hsp, Int.add_zero]
    rw [hc]
    simp only [Except.bind]
    by_cases hd : b.direct = true
    · rw [if_pos hd]
      unfold copyMemory
      by_cases h0 : b.lim - b.pos = 0
      · rw [if_pos h0, hz h0]
        rfl
      · have := h hd
        rw [if_neg h0, if_pos ⟨by omega, by omega, by omega, by omega, by omega, fun _ => by omega⟩, hres]
        rfl
    · rw [if_neg hd]
      have hg : checkGet b.slice 0 (b.lim - b.pos) false = .ok () := by
        unfold checkGet
        rw [hsl, wrap_id _ (by omega) (by omega), if_neg (by omega)]
      rw [hg]
      simp only [arraycopy]
      rw [wrap_id (b.off + b.pos) (by omega) (by omega), wrap_id b.off (by omega) (by omega), wrap_id (0 + (b.lim - b.pos)) (by omega) (by omega)]
      by_cases h0 : b.lim - b.pos = 0
      · rw [if_neg (by omega), if_neg (by omega), hz h0]
        rfl
      · rw [if_pos (by omega), if_pos ⟨by omega, by omega, by omega, by omega⟩, hres]
        rfl

example : compact [1, 2, 3, 4, 5] ⟨false, 0, 5, 4, 1, false⟩ = .ok ([2, 3, 4, 4, 5], ⟨false, 0, 5, 5, 3, false⟩) := by decide

/-- A direct buffer with more bytes left than before its position copies them over themselves with `memcpy`. -/
theorem compact_direct_wrong (mem : List Byte) (b : Buf) (hb : Ok mem b) (hr : b.ro = false) (hd : b.direct = true) (h0 : 0 < b.pos)
    (h : b.pos < b.lim - b.pos) : compact mem b = .error .undef := by
  obtain ⟨h1, h2, h3, h4, h5, h6⟩ := hb
  have hrem : b.remaining = b.lim - b.pos := by unfold Buf.remaining; rw [wrap_id _ (by omega) (by omega)]
  have ho : b.slice.off = b.off + b.pos := by
    unfold Buf.slice
    simp only
    rw [if_pos hd]
  have hsr : b.slice.remaining = b.lim - b.pos := by
    show wrap (b.remaining - 0) = _
    rw [hrem, wrap_id _ (by omega) (by omega)]
    omega
  have hsp : b.slice.pos = 0 := rfl
  have hc : checkPut { b with pos := 0 } 0 (b.lim - b.pos) false = .ok () := by
    unfold checkPut
    simp only
    rw [hr, if_neg (by simp), wrap_id _ (by omega) (by omega), if_neg (by omega)]
  unfold compact
  rw [if_pos (by omega)]
  unfold putSame
  simp only [hsr, ho, hsp, Int.add_zero]
  rw [hc]
  simp only [Except.bind]
  rw [if_pos hd]
  unfold copyMemory
  rw [if_neg (by omega), if_neg (by intro hx; have := hx.2.2.2.2.2 rfl; omega)]
  rfl

example : compact [1, 2, 3, 4, 5] ⟨true, 0, 5, 4, 1, false⟩ = .error .undef := by decide

/-! ## Comparing -/

/-- The bytes as Java's numbers. -/
def signed (l : List Byte) : List Int := l.map BitVec.toInt

theorem slot_cons (mem : List Byte) (b : Buf) (p : Int) (n : Nat) (h0 : 0 ≤ b.off) (hp : 0 ≤ p) (h : b.off + p + 1 ≤ mem.length) :
    slot mem b p (n + 1) = mem.getD (b.off + p).toNat 0 :: slot mem b (p + 1) n := by
  have hlt : (b.off + p).toNat < mem.length := by omega
  unfold slot
  rw [List.drop_eq_getElem_cons hlt, List.take_succ_cons, show (b.off + (p + 1)).toNat = (b.off + p).toNat + 1 by omega]
  simp only [List.getD_eq_getElem?_getD, List.getElem?_eq_getElem hlt, Option.getD_some]

theorem getAt_byte (mem : List Byte) (b : Buf) (p : Int) (hb : Ok mem b) (hp : 0 ≤ p) (h : p + 1 ≤ b.lim) :
    getAt mem b p .byte = .ok (.byte (mem.getD (b.off + p).toNat 0)) := by
  obtain ⟨h1, h2, h3, h4, h5, h6⟩ := hb
  unfold getAt checkGet
  rw [wrap_id _ (by omega) (by omega), if_neg (by simp only [Kind.size']; omega)]
  simp only [Except.bind]
  rw [loadAll_ok _ _ _ _ h4 hp (by simp only [Kind.size']; omega) h6]
  simp only [Except.map, Kind.size', slot_cons mem b p 0 h4 hp (by omega)]
  simp [slot, Kind.value]

theorem compareLoop_ok (m1 m2 : List Byte) (a o : Buf) (ha : Ok m1 a) (ho : Ok m2 o) (n : Nat) (i : Int) (n1 n2 : Nat) (hi : 0 ≤ i)
    (h1 : a.pos + i + n1 = a.lim) (h2 : o.pos + i + n2 = o.lim) (hn : n = min n1 n2) :
    ∃ r : Int, compareLoop m1 a m2 o i n = .ok r ∧ (r = 0 ↔ slot m1 a (a.pos + i) n1 = slot m2 o (o.pos + i) n2) ∧
      (r < 0 ↔ signed (slot m1 a (a.pos + i) n1) < signed (slot m2 o (o.pos + i) n2)) := by
  have pa := ha.pos
  have po := ho.pos
  have ca := ha.cap
  have co := ho.cap
  have fa := ha.fits
  have fo := ho.fits
  have oa := ha.off
  have oo := ho.off
  have sa := ha.small
  have so := ho.small
  induction n generalizing i n1 n2 with
  | zero =>
    have hra : a.remaining = a.lim - a.pos := by unfold Buf.remaining; rw [wrap_id _ (by omega) (by omega)]
    have hro : o.remaining = o.lim - o.pos := by unfold Buf.remaining; rw [wrap_id _ (by omega) (by omega)]
    have l1 : (slot m1 a (a.pos + i) n1).length = n1 := by simp only [slot, List.length_take, List.length_drop]; omega
    have l2 : (slot m2 o (o.pos + i) n2).length = n2 := by simp only [slot, List.length_take, List.length_drop]; omega
    refine ⟨_, rfl, ?_, ?_⟩
    · rw [hra, hro, wrap_id _ (by omega) (by omega)]
      constructor
      · intro h
        rw [List.length_eq_zero_iff.mp (l1.trans (by omega)), List.length_eq_zero_iff.mp (l2.trans (by omega))]
      · intro h
        rw [h] at l1
        omega
    · rw [hra, hro, wrap_id _ (by omega) (by omega)]
      by_cases hz : n1 = 0
      · rw [List.length_eq_zero_iff.mp (l1.trans hz)]
        cases hs : slot m2 o (o.pos + i) n2 with
        | nil =>
          rw [hs] at l2
          simp only [List.length_nil] at l2
          simp only [signed, List.map_nil, List.lt_irrefl, iff_false]
          omega
        | cons x xs =>
          rw [hs] at l2
          simp only [List.length_cons] at l2
          simp only [signed, List.map_nil, List.map_cons, List.nil_lt_cons, iff_true]
          omega
      · have hz2 : n2 = 0 := by omega
        rw [List.length_eq_zero_iff.mp (l2.trans hz2)]
        simp only [signed, List.map_nil, List.not_lt_nil, iff_false]
        omega
  | succ n ih =>
    obtain ⟨k1, rfl⟩ : ∃ k, n1 = k + 1 := ⟨n1 - 1, by omega⟩
    obtain ⟨k2, rfl⟩ : ∃ k, n2 = k + 1 := ⟨n2 - 1, by omega⟩
    obtain ⟨r, hr, hr0, hrl⟩ := ih (i + 1) k1 k2 (by omega) (by omega) (by omega) (by omega)
    unfold compareLoop
    rw [wrap_id _ (by omega) (by omega), wrap_id _ (by omega) (by omega), getAt_byte m1 a _ ha (by omega) (by omega),
      getAt_byte m2 o _ ho (by omega) (by omega), slot_cons m1 a _ k1 oa (by omega) (by omega), slot_cons m2 o _ k2 oo (by omega) (by omega)]
    simp only [Except.bind, signed, List.map_cons, List.cons_lt_cons_iff, List.cons.injEq]
    rw [show a.pos + i + 1 = a.pos + (i + 1) by omega, show o.pos + i + 1 = o.pos + (i + 1) by omega]
    generalize m1.getD (a.off + (a.pos + i)).toNat 0 = x
    generalize m2.getD (o.off + (o.pos + i)).toNat 0 = y
    by_cases hxy : x = y
    · subst hxy
      rw [if_neg (by omega)]
      refine ⟨r, hr, ?_, ?_⟩
      · rw [hr0]; simp
      · rw [hrl]; simp [signed]
    · have : x.toInt ≠ y.toInt := fun h => hxy (BitVec.toInt_inj.mp h)
      rw [if_pos (by omega)]
      refine ⟨_, rfl, ?_, ?_⟩
      · constructor
        · intro h; omega
        · intro h; exact absurd h.1 hxy
      · constructor
        · intro h; left; omega
        · intro h
          rcases h with h | h
          · omega
          · exact absurd h.1 this

/-- `compareTo` compares what is between position and limit in the order of words, byte for byte as signed numbers. -/
theorem compareTo_ok (m1 m2 : List Byte) (a o : Buf) (ha : Ok m1 a) (ho : Ok m2 o) :
    ∃ r : Int, compareTo m1 a m2 o = .ok r ∧ (r = 0 ↔ rest m1 a = rest m2 o) ∧ (r < 0 ↔ signed (rest m1 a) < signed (rest m2 o)) := by
  have la := ha.lim
  have lo := ho.lim
  have hra : a.remaining = a.lim - a.pos := by
    have := ha.pos; have := ha.cap; have := ha.fits; have := ha.off; have := ha.small
    unfold Buf.remaining; rw [wrap_id _ (by omega) (by omega)]
  have hro : o.remaining = o.lim - o.pos := by
    have := ho.pos; have := ho.cap; have := ho.fits; have := ho.off; have := ho.small
    unfold Buf.remaining; rw [wrap_id _ (by omega) (by omega)]
  have := compareLoop_ok m1 m2 a o ha ho (if a.remaining < o.remaining then a.remaining else o.remaining).toNat 0 (a.lim - a.pos).toNat
    (o.lim - o.pos).toNat (Int.le_refl _) (by omega) (by omega) (by rw [hra, hro]; split <;> omega)
  simpa only [rest, Int.add_zero, compareTo] using this

/-- `equals` is true for the same bytes between position and limit, wherever they are. -/
theorem equals_ok (m1 m2 : List Byte) (a o : Buf) (ha : Ok m1 a) (ho : Ok m2 o) :
    ∃ r : Bool, equals m1 a m2 o = .ok r ∧ (r = true ↔ rest m1 a = rest m2 o) := by
  obtain ⟨r, hr, h0, _⟩ := compareTo_ok m1 m2 a o ha ho
  refine ⟨r == 0, by rw [equals, hr]; rfl, ?_⟩
  rw [← h0]
  simp

example : compareTo [9, 1, 2] (wrapArray 1 2) [1, 0x80] (wrapArray 0 2) = .ok 130 := by decide

end Avian.ByteBuf
