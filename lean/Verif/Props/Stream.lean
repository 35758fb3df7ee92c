import Verif.Util.Stream

/-
Property C03: class file reading is big-endian, in order and confined to the buffer.
-/
namespace Avian.Stream

/-! ### Specification: a list of bytes still to be read -/

/-- Big-endian value of a byte list. -/
def beValue : List (BitVec 8) → Nat
  | [] => 0
  | b :: bs => b.toNat * 256 ^ bs.length + beValue bs

/-- Abstract reader: the remaining bytes and the number of reported errors. -/
structure Spec where
  rest : List (BitVec 8)
  errors : Nat

/-- Integer of `k` bytes: missing bytes count as zero and are each reported. -/
def Spec.int (s : Spec) (k : Nat) : Nat × Spec :=
  (beValue (s.rest.take k ++ List.replicate (k - s.rest.length) 0#8),
   { rest := s.rest.drop k, errors := s.errors + (k - s.rest.length) })

def Spec.step (s : Spec) : Req → Reply × Spec
  | .skip n =>
    if n.toNat ≤ s.rest.length then (.none, { s with rest := s.rest.drop n.toNat })
    else (.none, { s with errors := s.errors + 1 })
  | .read n =>
    if n.toNat ≤ s.rest.length then
      (.bytes (s.rest.take n.toNat), { s with rest := s.rest.drop n.toNat })
    else (.bytes (List.replicate n.toNat 0#8), { s with errors := s.errors + 1 })
  | .read1 => let (v, s) := s.int 1; (.value v, s)
  | .read2 => let (v, s) := s.int 2; (.value v, s)
  | .read4 => let (v, s) := s.int 4; (.value v, s)
  | .read8 => let (v, s) := s.int 8; (.value v, s)

def Spec.run (s : Spec) : List Req → List Reply × Spec
  | [] => ([], s)
  | r :: rs =>
    let (reply, s) := s.step r
    let (replies, s) := s.run rs
    (reply :: replies, s)

/-! ### Refinement -/

/-- The concrete state represents an abstract one. -/
structure Rel (d : List (BitVec 8)) (s : Stream) (a : Spec) : Prop where
  data : s.data = d
  small : s.data.length < 2 ^ 32
  size : s.size.toNat = s.data.length
  pos : s.position.toNat ≤ s.data.length
  rest : a.rest = s.data.drop s.position.toNat
  errors : a.errors = s.errors

private theorem Rel.space {d s a} (h : Rel d s a) :
    (s.size - s.position).toNat = a.rest.length := by
  rw [h.rest, List.length_drop, BitVec.toNat_sub, h.size]
  have := h.small; have := h.pos; omega

private theorem gt_space {d s a} (h : Rel d s a) (n : BitVec 32) :
    (n > s.size - s.position) ↔ a.rest.length < n.toNat := by
  rw [gt_iff_lt, BitVec.lt_def, h.space]

private theorem advance {d s a} (h : Rel d s a) (n : BitVec 32) (hn : n.toNat ≤ a.rest.length) :
    Rel d { s with position := s.position + n } { a with rest := a.rest.drop n.toNat } := by
  have hl : a.rest.length = s.data.length - s.position.toNat := by rw [h.rest, List.length_drop]
  have hp : (s.position + n).toNat = s.position.toNat + n.toNat := by
    rw [BitVec.toNat_add]
    apply Nat.mod_eq_of_lt
    have := h.small; have := h.pos; omega
  constructor
  · exact h.data
  · exact h.small
  · exact h.size
  · simp only [hp]; have := h.pos; omega
  · simp only [hp]; rw [h.rest, List.drop_drop]
  · exact h.errors

theorem read_rel {d s a} (h : Rel d s a) (n : BitVec 32) :
    ∃ b s', s.read n = some (b, s') ∧
      (if n.toNat ≤ a.rest.length then
        b = a.rest.take n.toNat ∧ Rel d s' { a with rest := a.rest.drop n.toNat }
       else b = List.replicate n.toNat 0#8 ∧ Rel d s' { a with errors := a.errors + 1 }) := by
  unfold Stream.read
  by_cases hgt : n > s.size - s.position
  · rw [if_pos hgt]
    have := (gt_space h n).1 hgt
    refine ⟨_, _, rfl, ?_⟩
    rw [if_neg (by omega)]
    exact ⟨rfl, ⟨h.data, h.small, h.size, h.pos, h.rest, by simp [h.errors]⟩⟩
  · rw [if_neg hgt]
    have hle : n.toNat ≤ a.rest.length := by
      have := mt (gt_space h n).2 hgt; omega
    have hl : a.rest.length = s.data.length - s.position.toNat := by rw [h.rest, List.length_drop]
    have hc : s.position.toNat + n.toNat ≤ s.data.length := by have := h.pos; omega
    refine ⟨(s.data.drop s.position.toNat).take n.toNat, { s with position := s.position + n },
      by simp [Stream.copy, hc], ?_⟩
    rw [if_pos hle]
    refine ⟨by rw [h.rest], advance h n hle⟩

private theorem beValue_append (x y : List (BitVec 8)) :
    beValue (x ++ y) = beValue x * 256 ^ y.length + beValue y := by
  induction x with
  | nil => simp [beValue]
  | cons b x ih =>
    simp only [List.cons_append, beValue, ih, List.length_append, Nat.pow_add, Nat.add_mul]
    rw [Nat.mul_assoc, Nat.add_assoc]

private theorem beValue_lt (x : List (BitVec 8)) : beValue x < 256 ^ x.length := by
  induction x with
  | nil => simp [beValue]
  | cons b x ih =>
    simp only [beValue, List.length_cons, Nat.pow_succ]
    have hb := b.isLt
    have h1 : b.toNat * 256 ^ x.length ≤ 255 * 256 ^ x.length :=
      Nat.mul_le_mul_right _ (by omega)
    omega

/-- Reading `j` bytes and then `k` bytes as integers is reading `j + k` bytes. -/
private theorem int_add (a : Spec) (j k : Nat) :
    a.int (j + k) =
      ((a.int j).1 * 256 ^ k + ((a.int j).2.int k).1, ((a.int j).2.int k).2) := by
  unfold Spec.int
  simp only [List.length_drop, List.drop_drop, Prod.mk.injEq, Spec.mk.injEq]
  refine ⟨?_, trivial, by omega⟩
  rcases Nat.lt_or_ge a.rest.length j with h | h
  · have e1 : List.drop j a.rest = [] := List.drop_eq_nil_of_le (by omega)
    rw [List.take_of_length_le (by omega), List.take_of_length_le (by omega), e1]
    simp only [List.take_nil, List.nil_append]
    have e2 : List.replicate (j + k - a.rest.length) 0#8 =
        List.replicate (j - a.rest.length) 0#8 ++ List.replicate k 0#8 := by
      rw [List.replicate_append_replicate]; congr 1; omega
    have e3 : k - (a.rest.length - j) = k := by omega
    rw [e2, ← List.append_assoc, beValue_append, e3]; simp
  · have e1 : j - a.rest.length = 0 := by omega
    have e2 : k - (a.rest.length - j) = j + k - a.rest.length := by omega
    rw [e1, e2, List.take_add, List.append_assoc, beValue_append]
    simp only [List.replicate_zero, List.append_nil]
    congr 2
    simp only [List.length_append, List.length_take, List.length_replicate, List.length_drop]
    congr 1; omega

private theorem int_lt (a : Spec) (k : Nat) : (a.int k).1 < 256 ^ k := by
  unfold Spec.int
  have := beValue_lt (a.rest.take k ++ List.replicate (k - a.rest.length) 0#8)
  simp only [List.length_append, List.length_take, List.length_replicate] at this
  have e : min k a.rest.length + (k - a.rest.length) = k := by omega
  rw [e] at this
  exact this

theorem read1_rel {d s a} (h : Rel d s a) :
    ∃ v s', s.read1 = some (v, s') ∧ v.toNat = (a.int 1).1 ∧ Rel d s' (a.int 1).2 := by
  obtain ⟨b, s', hr, hif⟩ := read_rel h 1#32
  unfold Stream.read1
  rw [hr]
  simp only [BitVec.toNat_ofNat] at hif
  rw [show (1 % 2 ^ 32 : Nat) = 1 by rfl] at hif
  cases hrest : a.rest with
  | nil =>
    rw [hrest] at hif
    simp at hif
    obtain ⟨hb, hrel⟩ := hif
    subst hb
    refine ⟨0#8, s', rfl, ?_, ?_⟩
    · simp [Spec.int, hrest, beValue]
    · simpa [Spec.int, hrest] using hrel
  | cons x xs =>
    rw [hrest] at hif
    simp at hif
    obtain ⟨hb, hrel⟩ := hif
    subst hb
    refine ⟨x, s', rfl, ?_, ?_⟩
    · simp [Spec.int, hrest, beValue]
    · simpa [Spec.int, hrest] using hrel

private theorem shift_or {w v : Nat} (a b : BitVec w) (hv : v = 2 * w) :
    ((a.setWidth v <<< w) ||| b.setWidth v).toNat = a.toNat * 2 ^ w + b.toNat := by
  subst hv
  have ha := a.isLt; have hb := b.isLt
  have h2 : 2 ^ (2 * w) = 2 ^ w * 2 ^ w := by rw [← Nat.pow_add]; congr 1; omega
  have hpos := Nat.two_pow_pos w
  have hlt : a.toNat * 2 ^ w < 2 ^ w * 2 ^ w := Nat.mul_lt_mul_of_pos_right ha hpos
  have h1 : 2 ^ w ≤ 2 ^ w * 2 ^ w := Nat.le_mul_of_pos_left _ hpos
  rw [BitVec.toNat_or, BitVec.toNat_shiftLeft, BitVec.toNat_setWidth, BitVec.toNat_setWidth, h2,
    Nat.mod_eq_of_lt (Nat.lt_of_lt_of_le ha h1), Nat.mod_eq_of_lt (Nat.lt_of_lt_of_le hb h1),
    Nat.shiftLeft_eq, Nat.mod_eq_of_lt hlt]
  have := Nat.shiftLeft_add_eq_or_of_lt hb a.toNat
  rw [Nat.shiftLeft_eq] at this
  rw [← this]

theorem read2_rel {d s a} (h : Rel d s a) :
    ∃ v s', s.read2 = some (v, s') ∧ v.toNat = (a.int 2).1 ∧ Rel d s' (a.int 2).2 := by
  obtain ⟨x, s1, h1, hx, hr1⟩ := read1_rel h
  obtain ⟨y, s2, h2, hy, hr2⟩ := read1_rel hr1
  refine ⟨(x.setWidth 16 <<< (8 : Nat)) ||| y.setWidth 16, s2, by simp [Stream.read2, h1, h2],
    ?_, ?_⟩
  · rw [shift_or x y (by rfl), hx, hy, int_add a 1 1]
  · rw [int_add a 1 1]; exact hr2

theorem read4_rel {d s a} (h : Rel d s a) :
    ∃ v s', s.read4 = some (v, s') ∧ v.toNat = (a.int 4).1 ∧ Rel d s' (a.int 4).2 := by
  obtain ⟨x, s1, h1, hx, hr1⟩ := read2_rel h
  obtain ⟨y, s2, h2, hy, hr2⟩ := read2_rel hr1
  refine ⟨(x.setWidth 32 <<< (16 : Nat)) ||| y.setWidth 32, s2, by simp [Stream.read4, h1, h2],
    ?_, ?_⟩
  · rw [shift_or x y (by rfl), hx, hy, int_add a 2 2]
  · rw [int_add a 2 2]; exact hr2

theorem read8_rel {d s a} (h : Rel d s a) :
    ∃ v s', s.read8 = some (v, s') ∧ v.toNat = (a.int 8).1 ∧ Rel d s' (a.int 8).2 := by
  obtain ⟨x, s1, h1, hx, hr1⟩ := read4_rel h
  obtain ⟨y, s2, h2, hy, hr2⟩ := read4_rel hr1
  refine ⟨(x.setWidth 64 <<< (32 : Nat)) ||| y.setWidth 64, s2, by simp [Stream.read8, h1, h2],
    ?_, ?_⟩
  · rw [shift_or x y (by rfl), hx, hy, int_add a 4 4]
  · rw [int_add a 4 4]; exact hr2

theorem step_rel {d s a} (h : Rel d s a) (r : Req) :
    ∃ s', s.step r = some ((a.step r).1, s') ∧ Rel d s' (a.step r).2 := by
  cases r with
  | skip n =>
    simp only [Stream.step, Stream.skip, Spec.step]
    by_cases hgt : n > s.size - s.position
    · have := (gt_space h n).1 hgt
      rw [if_pos hgt, if_neg (by omega)]
      exact ⟨_, rfl, ⟨h.data, h.small, h.size, h.pos, h.rest, by simp [h.errors]⟩⟩
    · have hle : n.toNat ≤ a.rest.length := by
        have := mt (gt_space h n).2 hgt; omega
      rw [if_neg hgt, if_pos hle]
      exact ⟨_, rfl, advance h n hle⟩
  | read n =>
    obtain ⟨b, s', hr, hif⟩ := read_rel h n
    unfold Stream.step Spec.step
    simp only [hr, Option.map_some]
    split at hif
    · rename_i hle
      obtain ⟨hb, hrel⟩ := hif
      rw [if_pos hle]
      exact ⟨s', by rw [hb], hrel⟩
    · rename_i hle
      obtain ⟨hb, hrel⟩ := hif
      rw [if_neg hle]
      exact ⟨s', by rw [hb], hrel⟩
  | read1 =>
    obtain ⟨v, s', hr, hv, hrel⟩ := read1_rel h
    exact ⟨s', by simp [Stream.step, Spec.step, hr, hv], hrel⟩
  | read2 =>
    obtain ⟨v, s', hr, hv, hrel⟩ := read2_rel h
    exact ⟨s', by simp [Stream.step, Spec.step, hr, hv], hrel⟩
  | read4 =>
    obtain ⟨v, s', hr, hv, hrel⟩ := read4_rel h
    exact ⟨s', by simp [Stream.step, Spec.step, hr, hv], hrel⟩
  | read8 =>
    obtain ⟨v, s', hr, hv, hrel⟩ := read8_rel h
    exact ⟨s', by simp [Stream.step, Spec.step, hr, hv], hrel⟩

private theorem run_rel {d s a} (h : Rel d s a) (rs : List Req) :
    ∃ s', s.run rs = some ((a.run rs).1, s') ∧ Rel d s' (a.run rs).2 := by
  induction rs generalizing s a with
  | nil => exact ⟨s, rfl, h⟩
  | cons r rs ih =>
    obtain ⟨s1, h1, hr1⟩ := step_rel h r
    obtain ⟨s2, h2, hr2⟩ := ih hr1
    exact ⟨s2, by simp [Stream.run, Spec.run, h1, h2], hr2⟩

/-- C03: any sequence of read and skip requests on any image (shorter than 4 GiB) never reads
outside the image and delivers exactly what the abstract reader delivers: the next bytes in
order, big-endian integers, zeros and an error report when bytes are missing. -/
theorem run_refines (data : List (BitVec 8)) (hd : data.length < 2 ^ 32) (rs : List Req) :
    ∃ s', (Stream.new data).run rs = some ((Spec.run ⟨data, 0⟩ rs).1, s') ∧
      s'.errors = (Spec.run ⟨data, 0⟩ rs).2.errors ∧
      s'.position.toNat ≤ data.length ∧
      (Spec.run ⟨data, 0⟩ rs).2.rest = data.drop s'.position.toNat := by
  have h : Rel data (Stream.new data) ⟨data, 0⟩ := by
    constructor
    · rfl
    · exact hd
    · simp only [Stream.new, BitVec.toNat_ofNat]; exact Nat.mod_eq_of_lt hd
    · simp [Stream.new]
    · simp [Stream.new]
    · rfl
  obtain ⟨s', hs', hrel⟩ := run_rel h rs
  have hdata := hrel.data
  refine ⟨s', hs', hrel.errors.symm, ?_, ?_⟩
  · rw [← hdata]; exact hrel.pos
  · rw [hrel.rest, hdata]

example : ((Stream.new [0xCA#8, 0xFE#8, 0xBA#8, 0xBE#8, 0#8]).run [.read4, .read2, .skip 1#32]).map
    (fun p => (p.1, p.2.errors)) = some ([.value 0xCAFEBABE, .value 0, .none], 2) := by decide

/-- C03 (limit of the code): after `setPosition` beyond the end the length check wraps and a
read leaves the image. -/
theorem setPosition_past_end_reads_outside :
    (((Stream.new [1#8, 2#8]).setPosition 3#32).read 1#32).isNone = true := by decide

end Avian.Stream
