import Verif.Util.Finder

/-
Properties C15 (archive lookup) and C16 (class path order).
-/
namespace Avian.Finder

/-! ### The index as a list of entries -/

/-- Well-formedness of the index: the buckets hold the entries in reverse order of addition. -/
structure Inv (x : Index) : Prop where
  pow : ∃ k, x.capacity = 2 ^ k
  len : x.table.length = x.capacity
  room : x.nodes.length ≤ x.capacity
  chain : ∀ i, i < x.capacity →
    x.table.getD i [] = (x.nodes.filter (fun e => bucket e.hash x.capacity = i)).reverse

private theorem bucket_mod (h : BitVec 32) (k : Nat) : bucket h (2 ^ k) = h.toNat % 2 ^ k := by
  rw [bucket, Nat.and_two_pow_sub_one_eq_mod]

private theorem bucket_lt {x : Index} (hx : Inv x) (h : BitVec 32) :
    bucket h x.capacity < x.capacity := by
  obtain ⟨k, hk⟩ := hx.pow
  rw [hk, bucket_mod]
  exact Nat.mod_lt _ (Nat.two_pow_pos k)

private theorem make_inv (k : Nat) : Inv (make (2 ^ k)) where
  pow := ⟨k, rfl⟩
  len := by simp [make]
  room := by simp [make]
  chain := by
    intro i hi
    simp only [make, List.filter_nil, List.reverse_nil]
    rw [List.getD_eq_getElem?_getD, List.getElem?_replicate]
    split <;> rfl

private theorem push_inv {x : Index} (hx : Inv x) (e : Entry) (h : x.nodes.length < x.capacity) :
    Inv (push x e) ∧ (push x e).nodes = x.nodes ++ [e] ∧ (push x e).capacity = x.capacity := by
  refine ⟨⟨hx.pow, by simp [push, hx.len], by simp [push]; omega, ?_⟩, rfl, rfl⟩
  intro i hi
  have hb := bucket_lt hx e.hash
  have hi : i < x.capacity := hi
  show (x.table.set (bucket e.hash x.capacity) _).getD i [] =
    ((x.nodes ++ [e]).filter (fun e => bucket e.hash x.capacity = i)).reverse
  rw [List.filter_append, List.reverse_append, List.getD_eq_getElem?_getD, List.getElem?_set]
  by_cases hc : bucket e.hash x.capacity = i
  · rw [if_pos hc, if_pos (by rw [hx.len]; exact hb)]
    subst hc
    rw [hx.chain _ hi]
    simp
  · rw [if_neg hc, ← List.getD_eq_getElem?_getD, hx.chain i hi]
    simp [hc]

private theorem addAll_spec (es : List Entry) : ∀ x : Index, Inv x →
    x.nodes.length + es.length ≤ x.capacity →
    ∃ y, addAll es x = some y ∧ Inv y ∧ y.nodes = x.nodes ++ es ∧ y.capacity = x.capacity := by
  induction es with
  | nil => intro x hx _; exact ⟨x, rfl, hx, by simp, rfl⟩
  | cons e r ih =>
    intro x hx h
    simp only [List.length_cons] at h
    obtain ⟨h1, h2, h3⟩ := push_inv hx e (by omega)
    obtain ⟨y, q1, q2, q3, q4⟩ := ih (push x e) h1 (by rw [h2, h3]; simp; omega)
    refine ⟨y, ?_, q2, by rw [q3, h2]; simp, by rw [q4, h3]⟩
    rw [addAll, addInto, if_pos (by omega), Option.bind_some, q1]

private theorem add_spec {x : Index} (hx : Inv x) (e : Entry) :
    ∃ y, add x e = some y ∧ Inv y ∧ y.nodes = x.nodes ++ [e] ∧
      (y.capacity = x.capacity ∨ (y.capacity = x.capacity * 2 ∧ x.nodes.length = x.capacity)) := by
  unfold add
  by_cases h : x.nodes.length < x.capacity
  · rw [if_pos h]
    obtain ⟨h1, h2, h3⟩ := push_inv hx e h
    exact ⟨_, rfl, h1, h2, Or.inl h3⟩
  · rw [if_neg h]
    have hroom := hx.room
    have heq : x.nodes.length = x.capacity := by omega
    obtain ⟨k, hk⟩ := hx.pow
    have hpos : 0 < x.capacity := by rw [hk]; exact Nat.two_pow_pos k
    have h2k : x.capacity * 2 = 2 ^ (k + 1) := by rw [hk, Nat.pow_succ]
    obtain ⟨y, q1, q2, q3, q4⟩ := addAll_spec (x.nodes.take x.capacity) (make (x.capacity * 2))
      (by rw [h2k]; exact make_inv _) (by simp [make]; omega)
    have hn : y.nodes = x.nodes := by
      rw [q3]; simp [make, List.take_of_length_le (Nat.le_of_eq heq)]
    have hcap : y.capacity = x.capacity * 2 := q4
    obtain ⟨h1, h2, h3⟩ := push_inv q2 e (by rw [hn, hcap]; omega)
    refine ⟨push y e, ?_, h1, by rw [h2, hn], Or.inr ⟨by rw [h3, hcap], heq⟩⟩
    rw [q1, Option.bind_some, addInto, if_pos (by rw [hn, hcap]; omega)]

/-! ### Hash agreement -/

private theorem hash_ascii (l : List Byte) : ∀ h, (∀ c ∈ l, c.toNat < 0x80) →
    hashSigned h l = hashUnsigned h l := by
  induction l with
  | nil => intro h _; rfl
  | cons c r ih =>
    intro h hc
    have hm : c.msb = false := by
      have := hc c (by simp)
      rw [BitVec.msb_eq_decide]; simp; omega
    rw [hashSigned, hashUnsigned, BitVec.signExtend_eq_setWidth_of_msb_false hm]
    exact ih _ (fun c hc' => hc c (by simp [hc']))

private theorem hash_mod256 (l : List Byte) : ∀ h h' : BitVec 32, h.toNat % 256 = h'.toNat % 256 →
    (hashSigned h l).toNat % 256 = (hashUnsigned h' l).toNat % 256 := by
  induction l with
  | nil => intro h h' e; exact e
  | cons c r ih =>
    intro h h' e
    rw [hashSigned, hashUnsigned]
    apply ih
    have hs : (c.signExtend 32).toNat % 256 = c.toNat := by
      have h1 : (c.signExtend 32).setWidth 8 = c := by
        apply BitVec.eq_of_getLsbD_eq
        intro i hi
        simp [BitVec.getLsbD_setWidth, BitVec.getLsbD_signExtend, hi]
        omega
      have h2 := congrArg BitVec.toNat h1
      rw [BitVec.toNat_setWidth] at h2
      exact h2
    have hc := c.isLt
    simp only [BitVec.toNat_add, BitVec.toNat_mul, BitVec.toNat_setWidth, BitVec.toNat_ofNat]
    omega

/-! ### Lookup in an index -/

/-- The entry added last under a name. -/
def lastNamed (es : List Entry) (name : List Byte) : Option Entry :=
  es.reverse.find? (fun e => name = e.name)

/-- Every entry carries the hash of its name. -/
def Hashed (es : List Entry) : Prop := ∀ e ∈ es, e.hash = hashUnsigned 0#32 e.name

private theorem findNode_spec {x : Index} (hx : Inv x) (hh : Hashed x.nodes) (name : List Byte)
    (hb : bucket (hashSigned 0#32 name) x.capacity = bucket (hashUnsigned 0#32 name) x.capacity) :
    findNode x name = lastNamed x.nodes name := by
  rw [findNode, hx.chain _ (bucket_lt hx _), lastNamed, ← List.filter_reverse, List.find?_filter]
  have hh' : ∀ e ∈ x.nodes.reverse, e.hash = hashUnsigned 0#32 e.name := by
    intro e he; exact hh e (by simpa using he)
  generalize x.nodes.reverse = l at hh'
  induction l with
  | nil => rfl
  | cons e r ih =>
    have ih := ih (fun e he => hh' e (by simp [he]))
    have he := hh' e (by simp)
    by_cases hn : name = e.name
    · subst hn
      simp [List.find?_cons, he, hb]
    · rw [List.find?_cons, List.find?_cons]
      simp only [hn, decide_false, Bool.false_eq_true, and_false]
      exact ih

/-! ### Specification of an archive -/

/-- The two bytes of a number, low byte first. -/
def le2 (n : Nat) : List Byte := [BitVec.ofNat 8 n, BitVec.ofNat 8 (n / 256)]

/-- The four bytes of a number, low byte first. -/
def le4 (n : Nat) : List Byte := le2 n ++ le2 (n / 65536)

/-- A central directory header of the ZIP format; `a`, `b`, `c` are the fields the VM ignores. -/
structure Header where
  a : Nat → Byte
  method : Nat
  b : Nat → Byte
  compressed : Nat
  uncompressed : Nat
  c : Nat → Byte
  offset : Nat
  name : List Byte
  extra : List Byte
  comment : List Byte

/-- Field ranges of the format. -/
structure Header.Ok (h : Header) : Prop where
  method : h.method < 2 ^ 16
  compressed : h.compressed < 2 ^ 32
  uncompressed : h.uncompressed < 2 ^ 32
  offset : h.offset < 2 ^ 32
  name : h.name.length < 2 ^ 16
  extra : h.extra.length < 2 ^ 16
  comment : h.comment.length < 2 ^ 16

/-- The fixed part of a central directory header. -/
def Header.fixed (h : Header) : List Byte :=
  [0x50#8, 0x4b#8, 0x01#8, 0x02#8, h.a 0, h.a 1, h.a 2, h.a 3, h.a 4, h.a 5] ++ le2 h.method ++
  [h.b 0, h.b 1, h.b 2, h.b 3, h.b 4, h.b 5, h.b 6, h.b 7] ++ le4 h.compressed ++
  le4 h.uncompressed ++ le2 h.name.length ++ le2 h.extra.length ++ le2 h.comment.length ++
  [h.c 0, h.c 1, h.c 2, h.c 3, h.c 4, h.c 5, h.c 6, h.c 7] ++ le4 h.offset

/-- The bytes of a central directory header. -/
def Header.bytes (h : Header) : List Byte := h.fixed ++ (h.name ++ (h.extra ++ h.comment))

/-- An archive: file data, then the central directory, then the end record, whose signature is the
last one in the file at which the search looks. -/
structure Archive where
  data : List Byte
  headers : List Header
  /-- the 12 bytes between the signature and the directory offset of the end record -/
  counts : Nat → Byte
  /-- comment length field and comment -/
  tail : List Byte

/-- The end record up to the directory offset. -/
def Archive.endRecord (z : Archive) : List Byte :=
  [0x50#8, 0x4b#8, 0x05#8, 0x06#8, z.counts 0, z.counts 1, z.counts 2, z.counts 3, z.counts 4,
    z.counts 5, z.counts 6, z.counts 7, z.counts 8, z.counts 9, z.counts 10, z.counts 11] ++
  le4 z.data.length

/-- The bytes of an archive. -/
def Archive.bytes (z : Archive) : List Byte :=
  z.data ++ (z.headers.flatMap Header.bytes ++ (z.endRecord ++ z.tail))

/-- Position of the end record. -/
def Archive.endPos (z : Archive) : Nat := z.data.length + (z.headers.flatMap Header.bytes).length

structure Archive.Ok (z : Archive) : Prop where
  headers : ∀ h ∈ z.headers, h.Ok
  size : z.data.length < 2 ^ 32
  nonempty : 0 < z.endPos
  tail : 2 ≤ z.tail.length
  /-- no later position looks like an end record (the comment does not contain the signature) -/
  unique : ∀ p, z.endPos < p → p ≤ z.bytes.length - 22 → get4 z.bytes p ≠ some 0x06054b50

/-! ### Reading the central directory -/

private theorem getElem?_pre (pre x : List Byte) (k : Nat) :
    (pre ++ x)[pre.length + k]? = x[k]? := by
  rw [List.getElem?_append_right (by omega)]; congr 1; omega

private theorem get2_pre (pre x : List Byte) (k : Nat) :
    get2 (pre ++ x) (pre.length + k) = get2 x k := by
  unfold get2
  rw [getElem?_pre, Nat.add_assoc, getElem?_pre]

private theorem get4_pre (pre x : List Byte) (k : Nat) :
    get4 (pre ++ x) (pre.length + k) = get4 x k := by
  unfold get4
  rw [get2_pre, Nat.add_assoc, get2_pre]

private theorem le2_value (n : Nat) (h : n < 2 ^ 16) :
    (BitVec.ofNat 8 (n / 256)).toNat * 256 + (BitVec.ofNat 8 n).toNat = n := by
  simp only [BitVec.toNat_ofNat]; omega

private theorem le4_value (n : Nat) (h : n < 2 ^ 32) :
    ((BitVec.ofNat 8 (n / 65536 / 256)).toNat * 256 + (BitVec.ofNat 8 (n / 65536)).toNat) * 65536 +
    ((BitVec.ofNat 8 (n / 256)).toNat * 256 + (BitVec.ofNat 8 n).toNat) = n := by
  simp only [BitVec.toNat_ofNat]; omega

private theorem fixed_length (h : Header) : h.fixed.length = 46 := rfl

private theorem get2_eq {d : List Byte} {p : Nat} {a b : Byte} {n : Nat} (h1 : d[p]? = some a)
    (h2 : d[p + 1]? = some b) (hn : b.toNat * 256 + a.toNat = n) : get2 d p = some n := by
  simp only [get2, h1, h2, hn]

private theorem get4_eq {d : List Byte} {p : Nat} {a b a' b' : Byte} {n : Nat} (h1 : d[p]? = some a)
    (h2 : d[p + 1]? = some b) (h3 : d[p + 2]? = some a') (h4 : d[p + 2 + 1]? = some b')
    (hn : (b'.toNat * 256 + a'.toNat) * 65536 + (b.toNat * 256 + a.toNat) = n) :
    get4 d p = some n := by
  simp only [get4, get2, h1, h2, h3, h4, hn]

private theorem header_fields (h : Header) (ho : h.Ok) (x : List Byte) :
    get4 (h.fixed ++ x) 0 = some 0x02014b50 ∧
    get2 (h.fixed ++ x) 10 = some h.method ∧
    get4 (h.fixed ++ x) 20 = some h.compressed ∧
    get4 (h.fixed ++ x) 24 = some h.uncompressed ∧
    get2 (h.fixed ++ x) 28 = some h.name.length ∧
    get2 (h.fixed ++ x) 30 = some h.extra.length ∧
    get2 (h.fixed ++ x) 32 = some h.comment.length ∧
    get4 (h.fixed ++ x) 42 = some h.offset := by
  have e : h.fixed ++ x = 0x50#8 :: 0x4b#8 :: 0x01#8 :: 0x02#8 :: h.a 0 :: h.a 1 :: h.a 2 :: h.a 3 ::
      h.a 4 :: h.a 5 :: BitVec.ofNat 8 h.method :: BitVec.ofNat 8 (h.method / 256) ::
      h.b 0 :: h.b 1 :: h.b 2 :: h.b 3 :: h.b 4 :: h.b 5 :: h.b 6 :: h.b 7 ::
      BitVec.ofNat 8 h.compressed :: BitVec.ofNat 8 (h.compressed / 256) ::
      BitVec.ofNat 8 (h.compressed / 65536) :: BitVec.ofNat 8 (h.compressed / 65536 / 256) ::
      BitVec.ofNat 8 h.uncompressed :: BitVec.ofNat 8 (h.uncompressed / 256) ::
      BitVec.ofNat 8 (h.uncompressed / 65536) :: BitVec.ofNat 8 (h.uncompressed / 65536 / 256) ::
      BitVec.ofNat 8 h.name.length :: BitVec.ofNat 8 (h.name.length / 256) ::
      BitVec.ofNat 8 h.extra.length :: BitVec.ofNat 8 (h.extra.length / 256) ::
      BitVec.ofNat 8 h.comment.length :: BitVec.ofNat 8 (h.comment.length / 256) ::
      h.c 0 :: h.c 1 :: h.c 2 :: h.c 3 :: h.c 4 :: h.c 5 :: h.c 6 :: h.c 7 ::
      BitVec.ofNat 8 h.offset :: BitVec.ofNat 8 (h.offset / 256) ::
      BitVec.ofNat 8 (h.offset / 65536) :: BitVec.ofNat 8 (h.offset / 65536 / 256) :: x := by
    simp only [Header.fixed, le4, le2, List.cons_append, List.nil_append, List.append_assoc]
  rw [e]
  refine ⟨get4_eq (a := 0x50#8) (b := 0x4b#8) (a' := 0x01#8) (b' := 0x02#8)
    (by simp only [List.getElem?_cons_zero])
    (by simp only [List.getElem?_cons_zero, List.getElem?_cons_succ])
    (by simp only [List.getElem?_cons_zero, List.getElem?_cons_succ])
    (by simp only [List.getElem?_cons_zero, List.getElem?_cons_succ]) (by decide),
    get2_eq (by simp only [List.getElem?_cons_zero, List.getElem?_cons_succ])
      (by simp only [List.getElem?_cons_zero, List.getElem?_cons_succ]) (le2_value _ ho.method),
    get4_eq (by simp only [List.getElem?_cons_zero, List.getElem?_cons_succ])
      (by simp only [List.getElem?_cons_zero, List.getElem?_cons_succ])
      (by simp only [List.getElem?_cons_zero, List.getElem?_cons_succ])
      (by simp only [List.getElem?_cons_zero, List.getElem?_cons_succ]) (le4_value _ ho.compressed),
    get4_eq (by simp only [List.getElem?_cons_zero, List.getElem?_cons_succ])
      (by simp only [List.getElem?_cons_zero, List.getElem?_cons_succ])
      (by simp only [List.getElem?_cons_zero, List.getElem?_cons_succ])
      (by simp only [List.getElem?_cons_zero, List.getElem?_cons_succ]) (le4_value _ ho.uncompressed),
    get2_eq (by simp only [List.getElem?_cons_zero, List.getElem?_cons_succ])
      (by simp only [List.getElem?_cons_zero, List.getElem?_cons_succ]) (le2_value _ ho.name),
    get2_eq (by simp only [List.getElem?_cons_zero, List.getElem?_cons_succ])
      (by simp only [List.getElem?_cons_zero, List.getElem?_cons_succ]) (le2_value _ ho.extra),
    get2_eq (by simp only [List.getElem?_cons_zero, List.getElem?_cons_succ])
      (by simp only [List.getElem?_cons_zero, List.getElem?_cons_succ]) (le2_value _ ho.comment),
    get4_eq (by simp only [List.getElem?_cons_zero, List.getElem?_cons_succ])
      (by simp only [List.getElem?_cons_zero, List.getElem?_cons_succ])
      (by simp only [List.getElem?_cons_zero, List.getElem?_cons_succ])
      (by simp only [List.getElem?_cons_zero, List.getElem?_cons_succ]) (le4_value _ ho.offset)⟩

/-- The index entries an archive should have. -/
def entriesFrom : Nat → List Header → List Entry
  | _, [] => []
  | p, h :: r => ⟨hashUnsigned 0#32 h.name, p, h.name⟩ :: entriesFrom (p + h.bytes.length) r

private theorem readEntries_spec (post : List Byte) (d : List Byte)
    (hpost : ∃ s, get4 post 0 = some s ∧ s ≠ 0x02014b50) (hne : 0 < post.length) :
    ∀ (hs : List Header) (pre : List Byte) (x : Index) (fuel : Nat),
    (∀ h ∈ hs, h.Ok) → d = pre ++ (hs.flatMap Header.bytes ++ post) → Inv x →
    d.length < fuel + pre.length →
    ∃ y, readEntries d fuel pre.length x = some y ∧ Inv y ∧
      y.nodes = x.nodes ++ entriesFrom pre.length hs ∧
      (y.capacity = x.capacity ∨ y.capacity ≤ 2 * (y.nodes.length - 1)) := by
  intro hs
  induction hs with
  | nil =>
    intro pre x fuel _ hd hx hf
    cases fuel with
    | zero => rw [hd] at hf; simp at hf; omega
    | succ fuel =>
      obtain ⟨s, hs1, hs2⟩ := hpost
      refine ⟨x, ?_, hx, by simp [entriesFrom], Or.inl rfl⟩
      rw [readEntries, if_pos (by rw [hd]; simp; omega)]
      have : get4 d pre.length = some s := by
        rw [hd, List.flatMap_nil, List.nil_append]
        exact (get4_pre pre post 0).trans hs1
      rw [this, Option.bind_some, if_neg hs2]
  | cons h r ih =>
    intro pre x fuel hok hd hx hf
    have hd' : d = pre ++ (h.fixed ++ (h.name ++ (h.extra ++ (h.comment ++
        (r.flatMap Header.bytes ++ post))))) := by
      rw [hd]; simp [Header.bytes]
    cases fuel with
    | zero => rw [hd'] at hf; simp only [List.length_append] at hf; omega
    | succ fuel =>
      obtain ⟨f0, _, _, _, f28, f30, f32, _⟩ := header_fields h (hok h (by simp))
        (h.name ++ (h.extra ++ (h.comment ++ (r.flatMap Header.bytes ++ post))))
      have g0 : get4 d pre.length = some 0x02014b50 := by
        rw [hd']; exact (get4_pre pre _ 0).trans f0
      have g28 : get2 d (pre.length + 28) = some h.name.length := by
        rw [hd', get2_pre]; exact f28
      have g30 : get2 d (pre.length + 30) = some h.extra.length := by
        rw [hd', get2_pre]; exact f30
      have g32 : get2 d (pre.length + 32) = some h.comment.length := by
        rw [hd', get2_pre]; exact f32
      have hlen : d.length = pre.length + (46 + (h.name.length + (h.extra.length +
          (h.comment.length + ((r.flatMap Header.bytes).length + post.length))))) := by
        rw [hd']; simp only [List.length_append, fixed_length]
      have gname : getName d pre.length h.name.length = some h.name := by
        rw [getName, if_pos (by omega), hd', ← List.append_assoc,
          List.drop_append_of_le_length (by simp [fixed_length])]
        have : (pre ++ h.fixed).drop (pre.length + 46) = [] := by
          apply List.drop_eq_nil_of_le; simp [fixed_length]
        rw [this, List.nil_append, List.take_left]
      obtain ⟨y, q1, q2, q3, q4⟩ := add_spec hx ⟨hashUnsigned 0#32 h.name, pre.length, h.name⟩
      have hb : (pre ++ h.bytes).length = pre.length + 46 + h.name.length + h.extra.length +
          h.comment.length := by
        simp [Header.bytes, fixed_length]; omega
      obtain ⟨z, r1, r2, r3, r4⟩ := ih (pre ++ h.bytes) y fuel (fun h hh => hok h (by simp [hh]))
        (by rw [hd]; simp) q2 (by rw [hb]; omega)
      refine ⟨z, ?_, r2, ?_, ?_⟩
      · rw [readEntries, if_pos (by omega), g0, Option.bind_some, if_pos rfl, g28, Option.bind_some,
          gname, Option.bind_some, q1, Option.bind_some, g30, Option.bind_some, g32,
          Option.bind_some, ← hb, r1]
      · rw [r3, q3, entriesFrom]
        simp [Nat.add_assoc]
      · have hmono : y.nodes.length ≤ z.nodes.length := by rw [r3]; simp
        have hyl : y.nodes.length = x.nodes.length + 1 := by rw [q3]; simp
        rcases r4 with r4 | r4
        · rcases q4 with q4 | ⟨q4, q5⟩
          · exact Or.inl (by rw [r4, q4])
          · exact Or.inr (by rw [r4, q4]; omega)
        · exact Or.inr r4

/-! ### Opening -/

/-- The entries of an archive in directory order. -/
def Archive.entries (z : Archive) : List Entry := entriesFrom z.data.length z.headers

private theorem endRecord_fields (z : Archive) (h : z.data.length < 2 ^ 32) :
    get4 (z.endRecord ++ z.tail) 0 = some 0x06054b50 ∧
    get4 (z.endRecord ++ z.tail) 16 = some z.data.length :=
  ⟨rfl, get4_eq rfl rfl rfl rfl (le4_value _ h)⟩

private theorem open_spec (z : Archive) (hz : z.Ok) :
    ∃ x, openJar z.bytes = some x ∧ Inv x ∧ x.nodes = z.entries ∧
      (x.capacity = 32 ∨ x.capacity ≤ 2 * (z.headers.length - 1)) := by
  obtain ⟨e0, e16⟩ := endRecord_fields z hz.size
  have hlen : z.bytes.length = z.endPos + (20 + z.tail.length) := by
    have : z.endRecord.length = 20 := rfl
    simp only [Archive.bytes, Archive.endPos, List.length_append, this]
    omega
  have hsplit : z.bytes = (z.data ++ z.headers.flatMap Header.bytes) ++ (z.endRecord ++ z.tail) := by
    simp [Archive.bytes]
  have hpl : (z.data ++ z.headers.flatMap Header.bytes).length = z.endPos := by
    simp only [List.length_append, Archive.endPos]
  have g0 : get4 z.bytes z.endPos = some 0x06054b50 := by
    rw [hsplit, ← hpl]; exact (get4_pre _ _ 0).trans e0
  have g16 : get4 z.bytes (z.endPos + 16) = some z.data.length := by
    rw [hsplit, ← hpl, get4_pre]; exact e16
  obtain ⟨y, q1, q2, q3, q4⟩ := readEntries_spec (z.endRecord ++ z.tail) z.bytes
    ⟨_, e0, by decide⟩ (by have : z.endRecord.length = 20 := rfl; simp only [List.length_append]; omega)
    z.headers z.data (make 32) (z.bytes.length + 1) hz.headers rfl (make_inv 5) (by omega)
  have hy : y.nodes = z.entries := by rw [q3]; simp [make, Archive.entries]
  refine ⟨y, ?_, q2, hy, ?_⟩
  · -- the search passes over the positions behind the end record
    have htail := hz.tail
    have key : ∀ n, z.endPos + n ≤ z.bytes.length - 22 →
        search z.bytes (z.endPos + n) (make 32) = some y := by
      intro n
      induction n with
      | zero =>
        intro _
        have hpos := hz.nonempty
        cases hp : z.endPos with
        | zero => omega
        | succ p =>
          rw [hp] at g0 g16
          rw [Nat.add_zero, search, g0, Option.bind_some, if_pos rfl, g16, Option.bind_some, q1]
      | succ n ih =>
        intro hn
        have hu := hz.unique (z.endPos + (n + 1)) (by omega) hn
        have hget : ∃ v, get4 z.bytes (z.endPos + n + 1) = some v := by
          have hd : ∀ k, k < z.bytes.length → ∃ b, z.bytes[k]? = some b := by
            intro k hk; exact ⟨_, List.getElem?_eq_getElem hk⟩
          obtain ⟨b0, h0⟩ := hd (z.endPos + n + 1) (by omega)
          obtain ⟨b1, h1⟩ := hd (z.endPos + n + 1 + 1) (by omega)
          obtain ⟨b2, h2⟩ := hd (z.endPos + n + 1 + 2) (by omega)
          obtain ⟨b3, h3⟩ := hd (z.endPos + n + 1 + 2 + 1) (by omega)
          exact ⟨_, get4_eq h0 h1 h2 h3 rfl⟩
        obtain ⟨v, hv⟩ := hget
        have hvn : v ≠ 0x06054b50 := by
          intro h; subst h; exact hu hv
        show search z.bytes (z.endPos + n + 1) (make 32) = some y
        rw [search, hv, Option.bind_some, if_neg hvn]
        exact ih (by omega)
    have := key (z.bytes.length - 22 - z.endPos) (by omega)
    have he : z.endPos + (z.bytes.length - 22 - z.endPos) = z.bytes.length - 22 := by omega
    rw [he] at this
    exact this
  · have hl : z.entries.length = z.headers.length := by
      have : ∀ (hs : List Header) p, (entriesFrom p hs).length = hs.length := by
        intro hs
        induction hs with
        | nil => intro p; rfl
        | cons h r ih => intro p; simp [entriesFrom, ih]
      exact this _ _
    rw [hy, hl] at q4
    exact q4

private theorem entries_hashed : ∀ (hs : List Header) p, Hashed (entriesFrom p hs) := by
  intro hs
  induction hs with
  | nil => intro p e he; simp [entriesFrom] at he
  | cons h r ih =>
    intro p e he
    simp only [entriesFrom, List.mem_cons] at he
    rcases he with rfl | he
    · rfl
    · exact ih _ e he

/-! ### C15 -/

/-- The header listed last under a name, with its position. -/
def lastHeader (z : Archive) (name : List Byte) : Option Entry := lastNamed z.entries name

/-- C15, `lookup_exact_partial`: opening a well-formed archive and looking up any name gives exactly
the entry listed last under that name, or nothing if the name is not listed, provided that the name
is ASCII or the archive has at most 256 entries.  Missing: non-ASCII names in larger archives, where
it is false (`non_ascii_name_lost`). -/
theorem lookup_exact_partial (z : Archive) (hz : z.Ok) (name : List Byte)
    (h : (∀ c ∈ name, c.toNat < 0x80) ∨ z.headers.length ≤ 256) :
    ∃ x, openJar z.bytes = some x ∧ findNode x name = lastHeader z name := by
  obtain ⟨x, h1, h2, h3, h4⟩ := open_spec z hz
  refine ⟨x, h1, ?_⟩
  rw [lastHeader, ← h3]
  refine findNode_spec h2 (by rw [h3]; exact entries_hashed _ _) name ?_
  rcases h with h | h
  · rw [hash_ascii name _ h]
  · obtain ⟨k, hk⟩ := h2.pow
    rw [hk, bucket_mod, bucket_mod]
    have hm := hash_mod256 name 0#32 0#32 rfl
    have hdvd : 2 ^ k ∣ 256 := by
      have : 2 ^ k < 2 ^ 9 := by omega
      have hk8 : k ≤ 8 := Nat.lt_succ_iff.mp ((Nat.pow_lt_pow_iff_right (by omega)).mp this)
      exact ⟨2 ^ (8 - k), by rw [← Nat.pow_add]; have : k + (8 - k) = 8 := by omega
                             rw [this]⟩
    rw [← Nat.mod_mod_of_dvd _ hdvd, hm, Nat.mod_mod_of_dvd _ hdvd]

private theorem mem_entriesFrom : ∀ (hs : List Header) p name,
    (∃ e ∈ entriesFrom p hs, e.name = name) ↔ ∃ h ∈ hs, h.name = name := by
  intro hs
  induction hs with
  | nil => intro p name; simp [entriesFrom]
  | cons h r ih =>
    intro p name
    simp only [entriesFrom, List.mem_cons, exists_eq_or_imp, ih]

/-- C15, the same with the words of the property: found iff listed. -/
theorem lookup_iff_listed_partial (z : Archive) (hz : z.Ok) (name : List Byte)
    (h : (∀ c ∈ name, c.toNat < 0x80) ∨ z.headers.length ≤ 256) :
    ∃ x, openJar z.bytes = some x ∧
      ((findNode x name).isSome ↔ ∃ hd ∈ z.headers, hd.name = name) := by
  obtain ⟨x, h1, h2⟩ := lookup_exact_partial z hz name h
  refine ⟨x, h1, ?_⟩
  rw [h2, lastHeader, lastNamed, List.find?_isSome, ← mem_entriesFrom _ z.data.length]
  constructor
  · rintro ⟨e, he, hn⟩
    exact ⟨e, by simpa [Archive.entries] using he, by simpa using (by simpa using hn : name = e.name).symm⟩
  · rintro ⟨e, he, hn⟩
    exact ⟨e, by simpa [Archive.entries] using he, by simp [hn]⟩

/-- The position of a header in the archive holds that header. -/
private theorem entry_header : ∀ (hs : List Header) (pre post : List Byte) (e : Entry),
    (∀ h ∈ hs, h.Ok) → e ∈ entriesFrom pre.length hs →
    ∃ h ∈ hs, e.name = h.name ∧ ∃ pre' post',
      pre ++ (hs.flatMap Header.bytes ++ post) = pre' ++ (h.fixed ++ post') ∧ pre'.length = e.pos := by
  intro hs
  induction hs with
  | nil => intro pre post e _ he; simp [entriesFrom] at he
  | cons h r ih =>
    intro pre post e hok he
    simp only [entriesFrom, List.mem_cons] at he
    rcases he with rfl | he
    · exact ⟨h, by simp, rfl, pre, h.name ++ (h.extra ++ (h.comment ++ (r.flatMap Header.bytes ++ post))),
        by rw [List.flatMap_cons, Header.bytes]; simp only [List.append_assoc], rfl⟩
    · have he' : e ∈ entriesFrom (pre ++ h.bytes).length r := by simpa using he
      obtain ⟨h', m, n, pre', post', p1, p2⟩ := ih (pre ++ h.bytes) post e
        (fun h hh => hok h (by simp [hh])) he'
      refine ⟨h', by simp [m], n, pre', post', ?_, p2⟩
      rw [← p1]; simp

/-- C15: the content described for a found entry is that of its header: place from the local
header, sizes and method from the central directory.  A stored entry gives exactly `compressed`
bytes starting after the local header. -/
theorem find_content_partial (z : Archive) (hz : z.Ok) (name : List Byte)
    (h : (∀ c ∈ name, c.toNat < 0x80) ∨ z.headers.length ≤ 256)
    (hl : ∃ hd ∈ z.headers, hd.name = name) :
    ∃ x hd, openJar z.bytes = some x ∧ hd ∈ z.headers ∧ hd.name = name ∧
      (∀ start, fileData z.bytes hd.offset = some start →
        (hd.method = 0 → find z.bytes x name = .content (.stored start hd.compressed)) ∧
        (hd.method = 8 → find z.bytes x name =
          .content (.deflated start hd.compressed hd.uncompressed))) := by
  obtain ⟨x, h1, h2⟩ := lookup_exact_partial z hz name h
  have hs : (findNode x name).isSome := by
    obtain ⟨x', h1', h2'⟩ := lookup_iff_listed_partial z hz name h
    rw [h1] at h1'; cases h1'
    exact h2'.mpr hl
  obtain ⟨e, he⟩ := Option.isSome_iff_exists.mp hs
  have hmem : e ∈ z.entries := by
    rw [he] at h2
    have := List.mem_of_find?_eq_some h2.symm
    simpa using this
  have hname : e.name = name := by
    rw [he] at h2
    have := List.find?_some h2.symm
    simpa using (by simpa using this : name = e.name).symm
  obtain ⟨hd, m, n, pre, post, p1, p2⟩ := entry_header z.headers z.data (z.endRecord ++ z.tail) e
    hz.headers hmem
  have p1 : z.bytes = pre ++ (hd.fixed ++ post) := p1
  obtain ⟨_, f10, f20, f24, _, _, _, f42⟩ := header_fields hd (hz.headers hd m) post
  refine ⟨x, hd, h1, m, by rw [← n, hname], ?_⟩
  intro start hst
  have g10 : get2 z.bytes (e.pos + 10) = some hd.method := by rw [p1, ← p2, get2_pre]; exact f10
  have g20 : get4 z.bytes (e.pos + 20) = some hd.compressed := by
    rw [p1, ← p2, get4_pre]; exact f20
  have g24 : get4 z.bytes (e.pos + 24) = some hd.uncompressed := by
    rw [p1, ← p2, get4_pre]; exact f24
  have g42 : get4 z.bytes (e.pos + 42) = some hd.offset := by rw [p1, ← p2, get4_pre]; exact f42
  constructor
  · intro hm
    simp only [find, he, g10, g20, g24, g42, Option.bind_some, hst, hm, if_true]
  · intro hm
    simp only [find, he, g10, g20, g24, g42, Option.bind_some, hst, hm, if_true]
    rfl

/-- C15: the directory fallback of `stat` answers "directory" iff the name with a slash is listed and
the name itself is not. -/
theorem stat_directory_partial (z : Archive) (hz : z.Ok) (name : List Byte)
    (h : (∀ c ∈ name, c.toNat < 0x80) ∨ z.headers.length ≤ 256) :
    ∃ x, openJar z.bytes = some x ∧
      (stat z.bytes x name true = some .directory ↔
        (¬ ∃ hd ∈ z.headers, hd.name = name) ∧ ∃ hd ∈ z.headers, hd.name = name ++ [0x2f#8]) := by
  obtain ⟨x, h1, h2⟩ := lookup_iff_listed_partial z hz name h
  obtain ⟨x', h1', h2'⟩ := lookup_iff_listed_partial z hz (name ++ [0x2f#8]) (by
    rcases h with h | h
    · left; intro c hc; rcases List.mem_append.mp hc with hc | hc
      · exact h c hc
      · simp at hc; subst hc; decide
    · exact Or.inr h)
  rw [h1] at h1'; cases h1'
  refine ⟨x, h1, ?_⟩
  rw [← h2, ← h2']
  unfold stat
  cases hf : findNode x name with
  | some e =>
    cases get4 z.bytes (e.pos + 24) <;> simp
  | none =>
    cases hf' : findNode x (name ++ [0x2f#8]) <;> simp

/-! A concrete archive: two entries with the same name and a third one. -/

/-- A header with all ignored fields zero. -/
def plain (name : List Byte) (size offset : Nat) : Header :=
  ⟨fun _ => 0#8, 0, fun _ => 0#8, size, size, fun _ => 0#8, offset, name, [], []⟩

def sampleArchive : Archive :=
  { data := [1#8, 2#8, 3#8], headers := [plain [97#8] 1 0, plain [98#8, 0x2f#8] 0 0, plain [97#8] 2 0]
    counts := fun _ => 0#8, tail := [0#8, 0#8] }

private theorem plain_ok (name : List Byte) (size offset : Nat) (h1 : name.length < 2 ^ 16)
    (h2 : size < 2 ^ 32) (h3 : offset < 2 ^ 32) : (plain name size offset).Ok :=
  ⟨Nat.two_pow_pos 16, h2, h2, h3, h1, Nat.two_pow_pos 16, Nat.two_pow_pos 16⟩

theorem sampleArchive_ok : sampleArchive.Ok where
  headers := by
    intro h hh
    simp [sampleArchive] at hh
    rcases hh with rfl | rfl | rfl <;> exact plain_ok _ _ _ (by decide) (by decide) (by decide)
  size := by decide
  nonempty := by decide +kernel
  tail := by decide
  unique := by
    have h1 : sampleArchive.endPos = 145 := by decide +kernel
    have h2 : sampleArchive.bytes.length = 167 := by decide +kernel
    rw [h1, h2]
    intro p hp hp'
    omega

/-- The entry found for `a` is the one listed last (its header is at offset 98). -/
example : ∃ x, openJar sampleArchive.bytes = some x ∧
    (findNode x [97#8]).map (·.pos) = some 98 := by
  obtain ⟨x, h1, h2⟩ := lookup_exact_partial sampleArchive sampleArchive_ok [97#8]
    (Or.inr (by decide))
  exact ⟨x, h1, by rw [h2]; decide +kernel⟩

/-- The directory of C15's violation: 256 entries `a` and one entry named `€` in UTF-8. -/
def bigDirectory : List Entry :=
  (List.range 256).map (fun i => ⟨hashUnsigned 0#32 [97#8], i, [97#8]⟩) ++
    [⟨hashUnsigned 0#32 [0xE2#8, 0x82#8, 0xAC#8], 256, [0xE2#8, 0x82#8, 0xAC#8]⟩]

/-- The index built from a directory, one `add` per entry. -/
def build : List Entry → Index → Option Index
  | [], x => some x
  | e :: r, x => (add x e).bind (build r)

/-- C15 (violation): in an archive with 257 entries a listed name with bytes above 127 is not
found, because the index was built with unsigned and searched with signed characters. -/
theorem non_ascii_name_lost :
    ∃ x, build bigDirectory (make 32) = some x ∧ findNode x [0xE2#8, 0x82#8, 0xAC#8] = none := by
  have : (build bigDirectory (make 32)).map (fun x => findNode x [0xE2#8, 0x82#8, 0xAC#8]) = some none := by
    decide +kernel
  rw [Option.map_eq_some_iff] at this
  exact this

/-- C15 (violation for damaged files): a directory offset behind the end of the file makes the
opening code read outside the mapping. -/
theorem bad_offset_reads_outside :
    openJar ([0#8, 0x50#8, 0x4b#8, 0x05#8, 0x06#8] ++ List.replicate 12 0#8 ++
      [0xff#8, 0#8, 0#8, 0#8, 0#8, 0#8]) = none := by
  decide +kernel

/-! ### C16 -/

/-- C16: the resource comes from the first element that has it. -/
theorem find_first {R : Type} (path : List (Element R)) (name : List Byte) :
    finderFind path name = (path.filterMap (·.find name)).head? := by
  induction path with
  | nil => rfl
  | cons e r ih =>
    rw [finderFind]
    cases h : e.find name with
    | some v => simp [h]
    | none => simp [h, ih]

/-- C16: elements added behind do not change a successful search; a resource in no element is not
found. -/
theorem find_append {R : Type} (path more : List (Element R)) (name : List Byte) :
    finderFind (path ++ more) name = (finderFind path name).or (finderFind more name) := by
  simp only [find_first, List.filterMap_append, List.head?_append]

theorem find_none_iff {R : Type} (path : List (Element R)) (name : List Byte) :
    finderFind path name = none ↔ ∀ e ∈ path, e.find name = none := by
  rw [find_first, List.head?_eq_none_iff, List.filterMap_eq_nil_iff]

/-- C16: `stat` finds a name iff some element has it, and the source URL is that of the first
such element. -/
theorem stat_iff {R : Type} (path : List (Element R)) (name : List Byte) (dir : Bool) :
    finderStat path name dir = true ↔ ∃ e ∈ path, e.exists_ name dir = true := by
  induction path with
  | nil => simp [finderStat]
  | cons e r ih =>
    rw [finderStat]
    by_cases h : e.exists_ name dir = true
    · simp [h]
    · simp [h, ih]

theorem source_first {R : Type} (path : List (Element R)) (name : List Byte) :
    finderSource path name = ((path.find? (·.exists_ name true)).bind (·.source)) := by
  induction path with
  | nil => rfl
  | cons e r ih =>
    rw [finderSource, List.find?_cons]
    by_cases h : e.exists_ name true = true
    · simp [h]
    · simp [h, ih]

/-- An element holding exactly the given names. -/
def holding (names : List (List Byte)) (tag : Nat) : Element Nat :=
  ⟨fun n => if n ∈ names then some tag else none, fun n _ => decide (n ∈ names), some [BitVec.ofNat 8 tag]⟩

example : finderFind [holding [[1#8]] 10, holding [[1#8], [2#8]] 20, holding [[2#8]] 30] [2#8]
    = some 20 := by decide

private theorem urlLoop_spec {R : Type} (name : List Byte) : ∀ (l : List (Element R)) (i : Nat),
    urlLoop name l i = (((l.zipIdx i).filter (fun p => p.1.exists_ name true)).map (·.2)).head? := by
  intro l
  induction l with
  | nil => intro i; rfl
  | cons e r ih =>
    intro i
    rw [urlLoop, List.zipIdx_cons, List.filter_cons]
    by_cases h : e.exists_ name true = true
    · simp [h]
    · simp [h, ih]

/-- C16: enumerating the URL prefixes of a resource lists every element that has it, once, in
order. -/
theorem url_enumeration {R : Type} (path : List (Element R)) (name : List Byte) :
    urlEnumeration path name (path.length + 1) none =
      ((path.zipIdx 0).filter (fun p => p.1.exists_ name true)).map (·.2) := by
  have key : ∀ n fuel i, path.length - i = n → n < fuel →
      (∀ c, (c = none ∧ i = 0 ∨ ∃ j, c = some j ∧ i = j + 1) →
      urlEnumeration path name fuel c =
        (((path.drop i).zipIdx i).filter (fun p => p.1.exists_ name true)).map (·.2)) := by
    intro n
    induction n using Nat.strongRecOn with
    | _ n ih =>
      intro fuel i hn hf c hc
      cases fuel with
      | zero => omega
      | succ fuel =>
        have hnext : nextUrlPrefix path name c = urlLoop name (path.drop i) i := by
          rcases hc with ⟨rfl, rfl⟩ | ⟨j, rfl, rfl⟩
          · rfl
          · rfl
        rw [urlEnumeration, hnext, urlLoop_spec]
        generalize hL : (((path.drop i).zipIdx i).filter (fun p => p.1.exists_ name true)) = L
        cases L with
        | nil => rfl
        | cons p r =>
          simp only [List.map_cons, List.head?_cons, List.cons.injEq, true_and]
          -- the head is at a position not before i
          have hmem : p ∈ (path.drop i).zipIdx i := by
            have : p ∈ p :: r := by simp
            rw [← hL] at this
            exact (List.mem_filter.mp this).1
          obtain ⟨a, b⟩ := p
          have hb := List.mk_mem_zipIdx_iff_le_and_getElem?_sub.mp hmem
          have hlt : b - i < (path.drop i).length := by
            rcases Nat.lt_or_ge (b - i) (path.drop i).length with h | h
            · exact h
            · rw [List.getElem?_eq_none h] at hb; simp at hb
          rw [List.length_drop] at hlt
          rw [ih (path.length - (b + 1)) (by omega) fuel (b + 1) rfl (by omega) (some b)
            (Or.inr ⟨b, rfl, rfl⟩)]
          -- splitting the list at b + 1
          have hsplit : (path.drop i).zipIdx i =
              ((path.drop i).take (b - i)).zipIdx i ++
                ((a, b) :: (path.drop (b + 1)).zipIdx (b + 1)) := by
            have h1 : path.drop i = (path.drop i).take (b - i) ++ a :: path.drop (b + 1) := by
              have := List.take_append_drop (b - i) (path.drop i)
              have h2 : (path.drop i).drop (b - i) = a :: path.drop (b + 1) := by
                rw [List.drop_drop]
                have h3 : i + (b - i) = b := by omega
                rw [h3]
                have h4 : path[b]? = some a := by
                  have := hb.2
                  rw [List.getElem?_drop, h3] at this
                  exact this
                obtain ⟨hbl, hba⟩ := List.getElem?_eq_some_iff.mp h4
                rw [List.drop_eq_getElem_cons hbl, hba]
              rw [← h2, this]
            conv => lhs; rw [h1]
            rw [List.zipIdx_append, List.zipIdx_cons]
            have h5 : i + ((path.drop i).take (b - i)).length = b := by
              rw [List.length_take, List.length_drop]; omega
            rw [h5]
          rw [hsplit, List.filter_append] at hL
          have hhead : ((((path.drop i).take (b - i)).zipIdx i).filter
              (fun p => p.1.exists_ name true)) = [] := by
            cases hf : ((((path.drop i).take (b - i)).zipIdx i).filter
              (fun p => p.1.exists_ name true)) with
            | nil => rfl
            | cons q s =>
              rw [hf] at hL
              simp only [List.cons_append, List.cons.injEq] at hL
              have hq : q ∈ ((path.drop i).take (b - i)).zipIdx i := by
                have : q ∈ q :: s := by simp
                rw [← hf] at this
                exact (List.mem_filter.mp this).1
              rw [hL.1] at hq
              have := List.mk_mem_zipIdx_iff_le_and_getElem?_sub.mp hq
              obtain ⟨h6, _⟩ := List.getElem?_eq_some_iff.mp this.2
              rw [List.length_take] at h6
              omega
          have hex : a.exists_ name true = true := by
            have : (a, b) ∈ (a, b) :: r := by simp
            rw [← hL] at this
            have := List.mem_append.mp this
            rcases this with h | h
            · exact (List.mem_filter.mp h).2
            · exact (List.mem_filter.mp h).2
          rw [hhead, List.nil_append, List.filter_cons, if_pos hex] at hL
          simp only [List.cons.injEq, true_and] at hL
          rw [hL]
  have := key path.length (path.length + 1) 0 (by simp) (by omega) none (Or.inl ⟨rfl, rfl⟩)
  simpa using this

example : urlEnumeration [holding [[1#8]] 10, holding [[2#8]] 20, holding [[1#8]] 30] [1#8] 4 none
    = [0, 2] := by decide

/-! ### Tokenizing a path -/

/-- Splitting at every delimiter, empty pieces included. -/
def pieces (delimiter : Byte) : List Byte → List (List Byte)
  | [] => [[]]
  | c :: r =>
    if c = delimiter then [] :: pieces delimiter r
    else match pieces delimiter r with
      | [] => [[c]]
      | p :: ps => (c :: p) :: ps

private theorem pieces_ne (d : Byte) (s : List Byte) : ∃ p ps, pieces d s = p :: ps ∧
    p = s.takeWhile (· ≠ d) ∧
    ps = (match s.dropWhile (· ≠ d) with | [] => [] | _ :: r => pieces d r) := by
  induction s with
  | nil => exact ⟨[], [], rfl, rfl, rfl⟩
  | cons c r ih =>
    by_cases h : c = d
    · exact ⟨[], pieces d r, by simp [pieces, h], by simp [h], by simp [h]⟩
    · obtain ⟨p, ps, h1, h2, h3⟩ := ih
      exact ⟨c :: p, ps, by simp [pieces, h, h1], by simp [h, h2], by simp [h, h3]⟩

private theorem filter_pieces_skip (d : Byte) (s : List Byte) :
    (pieces d s).filter (· ≠ []) = (pieces d (skipDelimiters d s)).filter (· ≠ []) := by
  induction s with
  | nil => rfl
  | cons c r ih =>
    by_cases h : c = d
    · simp only [pieces, h, if_true, skipDelimiters, List.dropWhile_cons, decide_true]
      rw [List.filter_cons]
      simpa [skipDelimiters] using ih
    · simp [skipDelimiters, h]

/-- C16: the tokens of a path are the non-empty pieces between separators, in order. -/
theorem tokens_spec (d : Byte) (s : List Byte) :
    ∀ fuel, s.length < fuel → tokens d fuel s = (pieces d s).filter (· ≠ []) := by
  intro fuel
  induction fuel generalizing s with
  | zero => intro h; omega
  | succ fuel ih =>
    intro hf
    rw [filter_pieces_skip, tokens]
    have hle : (skipDelimiters d s).length ≤ s.length := by
      exact (List.dropWhile_sublist _).length_le
    cases hs : skipDelimiters d s with
    | nil => rfl
    | cons c r =>
      have hc : c ≠ d := by
        have := List.head?_dropWhile_not (fun x : Byte => decide (x = d)) s
        have hh : (s.dropWhile (fun x => decide (x = d))) = c :: r := hs
        rw [hh] at this
        simpa using this
      obtain ⟨p, ps, h1, h2, h3⟩ := pieces_ne d (c :: r)
      rw [h1, List.filter_cons, if_pos (by rw [h2]; simp [hc])]
      simp only [h2]
      congr 1
      have hlen : ((c :: r).dropWhile (· ≠ d)).length < fuel := by
        have h4 : ((c :: r).dropWhile (· ≠ d)) = (r.dropWhile (· ≠ d)) := by simp [hc]
        have h5 : (r.dropWhile (· ≠ d)).length ≤ r.length := (List.dropWhile_sublist _).length_le
        rw [h4]
        rw [hs] at hle
        simp at hle
        omega
      rw [ih _ hlen, h3]
      cases hd : (c :: r).dropWhile (· ≠ d) with
      | nil => rfl
      | cons c' r' =>
        have hc' : c' = d := by
          have := List.head?_dropWhile_not (fun x : Byte => decide (x ≠ d)) (c :: r)
          have hh : ((c :: r).dropWhile (fun x => decide (x ≠ d))) = c' :: r' := hd
          rw [hh] at this
          simpa using this
        simp [pieces, hc']

example : tokens 0x3a#8 10 [0x3a#8, 97#8, 0x3a#8, 0x3a#8, 98#8, 99#8, 0x3a#8] = [[97#8], [98#8, 99#8]] := by
  decide

/-! ### Building the path -/

/-- The specification of the search path: depth first, a jar before what its manifest names. -/
inductive Expands (env : Env) : List Byte → List Item → Prop
  | builtin {t} : t.head? = some 0x5b#8 → t.getLast? = some 0x5d#8 →
      Expands env t [.builtin ((t.drop 1).take (t.length - 2))]
  | directory {t} : ¬ (t.head? = some 0x5b#8 ∧ t.getLast? = some 0x5d#8) → env.kind t = .directory →
      Expands env t [.directory t]
  | missing {t} : ¬ (t.head? = some 0x5b#8 ∧ t.getLast? = some 0x5d#8) → env.kind t = .missing →
      Expands env t []
  | jar {t} {items : List (List Item)} : ¬ (t.head? = some 0x5b#8 ∧ t.getLast? = some 0x5d#8) → env.kind t = .jar →
      items.length = (env.manifest t).length →
      (∀ i (h : i < (env.manifest t).length) (h' : i < items.length),
        Expands env (env.manifest t)[i] items[i]) →
      Expands env t (.jar t :: items.flatten)

private theorem addToken_expands (env : Env) : ∀ fuel token path out,
    addToken env fuel token path = some out → ∃ items, out = path ++ items ∧ Expands env token items := by
  intro fuel
  induction fuel with
  | zero => intro token path out h; cases h
  | succ fuel ih =>
    intro token path out h
    have list : ∀ ts path out, addTokenList (addToken env fuel) ts path = some out →
        ∃ items : List (List Item), out = path ++ items.flatten ∧ items.length = ts.length ∧
          ∀ i (h : i < ts.length) (h' : i < items.length), Expands env ts[i] items[i] := by
      intro ts
      induction ts with
      | nil =>
        intro path out h
        simp only [addTokenList, Option.some.injEq] at h
        exact ⟨[], by simp [h], rfl, by intro i h; simp at h⟩
      | cons t ts iht =>
        intro path out h
        simp only [addTokenList] at h
        obtain ⟨mid, h1, h2⟩ := Option.bind_eq_some_iff.mp h
        obtain ⟨it, p1, p2⟩ := ih t path mid h1
        obtain ⟨its, q1, q2, q3⟩ := iht mid out h2
        refine ⟨it :: its, by rw [q1, p1]; simp, by simp [q2], ?_⟩
        intro i h h'
        cases i with
        | zero => exact p2
        | succ i => exact q3 i (by simpa using h) (by simpa using h')
    rw [addToken] at h
    split at h
    · next hb =>
      simp only [Option.some.injEq] at h
      exact ⟨_, h.symm, .builtin hb.1 hb.2⟩
    · next hb =>
      split at h
      · next hk =>
        obtain ⟨its, q1, q2, q3⟩ := list _ _ _ h
        exact ⟨.jar token :: its.flatten, by rw [q1]; simp, .jar hb hk q2 q3⟩
      · next hk =>
        simp only [Option.some.injEq] at h
        exact ⟨_, h.symm, .directory hb hk⟩
      · next hk =>
        simp only [Option.some.injEq] at h
        exact ⟨[], by simp [h], .missing hb hk⟩

/-- C16: whenever the path is built, it lists the expansion of each token in the order of the
path string. -/
theorem path_order (env : Env) (fuel : Nat) (sep : Byte) (path : List Byte) (out : List Item)
    (h : parsePath env fuel sep path = some out) :
    ∃ items : List (List Item), out = items.flatten ∧
      items.length = ((pieces sep path).filter (· ≠ [])).length ∧
      ∀ i (h : i < ((pieces sep path).filter (· ≠ [])).length) (h' : i < items.length),
        Expands env ((pieces sep path).filter (· ≠ []))[i] items[i] := by
  rw [parsePath, tokens_spec sep path _ (by omega)] at h
  generalize (pieces sep path).filter (· ≠ []) = ts at h
  have list : ∀ ts path out, addTokenList (addToken env fuel) ts path = some out →
      ∃ items : List (List Item), out = path ++ items.flatten ∧ items.length = ts.length ∧
        ∀ i (h : i < ts.length) (h' : i < items.length), Expands env ts[i] items[i] := by
    intro ts
    induction ts with
    | nil =>
      intro path out h
      simp only [addTokenList, Option.some.injEq] at h
      exact ⟨[], by simp [h], rfl, by intro i h; simp at h⟩
    | cons t ts iht =>
      intro path out h
      simp only [addTokenList] at h
      obtain ⟨mid, h1, h2⟩ := Option.bind_eq_some_iff.mp h
      obtain ⟨it, p1, p2⟩ := addToken_expands env fuel t path mid h1
      obtain ⟨its, q1, q2, q3⟩ := iht mid out h2
      refine ⟨it :: its, by rw [q1, p1]; simp, by simp [q2], ?_⟩
      intro i h h'
      cases i with
      | zero => exact p2
      | succ i => exact q3 i (by simpa using h) (by simpa using h')
  simpa using list ts [] out h

/-- An environment with two jars, the first naming the second, and a directory. -/
def sampleEnv : Env :=
  { kind := fun n => if n = [97#8] ∨ n = [98#8] then .jar else if n = [100#8] then .directory
      else .missing
    manifest := fun n => if n = [97#8] then [[98#8], [120#8]] else [] }

/-- `a:d:[m]` expands to jar a, jar b (from a's manifest), directory d, builtin m. -/
example : parsePath sampleEnv 5 0x3a#8 [97#8, 0x3a#8, 100#8, 0x3a#8, 0x5b#8, 109#8, 0x5d#8] =
    some [.jar [97#8], .jar [98#8], .directory [100#8], .builtin [109#8]] := by decide +kernel

/-- C16 (violation): a jar whose manifest names the jar itself is added again and again; the
path is never finished. -/
theorem cyclic_manifest_diverges (env : Env) (t : List Byte)
    (hb : ¬ (t.head? = some 0x5b#8 ∧ t.getLast? = some 0x5d#8)) (hk : env.kind t = .jar)
    (hm : env.manifest t = [t]) : ∀ fuel path, addToken env fuel t path = none := by
  intro fuel
  induction fuel with
  | zero => intro path; rfl
  | succ fuel ih =>
    intro path
    rw [addToken, if_neg hb, hk]
    simp only [hm, addTokenList, ih, Option.bind_none]

example : addToken ⟨fun _ => .jar, fun _ => [[97#8]]⟩ 100 [97#8] [] = none :=
  cyclic_manifest_diverges _ _ (by decide) rfl rfl _ _

end Avian.Finder
