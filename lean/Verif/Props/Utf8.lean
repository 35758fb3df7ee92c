import Verif.Text.Utf8

/-
Properties C11 (UTF-8 round trip), C12 (parsing any bytes is total and stays in bounds) and
C13 (equal strings have equal hashes).
-/
namespace Avian.Utf8
open Avian.Stream (Stream Stream.read1)

/-! ### The stream as a list of remaining bytes -/

/-- The stream is positioned so that `rest` is what is left. -/
structure At (s : Stream) (rest : List (BitVec 8)) : Prop where
  small : s.data.length < 2 ^ 32
  size : s.size = BitVec.ofNat 32 s.data.length
  pos : s.position.toNat ≤ s.data.length
  rest : s.data.drop s.position.toNat = rest

theorem At_new (data : List (BitVec 8)) (h : data.length < 2 ^ 32) :
    At (Stream.new data) data := ⟨h, rfl, by simp [Stream.new], by simp [Stream.new]⟩

/-- Reading one byte gives the next byte, or zero at the end, and never touches memory outside. -/
theorem read1_at {s : Stream} {rest : List (BitVec 8)} (h : At s rest) :
    ∃ s', read1 s = .ok (rest.headD 0#8, s') ∧ At s' rest.tail ∧
      (rest ≠ [] → s'.errors = s.errors) := by
  have hp := h.pos
  have hsm := h.small
  have hsz : s.size.toNat = s.data.length := by
    rw [h.size, BitVec.toNat_ofNat]; omega
  have hsub : (s.size - s.position).toNat = s.data.length - s.position.toNat := by
    rw [BitVec.toNat_sub]; omega
  have hlen : rest.length = s.data.length - s.position.toNat := by
    rw [← h.rest]; simp
  cases hr : rest with
  | nil =>
    have h0 : (s.size - s.position).toNat = 0 := by rw [hsub, ← hlen, hr]; rfl
    have hgt : 1#32 > s.size - s.position := by
      rw [gt_iff_lt, BitVec.lt_def, h0]; decide
    refine ⟨{ s with errors := s.errors + 1 }, ?_, ⟨h.small, h.size, h.pos, ?_⟩, by simp⟩
    · simp [read1, Stream.read1, Stream.read, hgt]
    · simpa [hr] using h.rest
  | cons b t =>
    have h1 : 1 ≤ s.data.length - s.position.toNat := by rw [← hlen, hr]; simp
    have hgt : ¬ 1#32 > s.size - s.position := by
      rw [gt_iff_lt, BitVec.lt_def, hsub]; simp; omega
    have hdr : s.data.drop s.position.toNat = b :: t := by rw [h.rest, hr]
    have hcp : s.copy s.position.toNat 1 = some [b] := by
      simp only [Stream.copy]
      rw [if_pos (by omega), hdr]; rfl
    have hp1 : (s.position + 1#32).toNat = s.position.toNat + 1 := by
      rw [BitVec.toNat_add]; simp; omega
    refine ⟨{ s with position := s.position + 1#32 }, ?_, ⟨h.small, h.size, ?_, ?_⟩, by simp⟩
    · simp [read1, Stream.read1, Stream.read, hgt, hcp]
    · show (s.position + 1#32).toNat ≤ s.data.length
      omega
    · show s.data.drop (s.position + 1#32).toNat = t
      rw [hp1, ← List.drop_drop, hdr]; rfl

/-! ### C12 -/

/-- The outcome allowed by C12: a value satisfying `P`, or a failed assertion in a debug build. -/
def Safe {α : Type} (debug : Bool) (P : α → Prop) : Res α → Prop
  | .ok a => P a
  | .assertFail => debug = true
  | .ub => False

private theorem Safe.bind {α β : Type} {debug : Bool} {P : α → Prop} {Q : β → Prop} {r : Res α}
    {f : α → Res β} (h : Safe debug P r) (hf : ∀ a, P a → Safe debug Q (f a)) :
    Safe debug Q (r.bind f) := by
  cases r with
  | ok a => exact hf a h
  | assertFail => exact h
  | ub => exact h.elim

private theorem safe_assert (debug v : Bool) : Safe debug (fun _ => True) (assertT debug v) := by
  cases debug <;> cases v <;> simp [assertT, Safe]

private theorem safe_read1 {debug : Bool} {s : Stream} {rest : List (BitVec 8)} (h : At s rest) :
    Safe debug (fun r => ∃ rest', At r.2 rest' ∧ rest' <:+ rest) (read1 s) := by
  obtain ⟨s', h1, h2, _⟩ := read1_at h
  rw [h1]
  exact ⟨_, h2, List.tail_suffix _⟩

private theorem safe_readByte {debug : Bool} {s : Stream} {rest : List (BitVec 8)} (h : At s rest)
    (v : Option (BitVec 8)) :
    Safe debug (fun r => ∃ rest', At r.2 rest' ∧ rest' <:+ rest) (readByte s v) := by
  cases v with
  | none => exact safe_read1 h
  | some b => exact ⟨rest, h, List.suffix_refl _⟩

private theorem safe_store {α : Type} {debug : Bool} {cap : Nat} {out : List α} {x : α}
    (h : out.length < cap) : Safe debug (fun o => o = out ++ [x]) (store cap out x) := by
  simp [store, h, Safe]

private theorem nonAscii_safe (debug : Bool) (length : Nat) : ∀ fuel (s : Stream) rest byteA byteB si
    (out : List (BitVec 16)), At s rest → out.length ≤ si → out.length ≤ length →
    length - si < fuel →
    Safe debug (fun r => r.1.length ≤ length ∧ ∃ rest', At r.2 rest' ∧ rest' <:+ rest)
      (nonAsciiLoop debug length fuel s byteA byteB si out) := by
  intro fuel
  induction fuel with
  | zero =>
    intro s rest byteA byteB si out h1 h2 h3 h4
    omega
  | succ fuel ih =>
    intro s rest byteA byteB si out h1 h2 h3 h4
    unfold nonAsciiLoop
    split
    · next hsi =>
      refine (safe_readByte h1 byteA).bind ?_
      rintro ⟨a, s1⟩ ⟨r1, a1, b1⟩
      dsimp only
      split
      · split
        · refine (safe_assert _ _).bind ?_
          intro _ _
          refine (safe_readByte a1 byteB).bind ?_
          rintro ⟨b, s2⟩ ⟨r2, a2, b2⟩
          refine (safe_read1 a2).bind ?_
          rintro ⟨c, s3⟩ ⟨r3, a3, b3⟩
          refine (safe_store (by omega)).bind ?_
          rintro o rfl
          have := ih s3 r3 none none (si + 2 + 1) (out ++ [three a b c]) a3
            (by simp; omega) (by simp; omega) (by omega)
          refine (?_ : Safe _ _ _)
          revert this
          generalize nonAsciiLoop debug length fuel s3 none none (si + 2 + 1) _ = z
          cases z with
          | ok v => rintro ⟨x, r', y, w⟩; exact ⟨x, r', y, (w.trans b3).trans (b2.trans b1)⟩
          | assertFail => exact id
          | ub => exact id
        · refine (safe_assert _ _).bind ?_
          intro _ _
          refine (safe_readByte a1 byteB).bind ?_
          rintro ⟨b, s2⟩ ⟨r2, a2, b2⟩
          refine (safe_store (by omega)).bind ?_
          rintro o rfl
          have := ih s2 r2 none none (si + 1 + 1) (out ++ [two a b]) a2
            (by simp; omega) (by simp; omega) (by omega)
          revert this
          generalize nonAsciiLoop debug length fuel s2 none none (si + 1 + 1) _ = z
          cases z with
          | ok v => rintro ⟨x, r', y, w⟩; exact ⟨x, r', y, w.trans (b2.trans b1)⟩
          | assertFail => exact id
          | ub => exact id
      · refine (safe_store (by omega)).bind ?_
        rintro o rfl
        have := ih s1 r1 none byteB (si + 1) (out ++ [a.setWidth 16]) a1
          (by simp; omega) (by simp; omega) (by omega)
        revert this
        generalize nonAsciiLoop debug length fuel s1 none byteB (si + 1) _ = z
        cases z with
        | ok v => rintro ⟨x, r', y, w⟩; exact ⟨x, r', y, w.trans b1⟩
        | assertFail => exact id
        | ub => exact id
    · exact ⟨h3, rest, h1, List.suffix_refl _⟩

/-- The number of characters of a parsed string. -/
def Parsed.count : Parsed → Nat
  | .bytes l => l.length
  | .chars l => l.length

private theorem parseNonAscii_safe (debug : Bool) (length : Nat) (s : Stream) rest byteA byteB si
    (out : List (BitVec 8)) (h1 : At s rest) (h2 : out.length ≤ si) (h3 : out.length ≤ length)  :
    Safe debug (fun r => r.1.count ≤ length ∧ ∃ rest', At r.2 rest' ∧ rest' <:+ rest)
      (parseUtf8NonAscii debug s out length si byteA byteB) := by
  unfold parseUtf8NonAscii
  rw [if_pos (by omega)]
  refine (nonAscii_safe debug length (length + 1) s rest byteA byteB si _ h1 (by simpa using h2)
    (by simpa using h3) (by omega)).bind ?_
  rintro ⟨o, s'⟩ h
  exact h

private theorem ascii_safe (debug : Bool) (length : Nat) : ∀ fuel (s : Stream) rest si
    (out : List (BitVec 8)), At s rest → out.length ≤ si → out.length ≤ length →
    length - si < fuel →
    Safe debug (fun r => r.1.count ≤ length ∧ ∃ rest', At r.2 rest' ∧ rest' <:+ rest)
      (asciiLoop debug length fuel s si out) := by
  intro fuel
  induction fuel with
  | zero => intro s rest si out h1 h2 h3 h4; omega
  | succ fuel ih =>
    intro s rest si out h1 h2 h3 h4
    unfold asciiLoop
    split
    · next hsi =>
      refine (safe_read1 h1).bind ?_
      rintro ⟨a, s1⟩ ⟨r1, a1, b1⟩
      dsimp only
      split
      · split
        · have := parseNonAscii_safe debug length s1 r1 (some a) none si out a1 h2 h3
          revert this
          generalize parseUtf8NonAscii debug s1 out length si (some a) none = z
          cases z with
          | ok v => rintro ⟨x, r', y, w⟩; exact ⟨x, r', y, w.trans b1⟩
          | assertFail => exact id
          | ub => exact id
        · refine (safe_read1 a1).bind ?_
          rintro ⟨b, s2⟩ ⟨r2, a2, b2⟩
          dsimp only
          split
          · refine (safe_assert _ _).bind ?_
            intro _ _
            refine (safe_store (by omega)).bind ?_
            rintro o rfl
            have := ih s2 r2 (si + 1 + 1) (out ++ [0#8]) a2 (by simp; omega) (by simp; omega) (by omega)
            revert this
            generalize asciiLoop debug length fuel s2 (si + 1 + 1) _ = z
            cases z with
            | ok v => rintro ⟨x, r', y, w⟩; exact ⟨x, r', y, w.trans (b2.trans b1)⟩
            | assertFail => exact id
            | ub => exact id
          · have := parseNonAscii_safe debug length s2 r2 (some a) (some b) si out a2 h2 h3
            revert this
            generalize parseUtf8NonAscii debug s2 out length si (some a) (some b) = z
            cases z with
            | ok v => rintro ⟨x, r', y, w⟩; exact ⟨x, r', y, w.trans (b2.trans b1)⟩
            | assertFail => exact id
            | ub => exact id
      · refine (safe_store (by omega)).bind ?_
        rintro o rfl
        have := ih s1 r1 (si + 1) (out ++ [a]) a1 (by simp; omega) (by simp; omega) (by omega)
        revert this
        generalize asciiLoop debug length fuel s1 (si + 1) _ = z
        cases z with
        | ok v => rintro ⟨x, r', y, w⟩; exact ⟨x, r', y, w.trans b1⟩
        | assertFail => exact id
        | ub => exact id
    · exact ⟨h3, rest, h1, List.suffix_refl _⟩

/-- C12: for every byte sequence, a release build converts it to a string: the conversion
stops, reads only inside the input, stores only inside the destination and produces at most one
character per byte. -/
theorem parse_total (data : List (BitVec 8)) (h : data.length < 2 ^ 32) :
    ∃ p, parseBytes false data = .ok p ∧ p.count ≤ data.length := by
  have := ascii_safe false data.length (data.length + 1) (Stream.new data) data 0 []
    (At_new data h) (by simp) (by simp) (by omega)
  simp only [parseBytes, parseUtf8]
  revert this
  generalize asciiLoop false data.length (data.length + 1) (Stream.new data) 0 [] = z
  cases z with
  | ok v => rintro ⟨x, _⟩; exact ⟨v.1, rfl, x⟩
  | assertFail => intro h; cases h
  | ub => exact False.elim

/-- C12: a debug build does the same or stops at an assertion; it never makes an invalid access. -/
theorem parse_debug_safe (data : List (BitVec 8)) (h : data.length < 2 ^ 32) :
    parseBytes true data ≠ .ub := by
  have := ascii_safe true data.length (data.length + 1) (Stream.new data) data 0 []
    (At_new data h) (by simp) (by simp) (by omega)
  simp only [parseBytes, parseUtf8]
  revert this
  generalize asciiLoop true data.length (data.length + 1) (Stream.new data) 0 [] = z
  cases z with
  | ok v => intro _ h; cases h
  | assertFail => intro _ h; cases h
  | ub => exact False.elim

/-- A truncated three byte sequence after an ASCII letter: two characters in a release build, an
assertion in a debug build. -/
example : parseBytes false [0x41#8, 0xE2#8] = .ok (.chars [0x41#16, 0x2000#16]) := rfl
example : parseBytes true [0x41#8, 0xE2#8] = .assertFail := rfl

/-- C12 (limit): when the parser is given a stream that holds more than `length` bytes, a truncated
sequence at the end makes it consume bytes that belong to what follows. -/
theorem truncated_reads_following :
    ∃ p s, parseUtf8 false (Stream.new [0xE2#8, 0x01#8, 0x02#8, 0x03#8]) 1 = .ok (p, s) ∧
      s.position = 3#32 := ⟨_, _, rfl, rfl⟩

/-! ### C11 -/

private theorem hi_bits (c : BitVec 16) (k : Nat) (h : c.toNat < 2 ^ k) (i : Nat) (hi : k ≤ i) :
    c.getLsbD i = false := by
  rw [BitVec.getLsbD]
  apply Nat.testBit_lt_two_pow
  exact Nat.lt_of_lt_of_le h (Nat.pow_le_pow_right (by omega) hi)

private theorem below16 {i : Nat} (h : i < 16) : i = 0 ∨ i = 1 ∨ i = 2 ∨ i = 3 ∨ i = 4 ∨ i = 5 ∨
    i = 6 ∨ i = 7 ∨ i = 8 ∨ i = 9 ∨ i = 10 ∨ i = 11 ∨ i = 12 ∨ i = 13 ∨ i = 14 ∨ i = 15 := by
  omega

private theorem three_enc (c : BitVec 16) :
    three ((0xe0#32 ||| ((c.setWidth 32 >>> (12 : Nat)) &&& 0x0f#32)).setWidth 8)
      ((0x80#32 ||| ((c.setWidth 32 >>> (6 : Nat)) &&& 0x3f#32)).setWidth 8)
      ((0x80#32 ||| (c.setWidth 32 &&& 0x3f#32)).setWidth 8) = c := by
  apply BitVec.eq_of_getLsbD_eq
  intro i hi
  rcases below16 hi with
    rfl|rfl|rfl|rfl|rfl|rfl|rfl|rfl|rfl|rfl|rfl|rfl|rfl|rfl|rfl|rfl <;> simp [three]

private theorem two_enc' (c : BitVec 16) (h : c.toNat < 0x800) :
    (((((0xc0#32 ||| (c.setWidth 32 >>> (6 : Nat))).setWidth 8).setWidth 32 &&& 0x1f#32)
        <<< (6 : Nat)) |||
      ((((0x80#32 ||| (c.setWidth 32 &&& 0x3f#32)).setWidth 8)).setWidth 32 &&& 0x3f#32)).setWidth 16
      = c := by
  apply BitVec.eq_of_getLsbD_eq
  intro i hi
  have hb := hi_bits c 11 h i
  rcases below16 hi with
    rfl|rfl|rfl|rfl|rfl|rfl|rfl|rfl|rfl|rfl|rfl|rfl|rfl|rfl|rfl|rfl <;>
    simp at hb ⊢ <;> simp [hb]

private theorem and80 : ∀ a : BitVec 8, (a &&& 0x80#8 ≠ 0#8) ↔ a.getLsbD 7 = true := by
  decide

private theorem and20 : ∀ a : BitVec 8, (a &&& 0x20#8 ≠ 0#8) ↔ a.getLsbD 5 = true := by
  decide

private theorem bit7 (c : BitVec 16) (h : c.toNat < 0x80) : c[7] = false := by
  rw [← BitVec.getLsbD_eq_getElem]; exact hi_bits c 7 h 7 (by omega)

private theorem bit11 (c : BitVec 16) (h : c.toNat < 0x800) : c[11] = false := by
  rw [← BitVec.getLsbD_eq_getElem]; exact hi_bits c 11 h 11 (by omega)

private theorem low_enc (c : BitVec 16) (h : c.toNat < 0x80) :
    (c.setWidth 8).getLsbD 7 = false ∧ (c.setWidth 8).setWidth 16 = c ∧
    (c.setWidth 8).signExtend 16 = c := by
  have hm : (c.setWidth 8).msb = false := by
    rw [BitVec.msb_eq_getLsbD_last]; simp [bit7 c h]
  have hs : (c.setWidth 8).setWidth 16 = c := by
    apply BitVec.eq_of_toNat_eq; simp; omega
  refine ⟨by simp [bit7 c h], hs, ?_⟩
  rw [BitVec.signExtend_eq_setWidth_of_msb_false hm, hs]

/-- The facts about one encoded unit. -/
private theorem encode_cases (c : BitVec 16) :
    (c.toNat < 0x80 ∧ encodeUnit c = [c.setWidth 8]) ∨
    (0x80 ≤ c.toNat ∧ ∃ a b, encodeUnit c = [a, b] ∧ a.getLsbD 7 = true ∧ a.getLsbD 5 = false ∧
      two a b = c ∧ ¬ (a = 0xC0#8 ∧ b = 0x80#8)) ∨
    (∃ a b d, encodeUnit c = [a, b, d] ∧ a.getLsbD 7 = true ∧ a.getLsbD 5 = true ∧
      three a b d = c) := by
  unfold encodeUnit
  split
  · next h => subst h; exact Or.inl ⟨by decide, rfl⟩
  · split
    · next h => exact Or.inl ⟨by simpa [BitVec.lt_def] using h, rfl⟩
    · next h80 =>
      have h80' : 0x80 ≤ c.toNat := by simpa [BitVec.lt_def] using h80
      split
      · next h =>
        have h' : c.toNat < 0x800 := by simpa [BitVec.lt_def] using h
        have htwo := two_enc' c h'
        have hn : ¬ ((0xc0#32 ||| (c.setWidth 32 >>> (6 : Nat))).setWidth 8 = 0xC0#8 ∧
            (0x80#32 ||| (c.setWidth 32 &&& 0x3f#32)).setWidth 8 = 0x80#8) := by
          rintro ⟨h1, h2⟩
          rw [h1, h2] at htwo
          have : c = 0#16 := by rw [← htwo]; decide
          rw [this] at h80'
          exact absurd h80' (by decide)
        refine Or.inr (Or.inl ⟨h80', _, _, rfl, by simp, ?_, ?_, hn⟩)
        · simp [bit11 c h']
        · simp only [two, if_neg hn]; exact htwo
      · exact Or.inr (Or.inr ⟨_, _, _, rfl, by simp, by simp, three_enc c⟩)

private theorem at_cons {s : Stream} {b : BitVec 8} {t : List (BitVec 8)} (h : At s (b :: t)) :
    ∃ s', read1 s = .ok (b, s') ∧ At s' t := by
  obtain ⟨s', h1, h2, _⟩ := read1_at h
  exact ⟨s', h1, h2⟩

private theorem assert_true (debug v : Bool) (h : v = true) : assertT debug v = .ok () := by
  subst h; cases debug <;> rfl

/-- A way of writing each unit in one byte, two bytes or three bytes. -/
private def Good (enc : BitVec 16 → List (BitVec 8)) : Prop := ∀ c : BitVec 16,
    (c.toNat < 0x80 ∧ enc c = [c.setWidth 8]) ∨
    (∃ a b, enc c = [a, b] ∧ a.getLsbD 7 = true ∧ a.getLsbD 5 = false ∧
      two a b = c ∧ (a = 0xC0#8 ∧ b = 0x80#8 → c = 0#16)) ∨
    (∃ a b d, enc c = [a, b, d] ∧ a.getLsbD 7 = true ∧ a.getLsbD 5 = true ∧
      three a b d = c)

private theorem nonAscii_round {enc : BitVec 16 → List (BitVec 8)} (good : Good enc)
    (debug : Bool) (length : Nat) (us : List (BitVec 16)) :
    ∀ fuel (s : Stream) si (out : List (BitVec 16)),
    At s (us.flatMap enc) → si + (us.flatMap enc).length = length →
    out.length ≤ si → length < fuel + si →
    ∃ s', nonAsciiLoop debug length fuel s none none si out = .ok (out ++ us, s') := by
  induction us with
  | nil =>
    intro fuel s si out h1 h2 h3 h4
    simp at h2
    cases fuel with
    | zero => omega
    | succ fuel => exact ⟨s, by simp [nonAsciiLoop, h2]⟩
  | cons c cs ih =>
    intro fuel s si out h1 h2 h3 h4
    cases fuel with
    | zero => simp at h2; omega
    | succ fuel =>
    rcases good c with ⟨hc, he⟩ | ⟨a, b, he, h7, h5, htwo, _⟩ | ⟨a, b, d, he, h7, h5, hth⟩
    · rw [List.flatMap_cons, he] at h1 h2
      simp only [List.cons_append, List.nil_append, List.length_cons] at h1 h2
      obtain ⟨f1, f2, _⟩ := low_enc c hc
      obtain ⟨s1, r1, a1⟩ := at_cons h1
      obtain ⟨s2, r2⟩ := ih fuel s1 (si + 1) (out ++ [c]) a1 (by omega) (by simp; omega) (by omega)
      refine ⟨s2, ?_⟩
      unfold nonAsciiLoop
      have hne : ¬ (c.setWidth 8 &&& 0x80#8 ≠ 0#8) := by rw [and80, f1]; simp
      have hst : store (length + 1) out c = .ok (out ++ [c]) := by
        rw [store, if_pos (by omega)]
      rw [if_pos (by omega)]
      simp only [readByte, r1, Res.bind, if_neg hne, f2, hst, r2]
      simp
    · rw [List.flatMap_cons, he] at h1 h2
      simp only [List.cons_append, List.nil_append, List.length_cons] at h1 h2
      obtain ⟨s1, r1, a1⟩ := at_cons h1
      obtain ⟨s2, r2, a2⟩ := at_cons a1
      obtain ⟨s3, r3⟩ := ih fuel s2 (si + 1 + 1) (out ++ [c]) a2 (by omega) (by simp; omega) (by omega)
      refine ⟨s3, ?_⟩
      unfold nonAsciiLoop
      have hst : store (length + 1) out c = .ok (out ++ [c]) := by
        rw [store, if_pos (by omega)]
      have g7 := (and80 a).mpr h7
      have g5 : ¬ (a &&& 0x20#8 ≠ 0#8) := by rw [and20, h5]; simp
      rw [if_pos (by omega)]
      simp only [readByte, r1, Res.bind, if_pos g7, if_neg g5,
        assert_true debug (decide (si + 1 < length)) (by simp; omega), r2, htwo, hst, r3]
      simp
    · rw [List.flatMap_cons, he] at h1 h2
      simp only [List.cons_append, List.nil_append, List.length_cons] at h1 h2
      obtain ⟨s1, r1, a1⟩ := at_cons h1
      obtain ⟨s2, r2, a2⟩ := at_cons a1
      obtain ⟨s3, r3, a3⟩ := at_cons a2
      obtain ⟨s4, r4⟩ := ih fuel s3 (si + 2 + 1) (out ++ [c]) a3 (by omega) (by simp; omega) (by omega)
      refine ⟨s4, ?_⟩
      unfold nonAsciiLoop
      have hst : store (length + 1) out c = .ok (out ++ [c]) := by
        rw [store, if_pos (by omega)]
      have g7 := (and80 a).mpr h7
      have g5 := (and20 a).mpr h5
      rw [if_pos (by omega)]
      simp only [readByte, r1, Res.bind, if_pos g7, if_pos g5,
        assert_true debug (decide (si + 2 < length)) (by simp; omega), r2, r3, hth, hst, r4]
      simp

private theorem ascii_round {enc : BitVec 16 → List (BitVec 8)} (good : Good enc)
    (debug : Bool) (length : Nat) (us : List (BitVec 16)) :
    ∀ fuel (s : Stream) si (out : List (BitVec 8)),
    At s (us.flatMap enc) → si + (us.flatMap enc).length = length →
    out.length ≤ si → length < fuel + si →
    ∃ p s', asciiLoop debug length fuel s si out = .ok (p, s') ∧
      units p = out.map (·.signExtend 16) ++ us := by
  induction us with
  | nil =>
    intro fuel s si out h1 h2 h3 h4
    simp at h2
    cases fuel with
    | zero => omega
    | succ fuel => exact ⟨.bytes out, s, by simp [asciiLoop, h2], by simp [units]⟩
  | cons c cs ih =>
    intro fuel s si out h1 h2 h3 h4
    cases fuel with
    | zero => simp at h2; omega
    | succ fuel =>
    rcases good c with ⟨hc, he⟩ | ⟨a, b, he, h7, h5, htwo, hn⟩ | ⟨a, b, d, he, h7, h5, hth⟩
    · rw [List.flatMap_cons, he] at h1 h2
      simp only [List.cons_append, List.nil_append, List.length_cons] at h1 h2
      obtain ⟨f1, _, f3⟩ := low_enc c hc
      obtain ⟨s1, r1, a1⟩ := at_cons h1
      obtain ⟨p, s2, r2, r3⟩ := ih fuel s1 (si + 1) (out ++ [c.setWidth 8]) a1 (by omega)
        (by simp; omega) (by omega)
      refine ⟨p, s2, ?_, by rw [r3]; simp [f3]⟩
      unfold asciiLoop
      have hne : ¬ (c.setWidth 8 &&& 0x80#8 ≠ 0#8) := by rw [and80, f1]; simp
      have hst : store (length + 1) out (c.setWidth 8) = .ok (out ++ [c.setWidth 8]) := by
        rw [store, if_pos (by omega)]
      rw [if_pos (by omega)]
      simp only [r1, Res.bind, if_neg hne, hst, r2]
    · rw [List.flatMap_cons, he] at h1 h2
      simp only [List.cons_append, List.nil_append, List.length_cons] at h1 h2
      obtain ⟨s1, r1, a1⟩ := at_cons h1
      obtain ⟨s2, r2, a2⟩ := at_cons a1
      by_cases hz : a = 0xC0#8 ∧ b = 0x80#8
      · have hc0 := hn hz
        have hst : store (length + 1) out 0#8 = .ok (out ++ [0#8]) := by
          rw [store, if_pos (by omega)]
        obtain ⟨p, s3, r3, r4⟩ := ih fuel s2 (si + 1 + 1) (out ++ [0#8]) a2 (by omega)
          (by simp; omega) (by omega)
        refine ⟨p, s3, ?_, by rw [r4, hc0]; simp⟩
        unfold asciiLoop
        have g7 := (and80 a).mpr h7
        have g5 : ¬ (a &&& 0x20#8 ≠ 0#8) := by rw [and20, h5]; simp
        rw [if_pos (by omega)]
        simp only [r1, Res.bind, if_pos g7, if_neg g5, r2, if_pos hz,
          assert_true debug (decide (si + 1 < length)) (by simp; omega), hst, r3]
      have hn := hz
      have hst : store (length + 1) (out.map (·.signExtend 16)) c
          = .ok (out.map (·.signExtend 16) ++ [c]) := by
        rw [store, if_pos (by simp; omega)]
      obtain ⟨s3, r3⟩ := nonAscii_round good debug length cs length s2 (si + 1 + 1)
        (out.map (·.signExtend 16) ++ [c]) a2 (by omega) (by simp; omega) (by omega)
      refine ⟨.chars (out.map (·.signExtend 16) ++ [c] ++ cs), s3, ?_, by simp [units]⟩
      unfold asciiLoop
      have g7 := (and80 a).mpr h7
      have g5 : ¬ (a &&& 0x20#8 ≠ 0#8) := by rw [and20, h5]; simp
      rw [if_pos (by omega)]
      simp only [r1, Res.bind, if_pos g7, if_neg g5, r2, if_neg hn]
      unfold parseUtf8NonAscii nonAsciiLoop
      rw [if_pos (by omega), if_pos (by omega)]
      simp only [readByte, Res.bind, if_pos g7, if_neg g5,
        assert_true debug (decide (si + 1 < length)) (by simp; omega), htwo, hst, r3]
    · rw [List.flatMap_cons, he] at h1 h2
      simp only [List.cons_append, List.nil_append, List.length_cons] at h1 h2
      obtain ⟨s1, r1, a1⟩ := at_cons h1
      obtain ⟨s2, r2, a2⟩ := at_cons a1
      obtain ⟨s3, r3, a3⟩ := at_cons a2
      have hst : store (length + 1) (out.map (·.signExtend 16)) c
          = .ok (out.map (·.signExtend 16) ++ [c]) := by
        rw [store, if_pos (by simp; omega)]
      obtain ⟨s4, r4⟩ := nonAscii_round good debug length cs length s3 (si + 2 + 1)
        (out.map (·.signExtend 16) ++ [c]) a3 (by omega) (by simp; omega) (by omega)
      refine ⟨.chars (out.map (·.signExtend 16) ++ [c] ++ cs), s4, ?_, by simp [units]⟩
      unfold asciiLoop
      have g7 := (and80 a).mpr h7
      have g5 := (and20 a).mpr h5
      rw [if_pos (by omega)]
      simp only [r1, Res.bind, if_pos g7, if_pos g5]
      unfold parseUtf8NonAscii nonAsciiLoop
      rw [if_pos (by omega), if_pos (by omega)]
      simp only [readByte, Res.bind, if_pos g7, if_pos g5,
        assert_true debug (decide (si + 2 < length)) (by simp; omega), r2, r3, hth, hst, r4]

/-- C11: encoding any sequence of 16-bit units and parsing the bytes gives the same sequence, in
release and debug builds. -/
theorem utf8_round_trip (debug : Bool) (us : List (BitVec 16))
    (h : (stringUTFChars (.chars us)).length < 2 ^ 32) :
    ∃ p, parseBytes debug (stringUTFChars (.chars us)) = .ok p ∧ units p = us := by
  have good : Good encodeUnit := fun c => by
    rcases encode_cases c with h | ⟨_, a, b, h1, h2, h3, h4, h5⟩ | h
    · exact Or.inl h
    · exact Or.inr (Or.inl ⟨a, b, h1, h2, h3, h4, fun h => absurd h h5⟩)
    · exact Or.inr (Or.inr h)
  obtain ⟨p, s', h1, h2⟩ := ascii_round good debug (us.flatMap encodeUnit).length us
    ((us.flatMap encodeUnit).length + 1) (Stream.new (us.flatMap encodeUnit)) 0 []
    (At_new _ h) (by omega) (by simp) (by omega)
  exact ⟨p, by simp only [parseBytes, parseUtf8, stringUTFChars, h1, Res.bind], by simpa using h2⟩

/-- A NUL, an ASCII letter, a two byte unit, a three byte unit and a lone surrogate. -/
example : ∃ p, parseBytes true (stringUTFChars (.chars [0#16, 0x41#16, 0xE9#16, 0x20AC#16, 0xD800#16]))
    = .ok p ∧ units p = [0#16, 0x41#16, 0xE9#16, 0x20AC#16, 0xD800#16] :=
  utf8_round_trip true _ (by decide)

/-- The form of a unit in a class file (JVM specification 4.4.7): a NUL takes two bytes. -/
def classFileUnit (c : BitVec 16) : List (BitVec 8) :=
  if c.toNat = 0 then [0xC0#8, 0x80#8]
  else if c.toNat < 0x80 then [BitVec.ofNat 8 c.toNat]
  else if c.toNat < 0x800 then
    [BitVec.ofNat 8 (0xC0 + c.toNat / 64), BitVec.ofNat 8 (0x80 + c.toNat % 64)]
  else [BitVec.ofNat 8 (0xE0 + c.toNat / 4096), BitVec.ofNat 8 (0x80 + c.toNat / 64 % 64),
    BitVec.ofNat 8 (0x80 + c.toNat % 64)]

private theorem or_c0 (x : Nat) (h : x < 32) : 0xc0 ||| x = 0xc0 + x :=
  (Nat.two_pow_add_eq_or_of_lt (i := 6) (by omega) 3).symm

private theorem or_80 (x : Nat) (h : x < 64) : 0x80 ||| x = 0x80 + x :=
  (Nat.two_pow_add_eq_or_of_lt (i := 7) (by omega) 1).symm

private theorem or_e0 (x : Nat) (h : x < 16) : 0xe0 ||| x = 0xe0 + x :=
  (Nat.two_pow_add_eq_or_of_lt (i := 5) (by omega) 7).symm

private theorem classFileUnit_eq (c : BitVec 16) (h : c ≠ 0#16) :
    classFileUnit c = encodeUnit c := by
  have hc := c.isLt
  have h0 : c.toNat ≠ 0 := fun e => h (BitVec.eq_of_toNat_eq (by simpa using e))
  unfold classFileUnit encodeUnit
  rw [if_neg h0, if_neg h]
  simp only [BitVec.lt_def, BitVec.toNat_ofNat]
  rw [show 128 % 2 ^ 16 = 0x80 from rfl, show 2048 % 2 ^ 16 = 0x800 from rfl]
  split
  · simp only [List.cons.injEq, and_true]
    apply BitVec.eq_of_toNat_eq; simp
  · split
    · simp only [List.cons.injEq, and_true]
      constructor <;> apply BitVec.eq_of_toNat_eq
      · simp only [BitVec.toNat_ofNat, BitVec.toNat_setWidth, BitVec.toNat_or,
          BitVec.toNat_ushiftRight, Nat.shiftRight_eq_div_pow]
        rw [Nat.mod_eq_of_lt (by omega : c.toNat < 2 ^ 32)]
        rw [show 192 % 2 ^ 32 = 0xc0 from rfl, show (2 ^ 6 : Nat) = 64 from rfl, or_c0 _ (by omega)]
      · simp only [BitVec.toNat_ofNat, BitVec.toNat_setWidth, BitVec.toNat_or, BitVec.toNat_and]
        rw [Nat.mod_eq_of_lt (by omega : c.toNat < 2 ^ 32), show 63 % 2 ^ 32 = 2 ^ 6 - 1 from rfl,
          Nat.and_two_pow_sub_one_eq_mod]
        rw [show 128 % 2 ^ 32 = 0x80 from rfl, show (2 ^ 6 : Nat) = 64 from rfl, or_80 _ (by omega)]
    · simp only [List.cons.injEq, and_true]
      refine ⟨?_, ?_, ?_⟩ <;> apply BitVec.eq_of_toNat_eq
      · simp only [BitVec.toNat_ofNat, BitVec.toNat_setWidth, BitVec.toNat_or, BitVec.toNat_and,
          BitVec.toNat_ushiftRight, Nat.shiftRight_eq_div_pow]
        rw [Nat.mod_eq_of_lt (by omega : c.toNat < 2 ^ 32), show 15 % 2 ^ 32 = 2 ^ 4 - 1 from rfl,
          Nat.and_two_pow_sub_one_eq_mod, show 224 % 2 ^ 32 = 0xe0 from rfl,
          show (2 ^ 12 : Nat) = 4096 from rfl, or_e0 _ (by omega)]
        rw [Nat.mod_eq_of_lt (by omega : c.toNat / 4096 < 2 ^ 4)]
      · simp only [BitVec.toNat_ofNat, BitVec.toNat_setWidth, BitVec.toNat_or, BitVec.toNat_and,
          BitVec.toNat_ushiftRight, Nat.shiftRight_eq_div_pow]
        rw [Nat.mod_eq_of_lt (by omega : c.toNat < 2 ^ 32), show 63 % 2 ^ 32 = 2 ^ 6 - 1 from rfl,
          Nat.and_two_pow_sub_one_eq_mod]
        rw [show 128 % 2 ^ 32 = 0x80 from rfl, show (2 ^ 6 : Nat) = 64 from rfl, or_80 _ (by omega)]
      · simp only [BitVec.toNat_ofNat, BitVec.toNat_setWidth, BitVec.toNat_or, BitVec.toNat_and]
        rw [Nat.mod_eq_of_lt (by omega : c.toNat < 2 ^ 32), show 63 % 2 ^ 32 = 2 ^ 6 - 1 from rfl,
          Nat.and_two_pow_sub_one_eq_mod]
        rw [show 128 % 2 ^ 32 = 0x80 from rfl, show (2 ^ 6 : Nat) = 64 from rfl, or_80 _ (by omega)]

private theorem good_classFile : Good classFileUnit := fun c => by
  by_cases h : c = 0#16
  · subst h
    exact Or.inr (Or.inl ⟨0xC0#8, 0x80#8, rfl, by decide, by decide, by decide, fun _ => rfl⟩)
  · rw [classFileUnit_eq c h]
    rcases encode_cases c with h | ⟨_, a, b, h1, h2, h3, h4, h5⟩ | h
    · exact Or.inl h
    · exact Or.inr (Or.inl ⟨a, b, h1, h2, h3, h4, fun h => absurd h h5⟩)
    · exact Or.inr (Or.inr h)

/-- C11: the text of a string constant, written as class files write it, is parsed back unit for
unit (both entry points, release and debug builds). -/
theorem class_file_text (debug : Bool) (us : List (BitVec 16))
    (h : (us.flatMap classFileUnit).length < 2 ^ 32) :
    ∃ p, parseArray debug (us.flatMap classFileUnit) = .ok p ∧ units p = us := by
  obtain ⟨p, s', h1, h2⟩ := ascii_round good_classFile debug (us.flatMap classFileUnit).length us
    ((us.flatMap classFileUnit).length + 1) (Stream.new (us.flatMap classFileUnit)) 0 []
    (At_new _ h) (by omega) (by simp) (by omega)
  have hb : parseBytes debug (us.flatMap classFileUnit) = .ok p := by
    simp only [parseBytes, parseUtf8, h1, Res.bind]
  unfold parseArray
  split
  · exact ⟨p, hb, by simpa using h2⟩
  · rename_i hany
    refine ⟨_, rfl, ?_⟩
    have hlow : ∀ b ∈ us.flatMap classFileUnit, b.getLsbD 7 = false := by
      intro b hb
      by_cases hb7 : b.getLsbD 7 = true
      · exact absurd (List.any_eq_true.2 ⟨b, hb, by simpa using (and80 b).2 hb7⟩) hany
      · simpa using hb7
    clear h1 h2 hb hany h
    induction us with
    | nil => rfl
    | cons c cs ih =>
      rw [List.flatMap_cons] at hlow ⊢
      have ih := ih (fun b hb => hlow b (List.mem_append_right _ hb))
      rcases good_classFile c with ⟨hc, he⟩ | ⟨a, b, he, h7, _⟩ | ⟨a, b, d, he, h7, _⟩
      · rw [he]
        simp only [units, List.map_append, List.map_cons, List.map_nil] at ih ⊢
        rw [ih, (low_enc c hc).2.2]; rfl
      · exact absurd (h7.symm.trans (hlow a (by rw [he]; simp))) (by decide)
      · exact absurd (h7.symm.trans (hlow a (by rw [he]; simp))) (by decide)

example : ∃ p, parseArray true ([0#16, 0x41#16, 0xE9#16, 0x20AC#16, 0xD800#16].flatMap classFileUnit)
    = .ok p ∧ units p = [0#16, 0x41#16, 0xE9#16, 0x20AC#16, 0xD800#16] :=
  class_file_text true _ (by decide)

private theorem encodeUnit_length (c : BitVec 16) : (encodeUnit c).length = unitLength c := by
  unfold encodeUnit unitLength
  split
  · rfl
  · split
    · rfl
    · split <;> rfl

/-- C11: the announced length is the number of bytes written, for both storage forms. -/
theorem utf_length_exact (p : Parsed) : (stringUTFChars p).length = stringUTFLength p := by
  cases p with
  | bytes l => rfl
  | chars l =>
    simp only [stringUTFChars, stringUTFLength]
    induction l with
    | nil => rfl
    | cons c cs ih => rw [List.flatMap_cons, List.length_append, ih, encodeUnit_length]; rfl

example : (stringUTFChars (.chars [0x41#16, 0xE9#16, 0x20AC#16])).length = 6 := by decide

/-- C11: pure ASCII bytes become one unit per byte, whichever parser entry point is used. -/
theorem ascii_parse (debug : Bool) (l : List (BitVec 8)) (h : l.length < 2 ^ 32)
    (ha : ∀ b ∈ l, b.toNat < 0x80) :
    ∃ p, parseBytes debug l = .ok p ∧ units p = l.map (·.setWidth 16) ∧
      parseArray debug l = .ok (.bytes l) ∧ units (.bytes l) = l.map (·.setWidth 16) := by
  have hm : ∀ b ∈ l, b.msb = false := by
    intro b hb
    have := ha b hb
    rw [BitVec.msb_eq_decide]; simp; omega
  have he : (l.map (·.setWidth 16)).flatMap encodeUnit = l := by
    clear h hm
    induction l with
    | nil => rfl
    | cons b t ih =>
      rw [List.map_cons, List.flatMap_cons, ih (fun b hb => ha b (by simp [hb]))]
      have hb := ha b (by simp)
      have hback : (b.setWidth 16).setWidth 8 = b := by
        apply BitVec.eq_of_toNat_eq; simp
      rcases encode_cases (b.setWidth 16) with ⟨_, he⟩ | ⟨hc, _⟩ | ⟨a, b', d, he, _⟩
      · rw [he, hback]; rfl
      · simp at hc; omega
      · exfalso
        unfold encodeUnit at he
        have : b.setWidth 16 < 0x80#16 := by simp [BitVec.lt_def]; omega
        split at he
        · simp at he
        · simp at he
  have hu : units (.bytes l) = l.map (·.setWidth 16) := by
    simp only [units]
    exact List.map_congr_left
      (fun b hb => BitVec.signExtend_eq_setWidth_of_msb_false (hm b hb))
  obtain ⟨p, h1, h2⟩ := utf8_round_trip debug (l.map (·.setWidth 16))
    (by simp only [stringUTFChars, he]; exact h)
  refine ⟨p, by simpa only [stringUTFChars, he] using h1, h2, ?_, hu⟩
  have : l.any (fun b => b &&& 0x80#8 ≠ 0#8) = false := by
    rw [List.any_eq_false]
    intro b hb
    have := hm b hb
    rw [BitVec.msb_eq_getLsbD_last] at this
    simp only [decide_eq_true_eq]
    rw [and80]
    simpa using this
  simp only [parseArray, this, Bool.false_eq_true, if_false]

example : parseArray true [0x68#8, 0x69#8] = .ok (.bytes [0x68#8, 0x69#8]) := rfl

/-- C11 (violation outside the VM's own invariant): a string stored as bytes with a byte above 127
is written unchanged, and reading it back gives something else. -/
theorem latin1_bytes_do_not_round_trip :
    ∃ p, parseBytes false (stringUTFChars (.bytes [0xE9#8, 0x41#8])) = .ok p ∧
      units p ≠ units (.bytes [0xE9#8, 0x41#8]) := ⟨_, rfl, by decide⟩

/-! ### The parser only makes ASCII byte strings -/

private theorem parseNonAscii_chars (debug : Bool) (s : Stream) (out : List (BitVec 8)) (length si : Nat)
    (byteA byteB : Option (BitVec 8)) (p : Parsed) (s' : Stream)
    (h : parseUtf8NonAscii debug s out length si byteA byteB = .ok (p, s')) :
    ∃ l, p = .chars l := by
  unfold parseUtf8NonAscii at h
  split at h
  · generalize nonAsciiLoop debug length (length + 1) s byteA byteB si _ = z at h
    cases z with
    | ok v => simp only [Res.bind, Res.ok.injEq, Prod.mk.injEq] at h; exact ⟨v.1, h.1.symm⟩
    | assertFail => cases h
    | ub => cases h
  · cases h

private theorem asciiLoop_ascii (debug : Bool) (length : Nat) : ∀ fuel (s : Stream) si
    (out : List (BitVec 8)) (l : List (BitVec 8)) (s' : Stream), (∀ b ∈ out, b.toNat < 0x80) →
    asciiLoop debug length fuel s si out = .ok (.bytes l, s') → ∀ b ∈ l, b.toNat < 0x80 := by
  intro fuel
  induction fuel with
  | zero => intro s si out l s' _ h; cases h
  | succ fuel ih =>
    intro s si out l s' ho h
    have hlow : ∀ a : BitVec 8, ¬ (a &&& 0x80#8 ≠ 0#8) → a.toNat < 0x80 := by decide
    unfold asciiLoop at h
    split at h
    · cases h1 : read1 s with
      | assertFail => simp only [h1, Res.bind] at h; cases h
      | ub => simp only [h1, Res.bind] at h; cases h
      | ok v =>
        obtain ⟨a, s1⟩ := v
        simp only [h1, Res.bind] at h
        split at h
        · split at h
          · obtain ⟨l', hl⟩ := parseNonAscii_chars _ _ _ _ _ _ _ _ _ h
            cases hl
          · cases h2 : read1 s1 with
            | assertFail => simp only [h2] at h; cases h
            | ub => simp only [h2] at h; cases h
            | ok v =>
              obtain ⟨b, s2⟩ := v
              simp only [h2] at h
              split at h
              · cases h3 : assertT debug (decide (si + 1 < length)) with
                | assertFail => simp only [h3] at h; cases h
                | ub => simp only [h3] at h; cases h
                | ok u =>
                  cases h4 : store (length + 1) out 0#8 with
                  | assertFail => simp only [h3, h4] at h; cases h
                  | ub => simp only [h3, h4] at h; cases h
                  | ok o =>
                    simp only [h3, h4] at h
                    refine ih s2 _ o l s' ?_ h
                    unfold store at h4
                    split at h4
                    · cases h4
                      intro x hx
                      rcases List.mem_append.mp hx with hx | hx
                      · exact ho x hx
                      · simp at hx; subst hx; decide
                    · cases h4
              · obtain ⟨l', hl⟩ := parseNonAscii_chars _ _ _ _ _ _ _ _ _ h
                cases hl
        · next ha =>
          cases h4 : store (length + 1) out a with
          | assertFail => simp only [h4] at h; cases h
          | ub => simp only [h4] at h; cases h
          | ok o =>
            simp only [h4] at h
            refine ih s1 _ o l s' ?_ h
            unfold store at h4
            split at h4
            · cases h4
              intro x hx
              rcases List.mem_append.mp hx with hx | hx
              · exact ho x hx
              · simp at hx; subst hx; exact hlow _ ha
            · cases h4
    · simp only [Res.ok.injEq, Prod.mk.injEq, Parsed.bytes.injEq] at h
      rw [← h.1]; exact ho

/-- A byte string made by the parser holds only bytes below 128; this is the invariant that the
hash and equality theorems need. -/
theorem parse_bytes_ascii (debug : Bool) (data l : List (BitVec 8))
    (h : parseArray debug data = .ok (.bytes l)) : ∀ b ∈ l, b.toNat < 0x80 := by
  unfold parseArray at h
  split at h
  · unfold parseBytes at h
    cases hp : parseUtf8 debug (Stream.new data) data.length with
    | assertFail => rw [hp] at h; cases h
    | ub => rw [hp] at h; cases h
    | ok v =>
      obtain ⟨p, s⟩ := v
      rw [hp] at h
      simp only [Res.bind, Res.ok.injEq] at h
      subst h
      exact asciiLoop_ascii debug _ _ _ _ _ _ _ (by simp) hp
  · next hn =>
    cases h
    intro b hb
    have hlow : ∀ a : BitVec 8, ¬ (a &&& 0x80#8 ≠ 0#8) → a.toNat < 0x80 := by decide
    simp only [List.any_eq_true, not_exists, not_and, decide_eq_true_eq] at hn
    exact hlow b (hn b hb)

example : parseArray false [0xC0#8, 0x80#8, 0x41#8] = .ok (.bytes [0#8, 0x41#8]) := rfl

/-! ### C13 -/

private theorem unitsEqual_iff : ∀ (a b : List (BitVec 16)), a.length = b.length →
    (unitsEqual a b = true ↔ a = b) := by
  intro a
  induction a with
  | nil => intro b h; cases b <;> simp_all [unitsEqual]
  | cons x t ih =>
    intro b h
    cases b with
    | nil => simp at h
    | cons y t' =>
      simp only [unitsEqual]
      split
      · next hne => simp [hne]
      · next he =>
        rw [ih t' (by simpa using h)]
        simp only [ne_eq, Decidable.not_not] at he
        simp [he]

/-- C13: `stringEqual` decides equality of the character sequences. -/
theorem stringEqual_iff (a b : Parsed) : stringEqual a b = true ↔ units a = units b := by
  unfold stringEqual
  split
  · next h => exact unitsEqual_iff _ _ h
  · next h =>
    constructor
    · intro h; cases h
    · intro he; exact absurd (congrArg List.length he) h

/-- The storage invariant: a byte string holds only bytes below 128. -/
def Ascii : Parsed → Prop
  | .bytes l => ∀ b ∈ l, b.toNat < 0x80
  | .chars _ => True

private theorem hash8_16 (l : List (BitVec 8)) : ∀ h, (∀ b ∈ l, b.toNat < 0x80) →
    hash8 h l = hash16 h (l.map (·.signExtend 16)) := by
  induction l with
  | nil => intro h _; rfl
  | cons b t ih =>
    intro h hb
    have hm : b.msb = false := by
      have := hb b (by simp)
      rw [BitVec.msb_eq_decide]; simp; omega
    have : (b.signExtend 16).setWidth 32 = b.setWidth 32 := by
      rw [BitVec.signExtend_eq_setWidth_of_msb_false hm]
      apply BitVec.eq_of_toNat_eq
      have := b.isLt
      simp
    simp only [hash8, hash16, List.map_cons, this]
    exact ih _ (fun b hb' => hb b (by simp [hb']))

private theorem stringHash_units (s : Parsed) (h : Ascii s) :
    stringHash 0#32 s = hash16 0#32 (units s) := by
  cases s with
  | bytes l =>
    simp only [stringHash, units]
    split
    · exact hash8_16 l 0#32 h
    · next hn => cases l with
      | nil => rfl
      | cons b t => simp at hn
  | chars l =>
    simp only [stringHash, units]
    split
    · rfl
    · next hn => cases l with
      | nil => rfl
      | cons b t => simp at hn

/-- A cached hash value is zero (not computed) or the computed value. -/
def CacheOk (s : Parsed) (cached : BitVec 32) : Prop :=
  cached = 0#32 ∨ cached = stringHash 0#32 s

private theorem cached_hash {s : Parsed} {cached : BitVec 32} (h : CacheOk s cached) :
    stringHash cached s = stringHash 0#32 s := by
  rcases h with rfl | rfl
  · rfl
  · cases s with
    | bytes l => by_cases hl : l = [] <;> simp [stringHash, hl]
    | chars l => by_cases hl : l = [] <;> simp [stringHash, hl]

/-- C13: strings whose byte form holds only ASCII (all strings made by the UTF-8 parser, see
`parse_bytes_ascii`) and that compare equal have the same hash, whatever their storage forms and
whether or not the hash was cached before.  Missing for the full property: byte strings with bytes
above 127, where it is false (next theorem). -/
theorem equal_strings_equal_hash_partial (a b : Parsed) (ca cb : BitVec 32) (ha : Ascii a)
    (hb : Ascii b) (hca : CacheOk a ca) (hcb : CacheOk b cb) (h : stringEqual a b = true) :
    stringHash ca a = stringHash cb b := by
  rw [cached_hash hca, cached_hash hcb, stringHash_units a ha, stringHash_units b hb,
    (stringEqual_iff a b).mp h]

example : stringHash 0#32 (.bytes [0x68#8, 0x69#8]) = stringHash 0#32 (.chars [0x68#16, 0x69#16]) :=
  equal_strings_equal_hash_partial _ _ _ _ (by show ∀ b ∈ [0x68#8, 0x69#8], b.toNat < 0x80; decide)
    (by trivial) (Or.inl rfl) (Or.inl rfl)
    (by decide)

/-- C13 (violation): a byte string holding 0x80 equals the char string holding 0xFF80, but the two
hashes differ. -/
theorem equal_strings_different_hash :
    stringEqual (.bytes [0x80#8]) (.chars [0xFF80#16]) = true ∧
    stringHash 0#32 (.bytes [0x80#8]) ≠ stringHash 0#32 (.chars [0xFF80#16]) := by decide

/-- C13: with the same storage form the hash is a function of the characters even for bytes above
127. -/
theorem same_form_equal_hash (l l' : List (BitVec 8))
    (h : stringEqual (.bytes l) (.bytes l') = true) :
    stringHash 0#32 (.bytes l) = stringHash 0#32 (.bytes l') := by
  rw [stringEqual_iff] at h
  simp only [units] at h
  have : l = l' := by
    refine (List.map_inj_right ?_).mp h
    intro a b hab
    have : (a.signExtend 16).toInt = (b.signExtend 16).toInt := by rw [hab]
    rw [BitVec.toInt_signExtend_of_le (by omega), BitVec.toInt_signExtend_of_le (by omega)] at this
    exact BitVec.eq_of_toInt_eq this
  rw [this]

example : stringEqual (.bytes [0xE9#8]) (.bytes [0xE9#8]) = true := by decide

end Avian.Utf8
