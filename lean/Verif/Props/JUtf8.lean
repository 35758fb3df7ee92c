import Verif.Lib.Strings

/-
Property C58: strings survive the conversion to bytes and back in the class library.
-/
namespace Avian.JUtf8

/-! ### Arithmetic of the parts of a character -/

private theorem and63 (x : Nat) : x &&& 0x3F = x % 64 := Nat.and_two_pow_sub_one_eq_mod x 6
private theorem and15 (x : Nat) : x &&& 0x0F = x % 16 := Nat.and_two_pow_sub_one_eq_mod x 4

private theorem lead2 : ∀ a < 32, (0xC0 ||| a) % 256 &&& 0x80 ≠ 0 ∧ (0xC0 ||| a) % 256 &&& 0xE0 = 0xC0 ∧
    (0xC0 ||| a) % 256 &&& 0x1F = a := by decide
private theorem lead3 : ∀ a < 16, (0xE0 ||| a) % 256 &&& 0x80 ≠ 0 ∧ (0xE0 ||| a) % 256 &&& 0xE0 ≠ 0xC0 ∧
    (0xE0 ||| a) % 256 &&& 0xF0 = 0xE0 ∧ (0xE0 ||| a) % 256 &&& 0xF = a := by decide
private theorem cont : ∀ b < 64, (0x80 ||| b) % 256 &&& 0x3F = b := by decide
private theorem ascii : ∀ c < 128, c &&& 0x80 = 0 := by decide

private theorem join2 (c : Nat) : ((c / 64) <<< 6 ||| c % 64) = c := by
  rw [← Nat.shiftLeft_add_eq_or_of_lt (by omega), Nat.shiftLeft_eq]; omega

private theorem join3 (c : Nat) : ((c / 4096) <<< 12 ||| (c / 64 % 64) <<< 6 ||| c % 64) = c := by
  have e : (c / 4096) <<< 12 ||| (c / 64 % 64) <<< 6 = (c / 64) <<< 6 := by
    rw [← Nat.shiftLeft_add_eq_or_of_lt (by rw [Nat.shiftLeft_eq]; omega)]
    rw [Nat.shiftLeft_eq, Nat.shiftLeft_eq, Nat.shiftLeft_eq]; omega
  rw [e, join2]

private theorem encodeChar_length (c : Nat) : 1 ≤ (encodeChar c).length ∧
    (c = 0 ∨ 128 ≤ c → 2 ≤ (encodeChar c).length) ∧ (0x800 ≤ c → 3 ≤ (encodeChar c).length) ∧
    (c ≠ 0 → c < 128 → (encodeChar c).length = 1) := by
  unfold encodeChar
  split
  · simp; omega
  · split
    · simp; omega
    · split
      · simp; omega
      · simp; omega

private theorem encode_length (l : List Nat) : l.length ≤ (encode l).length := by
  induction l with
  | nil => simp [encode]
  | cons c l ih =>
    have := (encodeChar_length c).1
    simp only [encode, List.flatMap_cons, List.length_append, List.length_cons] at *
    omega

private theorem encode_cons (c : Nat) (l : List Nat) : encode (c :: l) = encodeChar c ++ encode l := by
  simp [encode]

private theorem encode_nonzero (l : List Nat) (h : ∀ c ∈ l, c ≠ 0 ∧ c < 128) :
    (encode l).length = l.length := by
  induction l with
  | nil => rfl
  | cons c l ih =>
    have := h c (List.mem_cons_self ..)
    rw [encode_cons, List.length_append, ih (fun x hx => h x (List.mem_cons_of_mem _ hx)),
      (encodeChar_length c).2.2.2 this.1 this.2, List.length_cons]
    omega

/-! ### The loop -/

private theorem set_next (done : List Nat) (k v : Nat) (hk : 0 < k) :
    (done ++ List.replicate k 0).set done.length v = (done ++ [v]) ++ List.replicate (k - 1) 0 := by
  obtain ⟨k, rfl⟩ : ∃ j, k = j + 1 := ⟨k - 1, by omega⟩
  rw [List.replicate_succ]
  simp

/-- `done` are the characters read so far. -/
private def Inv (done : List Nat) (k : Nat) (b : Buf) : Prop :=
  b.data = done ++ List.replicate k 0 ∧ (b.wide = false → ∀ x ∈ done, x < 128)

private theorem cram_inv {done : List Nat} {k : Nat} {b : Buf} (h : Inv done k b) (hk : 0 < k) (v : Nat)
    (hv : v < 65536) (hn : b.wide = false → v < 128) :
    ∃ b', cram b done.length v = .ok b' ∧ b'.wide = b.wide ∧ Inv (done ++ [v]) (k - 1) b' := by
  refine ⟨{ b with data := (done ++ [v]) ++ List.replicate (k - 1) 0 }, ?_, rfl, rfl, ?_⟩
  · unfold cram
    rw [if_pos (by rw [h.1]; simp; omega)]
    congr 2
    have : (if b.wide = true then v % 65536 else v % 256) = v := by
      split
      · omega
      · rename_i hw
        have := hn (by simpa using hw)
        omega
    rw [this, h.1, set_next _ _ _ hk]
  · intro hw x hx
    rcases List.mem_append.1 hx with hx | hx
    · exact h.2 hw x hx
    · rw [List.mem_singleton.1 hx]; exact hn hw

private theorem widenOnce_inv {done : List Nat} {k : Nat} {b : Buf} (h : Inv done k b) (cap : Nat)
    (hc : b.wide = false → done.length < cap) (hk : 0 < k) :
    ∃ b' k', widenOnce b done.length cap = .ok b' ∧ b'.wide = true ∧ Inv done k' b' ∧
      k' = if b.wide then k else cap - done.length := by
  unfold widenOnce
  cases hw : b.wide with
  | true => exact ⟨b, k, by simp, hw, h, by simp⟩
  | false =>
    have := hc hw
    refine ⟨⟨true, done ++ List.replicate (cap - done.length) 0⟩, cap - done.length, ?_, rfl,
      ⟨rfl, by simp⟩, by simp⟩
    simp only [Bool.false_eq_true, if_false, widen]
    rw [if_pos ⟨by omega, by rw [h.1]; simp⟩, h.1]
    simp

private theorem decodeLoop_encode (len : Nat) : ∀ (rest done : List Nat) (b : Buf) (k : Nat),
    (∀ c ∈ rest, c < 65536) → Inv done k b → rest.length ≤ k →
    (b.wide = false → done.length + (encode rest).length ≤ len ∧ done.length + k = len) →
    ∃ b', decodeLoop len (encode rest) b done.length = .ok b' ∧
      (b'.wide = true ↔ b.wide = true ∨ ∃ c ∈ rest, 128 ≤ c) ∧
      (b'.wide = true → b'.data = done ++ rest) ∧
      (b'.wide = false → b'.data = done ++ rest ++ List.replicate (len - (done ++ rest).length) 0) := by
  intro rest
  induction rest with
  | nil =>
    intro done b k _ h _ hlen
    refine ⟨trim b done.length, rfl, ?_, ?_, ?_⟩
    · unfold trim; split <;> simp_all
    · unfold trim
      split
      · intro _; rw [h.1]; simp
      · intro hw; simp_all
    · unfold trim
      split
      · intro hw; simp_all
      · intro hw
        rw [h.1]
        have := hlen hw
        simp only [List.append_nil]
        congr 2; omega
  | cons c rest ih =>
    intro done b k hc h hk hlen
    have hc0 := hc c (List.mem_cons_self ..)
    have hcr : ∀ x ∈ rest, x < 65536 := fun x hx => hc x (List.mem_cons_of_mem _ hx)
    rw [List.length_cons] at hk
    rw [encode_cons]
    have hl := encodeChar_length c
    rw [encode_cons, List.length_append] at hlen
    -- one character that fits in a byte
    have small : c < 128 → ∃ b', ((cram b done.length c).bind fun b =>
        decodeLoop len (encode rest) b (done.length + 1)) = .ok b' ∧
        (b'.wide = true ↔ b.wide = true ∨ ∃ x ∈ c :: rest, 128 ≤ x) ∧
        (b'.wide = true → b'.data = done ++ c :: rest) ∧
        (b'.wide = false →
          b'.data = done ++ c :: rest ++ List.replicate (len - (done ++ c :: rest).length) 0) := by
      intro hc1
      obtain ⟨b1, e1, w1, i1⟩ := cram_inv h (by omega) c hc0 (fun _ => hc1)
      have := ih (done ++ [c]) b1 (k - 1) hcr i1 (by omega) (by
        rw [w1]; intro hw; have := hlen hw; simp only [List.length_append, List.length_singleton]; omega)
      obtain ⟨b', e2, p1, p2, p3⟩ := this
      refine ⟨b', ?_, ?_, ?_, ?_⟩
      · rw [e1]
        simp only [List.length_append, List.length_singleton] at e2
        exact e2
      · rw [p1, w1]
        constructor
        · rintro (hw | ⟨x, hx, hx2⟩)
          · exact Or.inl hw
          · exact Or.inr ⟨x, List.mem_cons_of_mem _ hx, hx2⟩
        · rintro (hw | ⟨x, hx, hx2⟩)
          · exact Or.inl hw
          · rcases List.mem_cons.1 hx with rfl | hx
            · omega
            · exact Or.inr ⟨x, hx, hx2⟩
      · intro hw; rw [p2 hw]; simp
      · intro hw; rw [p3 hw]; simp
    -- one that does not
    have large : ∀ cap, 128 ≤ c → (b.wide = false → cap + (encodeChar c).length = len + 1) →
        ∃ b', ((widenOnce b done.length cap).bind fun b => (cram b done.length c).bind fun b =>
        decodeLoop len (encode rest) b (done.length + 1)) = .ok b' ∧
        (b'.wide = true ↔ b.wide = true ∨ ∃ x ∈ c :: rest, 128 ≤ x) ∧
        (b'.wide = true → b'.data = done ++ c :: rest) ∧
        (b'.wide = false →
          b'.data = done ++ c :: rest ++ List.replicate (len - (done ++ c :: rest).length) 0) := by
      intro cap hc1 hcap
      have hel := encode_length rest
      obtain ⟨b0, k', e0, w0, i0, hk'⟩ := widenOnce_inv h cap (by
        intro hw; have := hlen hw; have := hcap hw; omega) (by omega)
      have hk2 : rest.length + 1 ≤ k' := by
        rw [hk']
        split
        · omega
        · rename_i hw
          have hw : b.wide = false := by simpa using hw
          have := hlen hw; have := hcap hw; omega
      obtain ⟨b1, e1, w1, i1⟩ := cram_inv i0 (by omega) c hc0 (by rw [w0]; simp)
      obtain ⟨b', e2, p1, p2, p3⟩ := ih (done ++ [c]) b1 (k' - 1) hcr i1 (by omega) (by
        rw [w1, w0]; simp)
      have hw' : b'.wide = true := p1.2 (Or.inl (by rw [w1, w0]))
      refine ⟨b', ?_, ?_, ?_, ?_⟩
      · rw [e0]
        simp only [List.length_append, List.length_singleton] at e2
        show ((cram b0 done.length c).bind _) = _
        rw [e1]
        exact e2
      · exact ⟨fun _ => Or.inr ⟨c, List.mem_cons_self .., hc1⟩, fun _ => hw'⟩
      · intro hw; rw [p2 hw]; simp
      · intro hw; rw [hw'] at hw; exact absurd hw (by simp)
    have e6 : c >>> 6 = c / 64 := Nat.shiftRight_eq_div_pow c 6
    have e12 : c >>> 12 = c / 4096 := Nat.shiftRight_eq_div_pow c 12
    by_cases h0 : c = 0
    · subst h0
      have := small (by omega)
      rw [show encodeChar 0 = [0, 0] from rfl, List.cons_append, List.cons_append, List.nil_append,
        decodeLoop.eq_def]
      exact this
    · by_cases h1 : c < 128
      · have e : encodeChar c = [c] := by
          unfold encodeChar
          rw [if_neg h0, if_pos h1, Nat.mod_eq_of_lt (by omega)]
        rw [e, List.cons_append, List.nil_append, decodeLoop.eq_def]
        simp only
        rw [if_pos (ascii c h1), if_neg h0]
        exact small h1
      · by_cases h2 : c < 0x800
        · have e : encodeChar c = [(0xC0 ||| c / 64) % 256, (0x80 ||| c % 64) % 256] := by
            unfold encodeChar
            rw [if_neg h0, if_neg h1, if_pos h2, and63, e6]
          have big := large (len - 1) (by omega) (by
            intro hw
            have := hlen hw
            have : (encodeChar c).length = 2 := by rw [e]; rfl
            omega)
          rw [e, List.cons_append, List.cons_append, List.nil_append, decodeLoop]
          obtain ⟨l1, l2, l3⟩ := lead2 (c / 64) (by omega)
          rw [if_neg l1, if_pos l2]
          rw [l3, cont _ (Nat.mod_lt _ (by omega)), join2]
          exact big
        · have e : encodeChar c = [(0xE0 ||| c / 4096) % 256, (0x80 ||| c / 64 % 64) % 256,
              (0x80 ||| c % 64) % 256] := by
            unfold encodeChar
            rw [if_neg h0, if_neg h1, if_neg h2, and63, and63, and15, e6, e12,
              Nat.mod_eq_of_lt (show c / 4096 < 16 by omega)]
          have big := large (len - 2) (by omega) (by
            intro hw
            have := hlen hw
            have : (encodeChar c).length = 3 := by rw [e]; rfl
            omega)
          rw [e, List.cons_append, List.cons_append, List.cons_append, List.nil_append, decodeLoop]
          obtain ⟨l1, l2, l3, l4⟩ := lead3 (c / 4096) (by omega)
          rw [if_neg l1, if_neg l2, if_pos l3]
          simp only
          rw [l4, cont _ (Nat.mod_lt _ (by omega)), cont _ (Nat.mod_lt _ (by omega)), join3]
          exact big

/-- C58: decoding what was encoded gives the characters, if none of them is zero or one of them is
above 127. -/
theorem decode_encode (s : List Nat) (hs : ∀ c ∈ s, c < 65536) (h : 0 ∉ s ∨ ∃ c ∈ s, 128 ≤ c) :
    ∃ b, decode (encode s) = .ok b ∧ b.data = s ∧ (b.wide = true ↔ ∃ c ∈ s, 128 ≤ c) := by
  have hinv : Inv [] (encode s).length ⟨false, List.replicate (encode s).length 0⟩ := ⟨rfl, by simp⟩
  obtain ⟨b, e, p1, p2, p3⟩ := decodeLoop_encode (encode s).length s [] _ _ hs hinv (encode_length s)
    (fun _ => by simp)
  refine ⟨b, e, ?_, by simpa using p1⟩
  by_cases hw : b.wide = true
  · simpa using p2 hw
  · have hw' : b.wide = false := by simpa using hw
    have hn : ¬ ∃ c ∈ s, 128 ≤ c := fun hx => hw (p1.2 (Or.inr hx))
    have h0 : 0 ∉ s := h.resolve_right hn
    have hl := encode_nonzero s (fun c hc => ⟨fun hz => h0 (hz ▸ hc), by
      refine Nat.lt_of_not_le fun hle => hn ⟨c, hc, hle⟩⟩)
    rw [p3 hw', hl]
    simp

/-- C58: every element of the encoding is a byte. -/
theorem encode_bytes (s : List Nat) : ∀ x ∈ encode s, x < 256 := by
  intro x hx
  obtain ⟨c, _, hx⟩ := List.mem_flatMap.1 hx
  unfold encodeChar at hx
  split at hx
  · simp at hx; omega
  · split at hx
    · simp at hx; omega
    · split at hx
      · simp at hx; omega
      · simp at hx; omega

/-- The standard encoding: the binary digits of the character are distributed over the bytes, six per
continuation byte, the marks of which are 11000000, 11100000 and 10000000. -/
def standard (c : Nat) : List Nat :=
  if c < 2 ^ 7 then [c]
  else if c < 2 ^ 11 then [192 + c / 64, 128 + c % 64]
  else [224 + c / 4096, 128 + c / 64 % 64, 128 + c % 64]

private theorem lead2_sum : ∀ a < 32, (0xC0 ||| a) % 256 = 192 + a := by decide
private theorem lead3_sum : ∀ a < 16, (0xE0 ||| a) % 256 = 224 + a := by decide
private theorem cont_sum : ∀ b < 64, (0x80 ||| b) % 256 = 128 + b := by decide

/-- C58: the encoding is the standard one except for zero, which becomes two bytes. -/
theorem encode_standard (s : List Nat) (hs : ∀ c ∈ s, c < 65536 ∧ c ≠ 0) :
    encode s = s.flatMap standard := by
  unfold encode
  induction s with
  | nil => rfl
  | cons c s ih =>
    rw [List.flatMap_cons, List.flatMap_cons, ih fun x hx => hs x (List.mem_cons_of_mem _ hx)]
    congr 1
    obtain ⟨h1, h0⟩ := hs c (by simp)
    have e6 : c >>> 6 = c / 64 := Nat.shiftRight_eq_div_pow c 6
    have e12 : c >>> 12 = c / 4096 := Nat.shiftRight_eq_div_pow c 12
    unfold encodeChar standard
    rw [if_neg h0, and63, and63, and15, e6, e12]
    by_cases h7 : c < 128
    · rw [if_pos h7, if_pos (show c < 2 ^ 7 from h7), Nat.mod_eq_of_lt (by omega)]
    · rw [if_neg h7, if_neg (show ¬ c < 2 ^ 7 from h7)]
      by_cases h11 : c < 2048
      · rw [if_pos h11, if_pos (show c < 2 ^ 11 from h11), lead2_sum _ (by omega), cont_sum _ (by omega)]
      · rw [if_neg h11, if_neg (show ¬ c < 2 ^ 11 from h11), lead3_sum _ (by omega),
          cont_sum _ (by omega), cont_sum _ (by omega), Nat.mod_eq_of_lt (show c / 4096 < 16 by omega)]

/-- "aé€" with an ASCII, a two-byte and a three-byte character. -/
example : encode [97, 0xE9, 0x20AC] = [97, 0xC3, 0xA9, 0xE2, 0x82, 0xAC] ∧
    decode (encode [97, 0xE9, 0x20AC]) = .ok ⟨true, [97, 0xE9, 0x20AC]⟩ := by decide

/-- C58 (limit of the code): a zero among ASCII characters comes back with a zero at the end too
many, and takes a following character of the bytes with it. -/
theorem zero_grows : decode (encode [0, 97]) = .ok ⟨false, [0, 97, 0]⟩ ∧
    decode [0, 97] = .ok ⟨false, [0, 0]⟩ ∧ decode [97, 0] = .error .null := by decide

/-- C58 (limit of the code): the standard encoding of a character beyond 65535 is dropped (and
leaves zeros if all the rest is ASCII). -/
theorem four_bytes_dropped : decode [97, 0xF0, 0x9F, 0x98, 0x80] = .ok ⟨false, [97, 0, 0, 0, 0]⟩ ∧
    decode [0xC3, 0xA9, 0xF0, 0x9F, 0x98, 0x80] = .ok ⟨true, [0xE9]⟩ := by decide

end Avian.JUtf8
