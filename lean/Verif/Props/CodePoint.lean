import Verif.Lib.CodePoint

/-
C74: characters, digits and code points.
-/
namespace Avian.CodePoint

/-! ### Specification -/

/-- The UTF-16 form of a code point. -/
def utf16 (cp : Nat) : List Nat :=
  if cp < 0x10000 then [cp] else [0xD800 + (cp - 0x10000) / 1024, 0xDC00 + (cp - 0x10000) % 1024]

/-- A code point that stands for a character: not one half of a pair. -/
def Scalar (cp : Nat) : Prop := cp ≤ 0x10FFFF ∧ ¬ (0xD800 ≤ cp ∧ cp ≤ 0xDFFF)

/-- The code points of a sequence of chars; a half without its other half counts for itself. -/
def decode : List Nat → List Nat
  | [] => []
  | [c] => [c]
  | c :: d :: r =>
    if (0xD800 ≤ c ∧ c < 0xDC00) ∧ (0xDC00 ≤ d ∧ d < 0xE000) then
      (0x10000 + (c - 0xD800) * 1024 + (d - 0xDC00)) :: decode r
    else c :: decode (d :: r)

/-! ### Proofs -/

theorem and_1023 (n : Nat) : n &&& 0x3FF = n % 1024 := Nat.and_two_pow_sub_one_eq_mod n 10

theorem or_low {a b i : Nat} (h : b < 2 ^ i) : (2 ^ i * a) ||| b = 2 ^ i * a + b := (Nat.two_pow_add_eq_or_of_lt h a).symm

/-- Two halves of a pair give the code point. -/
theorem toCodePoint_ok {c d : Nat} (hc : 0xD800 ≤ c ∧ c < 0xDC00) (hd : 0xDC00 ≤ d ∧ d < 0xE000) :
    toCodePoint c d = 0x10000 + (c - 0xD800) * 1024 + (d - 0xDC00) := by
  unfold toCodePoint
  rw [and_1023, and_1023, Nat.shiftLeft_eq, Nat.mul_comm, or_low (by omega)]
  omega

theorem isHigh_iff (c : Nat) : isHigh c = true ↔ 0xD800 ≤ c ∧ c < 0xDC00 := by
  unfold isHigh
  simp only [Bool.and_eq_true, decide_eq_true_eq]
  omega

theorem isLow_iff (c : Nat) : isLow c = true ↔ 0xDC00 ≤ c ∧ c < 0xE000 := by
  unfold isLow
  simp only [Bool.and_eq_true, decide_eq_true_eq]
  omega

/-- `toChars` gives the UTF-16 form of a code point. -/
theorem toChars_ok {cp : Nat} (h : cp ≤ 0x10FFFF) : toChars cp = utf16 cp := by
  unfold toChars utf16 isSupplementary toChar
  by_cases h1 : cp < 0x10000
  · rw [if_neg (by simp only [Bool.and_eq_true, decide_eq_true_eq]; omega), if_pos h1]
    congr 1
    omega
  · rw [if_pos (by simp only [Bool.and_eq_true, decide_eq_true_eq]; omega), if_neg h1]
    have e : ((cp : Int) - 0x10000).toNat = cp - 0x10000 := by omega
    simp only [e, and_1023, Nat.shiftRight_eq_div_pow]
    have e1 : 0xD800 ||| ((cp - 0x10000) / 2 ^ 10 % 1024) = 0xD800 + (cp - 0x10000) / 2 ^ 10 % 1024 :=
      or_low (a := 54) (i := 10) (by omega)
    have e2 : 0xDC00 ||| ((cp - 0x10000) % 1024) = 0xDC00 + (cp - 0x10000) % 1024 :=
      or_low (a := 55) (i := 10) (by omega)
    rw [e1, e2]
    simp only [Int.ofNat_eq_natCast, List.cons.injEq, and_true]
    omega

example : toChars 0x1F600 = [0xD83D, 0xDE00] := by decide +kernel

/-- Two chars are recognised as a pair exactly if they are the UTF-16 form of a code point; then `toCodePoint` gives it. -/
theorem pair_ok (c d : Nat) : isPair c d = true ↔ ∃ cp, 0x10000 ≤ cp ∧ cp ≤ 0x10FFFF ∧ utf16 cp = [c, d] ∧ toCodePoint c d = cp := by
  unfold isPair
  rw [Bool.and_eq_true, isHigh_iff, isLow_iff]
  constructor
  · rintro ⟨hc, hd⟩
    refine ⟨0x10000 + (c - 0xD800) * 1024 + (d - 0xDC00), by omega, by omega, ?_, toCodePoint_ok hc hd⟩
    unfold utf16
    rw [if_neg (by omega)]
    simp only [List.cons.injEq, and_true]
    omega
  · rintro ⟨cp, h1, h2, h3, _⟩
    unfold utf16 at h3
    rw [if_neg (by omega)] at h3
    simp only [List.cons.injEq, and_true] at h3
    omega

example : isPair 0xD83D 0xDE00 = true ∧ toCodePoint 0xD83D 0xDE00 = 0x1F600 := by decide +kernel

theorem charAt_nat {s : List Nat} {i : Nat} (h : i < s.length) : charAt s i = .ok s[i] := by
  unfold charAt
  rw [if_pos (by omega), Int.toNat_natCast, List.getElem?_eq_getElem h]

theorem charAt_append (p : List Nat) (c : Nat) (r : List Nat) : charAt (p ++ c :: r) (p.length : Int) = .ok c := by
  rw [charAt_nat (by simp)]
  simp

/-- `codePointAt` gives the first code point of the chars from the offset on, unless it stands before the half of a pair that
    ends the sequence. -/
theorem codePointAt_partial (p r : List Nat) (c : Nat) (h : r = [] → isHigh c = false) :
    codePointAt (p ++ c :: r) (p.length : Int) = .ok ((decode (c :: r)).head (by cases r <;> simp [decode]; split <;> simp)) := by
  unfold codePointAt
  have e0 : ¬ ((p.length : Int) < 0 || (p.length : Int) ≥ ((p ++ c :: r).length : Nat)) = true := by
    simp only [Bool.or_eq_true, decide_eq_true_eq, List.length_append, List.length_cons]
    omega
  simp only [if_neg e0, charAt_append, Except.bind]
  by_cases hc : isHigh c = true
  · cases r with
    | nil => exact absurd hc (by simp [h rfl])
    | cons d r =>
      rw [if_neg (by
        rw [hc]
        simp only [Bool.not_true, Bool.false_or, decide_eq_true_eq, List.length_append, List.length_cons]
        omega)]
      have e1 : charAt (p ++ c :: d :: r) ((p.length : Int) + 1) = .ok d := by
        have := charAt_append (p ++ [c]) d r
        simpa using this
      rw [e1]
      simp only
      by_cases hd : isLow d = true
      · rw [if_neg (by simp [hd]), toCodePoint_ok ((isHigh_iff c).1 hc) ((isLow_iff d).1 hd)]
        simp only [decode, if_pos (And.intro ((isHigh_iff c).1 hc) ((isLow_iff d).1 hd)), List.head_cons]
      · rw [if_pos (by simp [hd])]
        have : ¬ ((0xD800 ≤ c ∧ c < 0xDC00) ∧ (0xDC00 ≤ d ∧ d < 0xE000)) := fun h => hd ((isLow_iff d).2 h.2)
        simp only [decode, if_neg this, List.head_cons]
  · rw [if_pos (by simp [hc])]
    cases r with
    | nil => simp [decode]
    | cons d r =>
      have : ¬ ((0xD800 ≤ c ∧ c < 0xDC00) ∧ (0xDC00 ≤ d ∧ d < 0xE000)) := fun h => hc ((isHigh_iff c).2 h.1)
      simp only [decode, if_neg this, List.head_cons]

example : codePointAt [97, 0xD83D, 0xDE00, 98] 1 = .ok 0x1F600 := by decide +kernel
example : codePointAt [97, 0xD83D, 98] 1 = .ok 0xD83D := by decide +kernel

/-- Where a half of a pair ends the sequence, `codePointAt` fails instead of giving it. -/
theorem final_half (p : List Nat) (c : Nat) (h : isHigh c = true) :
    codePointAt (p ++ [c]) (p.length : Int) = .error .indexOutOfBounds := by
  unfold codePointAt
  have e0 : ¬ ((p.length : Int) < 0 || (p.length : Int) ≥ ((p ++ [c]).length : Nat)) = true := by
    simp only [Bool.or_eq_true, decide_eq_true_eq, List.length_append, List.length_cons, List.length_nil]
    omega
  simp only [if_neg e0, charAt_append, Except.bind]
  rw [if_neg (by
    rw [h]
    simp only [Bool.not_true, Bool.false_or, decide_eq_true_eq, List.length_append, List.length_cons, List.length_nil]
    omega)]
  have : charAt (p ++ [c]) ((p.length : Int) + 1) = .error .indexOutOfBounds := by
    unfold charAt
    have e : ((p.length : Int) + 1).toNat = p.length + 1 := by omega
    rw [if_pos (by omega), e, List.getElem?_eq_none (by simp)]
  rw [this]

example : codePointAt [97, 0xD83D] 1 = .error .indexOutOfBounds := by decide +kernel

/-- Offsets outside the sequence are refused. -/
theorem codePointAt_refused (s : List Nat) (o : Int) (h : o < 0 ∨ (s.length : Int) ≤ o) :
    codePointAt s o = .error .indexOutOfBounds := by
  unfold codePointAt
  simp only
  rw [if_pos (by simp only [Bool.or_eq_true, decide_eq_true_eq]; omega)]

theorem decode_scalar {cp : Nat} (h : Scalar cp) (r : List Nat) : decode (utf16 cp ++ r) = cp :: decode r := by
  obtain ⟨h1, h2⟩ := h
  unfold utf16
  by_cases hc : cp < 0x10000
  · rw [if_pos hc]
    cases r with
    | nil => rfl
    | cons d r =>
      simp only [List.cons_append, List.nil_append, decode]
      rw [if_neg (by omega)]
  · rw [if_neg hc]
    simp only [List.cons_append, List.nil_append, decode]
    have e : 0x10000 + (0xD800 + (cp - 0x10000) / 1024 - 0xD800) * 1024 + (0xDC00 + (cp - 0x10000) % 1024 - 0xDC00) = cp := by
      omega
    rw [if_pos (by omega), e]

/-- The chars of a text decode to its characters. -/
theorem decode_text (t : List Nat) (h : ∀ cp ∈ t, Scalar cp) (r : List Nat) :
    decode (t.flatMap utf16 ++ r) = t ++ decode r := by
  induction t with
  | nil => rfl
  | cons cp t ih =>
    rw [List.flatMap_cons, List.append_assoc, decode_scalar (h _ (by simp)), ih fun x hx => h x (by simp [hx])]
    rfl

/-- In a text of characters `codePointAt` gives the character that begins at the offset. -/
theorem codePointAt_text (p t : List Nat) (cp : Nat) (h : Scalar cp) :
    codePointAt (p ++ (utf16 cp ++ t)) (p.length : Int) = .ok cp := by
  have hd := decode_scalar h t
  obtain ⟨h1, h2⟩ := h
  by_cases hc : cp < 0x10000
  · have e : utf16 cp = [cp] := by unfold utf16; rw [if_pos hc]
    rw [e] at hd ⊢
    simp only [List.cons_append, List.nil_append] at hd ⊢
    rw [codePointAt_partial p t cp]
    · simp only [hd, List.head_cons]
    · intro _
      have := isHigh_iff cp
      cases hh : isHigh cp with
      | false => rfl
      | true => exact absurd (this.1 hh) (by omega)
  · have e : utf16 cp = [0xD800 + (cp - 0x10000) / 1024, 0xDC00 + (cp - 0x10000) % 1024] := by unfold utf16; rw [if_neg hc]
    rw [e] at hd ⊢
    simp only [List.cons_append, List.nil_append] at hd ⊢
    rw [codePointAt_partial p _ _ (by simp)]
    simp only [hd, List.head_cons]

example : Scalar 0x1F600 := by constructor <;> omega

/-- The loop counts the code points up to the end. -/
theorem countLoop_ok (s : List Nat) (fin : Nat) (hf : fin ≤ s.length) : ∀ (n i : Nat) (count : Int), fin - i ≤ n →
    countLoop s fin n i count = .ok (count + ((decode ((s.take fin).drop i)).length : Nat)) := by
  intro n
  induction n using Nat.strongRecOn with
  | _ n ih =>
    intro i count hn
    cases n with
    | zero =>
      rw [List.drop_of_length_le (by simp; omega)]
      simp [countLoop, decode]
    | succ n =>
      unfold countLoop
      by_cases hi : i < fin
      · rw [if_pos (by omega)]
        have hi' : i < s.length := by omega
        have ed : (s.take fin).drop i = s[i] :: (s.take fin).drop (i + 1) := by
          rw [List.drop_eq_getElem_cons (by simp; omega)]
          simp
        unfold pairAt
        rw [charAt_nat hi']
        simp only [Except.bind]
        by_cases hp : i + 1 < fin ∧ isHigh s[i] = true
        · have hi2 : i + 1 < s.length := by omega
          have ed2 : (s.take fin).drop (i + 1) = s[i + 1] :: (s.take fin).drop (i + 2) := by
            rw [List.drop_eq_getElem_cons (by simp; omega)]
            simp
          have e1 : charAt s ((i : Int) + 1) = .ok s[i + 1] := charAt_nat hi2
          rw [if_pos (by simp only [hp.2, Bool.true_and, decide_eq_true_eq]; omega), e1]
          simp only
          by_cases hl : isLow s[i + 1] = true
          · rw [if_pos hl]
            have e2 : (i : Int) + 1 + 1 = ((i + 2 : Nat) : Int) := by omega
            rw [e2, ih n (by omega) (i + 2) (count + 1) (by omega), ed, ed2]
            simp only [decode, if_pos (And.intro ((isHigh_iff _).1 hp.2) ((isLow_iff _).1 hl)), List.length_cons]
            congr 1
            omega
          · rw [if_neg hl]
            have e2 : (i : Int) + 1 = ((i + 1 : Nat) : Int) := by omega
            rw [e2, ih n (by omega) (i + 1) (count + 1) (by omega), ed, ed2]
            have : ¬ ((0xD800 ≤ s[i] ∧ s[i] < 0xDC00) ∧ (0xDC00 ≤ s[i+1] ∧ s[i+1] < 0xE000)) := fun h => hl ((isLow_iff _).2 h.2)
            simp only [decode, if_neg this, List.length_cons]
            congr 1
            omega
        · rw [if_neg (by
            simp only [Bool.and_eq_true, decide_eq_true_eq]
            intro h; exact hp ⟨by omega, h.1⟩)]
          simp only [Bool.false_eq_true, if_false]
          have e2 : (i : Int) + 1 = ((i + 1 : Nat) : Int) := by omega
          rw [e2, ih n (by omega) (i + 1) (count + 1) (by omega), ed]
          have hlen : (decode (s[i] :: (s.take fin).drop (i + 1))).length = (decode ((s.take fin).drop (i + 1))).length + 1 := by
            by_cases h1 : i + 1 < fin
            · have ed2 : (s.take fin).drop (i + 1) = s[i + 1]'(by omega) :: (s.take fin).drop (i + 2) := by
                rw [List.drop_eq_getElem_cons (by simp; omega)]
                simp
              rw [ed2]
              have : ¬ ((0xD800 ≤ s[i] ∧ s[i] < 0xDC00) ∧ (0xDC00 ≤ s[i+1] ∧ s[i+1] < 0xE000)) :=
                fun h => hp ⟨h1, (isHigh_iff _).2 h.1⟩
              simp only [decode, if_neg this, List.length_cons]
            · rw [List.drop_of_length_le (i := i + 1) (by simp; omega)]
              rfl
          rw [hlen]
          congr 1
          omega
      · rw [if_neg (by omega), List.drop_of_length_le (by simp; omega)]
        simp [decode]

/-- `codePointCount` counts the code points of a part of the sequence that does not reach its end. -/
theorem codePointCount_partial (s : List Nat) (i j : Nat) (h1 : i ≤ j) (h2 : j < s.length) :
    codePointCount s i j = .ok ((decode ((s.take j).drop i)).length : Nat) := by
  unfold codePointCount
  rw [if_neg (by simp only [Bool.or_eq_true, decide_eq_true_eq]; omega)]
  rw [countLoop_ok s j (by omega) _ i 0 (by omega)]
  congr 1
  omega

example : codePointCount [97, 0xD83D, 0xDE00, 98, 99] 0 4 = .ok 3 := by decide +kernel

/-- Counted up to the end of the sequence, as for the whole sequence, `codePointCount` fails. -/
theorem count_whole (s : List Nat) (i : Int) : codePointCount s i s.length = .error .indexOutOfBounds := by
  unfold codePointCount
  rw [if_pos (by simp only [Bool.or_eq_true, decide_eq_true_eq]; omega)]

example : codePointCount [97, 98] 0 2 = .error .indexOutOfBounds := by decide +kernel

/-- Parts that start before the sequence, end beyond it or end before they start are refused. -/
theorem count_refused (s : List Nat) (i j : Int) (h : i < 0 ∨ j < i ∨ (s.length : Int) < j) :
    codePointCount s i j = .error .indexOutOfBounds := by
  unfold codePointCount
  rw [if_pos (by simp only [Bool.or_eq_true, decide_eq_true_eq]; omega)]

example : codePointCount [97, 98, 99] 2 1 = .error .indexOutOfBounds := count_refused _ _ _ (by decide)

/-! ### Digits and cases -/

/-- The characters for digits: the value is given by the place in "0123456789abcdefghijklmnopqrstuvwxyz". -/
def alphabet : List Nat := (List.range 10).map (48 + ·) ++ (List.range 26).map (97 + ·)

/-- `forDigit` gives the character of the digit. -/
theorem forDigit_ok {d radix : Nat} (h1 : 2 ≤ radix) (h2 : radix ≤ 36) (h3 : d < radix) :
    some (forDigit d radix) = alphabet[d]? := by
  unfold forDigit toChar alphabet
  rw [if_pos (by simp only [Bool.and_eq_true, decide_eq_true_eq]; omega),
    if_pos (by simp only [Bool.and_eq_true, decide_eq_true_eq]; omega)]
  by_cases h : d < 10
  · rw [if_pos (by omega), List.getElem?_append_left (by simp; omega)]
    simp [h]
    omega
  · rw [if_neg (by omega), List.getElem?_append_right (by simp; omega)]
    simp
    have : d - 10 < 26 := by omega
    simp [this]
    omega

/-- `forDigit` gives 0 for anything that is no digit. -/
theorem forDigit_none {d radix : Int} (h : radix < 2 ∨ 36 < radix ∨ d < 0 ∨ radix ≤ d) : forDigit d radix = 0 := by
  unfold forDigit
  by_cases h1 : 2 ≤ radix ∧ radix ≤ 36
  · rw [if_pos (by simp only [Bool.and_eq_true, decide_eq_true_eq]; omega),
      if_neg (by simp only [Bool.and_eq_true, decide_eq_true_eq]; omega)]
  · rw [if_neg (by simp only [Bool.and_eq_true, decide_eq_true_eq]; omega)]

/-- `digit` gives the value of a digit character, small or capital, and -1 for any other character, in any base up to 36. -/
theorem digit_ok (radix c d : Nat) :
    digit c radix = d ↔ d < radix ∧ (alphabet[d]? = some c ∨ (65 ≤ c ∧ c ≤ 90 ∧ alphabet[d]? = some (c + 32))) := by
  have ha : ∀ x : Nat, alphabet[d]? = some x ↔ (d < 10 ∧ x = 48 + d) ∨ (10 ≤ d ∧ d < 36 ∧ x = 87 + d) := by
    intro x
    unfold alphabet
    by_cases h : d < 10
    · rw [List.getElem?_append_left (by simp; omega)]
      simp [h]
      omega
    · rw [List.getElem?_append_right (by simp; omega)]
      by_cases h2 : d - 10 < 26
      · simp [h2]
        omega
      · simp [h2]
        omega
  rw [ha, ha]
  unfold digit
  simp only
  by_cases h1 : 48 ≤ c ∧ c ≤ 57
  · rw [if_pos (by simpa using h1)]
    simp only
    split <;> omega
  · rw [if_neg (by simpa using h1)]
    by_cases h2 : 97 ≤ c ∧ c ≤ 122
    · rw [if_pos (by simpa using h2)]
      simp only
      split <;> omega
    · rw [if_neg (by simpa using h2)]
      by_cases h3 : 65 ≤ c ∧ c ≤ 90
      · rw [if_pos (by simpa using h3)]
        simp only
        split <;> omega
      · rw [if_neg (by simpa using h3)]
        simp only
        omega

/-- Other characters give -1. -/
theorem digit_none (c : Nat) (radix : Int) : digit c radix = -1 ∨ 0 ≤ digit c radix := by
  unfold digit
  simp only
  split
  · exact .inl rfl
  · rename_i d hd
    have : 0 ≤ d := by
      repeat' split at hd
      all_goals simp_all
      all_goals omega
    split
    · exact .inr this
    · exact .inl rfl

/-- `digit` takes bases above 36, which Java refuses, for 36. -/
theorem digit_base : digit 53 100 = 5 ∧ digit 122 100 = 35 := by decide +kernel

/-- The two conversions between digits and characters are inverse. -/
theorem digit_forDigit {d radix : Nat} (h1 : 2 ≤ radix) (h2 : radix ≤ 36) (h3 : d < radix) :
    digit (forDigit d radix) radix = d :=
  (digit_ok _ _ d).2 ⟨h3, .inl (forDigit_ok h1 h2 h3).symm⟩

example : digit (forDigit 35 36) 36 = 35 ∧ forDigit 35 36 = 122 := by decide +kernel

/-- Changing the case of a code point changes the 26 letters of the alphabet and nothing else. -/
theorem lower_ok {cp : Nat} (h : cp ≤ 0x10FFFF) : lower cp = if 65 ≤ cp ∧ cp ≤ 90 then (cp : Int) + 32 else cp := by
  unfold lower isSupplementary lowerChar toChar
  by_cases h1 : 0x10000 ≤ cp
  · rw [if_pos (by simp only [Bool.and_eq_true, decide_eq_true_eq]; omega), if_neg (by omega)]
  · rw [if_neg (by simp only [Bool.and_eq_true, decide_eq_true_eq]; omega)]
    have e : ((cp : Int) % 65536).toNat = cp := by omega
    rw [e]
    by_cases h2 : 65 ≤ cp ∧ cp ≤ 90
    · rw [if_pos (by simpa using h2), if_pos h2]; omega
    · rw [if_neg (by simpa using h2), if_neg h2]

theorem upper_ok {cp : Nat} (h : cp ≤ 0x10FFFF) : upper cp = if 97 ≤ cp ∧ cp ≤ 122 then (cp : Int) - 32 else cp := by
  unfold upper isSupplementary upperChar toChar
  by_cases h1 : 0x10000 ≤ cp
  · rw [if_pos (by simp only [Bool.and_eq_true, decide_eq_true_eq]; omega), if_neg (by omega)]
  · rw [if_neg (by simp only [Bool.and_eq_true, decide_eq_true_eq]; omega)]
    have e : ((cp : Int) % 65536).toNat = cp := by omega
    rw [e]
    by_cases h2 : 97 ≤ cp ∧ cp ≤ 122
    · rw [if_pos (by simpa using h2), if_pos h2]; omega
    · rw [if_neg (by simpa using h2), if_neg h2]

example : lower 0x10041 = 0x10041 ∧ lower 65 = 97 ∧ upper 122 = 90 := by decide +kernel

end Avian.CodePoint
