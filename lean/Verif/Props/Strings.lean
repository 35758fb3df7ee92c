import Verif.Lib.Strings
import Verif.Props.JUtf8

/-
Property C57: strings behave as sequences of characters.
-/
namespace Avian.Strings

/-! ### Specification -/

/-- The characters of a string. -/
def text (s : JString) : List Nat := (s.data.drop s.offset).take s.length

/-- A string as the constructors make them. -/
structure Good (s : JString) : Prop where
  fits : s.offset + s.length ≤ s.data.length
  /-- arrays have fewer than 2^31 elements -/
  small : s.data.length < 2 ^ 31
  chars : ∀ x ∈ s.data, x < 65536
  ascii : s.wide = false → ∀ x ∈ s.data, x < 128

/-- `m` occurs in `l` at position `i`. -/
def Occurs (l m : List Nat) (i : Nat) : Prop := m <+: l.drop i

/-- `out` is `l` with every occurrence of `m`, from left to right and not overlapping, replaced. -/
inductive Replaced (m r : List Nat) : List Nat → List Nat → Prop
  | done {l : List Nat} : (∀ i, ¬ Occurs l m i) → Replaced m r l l
  | step {before after out : List Nat} :
      (∀ i, i < before.length → ¬ Occurs (before ++ m ++ after) m i) → Replaced m r after out →
      Replaced m r (before ++ m ++ after) (before ++ r ++ out)

private theorem ok_bind {A B : Type} (a : A) (f : A → R B) : (Except.ok a : R A).bind f = f a := rfl
private theorem ok_map {A B : Type} (a : A) (f : A → B) :
    (Except.ok a : R A).map f = .ok (f a) := rfl

/-! ### Characters -/

theorem text_length {s : JString} (h : Good s) : (text s).length = s.length := by
  have := h.fits
  simp [text]; omega

private theorem text_get {s : JString} (h : Good s) {i : Nat} (hi : i < s.length) :
    s.data[i + s.offset]? = some ((text s)[i]'(by rw [text_length h]; exact hi)) := by
  have := h.fits
  simp only [text, List.getElem_take, List.getElem_drop]
  rw [List.getElem?_eq_getElem (by omega)]
  congr 2; omega

private theorem charAt_text {s : JString} (h : Good s) {i : Nat} (hi : i < s.length) :
    charAt s i = .ok ((text s)[i]'(by rw [text_length h]; exact hi)) := by
  unfold charAt
  rw [if_neg (by omega), Int.toNat_natCast, text_get h hi]
  simp only
  congr 1
  split
  · rfl
  · rename_i hw
    have hx : (text s)[i]'(by rw [text_length h]; exact hi) ∈ s.data :=
      List.mem_of_mem_drop (List.mem_of_mem_take (List.getElem_mem _))
    rw [if_pos (h.ascii (by simpa using hw) _ hx)]

/-- C57: `charAt` delivers the characters, and nothing for indexes below zero or above the length. -/
theorem charAt_spec {s : JString} (h : Good s) (i : Int) :
    (∀ k : Nat, i = k → ∀ x, (text s)[k]? = some x → charAt s i = .ok x) ∧
    (i < 0 ∨ i > s.length → charAt s i = .error .stringIndex) := by
  constructor
  · rintro k rfl x hx
    obtain ⟨hk, rfl⟩ := List.getElem?_eq_some_iff.1 hx
    exact charAt_text h (by rw [text_length h] at hk; exact hk)
  · intro hi
    unfold charAt
    rw [if_pos hi]

/-- C57: `getChars` delivers the characters of the range, and refuses one outside of the string. -/
theorem getChars_spec {s : JString} (h : Good s) (a b : Int) :
    (∀ m n : Nat, a = m → b = n → m ≤ n → n ≤ s.length →
      getChars s a b = .ok (((text s).drop m).take (n - m))) ∧
    (a < 0 ∨ b > s.length → getChars s a b = .error .stringIndex) := by
  have hf := h.fits
  constructor
  · rintro m n rfl rfl hmn hn
    have ed : (s.data.drop (s.offset + m)).take (n - m) = ((text s).drop m).take (n - m) := by
      rw [text, List.drop_take, List.take_take, List.drop_drop, Nat.min_eq_left (by omega)]
    have es : slice s.data (s.offset + m) (n - m) = .ok (((text s).drop m).take (n - m)) := by
      unfold slice
      rw [if_pos (by omega), ed]
    unfold getChars
    rw [if_neg (by omega), if_neg (by omega), show ((n : Int) - (m : Int)).toNat = n - m by omega,
      Int.toNat_natCast, es]
    split
    · rw [if_neg (by omega)]
    · rename_i hw
      show Except.ok _ = _
      congr 1
      conv => rhs; rw [← List.map_id (((text s).drop m).take (n - m))]
      apply List.map_congr_left
      intro x hx
      have : x ∈ s.data := List.mem_of_mem_drop (List.mem_of_mem_take
        (List.mem_of_mem_drop (List.mem_of_mem_take hx)))
      rw [if_pos (h.ascii (by simpa using hw) x this)]; rfl
  · rintro h'
    unfold getChars
    split
    · rfl
    · rw [if_pos (by omega)]

/-- C57: `toCharArray` delivers all of them. -/
theorem toCharArray_text {s : JString} (h : Good s) : toCharArray s = .ok (text s) := by
  have := (getChars_spec h 0 s.length).1 0 s.length rfl rfl (Nat.zero_le _) (Nat.le_refl _)
  unfold toCharArray
  rw [this, List.drop_zero, Nat.sub_zero, List.take_of_length_le (by rw [text_length h]; exact Nat.le_refl _)]

example : getChars ⟨false, [97, 98, 99, 100, 101], 1, 4⟩ 1 3 = .ok [99, 100] := by decide

/-! ### Construction -/

private theorem test_ascii {d : List Nat} (h : ∀ x ∈ d, x < 128) : JUtf8.test d = false := by
  have a : ∀ x < 128, ((x &&& 0x80) != 0) = false := by decide
  unfold JUtf8.test
  rw [List.any_eq_false]
  intro x hx
  simp [a x (h x hx)]

private theorem wrap_small {x : Int} (h1 : -2 ^ 31 ≤ x) (h2 : x < 2 ^ 31) : wrap32 x = x :=
  Int.bmod_eq_of_le (by omega) (by omega)

/-- C57: a string made of characters of an array has these characters, whether or not they are
copied. -/
theorem make_chars (data : List Nat) (offset length : Nat) (copy : Bool)
    (h : offset + length ≤ data.length) (hs : data.length < 2 ^ 31) (hc : ∀ x ∈ data, x < 65536) :
    ∃ s, make true data offset length copy = .ok s ∧ Good s ∧
      text s = (data.drop offset).take length := by
  unfold make
  rw [if_neg (by omega), wrap_small (by omega) (by omega), if_neg (by omega), if_neg (by omega)]
  cases copy with
  | true =>
    simp only [Bool.true_or, if_true, Int.toNat_natCast, slice, if_pos h]
    refine ⟨_, rfl, ⟨?_, ?_, ?_, by simp⟩, ?_⟩
    · simp; omega
    · simp; omega
    · exact fun x hx => hc x (List.mem_of_mem_drop (List.mem_of_mem_take hx))
    · simp only [text, List.drop_zero]
      rw [List.take_take, Nat.min_self]
  | false =>
    refine ⟨_, rfl, ⟨h, hs, hc, by simp⟩, rfl⟩

/-- Part of a string with the same array. -/
private theorem make_share {s : JString} (h : Good s) (a n : Nat) (hn : a + n ≤ s.length) :
    make s.wide s.data ((s.offset : Int) + a) n false = .ok ⟨s.wide, s.data, s.offset + a, n⟩ ∧
    Good ⟨s.wide, s.data, s.offset + a, n⟩ ∧
    text ⟨s.wide, s.data, s.offset + a, n⟩ = ((text s).drop a).take n := by
  have h1 := h.fits
  have h2 := h.small
  refine ⟨?_, ⟨by show s.offset + a + n ≤ s.data.length; omega, h2, h.chars, h.ascii⟩, ?_⟩
  · unfold make
    rw [if_neg (by omega), wrap_small (by omega) (by omega), if_neg (by omega), if_neg (by omega)]
    have : (false || !s.wide && JUtf8.test s.data) = false := by
      cases hw : s.wide with
      | true => simp
      | false => simp [test_ascii (h.ascii hw)]
    rw [this]
    rw [if_neg (by simp)]
    congr 2
  · simp only [text]
    rw [List.drop_take, List.drop_drop, List.take_take]
    congr 1
    exact (Nat.min_eq_left (by omega)).symm

private theorem good_empty : Good empty :=
  ⟨Nat.le_refl _, Nat.two_pow_pos 31, fun x hx => by simp [empty] at hx, fun _ x hx => by simp [empty] at hx⟩

/-- C57: `substring` is the part of the sequence; it is refused exactly for bounds outside. -/
theorem substring_spec {s : JString} (h : Good s) (start stop : Int) :
    (∀ a b : Nat, start = a → stop = b → a ≤ b → b ≤ s.length →
      ∃ r, substring s start stop = .ok r ∧ Good r ∧ text r = ((text s).drop a).take (b - a)) ∧
    (start < 0 ∨ stop > s.length ∨ stop < start → substring s start stop = .error .stringIndex) := by
  constructor
  · rintro a b rfl rfl hab hb
    have hl := text_length h
    unfold substring
    rw [if_neg (by omega), if_neg (by omega), if_neg (by omega)]
    split
    · rename_i hh
      have : a = 0 ∧ b = s.length := by omega
      obtain ⟨rfl, rfl⟩ := this
      refine ⟨s, rfl, h, ?_⟩
      rw [List.drop_zero, Nat.sub_zero, ← hl, List.take_length]
    · split
      · refine ⟨empty, (rfl : Except.ok empty = Except.ok empty), good_empty, ?_⟩
        have : b - a = 0 := by omega
        rw [this]; rfl
      · obtain ⟨e, g, t⟩ := make_share h a (b - a) (by omega)
        refine ⟨_, ?_, g, t⟩
        rw [← e, show ((b - a : Nat) : Int) = (b : Int) - a by omega]
  · intro hh
    unfold substring
    by_cases h1 : start < 0
    · rw [if_pos h1]
    · rw [if_neg h1]
      by_cases h2 : stop > s.length
      · rw [if_pos h2]
      · rw [if_neg h2, if_pos (by omega)]

/-! ### Comparison -/

private def diff : List Nat → List Nat → Int
  | a :: l, b :: m => if (a : Int) - b ≠ 0 then (a : Int) - b else diff l m
  | l, m => (l.length : Int) - m.length

private theorem diff_order : ∀ l m : List Nat,
    (diff l m < 0 ↔ l < m) ∧ (diff l m = 0 ↔ l = m) ∧ (0 < diff l m ↔ m < l) := by
  intro l
  induction l with
  | nil =>
    intro m
    cases m with
    | nil => simp [diff]
    | cons b m => simp [diff]; omega
  | cons a l ih =>
    intro m
    cases m with
    | nil => simp [diff]; omega
    | cons b m =>
      rw [diff]
      split
      · rename_i hne
        rw [List.cons_lt_cons_iff, List.cons_lt_cons_iff]
        refine ⟨⟨?_, ?_⟩, ⟨?_, ?_⟩, ⟨?_, ?_⟩⟩
        · intro; left; omega
        · rintro (h | ⟨h, _⟩) <;> omega
        · intro h; exact absurd h hne
        · intro h; exact absurd (List.cons.inj h).1 (by omega)
        · intro; left; omega
        · rintro (h | ⟨h, _⟩) <;> omega
      · rename_i he
        have : a = b := by omega
        subst this
        obtain ⟨h1, h2, h3⟩ := ih m
        rw [List.cons_lt_cons_iff, List.cons_lt_cons_iff]
        refine ⟨?_, ?_, ?_⟩
        · rw [h1]
          constructor
          · intro h; exact Or.inr ⟨rfl, h⟩
          · rintro (h | ⟨_, h⟩)
            · omega
            · exact h
        · rw [h2]; simp
        · rw [h3]
          constructor
          · intro h; exact Or.inr ⟨rfl, h⟩
          · rintro (h | ⟨_, h⟩)
            · omega
            · exact h

private theorem diff_nil (l m : List Nat) (h : l = [] ∨ m = []) :
    diff l m = (l.length : Int) - m.length := by
  cases l with
  | nil => rw [diff]; simp
  | cons a l =>
    cases m with
    | nil => rw [diff]; simp
    | cons b m => simp at h

private theorem compareLoop_eq (f : Nat → Nat) {s t : JString} (hs : Good s) (ht : Good t) :
    ∀ n i, (s.length = n + i ∧ n + i ≤ t.length) ∨ (t.length = n + i ∧ n + i ≤ s.length) →
    compareLoop f s t n i = .ok (diff (((text s).drop i).map f) (((text t).drop i).map f)) := by
  have ls := text_length hs
  have lt := text_length ht
  intro n
  induction n with
  | zero =>
    intro i h
    rw [compareLoop, diff_nil]
    · simp only [List.length_map, List.length_drop, ls, lt]
      congr 1; omega
    · rcases h with h | h
      · left
        rw [List.drop_eq_nil_of_le (by omega)]; rfl
      · right
        rw [List.drop_eq_nil_of_le (by omega)]; rfl
  | succ n ih =>
    intro i h
    rw [compareLoop, charAt_text hs (by omega), charAt_text ht (by omega)]
    rw [List.drop_eq_getElem_cons (l := text s) (i := i) (by omega),
      List.drop_eq_getElem_cons (l := text t) (i := i) (by omega), List.map_cons, List.map_cons, diff]
    show (if _ then _ else _) = _
    split
    · rfl
    · exact ih (i + 1) (by omega)

private theorem compareTo_eq {s t : JString} (hs : Good s) (ht : Good t) :
    compareTo s t = .ok (diff (text s) (text t)) := by
  unfold compareTo
  rw [compareLoop_eq id hs ht _ _ (by split <;> omega)]
  simp

/-- C57: `compareTo` is the lexicographic order of the characters. -/
theorem compareTo_order {s t : JString} (hs : Good s) (ht : Good t) :
    ∃ c, compareTo s t = .ok c ∧ (c < 0 ↔ text s < text t) ∧ (c = 0 ↔ text s = text t) ∧
      (0 < c ↔ text t < text s) :=
  ⟨_, compareTo_eq hs ht, diff_order _ _⟩

/-- C57: `compareToIgnoreCase` is that order for the characters in small letters. -/
theorem compareToIgnoreCase_order {s t : JString} (hs : Good s) (ht : Good t) :
    ∃ c, compareToIgnoreCase s t = .ok c ∧
      (c < 0 ↔ (text s).map toLower < (text t).map toLower) ∧
      (c = 0 ↔ (text s).map toLower = (text t).map toLower) ∧
      (0 < c ↔ (text t).map toLower < (text s).map toLower) := by
  refine ⟨_, ?_, diff_order _ _⟩
  unfold compareToIgnoreCase
  rw [compareLoop_eq toLower hs ht _ _ (by split <;> omega)]
  simp

/-- C57: `equals` tells whether the characters are the same. -/
theorem equals_spec {s t : JString} (hs : Good s) (ht : Good t) :
    ∃ b, equals s t = .ok b ∧ (b = true ↔ text s = text t) := by
  unfold equals
  split
  · rw [compareTo_eq hs ht]
    refine ⟨_, rfl, ?_⟩
    rw [beq_iff_eq]
    exact (diff_order _ _).2.1
  · rename_i hne
    refine ⟨false, rfl, ?_⟩
    constructor
    · simp
    · intro h
      have := congrArg List.length h
      rw [text_length hs, text_length ht] at this
      omega

/-- C57: `equalsIgnoreCase` the same for small letters. -/
theorem equalsIgnoreCase_spec {s t : JString} (hs : Good s) (ht : Good t) :
    ∃ b, equalsIgnoreCase s t = .ok b ∧ (b = true ↔ (text s).map toLower = (text t).map toLower) := by
  unfold equalsIgnoreCase
  split
  · obtain ⟨c, e, _, h, _⟩ := compareToIgnoreCase_order hs ht
    rw [e]
    refine ⟨_, rfl, ?_⟩
    rw [beq_iff_eq]
    exact h
  · rename_i hne
    refine ⟨false, rfl, ?_⟩
    constructor
    · simp
    · intro h
      have := congrArg List.length h
      rw [List.length_map, List.length_map, text_length hs, text_length ht] at this
      omega

/-! ### Hash codes -/

private theorem hashLoop_eq {s : JString} (hs : Good s) : ∀ n i (h : Int), n + i = s.length →
    hashLoop s n i h = .ok (((text s).drop i).foldl (fun (h : Int) (c : Nat) => wrap32 (wrap32 (h * 31) + (c : Int))) h) := by
  have ls := text_length hs
  intro n
  induction n with
  | zero =>
    intro i h hi
    rw [hashLoop, List.drop_eq_nil_of_le (by omega)]; rfl
  | succ n ih =>
    intro i h hi
    rw [hashLoop, charAt_text hs (by omega)]
    rw [List.drop_eq_getElem_cons (l := text s) (i := i) (by omega), List.foldl_cons]
    exact ih (i + 1) _ (by omega)

/-- The polynomial of the language specification. -/
def polynomial (l : List Nat) : Int := l.foldl (fun (h : Int) (c : Nat) => h * 31 + c) 0

/-- C57: `hashCode` is the polynomial in 31 modulo 2^32; it depends on the characters only. -/
theorem hashCode_spec {s : JString} (hs : Good s) : hashCode s = .ok (wrap32 (polynomial (text s))) := by
  unfold hashCode
  rw [hashLoop_eq hs _ _ _ (by omega), List.drop_zero]
  congr 1
  have gen : ∀ (l : List Nat) (h : Int),
      l.foldl (fun (h : Int) (c : Nat) => wrap32 (wrap32 (h * 31) + (c : Int))) (wrap32 h) =
        wrap32 (l.foldl (fun (h : Int) (c : Nat) => h * 31 + (c : Int)) h) := by
    intro l
    induction l with
    | nil => intro h; rfl
    | cons c l ih =>
      intro h
      rw [List.foldl_cons, List.foldl_cons, ← ih]
      congr 1
      unfold wrap32
      rw [Int.bmod_add_bmod, ← Int.bmod_add_bmod, Int.bmod_mul_bmod, Int.bmod_add_bmod]
  exact gen (text s) 0

/-! ### Searching -/

private theorem findUp_spec (p : Int → R Bool) (P : Nat → Prop) : ∀ n (i : Nat),
    (∀ k, i ≤ k → k < i + n → ∃ b, p k = .ok b ∧ (b = true ↔ P k)) →
    ∃ r, findUp p n i = .ok r ∧
      ((r = -1 ∧ ∀ k, i ≤ k → k < i + n → ¬ P k) ∨
       ∃ k : Nat, r = k ∧ i ≤ k ∧ k < i + n ∧ P k ∧ ∀ j, i ≤ j → j < k → ¬ P j) := by
  intro n
  induction n with
  | zero => intro i _; exact ⟨-1, rfl, Or.inl ⟨rfl, fun k h1 h2 => by omega⟩⟩
  | succ n ih =>
    intro i h
    obtain ⟨b, e, hb⟩ := h i (by omega) (by omega)
    rw [findUp, e]
    cases b with
    | true =>
      exact ⟨i, rfl, Or.inr ⟨i, rfl, by omega, by omega, hb.1 rfl, fun j h1 h2 => by omega⟩⟩
    | false =>
      have hn : ¬ P i := fun hp => by simpa using hb.2 hp
      obtain ⟨r, er, hr⟩ := ih (i + 1) (fun k h1 h2 => h k (by omega) (by omega))
      refine ⟨r, er, ?_⟩
      rcases hr with ⟨hr, hall⟩ | ⟨k, hk, h1, h2, hp, hj⟩
      · refine Or.inl ⟨hr, fun k h1 h2 => ?_⟩
        by_cases hk : k = i
        · rw [hk]; exact hn
        · exact hall k (by omega) (by omega)
      · refine Or.inr ⟨k, hk, by omega, by omega, hp, fun j j1 j2 => ?_⟩
        by_cases hji : j = i
        · rw [hji]; exact hn
        · exact hj j (by omega) j2

private theorem findDown_spec (p : Int → R Bool) (P : Nat → Prop) : ∀ n : Nat,
    (∀ k : Nat, k < n → ∃ b, p k = .ok b ∧ (b = true ↔ P k)) →
    ∃ r, findDown p n ((n : Int) - 1) = .ok r ∧
      ((r = -1 ∧ ∀ k : Nat, k < n → ¬ P k) ∨
       ∃ k : Nat, r = k ∧ k < n ∧ P k ∧ ∀ j, k < j → j < n → ¬ P j) := by
  intro n
  induction n with
  | zero => intro _; exact ⟨-1, rfl, Or.inl ⟨rfl, fun k h => by omega⟩⟩
  | succ n ih =>
    intro h
    have hi : (((n + 1 : Nat) : Int) - 1) = n := by omega
    obtain ⟨b, e, hb⟩ := h n (by omega)
    rw [hi, findDown, e]
    cases b with
    | true =>
      exact ⟨n, rfl, Or.inr ⟨n, rfl, by omega, hb.1 rfl, fun j h1 h2 => by omega⟩⟩
    | false =>
      have hn : ¬ P n := fun hp => by simpa using hb.2 hp
      obtain ⟨r, er, hr⟩ := ih (fun k h1 => h k (by omega))
      refine ⟨r, er, ?_⟩
      rcases hr with ⟨hr, hall⟩ | ⟨k, hk, h2, hp, hj⟩
      · refine Or.inl ⟨hr, fun k h1 => ?_⟩
        by_cases hk : k = n
        · rw [hk]; exact hn
        · exact hall k (by omega)
      · refine Or.inr ⟨k, hk, by omega, hp, fun j j1 j2 => ?_⟩
        by_cases hji : j = n
        · rw [hji]; exact hn
        · exact hj j j1 (by omega)

private theorem charAt_is {s : JString} (hs : Good s) (c : Int) (k : Nat) (hk : k < s.length) :
    ∃ b, ((charAt s k).map fun (x : Nat) => decide ((x : Int) = c)) = .ok b ∧
      (b = true ↔ (text s)[k]?.map Int.ofNat = some c) := by
  have ls := text_length hs
  rw [charAt_text hs hk]
  refine ⟨_, rfl, ?_⟩
  rw [List.getElem?_eq_getElem (by omega)]
  simp

/-- C57: `indexOf(c, start)` is the first position from `start` on where the character is, or -1. -/
theorem indexOfChar_first {s : JString} (hs : Good s) (c : Int) (start : Nat) :
    ∃ r, indexOfChar s c start = .ok r ∧
      ((r = -1 ∧ ∀ k, start ≤ k → (text s)[k]?.map Int.ofNat ≠ some c) ∨
       ∃ k : Nat, r = k ∧ start ≤ k ∧ (text s)[k]?.map Int.ofNat = some c ∧
         ∀ j, start ≤ j → j < k → (text s)[j]?.map Int.ofNat ≠ some c) := by
  have ls := text_length hs
  obtain ⟨r, e, h⟩ := findUp_spec
    (fun i => (charAt s i).map fun (x : Nat) => decide ((x : Int) = c))
    (fun k => (text s)[k]?.map Int.ofNat = some c)
    ((s.length : Int) - start).toNat start (fun k h1 h2 => charAt_is hs c k (by omega))
  refine ⟨r, e, ?_⟩
  rcases h with ⟨h1, h2⟩ | ⟨k, h1, h2, h3, h4, h5⟩
  · refine Or.inl ⟨h1, fun k hk => ?_⟩
    by_cases hkl : k < s.length
    · exact h2 k hk (by omega)
    · rw [List.getElem?_eq_none (by omega)]; simp
  · exact Or.inr ⟨k, h1, h2, h4, h5⟩

/-- C57: `lastIndexOf(c, last)` is the last position up to `last` where the character is, or -1. -/
theorem lastIndexOfChar_last {s : JString} (hs : Good s) (c : Int) (last : Int) :
    ∃ r, lastIndexOfChar s c last = .ok r ∧
      ((r = -1 ∧ ∀ k : Nat, k ≤ last → (text s)[k]?.map Int.ofNat ≠ some c) ∨
       ∃ k : Nat, r = k ∧ k ≤ last ∧ (text s)[k]?.map Int.ofNat = some c ∧
         ∀ j : Nat, k < j → j ≤ last → (text s)[j]?.map Int.ofNat ≠ some c) := by
  have ls := text_length hs
  unfold lastIndexOfChar
  simp only
  generalize hm : (if last ≥ s.length then (s.length : Int) - 1 else last) = m
  have hmle : m < s.length ∧ m ≤ last ∧ (m = last ∨ m = (s.length : Int) - 1) := by
    rw [← hm]; split <;> omega
  have hnone : ∀ k : Nat, m < k → (k : Int) ≤ last → (text s)[k]?.map Int.ofNat ≠ some c := by
    intro k h1 h2
    rw [List.getElem?_eq_none (by omega)]; simp
  by_cases hneg : m < 0
  · rw [show (m + 1).toNat = 0 by omega]
    exact ⟨-1, rfl, Or.inl ⟨rfl, fun k hk => hnone k (by omega) hk⟩⟩
  · obtain ⟨r, e, h⟩ := findDown_spec
      (fun i => (charAt s i).map fun (x : Nat) => decide ((x : Int) = c))
      (fun k => (text s)[k]?.map Int.ofNat = some c)
      (m + 1).toNat (fun k h1 => charAt_is hs c k (by omega))
    rw [show (((m + 1).toNat : Int) - 1) = m by omega] at e
    refine ⟨r, e, ?_⟩
    rcases h with ⟨h1, h2⟩ | ⟨k, h1, h2, h3, h4⟩
    · refine Or.inl ⟨h1, fun k hk => ?_⟩
      by_cases hkm : (k : Int) ≤ m
      · exact h2 k (by omega)
      · exact hnone k (by omega) hk
    · refine Or.inr ⟨k, h1, by omega, h3, fun j j1 j2 => ?_⟩
      by_cases hkm : (j : Int) ≤ m
      · exact h4 j j1 (by omega)
      · exact hnone j (by omega) j2

private theorem cons_prefix (a b : Nat) (l m : List Nat) : (b :: m) <+: (a :: l) ↔ b = a ∧ m <+: l :=
  List.cons_prefix_cons

private theorem matchLoop_eq {s t : JString} (hs : Good s) (ht : Good t) (i : Nat)
    (hi : i + t.length ≤ s.length) : ∀ n j, n + j = t.length →
    ∃ r, matchLoop s t i n j = .ok r ∧ (r = t.length ↔ (text t).drop j <+: (text s).drop (i + j)) := by
  have ls := text_length hs
  have lt := text_length ht
  intro n
  induction n with
  | zero =>
    intro j hj
    refine ⟨j, rfl, ?_⟩
    rw [List.drop_eq_nil_of_le (as := text t) (by omega)]
    simp; omega
  | succ n ih =>
    intro j hj
    have e := charAt_text hs (i := i + j) (by omega)
    rw [Int.natCast_add] at e
    rw [matchLoop, e, charAt_text ht (by omega)]
    rw [ok_bind, ok_bind]
    rw [List.drop_eq_getElem_cons (l := text t) (i := j) (by omega),
      List.drop_eq_getElem_cons (l := text s) (i := i + j) (by omega), cons_prefix]
    split
    · rename_i hne
      refine ⟨j, rfl, ?_⟩
      constructor
      · intro h; omega
      · intro h; exact absurd h.1.symm hne
    · rename_i he
      have he := Decidable.not_not.1 he
      obtain ⟨r, er, h⟩ := ih (j + 1) (by omega)
      refine ⟨r, er, ?_⟩
      rw [h]
      constructor
      · intro h; exact ⟨he.symm, h⟩
      · intro h; exact h.2

private theorem matchLoop2_eq {s t : JString} (i : Nat) (hi : i + t.length ≤ s.length) : ∀ n j,
    n + j = t.length → matchLoop2 s t i n j = matchLoop s t i n j := by
  intro n
  induction n with
  | zero => intro j _; rfl
  | succ n ih =>
    intro j hj
    rw [matchLoop2, matchLoop, if_pos (by omega), ih (j + 1) (by omega)]

private theorem occurs_le {l m : List Nat} {i : Nat} (h : Occurs l m i) (hm : m ≠ []) :
    i + m.length ≤ l.length := by
  have := h.length_le
  rw [List.length_drop] at this
  have : m.length ≠ 0 := fun h => hm (List.eq_nil_of_length_eq_zero h)
  omega

private theorem match_at {s t : JString} (hs : Good s) (ht : Good t) (i : Nat)
    (hi : i + t.length ≤ s.length) :
    ∃ b, ((matchLoop s t i t.length 0).map fun j => decide (j = t.length)) = .ok b ∧
      (b = true ↔ Occurs (text s) (text t) i) := by
  obtain ⟨r, e, h⟩ := matchLoop_eq hs ht i hi t.length 0 (by omega)
  rw [e]
  refine ⟨_, rfl, ?_⟩
  rw [decide_eq_true_iff, h]
  simp [Occurs]

/-- C57: `indexOf(t, start)` is the first position from `start` on where `t` occurs, or -1. -/
theorem indexOf_first {s t : JString} (hs : Good s) (ht : Good t) (start : Nat)
    (hstart : t.length = 0 → start ≤ s.length) :
    ∃ r, indexOf s t start = .ok r ∧
      ((r = -1 ∧ ∀ k, start ≤ k → ¬ Occurs (text s) (text t) k) ∨
       ∃ k : Nat, r = k ∧ start ≤ k ∧ k + t.length ≤ s.length ∧ Occurs (text s) (text t) k ∧
         ∀ j, start ≤ j → j < k → ¬ Occurs (text s) (text t) j) := by
  have ls := text_length hs
  have lt := text_length ht
  unfold indexOf
  split
  · rename_i h0
    refine ⟨start, rfl, Or.inr ⟨start, rfl, Nat.le_refl _, ?_, ?_, fun j h1 h2 => by omega⟩⟩
    · have := hstart h0; omega
    · have : text t = [] := List.eq_nil_of_length_eq_zero (by omega)
      rw [this]; exact List.nil_prefix
  · rename_i h0
    have hne : text t ≠ [] := fun h => h0 (by rw [← lt, h]; rfl)
    obtain ⟨r, e, h⟩ := findUp_spec
      (fun i => (matchLoop s t i t.length 0).map fun j => decide (j = t.length))
      (fun k => Occurs (text s) (text t) k)
      ((s.length : Int) - t.length + 1 - start).toNat start
      (fun k h1 h2 => match_at hs ht k (by omega))
    refine ⟨r, e, ?_⟩
    rcases h with ⟨h1, h2⟩ | ⟨k, h1, h2, h3, h4, h5⟩
    · refine Or.inl ⟨h1, fun k hk ho => ?_⟩
      have := occurs_le ho hne
      exact h2 k hk (by omega) ho
    · exact Or.inr ⟨k, h1, h2, by omega, h4, h5⟩

/-- C57: `lastIndexOf(t, last)` is the last position up to `last` where `t` occurs, or -1. -/
theorem lastIndexOf_last {s t : JString} (hs : Good s) (ht : Good t) (last : Int)
    (hlast : t.length = 0 → 0 ≤ last ∧ last ≤ s.length) :
    ∃ r, lastIndexOf s t last = .ok r ∧
      ((r = -1 ∧ ∀ k : Nat, k ≤ last → ¬ Occurs (text s) (text t) k) ∨
       ∃ k : Nat, r = k ∧ k ≤ last ∧ k + t.length ≤ s.length ∧ Occurs (text s) (text t) k ∧
         ∀ j : Nat, k < j → j ≤ last → ¬ Occurs (text s) (text t) j) := by
  have ls := text_length hs
  have lt := text_length ht
  unfold lastIndexOf
  split
  · rename_i h0
    have := hlast h0
    refine ⟨last, rfl, Or.inr ⟨last.toNat, by omega, by omega, by omega, ?_, fun j h1 h2 => by omega⟩⟩
    have : text t = [] := List.eq_nil_of_length_eq_zero (by omega)
    rw [this]; exact List.nil_prefix
  · rename_i h0
    have hne : text t ≠ [] := fun h => h0 (by rw [← lt, h]; rfl)
    simp only
    generalize hm : min ((s.length : Int) - t.length) last = m
    have hnone : ∀ k : Nat, m < k → (k : Int) ≤ last → ¬ Occurs (text s) (text t) k := by
      intro k h1 h2 ho
      have := occurs_le ho hne
      omega
    by_cases hneg : m < 0
    · rw [show (m + 1).toNat = 0 by omega]
      exact ⟨-1, rfl, Or.inl ⟨rfl, fun k hk => hnone k (by omega) hk⟩⟩
    · obtain ⟨r, e, h⟩ := findDown_spec
        (fun i => (matchLoop2 s t i t.length 0).map fun j => decide (j = t.length))
        (fun k => Occurs (text s) (text t) k) (m + 1).toNat (fun k h1 => by
          show ∃ b, ((matchLoop2 s t k t.length 0).map fun j => decide (j = t.length)) = .ok b ∧ _
          rw [matchLoop2_eq k (by omega) _ _ (by omega)]
          exact match_at hs ht k (by omega))
      rw [show (((m + 1).toNat : Int) - 1) = m by omega] at e
      refine ⟨r, e, ?_⟩
      rcases h with ⟨h1, h2⟩ | ⟨k, h1, h2, h3, h4⟩
      · refine Or.inl ⟨h1, fun k hk => ?_⟩
        by_cases hkm : (k : Int) ≤ m
        · exact h2 k (by omega)
        · exact hnone k (by omega) hk
      · refine Or.inr ⟨k, h1, by omega, by omega, h3, fun j j1 j2 => ?_⟩
        by_cases hkm : (j : Int) ≤ m
        · exact h4 j j1 (by omega)
        · exact hnone j (by omega) j2

/-- C57: `contains` tells whether it occurs anywhere. -/
theorem contains_spec {s t : JString} (hs : Good s) (ht : Good t) :
    ∃ b, contains s t = .ok b ∧ (b = true ↔ text t <:+: text s) := by
  obtain ⟨r, e, h⟩ := indexOf_first hs ht 0 (by omega)
  unfold contains
  rw [show ((0 : Nat) : Int) = 0 from rfl] at e
  rw [e]
  refine ⟨_, rfl, ?_⟩
  rw [bne_iff_ne]
  rcases h with ⟨h1, h2⟩ | ⟨k, h1, _, _, h4, _⟩
  · constructor
    · intro h; exact absurd h1 h
    · rintro ⟨a, b, hab⟩
      exfalso
      refine h2 a.length (by omega) ?_
      unfold Occurs
      rw [← hab, List.append_assoc, List.drop_left]
      exact List.prefix_append _ _
  · constructor
    · intro _
      exact h4.isInfix.trans (List.drop_suffix _ _).isInfix
    · intro _; omega

/-! ### Prefixes and parts -/

/-- C57: `startsWith`. -/
theorem startsWith_spec {s t : JString} (hs : Good s) (ht : Good t) :
    ∃ b, startsWith s t = .ok b ∧ (b = true ↔ text t <+: text s) := by
  have ls := text_length hs
  have lt := text_length ht
  unfold startsWith
  split
  · obtain ⟨r, e, g, hr⟩ := (substring_spec hs 0 t.length).1 0 t.length rfl rfl (by omega) (by omega)
    rw [e]
    show ∃ b, Except.map _ (compareTo r t) = _ ∧ _
    rw [compareTo_eq g ht]
    refine ⟨_, rfl, ?_⟩
    rw [beq_iff_eq, (diff_order _ _).2.1, hr, List.drop_zero, Nat.sub_zero, ← lt]
    constructor
    · intro h; rw [← h]; exact List.take_prefix _ _
    · intro h; exact (List.prefix_iff_eq_take.1 h).symm
  · refine ⟨false, rfl, ?_⟩
    constructor
    · simp
    · intro h; have := h.length_le; omega

/-- C57: `endsWith`. -/
theorem endsWith_spec {s t : JString} (hs : Good s) (ht : Good t) :
    ∃ b, endsWith s t = .ok b ∧ (b = true ↔ text t <:+ text s) := by
  have ls := text_length hs
  have lt := text_length ht
  unfold endsWith
  split
  · obtain ⟨r, e, g, hr⟩ := (substring_spec hs ((s.length : Int) - t.length) s.length).1
      (s.length - t.length) s.length (by omega) rfl (by omega) (by omega)
    rw [e]
    show ∃ b, Except.map _ (compareTo r t) = _ ∧ _
    rw [compareTo_eq g ht]
    refine ⟨_, rfl, ?_⟩
    rw [beq_iff_eq, (diff_order _ _).2.1, hr, List.take_of_length_le (by simp; omega), ← ls, ← lt]
    constructor
    · intro h; rw [← h]; exact List.drop_suffix _ _
    · intro h; exact (List.suffix_iff_eq_drop.1 h).symm
  · refine ⟨false, rfl, ?_⟩
    constructor
    · simp
    · intro h; have := h.length_le; omega

/-- C57 (what holds of the code): `startsWith(t, start)` is right for `start = 0`. -/
theorem startsWithAt_partial {s t : JString} (hs : Good s) (ht : Good t) :
    ∃ b, startsWithAt s t 0 = .ok b ∧ (b = true ↔ text t <+: text s) := by
  obtain ⟨b, e, h⟩ := startsWith_spec hs ht
  refine ⟨b, ?_, h⟩
  rw [← e]
  unfold startsWithAt startsWith
  by_cases hl : s.length ≥ t.length
  · rw [if_pos hl, if_pos (by omega)]
  · rw [if_neg hl, if_neg (by omega)]

/-- C57: `regionMatches` compares the parts of the strings. -/
theorem regionMatches_spec {s t : JString} (hs : Good s) (ht : Good t) (ignoreCase : Bool) (a b n : Nat)
    (ha : a + n ≤ s.length) (hb : b + n ≤ t.length) :
    ∃ r, regionMatches s ignoreCase a t b n = .ok r ∧
      (r = true ↔ (((text s).drop a).take n).map (if ignoreCase then toLower else id) =
        (((text t).drop b).take n).map (if ignoreCase then toLower else id)) := by
  obtain ⟨x, e1, g1, h1⟩ := (substring_spec hs a ((a : Int) + n)).1 a (a + n) rfl (by omega) (by omega) ha
  obtain ⟨y, e2, g2, h2⟩ := (substring_spec ht b ((b : Int) + n)).1 b (b + n) rfl (by omega) (by omega) hb
  rw [Nat.add_sub_cancel_left] at h1 h2
  unfold regionMatches
  rw [e1]
  show ∃ r, (substring t b ((b : Int) + n)).bind _ = _ ∧ _
  rw [e2]
  rw [ok_bind]
  rw [← h1, ← h2]
  cases ignoreCase with
  | true => exact equalsIgnoreCase_spec g1 g2
  | false =>
    obtain ⟨r, e, h⟩ := equals_spec g1 g2
    refine ⟨r, by simpa using e, ?_⟩
    rw [h]; simp

/-! ### New strings -/

private theorem mapLoop_eq {s : JString} (hs : Good s) (f : Nat → Nat) : ∀ n i, n + i = s.length →
    mapLoop s f n i = .ok (((text s).drop i).map f) := by
  have ls := text_length hs
  intro n
  induction n with
  | zero => intro i hi; rw [mapLoop, List.drop_eq_nil_of_le (by omega)]; rfl
  | succ n ih =>
    intro i hi
    rw [mapLoop, charAt_text hs (by omega), List.drop_eq_getElem_cons (l := text s) (i := i) (by omega)]
    show (mapLoop s f n (i + 1)).map _ = _
    rw [ih (i + 1) (by omega)]
    rfl

private theorem text_mem {s : JString} (hs : Good s) : ∀ x ∈ text s, x < 65536 :=
  fun x hx => hs.chars x (List.mem_of_mem_drop (List.mem_of_mem_take hx))

/-- C57: `toLowerCase` and `toUpperCase` change the letters one by one. -/
theorem mapCase_spec {s : JString} (hs : Good s) (f : Nat → Nat) (hf : ∀ c, c < 65536 → f c < 65536) :
    ∃ r, mapCase f s = .ok r ∧ Good r ∧ text r = (text s).map f := by
  have ls := text_length hs
  obtain ⟨j, e, h⟩ := findUp_spec (fun j => (charAt s j).map fun c => decide (f c ≠ c))
    (fun k => ∃ c, (text s)[k]? = some c ∧ f c ≠ c) s.length 0 (fun k _ hk => by
      show ∃ b, (charAt s k).map _ = _ ∧ _
      rw [charAt_text hs (by omega)]
      refine ⟨_, rfl, ?_⟩
      rw [List.getElem?_eq_getElem (by omega)]
      simp)
  unfold mapCase
  rw [show ((0 : Nat) : Int) = 0 from rfl] at e
  rw [e, ok_bind]
  split
  · rename_i hj
    refine ⟨s, rfl, hs, ?_⟩
    rcases h with ⟨_, h⟩ | ⟨k, hk, _⟩
    · conv => lhs; rw [← List.map_id (text s)]
      apply List.map_congr_left
      intro c hc
      obtain ⟨k, hk, hkc⟩ := List.mem_iff_getElem.1 hc
      refine Decidable.byContradiction fun hne => h k (by omega) (by omega) ⟨c, ?_, fun hh => hne hh.symm⟩
      rw [List.getElem?_eq_getElem hk, hkc]
    · omega
  · rw [mapLoop_eq hs f _ _ (by omega), List.drop_zero]
    obtain ⟨r, er, g, hr⟩ := make_chars ((text s).map f) 0 s.length false (by simp [ls]) (by
      have := hs.fits; have := hs.small; simp [ls]; omega) (by
      intro x hx
      obtain ⟨c, hc, rfl⟩ := List.mem_map.1 hx
      exact hf c (text_mem hs c hc))
    rw [show ((0 : Nat) : Int) = 0 from rfl] at er
    refine ⟨r, by rw [ok_bind]; exact er, g, ?_⟩
    rw [hr, List.drop_zero, List.take_of_length_le (by simp [ls])]

theorem toLower_char (c : Nat) (h : c < 65536) : toLower c < 65536 := by
  unfold toLower; split <;> omega
theorem toUpper_char (c : Nat) (h : c < 65536) : toUpper c < 65536 := by
  unfold toUpper; split <;> omega

/-- The capital and the small letters, in order. -/
def capitals : List Nat := "ABCDEFGHIJKLMNOPQRSTUVWXYZ".toList.map Char.toNat
def smalls : List Nat := "abcdefghijklmnopqrstuvwxyz".toList.map Char.toNat

private theorem capitals_eq : capitals = List.range' 65 26 := by decide +kernel
private theorem smalls_eq : smalls = List.range' 97 26 := by decide +kernel

/-- C57: the conversions exchange the capital and the small letters of the alphabet and leave every
other character alone. -/
theorem case_letters : capitals.map toLower = smalls ∧ (∀ c, c ∉ capitals → toLower c = c) ∧
    smalls.map toUpper = capitals ∧ (∀ c, c ∉ smalls → toUpper c = c) := by
  refine ⟨by decide +kernel, fun c h => ?_, by decide +kernel, fun c h => ?_⟩
  · rw [capitals_eq, List.mem_range'_1] at h
    rw [toLower, if_neg (by omega)]
  · rw [smalls_eq, List.mem_range'_1] at h
    rw [toUpper, if_neg (by omega)]

/-- C57 (what holds of the code): `replace(a, b)` replaces each `a`, provided that the string has a
`char[]` or both are ASCII. -/
theorem replaceChar_spec_partial {s : JString} (hs : Good s) (a b : Nat) (hb : b < 65536)
    (h : s.wide = true ∨ a < 128 ∧ b < 128) :
    ∃ r, replaceChar s a b = .ok r ∧ Good r ∧ text r = (text s).map (fun c => if c = a then b else c) := by
  have ls := text_length hs
  have hfit := hs.fits
  have hsm := hs.small
  unfold replaceChar
  split
  · rw [mapLoop_eq hs _ _ _ (by omega), List.drop_zero]
    obtain ⟨r, er, g, hr⟩ := make_chars ((text s).map fun c => if c = a then b else c) 0 s.length false
      (by simp [ls]) (by simp [ls]; omega) (by
      intro x hx
      obtain ⟨c, hc, rfl⟩ := List.mem_map.1 hx
      have := text_mem hs c hc
      split <;> omega)
    rw [show ((0 : Nat) : Int) = 0 from rfl] at er
    refine ⟨r, by rw [ok_bind]; exact er, g, ?_⟩
    rw [hr, List.drop_zero, List.take_of_length_le (by simp [ls])]
  · rename_i hw
    have hw' : s.wide = false := by simpa using hw
    have hab := h.resolve_left hw
    have hasc := hs.ascii hw'
    unfold slice
    rw [if_pos hfit]
    rw [ok_bind, show (s.data.drop s.offset).take s.length = text s from rfl]
    rw [Nat.mod_eq_of_lt (show a < 256 by omega), Nat.mod_eq_of_lt (show b < 256 by omega)]
    have hnew : ∀ x ∈ (text s).map (fun c => if c = a then b else c), x < 128 := by
      intro x hx
      obtain ⟨c, hc, rfl⟩ := List.mem_map.1 hx
      have := hasc c (List.mem_of_mem_drop (List.mem_of_mem_take hc))
      split <;> omega
    refine ⟨⟨false, (text s).map (fun c => if c = a then b else c), 0, s.length⟩, ?_,
      ⟨by simp [ls], by simp [ls]; omega, fun x hx => by have := hnew x hx; omega, fun _ => hnew⟩, ?_⟩
    · unfold make
      rw [if_neg (by omega), wrap_small (by omega) (by omega),
        if_neg (by rw [List.length_map, ls]; omega), if_neg (by omega), test_ascii hnew]
      rfl
    · simp only [text]
      rw [List.drop_zero, List.take_of_length_le]
      rw [List.length_map]
      exact Nat.le_of_eq ls

/-- C57: `trim` removes blanks, tabs and line ends at both ends and nothing else. -/
theorem trim_spec {s : JString} (hs : Good s) :
    ∃ r, trim s = .ok r ∧ Good r ∧ ∃ a b, text s = a ++ text r ++ b ∧
      (∀ c ∈ a ++ b, isWhitespace c = true) ∧
      (∀ c, (text r).head? = some c → isWhitespace c = false) ∧
      (∀ c, (text r).getLast? = some c → isWhitespace c = false) := by
  have ls := text_length hs
  have hp : ∀ k, k < s.length → ∃ b, ((charAt s (k : Nat)).map fun c => !isWhitespace c) = .ok b ∧
      (b = true ↔ ∃ c, (text s)[k]? = some c ∧ isWhitespace c = false) := by
    intro k hk
    rw [charAt_text hs hk]
    refine ⟨_, rfl, ?_⟩
    rw [List.getElem?_eq_getElem (by omega)]
    simp
  obtain ⟨x, e1, h1⟩ := findUp_spec (fun i => (charAt s i).map fun c => !isWhitespace c) _ s.length 0
    (fun k _ hk => hp k (by omega))
  obtain ⟨y, e2, h2⟩ := findDown_spec (fun i => (charAt s i).map fun c => !isWhitespace c) _ s.length hp
  unfold trim
  rw [show ((0 : Nat) : Int) = 0 from rfl] at e1
  rw [e1]
  show ∃ r, (findDown _ _ _).bind _ = _ ∧ _
  rw [e2]
  show ∃ r, (if x ≥ (if y = -1 then -1 else y + 1) then _ else _) = _ ∧ _
  rcases h1 with ⟨h1, hall⟩ | ⟨i, hi, _, hi2, hci, hbefore⟩
  · -- only blanks
    have hyn : y = -1 := by
      rcases h2 with ⟨h2, _⟩ | ⟨k, _, hk, hP, _⟩
      · exact h2
      · exact absurd hP (hall k (by omega) (by omega))
    subst h1; subst hyn
    rw [if_pos (by decide)]
    refine ⟨empty, rfl, good_empty, text s, [], ?_, ?_,
      by simp [text, empty], by simp [text, empty]⟩
    · simp [text, empty]
    · intro c hc
      rw [List.append_nil] at hc
      obtain ⟨k, hk, hkc⟩ := List.mem_iff_getElem.1 hc
      rw [← Bool.not_eq_false]
      intro hf
      exact hall k (by omega) (by omega) ⟨c, by rw [List.getElem?_eq_getElem hk, hkc], hf⟩
  · rcases h2 with ⟨_, hall⟩ | ⟨k, hk, hk2, hck, hafter⟩
    · exact absurd hci (hall i (by omega))
    · have hik : i ≤ k := by
        refine Nat.le_of_not_lt fun hlt => ?_
        exact hbefore k (by omega) hlt hck
      subst hi; subst hk
      rw [if_neg (show ¬ (k : Int) = -1 by omega), if_neg (by omega)]
      obtain ⟨r, er, g, hr⟩ := (substring_spec hs i ((k : Int) + 1)).1 i (k + 1) rfl (by omega)
        (by omega) (by omega)
      refine ⟨r, er, g, (text s).take i, (text s).drop (k + 1), ?_, ?_, ?_, ?_⟩
      · rw [hr]
        conv => lhs; rw [← List.take_append_drop i (text s),
          ← List.take_append_drop (k + 1 - i) ((text s).drop i)]
        rw [List.drop_drop, show i + (k + 1 - i) = k + 1 by omega, List.append_assoc]
      · intro c hc
        rw [← Bool.not_eq_false]
        intro hf
        rcases List.mem_append.1 hc with hc | hc
        · obtain ⟨j, hj, hjc⟩ := List.mem_iff_getElem.1 hc
          rw [List.length_take] at hj
          rw [List.getElem_take] at hjc
          exact hbefore j (by omega) (by omega) ⟨c, by rw [List.getElem?_eq_getElem (by omega), hjc], hf⟩
        · obtain ⟨j, hj, hjc⟩ := List.mem_iff_getElem.1 hc
          rw [List.length_drop] at hj
          rw [List.getElem_drop] at hjc
          exact hafter (k + 1 + j) (by omega) (by omega)
            ⟨c, by rw [List.getElem?_eq_getElem (by omega), hjc], hf⟩
      · intro c hc
        obtain ⟨d, hd, hdw⟩ := hci
        rw [hr, List.head?_take, if_neg (by omega), List.head?_drop, hd] at hc
        rw [← Option.some.inj hc]; exact hdw
      · intro c hc
        obtain ⟨d, hd, hdw⟩ := hck
        rw [hr, List.getLast?_eq_getElem?, List.length_take, List.length_drop, List.getElem?_take,
          List.getElem?_drop] at hc
        rw [if_pos (by omega), show i + (min (k + 1 - i) ((text s).length - i) - 1) = k by omega, hd] at hc
        rw [← Option.some.inj hc]; exact hdw

private theorem replaceLoop_spec {t r : JString} (ht : Good t) (hr : Good r) (h0 : t.length ≠ 0) :
    ∀ fuel (s : JString) acc, Good s → s.length < fuel →
    ∃ out, replaceLoop t r fuel s acc = .ok (acc ++ out) ∧ Replaced (text t) (text r) (text s) out := by
  have lt := text_length ht
  intro fuel
  induction fuel with
  | zero => intro s acc _ h; omega
  | succ fuel ih =>
    intro s acc hs hf
    have ls := text_length hs
    rw [replaceLoop]
    obtain ⟨x, e, h⟩ := indexOf_first hs ht 0 (by omega)
    rw [show ((0 : Nat) : Int) = 0 from rfl] at e
    rw [e]
    show ∃ out, (if x = -1 then _ else _) = _ ∧ _
    rcases h with ⟨h1, h2⟩ | ⟨k, h1, _, h3, h4, h5⟩
    · rw [if_pos h1, toCharArray_text hs]
      exact ⟨text s, rfl, .done (fun i => h2 i (by omega))⟩
    · subst h1
      rw [if_neg (by omega)]
      obtain ⟨b, e1, g1, hb⟩ := (substring_spec hs 0 k).1 0 k rfl rfl (by omega) (by omega)
      obtain ⟨u, e2, g2, hu⟩ := (substring_spec hs ((k : Int) + t.length) s.length).1 (k + t.length)
        s.length (by omega) rfl h3 (by omega)
      rw [e1]
      show ∃ out, (toCharArray b).bind _ = _ ∧ _
      rw [toCharArray_text g1]
      show ∃ out, (toCharArray r).bind _ = _ ∧ _
      rw [toCharArray_text hr]
      show ∃ out, (substring s _ _).bind _ = _ ∧ _
      rw [e2]
      have lu := text_length g2
      have lu2 : u.length = s.length - (k + t.length) := by
        rw [← lu, hu]; simp; omega
      obtain ⟨out, eo, ho⟩ := ih u (acc ++ text b ++ text r) g2 (by omega)
      refine ⟨text b ++ text r ++ out, ?_, ?_⟩
      · rw [← List.append_assoc, ← List.append_assoc]; exact eo
      · have hsplit : text s = text b ++ text t ++ text u := by
          rw [hb, hu, List.drop_zero, Nat.sub_zero, List.take_of_length_le (i := s.length - (k + t.length))
            (by simp; omega)]
          have : text t = ((text s).drop k).take t.length := by
            rw [← lt]; exact List.prefix_iff_eq_take.1 h4
          rw [this, ← List.drop_drop, List.append_assoc, List.take_append_drop, List.take_append_drop]
        have lb : (text b).length = k := by rw [hb]; simp; omega
        rw [hsplit]
        refine .step (fun i hi => ?_) ho
        rw [← hsplit]
        exact h5 i (by omega) (by omega)

/-- C57: `replace(target, replacement)` replaces every occurrence, from left to right. -/
theorem replace_spec {s t r : JString} (hs : Good s) (ht : Good t) (hr : Good r) (h0 : t.length ≠ 0)
    (fuel : Nat) (hf : s.length < fuel) :
    ∃ out, replace fuel s t r = .ok out ∧ Replaced (text t) (text r) (text s) out := by
  unfold replace
  rw [if_neg h0]
  obtain ⟨out, e, h⟩ := replaceLoop_spec ht hr h0 fuel s [] hs hf
  exact ⟨out, by simpa using e, h⟩

/-- C57: an empty target is found before every character and at the end. -/
theorem replace_empty {s t r : JString} (hs : Good s) (hr : Good r) (h0 : t.length = 0) (fuel : Nat) :
    replace fuel s t r = .ok ((text s).flatMap (fun c => text r ++ [c]) ++ text r) := by
  have ls := text_length hs
  unfold replace
  rw [if_pos h0]
  have loop : ∀ n i acc, n + i = s.length → infuseLoop s r n i acc =
      .ok (acc ++ ((text s).drop i).flatMap (fun c => text r ++ [c]) ++ text r) := by
    intro n
    induction n with
    | zero =>
      intro i acc hi
      rw [infuseLoop, toCharArray_text hr, List.drop_eq_nil_of_le (by omega)]
      simp [Except.map]
    | succ n ih =>
      intro i acc hi
      rw [infuseLoop, toCharArray_text hr]
      show (substring s i (i + 1)).bind _ = _
      obtain ⟨x, e, g, hx⟩ := (substring_spec hs i ((i : Int) + 1)).1 i (i + 1) rfl (by omega) (by omega)
        (by omega)
      rw [e]
      show (toCharArray x).bind _ = _
      rw [toCharArray_text g]
      show infuseLoop s r n (i + 1) _ = _
      rw [ih (i + 1) _ (by omega), hx]
      rw [List.drop_eq_getElem_cons (l := text s) (i := i) (by omega), Nat.add_sub_cancel_left]
      simp only [List.take_succ_cons, List.take_zero, List.flatMap_cons, List.append_assoc]
  have := loop s.length 0 [] (by omega)
  simpa using this

/-- C57, C58: a string made of the bytes of another one has its characters, if none of them is zero
or one of them is above 127. -/
theorem bytes_round_trip {s : JString} (hs : Good s) (h : 0 ∉ text s ∨ ∃ c ∈ text s, 128 ≤ c)
    (hsmall : 3 * s.length < 2 ^ 31) :
    ∃ b r, getBytes s = .ok b ∧ make false b 0 b.length true = .ok r ∧ text r = text s := by
  have ls := text_length hs
  have hfit := hs.fits
  -- a `byte[]` is its own encoding
  have henc : ∀ l : List Nat, (∀ c ∈ l, c ≠ 0 ∧ c < 128) → JUtf8.encode l = l := by
    intro l
    induction l with
    | nil => intro _; rfl
    | cons c l ih =>
      intro hl
      have hc := hl c (List.mem_cons_self ..)
      show JUtf8.encodeChar c ++ JUtf8.encode l = _
      rw [ih (fun x hx => hl x (List.mem_cons_of_mem _ hx))]
      unfold JUtf8.encodeChar
      rw [if_neg hc.1, if_pos hc.2, Nat.mod_eq_of_lt (by omega)]; rfl
  have hlen : (JUtf8.encode (text s)).length ≤ 3 * (text s).length := by
    generalize text s = l
    induction l with
    | nil => simp [JUtf8.encode]
    | cons c l ih =>
      have : (JUtf8.encodeChar c).length ≤ 3 := by
        unfold JUtf8.encodeChar
        split
        · simp
        · split
          · simp
          · split <;> simp
      simp only [JUtf8.encode, List.flatMap_cons, List.length_append, List.length_cons] at *
      omega
  have hb : getBytes s = .ok (JUtf8.encode (text s)) := by
    unfold getBytes slice
    rw [if_pos hfit]
    show Except.ok (if s.wide = true then JUtf8.encode (text s) else text s) = _
    congr 1
    split
    · rfl
    · rename_i hw
      have hasc : ∀ c ∈ text s, c < 128 := fun c hc =>
        hs.ascii (by simpa using hw) c (List.mem_of_mem_drop (List.mem_of_mem_take hc))
      have h0 : 0 ∉ text s := h.resolve_right (fun ⟨c, hc, hc2⟩ => by have := hasc c hc; omega)
      exact (henc (text s) (fun c hc => ⟨fun hz => h0 (hz ▸ hc), hasc c hc⟩)).symm
  obtain ⟨b, e, hd, hw⟩ := JUtf8.decode_encode (text s) (text_mem hs) h
  refine ⟨_, ⟨b.wide, b.data, 0, if b.wide then b.data.length else (JUtf8.encode (text s)).length⟩, hb,
    ?_, ?_⟩
  · unfold make
    rw [if_neg (by omega), wrap_small (by omega) (by omega), if_neg (by omega), if_neg (by omega)]
    simp only [Bool.true_or, if_true, Bool.false_eq_true, if_false]
    unfold decodeBytes slice
    rw [if_pos (by simp)]
    rw [ok_bind]
    rw [show ((0 : Int)).toNat = 0 from rfl, List.drop_zero, Int.toNat_natCast,
      List.take_length, e]
  · show List.take (if b.wide then b.data.length else (JUtf8.encode (text s)).length)
      (List.drop 0 b.data) = text s
    rw [List.drop_zero, hd]
    apply List.take_of_length_le
    split
    · exact Nat.le_refl _
    · rename_i hnw
      have hasc : ∀ c ∈ text s, c < 128 := fun c hc =>
        Nat.lt_of_not_le fun hle => hnw (hw.2 ⟨c, hc, hle⟩)
      have h0 : 0 ∉ text s := h.resolve_right (fun ⟨c, hc, hc2⟩ => by have := hasc c hc; omega)
      rw [henc (text s) (fun c hc => ⟨fun hz => h0 (hz ▸ hc), hasc c hc⟩)]
      exact Nat.le_refl _

/-! ### Examples -/

private def ofBytes (s : String) : JString :=
  ⟨false, s.toList.map Char.toNat, 0, (s.toList.map Char.toNat).length⟩

/-- "bcd" as a part of a longer array. -/
private def part : JString := ⟨false, [97, 98, 99, 100, 101], 1, 3⟩

/-- A `char[]` with "aé€". -/
private def wideString : JString := ⟨true, [97, 0xE9, 0x20AC], 0, 3⟩

private theorem good_part : Good part :=
  ⟨by decide, by decide +kernel, by decide, fun _ => by decide⟩
private theorem good_wide : Good wideString :=
  ⟨by decide, by decide +kernel, by decide, fun h => by simp [wideString] at h⟩

example : text part = [98, 99, 100] ∧ indexOf part (ofBytes "cd") 0 = .ok 1 ∧
    lastIndexOf part (ofBytes "d") 3 = .ok 2 ∧ compareTo part wideString = .ok 1 ∧
    hashCode part = .ok 97347 := by decide +kernel

example : ∃ r, substring part 1 3 = .ok r ∧ Good r ∧ text r = [99, 100] :=
  (substring_spec good_part 1 3).1 1 3 rfl rfl (by decide) (by decide)

example : ∃ b r, getBytes wideString = .ok b ∧ make false b 0 b.length true = .ok r ∧
    text r = [97, 0xE9, 0x20AC] :=
  bytes_round_trip good_wide (Or.inr ⟨0xE9, by decide, by decide⟩) (by decide +kernel)

example : replace 7 (ofBytes "aaabaa") (ofBytes "aa") (ofBytes "x") =
    .ok ((ofBytes "xabx").data) := by decide +kernel

example : trim (ofBytes " \ta b\n") = .ok ⟨false, (ofBytes " \ta b\n").data, 2, 3⟩ := by decide +kernel

/-! ### Limits of the code -/

/-- C57 (limit of the code): `charAt(length())` is not refused and delivers the character of the
array behind the string. -/
theorem charAt_length_leaks : charAt part 3 = .ok 101 := by decide

/-- C57 (limit of the code): `startsWith(t, start)` takes the length of `t` for the end of the part. -/
theorem startsWithAt_wrong :
    startsWithAt (ofBytes "abcd") (ofBytes "bc") 1 = .ok false ∧
    startsWithAt (ofBytes "abcdef") (ofBytes "de") 3 = .error .stringIndex := by decide +kernel

/-- C57 (limit of the code): replacing in a string with a `byte[]` goes wrong with characters that are
not ASCII: the new one is cut to a byte that may swallow others, without end if it cannot, and an old
one may be taken for another character. -/
theorem replaceChar_wrong :
    replaceChar (ofBytes "abc") 97 0xE9 = .ok ⟨true, [0x98A3], 0, 1⟩ ∧
    replaceChar (ofBytes "a") 97 0xE9 = .error .stackOverflow ∧
    replaceChar (ofBytes "abc") 0x161 120 = .ok ⟨false, [120, 98, 99], 0, 3⟩ := by decide +kernel

/-- C57 (limit of the code): a negative start is refused, and an empty text is found behind the end. -/
theorem indexOf_borders : indexOf part (ofBytes "b") (-1) = .error .stringIndex ∧
    indexOf part (ofBytes "") 9 = .ok 9 ∧ indexOfChar part 98 (-1) = .error .stringIndex := by
  decide +kernel

/-- C57 (limit of the code): characters below 32 other than tab and line ends are not trimmed. -/
theorem trim_keeps_controls : trim ⟨false, [12, 97], 0, 2⟩ = .ok ⟨false, [12, 97], 0, 2⟩ := by decide

/-- C57 (limit of the code): the check of the constructor overflows, so a string outside of its array
can be made. -/
theorem make_overflow : make true [97] 2147483647 1 false = .ok ⟨true, [97], 2147483647, 1⟩ ∧
    charAt ⟨true, [97], 2147483647, 1⟩ 0 = .error .arrayIndex := by decide +kernel

end Avian.Strings
