import Verif.Lib.InStreams
import Verif.Props.ArrayList

/-
C76: input streams and readers deliver what is behind them.
-/
namespace Avian.InStreams

open ArrayList (Exn copy copy_ok)

variable {A : Type}

/-! ### Specification -/

/-- A read of `n` elements into `b` from `o` on: of the elements `left` some from the beginning (at least one, if one is asked
    for) are stored and `left'` remain; or there are none left and the result is -1. -/
def Delivered (b : List A) (o n : Nat) (left : List A) (count : Int) (b' left' : List A) : Prop :=
  (left = [] ∧ count = -1 ∧ b' = b ∧ left' = []) ∨
  ∃ k : Nat, count = k ∧ k ≤ n ∧ k ≤ left.length ∧ (0 < n → 0 < k) ∧ b' = b.take o ++ left.take k ++ b.drop (o + k) ∧
    left' = left.drop k

/-! ### The stream behind -/

theorem Src.read_ok (s : Src A) (b : List A) (o n : Nat) (h : o + n ≤ b.length) :
    ∃ c b' s', s.read b o n = .ok (c, b', s') ∧ Delivered b o n s.rest c b' s'.rest ∧ (0 < n → s.rest = [] → c = -1) ∧
      (s.rest ≠ [] → c ≠ -1) ∧ (n = 0 → c = 0) := by
  unfold Src.read
  rw [if_neg (by omega)]
  by_cases h0 : n = 0
  · subst h0
    rw [if_pos (by rfl)]
    exact ⟨_, _, _, rfl, .inr ⟨0, rfl, by simp, by simp, by simp, by simp, by simp⟩, by simp, by simp, by simp⟩
  · rw [if_neg (by omega)]
    cases hr : s.rest with
    | nil => exact ⟨_, _, _, rfl, .inl ⟨rfl, rfl, rfl, rfl⟩, by simp, by simp, by omega⟩
    | cons x xs =>
      refine ⟨_, _, _, rfl, .inr ⟨min (min n (xs.length + 1)) (s.chunk s.clock + 1), ?_, ?_, ?_, ?_, ?_, ?_⟩, by simp, ?_, by omega⟩
      · simp
      · omega
      · simp only [List.length_cons]; omega
      · intro _; omega
      · simp
      · simp
      · intro _
        simp only [Int.toNat_natCast, List.length_cons]
        omega

/-- Storing one part after another is storing them together. -/
theorem put_more (b L : List A) (o c k : Nat) (hc : c ≤ L.length) (hb : o + c ≤ b.length) :
    (b.take o ++ L.take c ++ b.drop (o + c)).take (o + c) ++ (L.drop c).take k ++
      (b.take o ++ L.take c ++ b.drop (o + c)).drop (o + c + k) = b.take o ++ L.take (c + k) ++ b.drop (o + (c + k)) := by
  have hl : (b.take o ++ L.take c).length = o + c := by simp; omega
  rw [List.take_append_of_le_length (by omega), List.take_of_length_le (l := b.take o ++ _) (by omega), List.drop_append,
    List.drop_of_length_le (l := b.take o ++ _) (by omega), hl, List.drop_drop, List.take_add]
  have e : o + c + (o + c + k - (o + c)) = o + (c + k) := by omega
  rw [e]
  simp

/-! ### Buffered streams -/

/-- What is in the buffer. -/
def pend (s : Buf A) : List A := (s.buffer.drop s.position.toNat).take (s.limit - s.position).toNat

/-- What is still to be read. -/
def left (s : Buf A) : List A := pend s ++ s.src.rest

structure Inv (s : Buf A) : Prop where
  size : 0 < s.buffer.length
  lower : 0 ≤ s.position
  upper : s.limit ≤ s.buffer.length

theorem pend_length {s : Buf A} (h : Inv s) : (pend s).length = (s.limit - s.position).toNat := by
  obtain ⟨h1, h2, h3⟩ := h
  unfold pend
  simp
  omega

theorem pend_nil {s : Buf A} (h : Inv s) : pend s = [] ↔ s.limit ≤ s.position := by
  rw [← List.length_eq_zero_iff, pend_length h]
  omega

theorem new_ok (src : Src A) (zero : A) (size : Nat) (h : 0 < size) : ∃ s, new src zero size = .ok s ∧ Inv s ∧ left s = src.rest := by
  refine ⟨⟨src, List.replicate size zero, 0, 0⟩, ?_, ⟨by simpa using h, by simp, by simp⟩, by simp [left, pend]⟩
  unfold new
  rw [if_neg (by omega), Int.toNat_natCast]

theorem fill_ok {s : Buf A} (h : Inv s) (hp : s.limit ≤ s.position) :
    ∃ s', fill s = .ok s' ∧ Inv s' ∧ left s' = left s ∧ s'.position = 0 ∧ s'.buffer.length = s.buffer.length ∧
      (left s = [] → s'.limit = -1) ∧ (left s ≠ [] → 1 ≤ s'.limit) := by
  obtain ⟨c, b', src', e, d, e1, e2, _⟩ := s.src.read_ok s.buffer 0 s.buffer.length (by omega)
  have hl : left s = s.src.rest := by
    unfold left
    rw [(pend_nil h).2 hp, List.nil_append]
  have e' : s.src.read s.buffer 0 (s.buffer.length : Int) = .ok (c, b', src') := e
  have hs := h.size
  refine ⟨⟨src', b', 0, c⟩, by unfold fill; rw [e']; rfl, ?_, ?_, rfl, ?_, ?_, ?_⟩
  · rcases d with ⟨d1, d2, d3, d4⟩ | ⟨k, d1, d2, d3, d4, d5, d6⟩
    · subst d3; exact ⟨hs, by simp, by simp only; omega⟩
    · have : b'.length = s.buffer.length := by rw [d5]; simp; omega
      exact ⟨by simp only; omega, by simp, by simp only; omega⟩
  · rw [hl]
    rcases d with ⟨d1, d2, d3, d4⟩ | ⟨k, d1, d2, d3, d4, d5, d6⟩
    · unfold left pend
      rw [d1, d4, d2]; rfl
    · unfold left pend
      simp only [Int.toNat_zero, List.drop_zero, Int.sub_zero, d1, d5, d6, List.take_zero, List.nil_append, Int.toNat_natCast]
      have hkl : (s.src.rest.take k).length = k := by simp; omega
      rw [List.take_append_of_le_length (by omega), List.take_of_length_le (by omega), List.take_append_drop]
  · rcases d with ⟨d1, d2, d3, d4⟩ | ⟨k, d1, d2, d3, d4, d5, d6⟩
    · subst d3; rfl
    · rw [d5]; simp; omega
  · rw [hl]; exact e1 hs
  · rw [hl]
    intro hne
    rcases d with ⟨d1, d2, d3, d4⟩ | ⟨k, d1, d2, d3, d4, d5, d6⟩
    · exact absurd d1 hne
    · have := d4 hs
      simp only; omega

theorem ended_ok {s : Buf A} (h : Inv s) :
    ∃ e s', ended s = .ok (e, s') ∧ Inv s' ∧ left s' = left s ∧ (e = true → left s = []) ∧ (e = false → s'.position < s'.limit) := by
  unfold ended
  by_cases hp : s.position ≥ s.limit
  · rw [if_pos hp]
    obtain ⟨s', e, h1, h2, h3, _, h4, h5⟩ := fill_ok h hp
    rw [e]
    refine ⟨_, _, rfl, h1, h2, ?_, ?_⟩
    · intro he
      have he : s'.limit = -1 := by simpa using he
      cases hl : left s with
      | nil => rfl
      | cons x xs => exact absurd (h5 (by simp [hl])) (by omega)
    · intro he
      have he : s'.limit ≠ -1 := by simpa using he
      have hne : left s ≠ [] := fun h0 => he (h4 h0)
      have := h5 hne
      omega
  · rw [if_neg hp]
    exact ⟨_, _, rfl, h, rfl, by simp, fun _ => by omega⟩

theorem load_nat {a : List A} {i : Nat} (h : i < a.length) : load a i = .ok a[i] := by
  unfold load
  rw [if_pos (by omega), Int.toNat_natCast, List.getElem?_eq_getElem h]

/-- Reading one element of a buffered stream gives the next, or -1 at the end. -/
theorem read_ok {s : Buf A} (h : Inv s) :
    ∃ s', read s = .ok ((left s).head?, s') ∧ Inv s' ∧ left s' = (left s).tail := by
  obtain ⟨e, s', he, h1, h2, h3, h4⟩ := ended_ok h
  unfold read
  rw [he]
  cases e with
  | true =>
    have h0 := h3 rfl
    exact ⟨s', by simp [Except.bind, h0], h1, by simp [h2, h0]⟩
  | false =>
    have hlt := h4 rfl
    obtain ⟨k1, k2, k3⟩ := h1
    obtain ⟨p, hp⟩ : ∃ p : Nat, s'.position = p := ⟨_, (Int.toNat_of_nonneg k2).symm⟩
    have hpl : p < s'.buffer.length := by omega
    have hpend : pend s' = s'.buffer[p] :: pend { s' with position := s'.position + 1 } := by
      unfold pend
      simp only [hp, Int.toNat_natCast]
      obtain ⟨m, hm⟩ : ∃ m, (s'.limit - (p : Int)).toNat = m + 1 := ⟨(s'.limit - (p : Int)).toNat - 1, by omega⟩
      have e1 : ((p : Int) + 1).toNat = p + 1 := by omega
      have e2 : (s'.limit - ((p : Int) + 1)).toNat = m := by omega
      rw [hm, e1, e2, List.drop_eq_getElem_cons hpl, List.take_succ_cons]
    refine ⟨{ s' with position := s'.position + 1 }, ?_, ⟨k1, by simp only; omega, k3⟩, ?_⟩
    · simp only [Except.bind]
      rw [hp, load_nat hpl]
      rw [← h2]
      unfold left
      rw [hpend]
      rfl
    · rw [← h2]
      unfold left
      rw [hpend]
      rfl

/-- Where a read of an array stands after `c` elements. -/
structure At (b : List A) (o n : Nat) (L : List A) (j : Job A) (c : Nat) : Prop where
  le : c ≤ n
  le' : c ≤ L.length
  b : j.b = b.take o ++ L.take c ++ b.drop (o + c)
  offset : j.offset = o + c
  length : j.length = n - c
  count : j.count = c

theorem at_zero (b : List A) (o n : Nat) (L : List A) : At b o n L ⟨b, o, n, 0⟩ 0 :=
  ⟨by omega, by omega, by simp, by simp, by simp, by simp⟩

theorem at_length {b : List A} {o n : Nat} {L : List A} {j : Job A} {c : Nat} (h : At b o n L j c) (hb : o + n ≤ b.length) :
    j.b.length = b.length := by
  obtain ⟨h1, h2, h3, h4, h5, h6⟩ := h
  rw [h3]
  simp
  omega

/-- Storing `k` more elements. -/
theorem at_more {b : List A} {o n : Nat} {L : List A} {j : Job A} {c : Nat} (h : At b o n L j c) (hb : o + n ≤ b.length) (k : Nat)
    (hk : c + k ≤ n) (hk' : c + k ≤ L.length) :
    At b o n L ⟨j.b.take (o + c) ++ (L.drop c).take k ++ j.b.drop (o + c + k), j.offset + k, j.length - k, j.count + k⟩ (c + k) := by
  obtain ⟨h1, h2, h3, h4, h5, h6⟩ := h
  refine ⟨hk, hk', ?_, by simp only; omega, by simp only; omega, by simp only; omega⟩
  simp only
  rw [h3, put_more b L o c k h2 (by omega)]

theorem at_delivered {b : List A} {o n : Nat} {L : List A} {j : Job A} {c : Nat} (h : At b o n L j c) (hp : 0 < n → 0 < c) :
    Delivered b o n L j.count j.b (L.drop c) := .inr ⟨c, h.count, h.le, h.le', hp, h.b, rfl⟩

theorem takeBuffered_ok {s : Buf A} (h : Inv s) (b : List A) (o n : Nat) (hb : o + n ≤ b.length) :
    ∃ s' j, takeBuffered s ⟨b, o, n, 0⟩ = .ok (s', j) ∧ Inv s' ∧ s'.src = s.src ∧
      At b o n (left s) j (min n (pend s).length) ∧ left s' = (left s).drop (min n (pend s).length) ∧
      (pend s' = [] ∨ j.length = 0) := by
  have hpl := pend_length h
  unfold takeBuffered
  by_cases hp : s.position < s.limit
  · rw [if_pos hp]
    obtain ⟨k1, k2, k3⟩ := h
    obtain ⟨p, hp'⟩ : ∃ p : Nat, s.position = p := ⟨_, (Int.toNat_of_nonneg k2).symm⟩
    obtain ⟨m, hm⟩ : ∃ m : Nat, m = min n (pend s).length := ⟨_, rfl⟩
    have e : (if s.limit - s.position > (n : Int) then (n : Int) else s.limit - s.position) = (m : Int) := by
      split <;> omega
    simp only [e]
    have hc := copy_ok s.buffer b p o m (by omega) (by omega)
    rw [hp', hc]
    have ha := at_more (at_zero b o n (left s)) hb m (by omega) (by simp only [left, List.length_append]; omega)
    have hb' : (s.buffer.drop p).take m = (left s).take m := by
      unfold left
      rw [List.take_append_of_le_length (by omega)]
      unfold pend
      rw [hp', Int.toNat_natCast, List.take_take]
      congr 1
      omega
    have hpd : pend { s with position := (p : Int) + m } = (pend s).drop m := by
      unfold pend
      have e1 : ((p : Int) + m).toNat = p + m := by omega
      have e2 : (s.limit - ((p : Int) + m)).toNat = (s.limit - p).toNat - m := by omega
      simp only [hp', e1, e2, Int.toNat_natCast]
      rw [List.drop_take, List.drop_drop]
    refine ⟨_, _, rfl, ⟨k1, by simp only; omega, k3⟩, rfl, ?_, ?_, ?_⟩
    · rw [← hm, hb']
      simp only [Nat.add_zero, Nat.zero_add, List.drop_zero] at ha
      exact ha
    · rw [← hm]
      unfold left
      rw [hpd]
      rw [List.drop_append_of_le_length (by omega)]
    · by_cases hn : n ≤ (pend s).length
      · right; simp only; omega
      · left
        rw [hpd, List.drop_of_length_le (by omega)]
  · rw [if_neg hp]
    have h0 : (pend s).length = 0 := by omega
    refine ⟨_, _, rfl, h, rfl, ?_, ?_, .inl (List.eq_nil_of_length_eq_zero h0)⟩
    · rw [h0, Nat.min_zero]; exact at_zero _ _ _ _
    · rw [h0, Nat.min_zero]; rfl

/-- A read of the stream behind, after `c` elements. -/
theorem src_more (src : Src A) {b : List A} {o n : Nat} {L : List A} {j : Job A} {c : Nat} (h : At b o n L j c)
    (hb : o + n ≤ b.length) (hL : src.rest = L.drop c) (hn : 0 < j.length) :
    ∃ r b' src', src.read j.b j.offset j.length = .ok (r, b', src') ∧
      ((r = -1 ∧ L.drop c = [] ∧ b' = j.b ∧ src'.rest = []) ∨
        ∃ k : Nat, 0 < k ∧ r = k ∧ At b o n L ⟨b', j.offset + r, j.length - r, j.count + r⟩ (c + k) ∧ src'.rest = L.drop (c + k)) := by
  have hlen := at_length h hb
  have h4 := h.offset
  have h5 := h.length
  have h1 := h.le
  have e1 : j.offset = ((o + c : Nat) : Int) := by omega
  have e2 : j.length = ((n - c : Nat) : Int) := by omega
  obtain ⟨r, b', src', e, d, d1, d2, _⟩ := src.read_ok j.b (o + c) (n - c) (by omega)
  rw [← e1, ← e2] at e
  refine ⟨r, b', src', e, ?_⟩
  rcases d with ⟨x1, x2, x3, x4⟩ | ⟨k, x1, x2, x3, x4, x5, x6⟩
  · exact .inl ⟨x2, by rw [← hL, x1], x3, x4⟩
  · right
    have hk := x4 (by omega)
    rw [hL] at x3 x5 x6
    simp only [List.length_drop] at x3
    have ha := at_more h hb k (by omega) (by omega)
    refine ⟨k, hk, x1, ?_, by rw [x6, List.drop_drop]⟩
    rw [x1, x5]
    exact ha

theorem left_src {s : Buf A} (src : Src A) (hp : pend s = []) : left { s with src := src } = src.rest := by
  have : pend { s with src := src } = [] := hp
  unfold left
  rw [this, List.nil_append]

theorem readLoop_ok {b : List A} {o n : Nat} {L : List A} (hb : o + n ≤ b.length) : ∀ (m : Nat) (s : Buf A) (j : Job A) (c : Nat),
    n - c < m → Inv s → At b o n L j c → left s = L.drop c → (pend s = [] ∨ j.length = 0) → (0 < n → 0 < c) →
    ∃ r b' s', readLoop m s j = .ok (r, b', s') ∧ Inv s' ∧ Delivered b o n L r b' (left s') := by
  intro m
  induction m with
  | zero => intro s j c h; omega
  | succ m ih =>
    intro s j c hm hi ha hl hp h0
    unfold readLoop
    by_cases hn : j.length > 0
    · rw [if_pos hn]
      have hp : pend s = [] := hp.resolve_right (by omega)
      have hrest : s.src.rest = L.drop c := by rw [← hl]; unfold left; rw [hp, List.nil_append]
      simp only
      by_cases hav : s.src.available.1 > 0
      · rw [if_pos hav]
        obtain ⟨r, b', src', e, d⟩ := src_more s.src.available.2 ha hb hrest hn
        rw [e]
        simp only [Except.bind]
        rcases d with ⟨d1, d2, d3, d4⟩ | ⟨k, d0, d1, d2, d3⟩
        · rw [if_pos d1]
          have h5 := ha.length
          have h1 := ha.le
          have hc := ha.count
          have : 0 < c := h0 (by omega)
          rw [if_neg (by omega), d3]
          refine ⟨_, _, _, rfl, ⟨hi.size, hi.lower, hi.upper⟩, ?_⟩
          rw [left_src src' hp, d4, ← d2]
          exact at_delivered ha h0
        · rw [if_neg (by omega)]
          have hle := d2.le
          exact ih _ _ (c + k) (by omega) ⟨hi.size, hi.lower, hi.upper⟩ d2 (by rw [left_src src' hp, d3]) (.inl hp)
            (fun _ => by omega)
      · rw [if_neg hav]
        refine ⟨_, _, _, rfl, ⟨hi.size, hi.lower, hi.upper⟩, ?_⟩
        rw [left_src _ hp]
        show Delivered b o n L j.count j.b s.src.rest
        rw [hrest]
        exact at_delivered ha h0
    · rw [if_neg hn]
      refine ⟨_, _, _, rfl, hi, ?_⟩
      rw [hl]
      exact at_delivered ha h0

/-- Reading into an array from a buffered stream delivers. -/
theorem readArray_ok {s : Buf A} (h : Inv s) (b : List A) (o n : Nat) (hb : o + n ≤ b.length) :
    ∃ r b' s', readArray s b o n = .ok (r, b', s') ∧ Inv s' ∧ Delivered b o n (left s) r b' (left s') := by
  obtain ⟨e, s1, he, h1, h2, h3, h4⟩ := ended_ok h
  unfold readArray
  rw [he]
  simp only [Except.bind]
  cases e with
  | true =>
    have h0 := h3 rfl
    exact ⟨_, _, _, rfl, h1, .inl ⟨h0, rfl, rfl, by rw [h2, h0]⟩⟩
  | false =>
    have hlt := h4 rfl
    obtain ⟨s2, j, e2, i2, _, a2, l2, p2⟩ := takeBuffered_ok h1 b o n hb
    simp only
    rw [e2]
    simp only
    have hpl := pend_length h1
    rw [h2] at a2 l2
    exact readLoop_ok hb _ _ _ _ (by simp only [Int.toNat_natCast]; omega) i2 a2 l2 p2 (fun _ => by omega)

/-- `available` says how much can be read without the stream behind having to wait, while the end was not met. -/
theorem available_partial {s : Buf A} (h : Inv s) (hp : s.position ≤ s.limit) :
    (available s).1 = s.src.available.1 + (pend s).length ∧ left (available s).2 = left s ∧ Inv (available s).2 := by
  refine ⟨?_, rfl, ⟨h.size, h.lower, h.upper⟩⟩
  rw [pend_length h]
  unfold available
  simp only
  omega

/-- After the end was met `available` is one too small: -1 for a stream that says 0. -/
theorem available_after_end {s : Buf A} (h : Inv s) (h0 : left s = []) :
    ∃ s', read s = .ok (none, s') ∧ (available s').1 = s'.src.available.1 - 1 := by
  obtain ⟨e, s', he, h1, h2, h3, h4⟩ := ended_ok h
  have hlim : s.limit ≤ s.position := by
    rw [← pend_nil h]
    unfold left at h0
    exact (List.append_eq_nil_iff.1 h0).1
  obtain ⟨s1, f1, _, _, f2, _, f3, _⟩ := fill_ok h hlim
  have hf := f3 h0
  have : ended s = .ok (true, s1) := by
    unfold ended
    rw [if_pos hlim, f1]
    simp [Except.bind, hf]
  refine ⟨s1, by unfold read; rw [this]; rfl, ?_⟩
  unfold available
  simp only
  omega

theorem skipLoop_ok (size : Nat) (hs : 0 < size) : ∀ (m : Nat) (s : Buf A) (buffer : List A) (r : Nat), r < m → Inv s → buffer.length = size →
    ∃ s', skipLoop (size : Int) m s buffer r = .ok ((r - min r (left s).length : Nat), s') ∧ Inv s' ∧ left s' = (left s).drop (min r (left s).length) := by
  intro m
  induction m with
  | zero => intro s b r h; omega
  | succ m ih =>
    intro s buffer r hr hi hb
    unfold skipLoop
    have e : (if (size : Int) < r then (size : Int) else (r : Int)) = ((min size r : Nat) : Int) := by split <;> omega
    rw [e]
    obtain ⟨c, b', s', e1, i1, d1⟩ := readArray_ok hi buffer 0 (min size r) (by omega)
    rw [show readArray s buffer 0 ((min size r : Nat) : Int) = _ from e1]
    simp only [Except.bind]
    rcases d1 with ⟨d1, d2, d3, d4⟩ | ⟨k, d1, d2, d3, d4, d5, d6⟩
    · rw [if_neg (by omega), d1]
      exact ⟨s', by simp, i1, by simp [d4]⟩
    · by_cases h0 : r = 0
      · subst h0
        rw [if_neg (by omega)]
        have hk : k = 0 := by omega
        subst hk
        exact ⟨s', by simp, i1, by simpa using d6⟩
      · rw [if_pos (by omega)]
        have hk := d4 (by omega)
        have hbl : b'.length = size := by rw [d5]; simp; omega
        have e3 : (r : Int) - c = ((r - k : Nat) : Int) := by omega
        rw [e3]
        obtain ⟨s2, e2, i2, l2⟩ := ih s' b' (r - k) (by omega) i1 hbl
        refine ⟨s2, ?_, i2, ?_⟩
        · rw [e2, d6]
          simp only [List.length_drop]
          congr 2
          omega
        · rw [l2, d6, List.drop_drop]
          congr 1
          simp only [List.length_drop]
          omega

/-- `skip` leaves out as many elements as it says: those asked for or all that are left. -/
theorem skip_ok {s : Buf A} (h : Inv s) (zero : A) (n : Nat) :
    ∃ s', skip s zero n = .ok ((min n (left s).length : Nat), s') ∧ Inv s' ∧ left s' = (left s).drop n := by
  unfold skip
  simp only
  have hdrop : ∀ l : List A, l.drop (min n l.length) = l.drop n := by
    intro l
    by_cases hc : n ≤ l.length
    · rw [Nat.min_eq_left hc]
    · rw [List.drop_of_length_le (by omega), List.drop_of_length_le (by omega)]
  by_cases h0 : n = 0
  · subst h0
    obtain ⟨c, b', s', e1, i1, d1⟩ := readArray_ok h (List.replicate 0 zero) 0 0 (by simp)
    have e1 : readArray s [] 0 0 = .ok (c, b', s') := e1
    have e2 : skipLoop 0 1 s [] 0 = .ok (0, s') := by
      unfold skipLoop
      rw [if_neg (by omega), e1]
      simp only [Except.bind]
      rw [if_neg (by omega)]
    refine ⟨s', ?_, i1, ?_⟩
    · show (skipLoop 0 1 s [] 0).bind _ = _
      rw [e2]
      simp [Except.bind]
    · rcases d1 with ⟨d1, d2, d3, d4⟩ | ⟨k, d1, d2, d3, d4, d5, d6⟩
      · rw [d4, d1]; rfl
      · have : k = 0 := by omega
        subst this
        exact d6
  · obtain ⟨z, hz⟩ : ∃ z : Nat, z = min n 8192 := ⟨_, rfl⟩
    have e : (if (n : Int) < 8 * 1024 then (n : Int) else 8 * 1024) = (z : Int) := by split <;> omega
    rw [e, if_neg (by omega)]
    obtain ⟨s', e1, i1, l1⟩ := skipLoop_ok z (by omega) (n + 1) s (List.replicate z zero) n (by omega) h (by simp)
    simp only [Int.toNat_natCast]
    rw [e1]
    refine ⟨s', ?_, i1, by rw [l1, hdrop]⟩
    simp only [Except.bind]
    have e3 : (n : Int) - ((n - min n (left s).length : Nat) : Int) = ((min n (left s).length : Nat) : Int) := by omega
    rw [e3]

/-- Java skips nothing for a negative number; this fails. -/
theorem skip_negative (s : Buf A) (zero : A) (n : Int) (h : n < 0) : skip s zero n = .error .negativeArraySize := by
  unfold skip
  simp only
  have e : (if n < 8 * 1024 then n else 8 * 1024) = n := if_pos (by omega)
  rw [e, if_pos h]

/-- A buffered stream without places cannot read a single element. -/
theorem no_places (src : Src A) (zero : A) : ∃ s, new src zero 0 = .ok s ∧ read s = .error .indexOutOfBounds := by
  refine ⟨⟨src, [], 0, 0⟩, rfl, ?_⟩
  rfl

/-! ### Any sequence of calls -/

/-- Calls of a buffered stream. -/
inductive Call (A : Type) where
  | read
  | readArray (b : List A) (o n : Nat) (h : o + n ≤ b.length)
  | skip (zero : A) (n : Nat)
  | available

/-- What the calls gave, in order: the elements delivered or skipped. -/
def calls (s : Buf A) : List (Call A) → Except Exn (List (List A × Nat) × Buf A)
  | [] => .ok ([], s)
  | .read :: cs => (read s).bind fun r => (calls r.2 cs).bind fun q => .ok ((r.1.toList, 0) :: q.1, q.2)
  | .readArray b o n _ :: cs =>
    (readArray s b o n).bind fun r => (calls r.2.2 cs).bind fun q => .ok (((r.2.1.drop o).take r.1.toNat, 0) :: q.1, q.2)
  | .skip z n :: cs => (skip s z n).bind fun r => (calls r.2 cs).bind fun q => .ok (([], r.1.toNat) :: q.1, q.2)
  | .available :: cs => calls (available s).2 cs

theorem calls_skip (s : Buf A) (z : A) (n : Nat) (cs : List (Call A)) :
    calls s (.skip z n :: cs) = (skip s z n).bind fun r => (calls r.2 cs).bind fun q => .ok (([], r.1.toNat) :: q.1, q.2) := rfl

/-- The elements given fit the elements `l` and leave `l'`: nothing is lost, doubled or out of order. -/
def Fits : List (List A × Nat) → List A → List A → Prop
  | [], l, l' => l = l'
  | (x, k) :: xs, l, l' => ∃ m y, l = m ++ y ∧ (m = x ∨ (x = [] ∧ m.length = k)) ∧ Fits xs y l'

theorem delivered_part {b : List A} {o n : Nat} {l : List A} {c : Int} {b' l' : List A} (hb : o + n ≤ b.length)
    (h : Delivered b o n l c b' l') : l = (b'.drop o).take c.toNat ++ l' := by
  rcases h with ⟨h1, h2, h3, h4⟩ | ⟨k, h1, h2, h3, h4, h5, h6⟩
  · rw [h1, h2, h4]; simp
  · rw [h1, h5, h6, Int.toNat_natCast]
    have e : ((b.take o ++ l.take k ++ b.drop (o + k)).drop o).take k = l.take k := by
      rw [List.append_assoc, List.drop_append, List.drop_of_length_le (by simp; omega)]
      have e1 : o - (b.take o).length = 0 := by simp; omega
      rw [e1]
      simp only [List.nil_append, List.drop_zero]
      rw [List.take_append_of_le_length (by simp; omega), List.take_of_length_le (by simp; omega)]
    rw [e, List.take_append_drop]

/-- Whatever is called, with whatever sizes of buffer and arrays and however the stream behind divides its elements, a buffered
    stream with at least one place delivers the elements of the stream behind, all and in order. -/
theorem calls_partial (src : Src A) (zero : A) (size : Nat) (hs : 0 < size) (cs : List (Call A)) :
    ∃ s out s', new src zero size = .ok s ∧ calls s cs = .ok (out, s') ∧ Fits out src.rest (left s') := by
  obtain ⟨s, e, hi, hl⟩ := new_ok src zero size hs
  suffices H : ∀ s : Buf A, Inv s → ∃ out s', calls s cs = .ok (out, s') ∧ Fits out (left s) (left s') by
    obtain ⟨out, s', h1, h2⟩ := H s hi
    exact ⟨s, out, s', e, h1, by rw [← hl]; exact h2⟩
  clear e hi hl s
  induction cs with
  | nil => intro s _; exact ⟨[], s, rfl, rfl⟩
  | cons c cs ih =>
    intro s hi
    cases c with
    | read =>
      obtain ⟨s', e, i', l'⟩ := read_ok hi
      obtain ⟨out, s2, e2, f⟩ := ih s' i'
      refine ⟨((left s).head?.toList, 0) :: out, s2, by simp only [calls, e, Except.bind, e2], (left s).head?.toList, left s', ?_, .inl rfl, f⟩
      rw [l']
      cases left s <;> rfl
    | readArray b o n hb =>
      obtain ⟨r, b', s', e, i', d⟩ := readArray_ok hi b o n hb
      obtain ⟨out, s2, e2, f⟩ := ih s' i'
      exact ⟨((b'.drop o).take r.toNat, 0) :: out, s2, by simp only [calls, e, Except.bind, e2], (b'.drop o).take r.toNat, left s',
        delivered_part hb d, .inl rfl, f⟩
    | skip z n =>
      obtain ⟨s', e, i', l'⟩ := skip_ok hi z n
      obtain ⟨out, s2, e2, f⟩ := ih s' i'
      refine ⟨([], min n (left s).length) :: out, s2, by rw [calls_skip, e]; simp only [Except.bind, e2, Int.toNat_natCast], (left s).take n,
        left s', ?_, .inr ⟨rfl, by simp⟩, f⟩
      rw [l', List.take_append_drop]
    | available =>
      obtain ⟨out, s2, e2, f⟩ := ih (available s).2 ⟨hi.size, hi.lower, hi.upper⟩
      exact ⟨out, s2, by simp only [calls, e2], f⟩

/-- Five bytes behind a buffer with two places, given one or two at a time. -/
def five : Src Nat := ⟨[1, 2, 3, 4, 5], fun t => t % 2, fun _ => 1, 0⟩

def outOf (r : Except Exn (List (List A × Nat) × Buf A)) : Option (List (List A × Nat)) :=
  match r with
  | .ok q => some q.1
  | .error _ => none

example : outOf (calls ⟨five, [0, 0], 0, 0⟩ [.read, .readArray [0, 0, 0] 1 2 (by decide), .skip 0 1, .read, .read]) =
    some [([1], 0), ([2, 3], 0), ([], 1), ([5], 0), ([], 0)] := by decide +kernel

/-! ### Buffered readers -/

/-- Reading into an array from a buffered reader delivers. -/
theorem readChars_ok {s : Buf A} (h : Inv s) (b : List A) (o n : Nat) (hb : o + n ≤ b.length) :
    ∃ r b' s', readChars s b o n = .ok (r, b', s') ∧ Inv s' ∧ Delivered b o n (left s) r b' (left s') := by
  have hre : ∃ s1, refill s n = .ok s1 ∧ Inv s1 ∧ left s1 = left s := by
    unfold refill
    by_cases hc : s.position ≥ s.limit ∧ (n : Int) < s.buffer.length
    · rw [if_pos hc]
      obtain ⟨s', e, h1, h2, _⟩ := fill_ok h hc.1
      exact ⟨s', e, h1, h2⟩
    · rw [if_neg hc]
      exact ⟨s, rfl, h, rfl⟩
  obtain ⟨s1, e1, i1, l1⟩ := hre
  obtain ⟨s2, j, e2, i2, x2, a2, l2, p2⟩ := takeBuffered_ok i1 b o n hb
  rw [l1] at a2 l2
  unfold readChars
  rw [e1]
  simp only [Except.bind]
  rw [e2]
  simp only
  unfold readRest
  by_cases hn : j.length > 0
  · rw [if_pos hn]
    have hp : pend s2 = [] := p2.resolve_right (by omega)
    have hrest : s2.src.rest = (left s).drop (min n (pend s1).length) := by
      rw [← l2]; unfold left; rw [hp, List.nil_append]
    obtain ⟨r, b', src', e, d⟩ := src_more s2.src a2 hb hrest hn
    rw [e]
    simp only [Except.bind]
    rcases d with ⟨d1, d2, d3, d4⟩ | ⟨k, d0, d1, d2, d3⟩
    · rw [if_pos d1]
      simp only
      have hc := a2.count
      by_cases h0 : j.count = 0
      · rw [if_pos h0]
        have h0' : min n (pend s1).length = 0 := by omega
        refine ⟨_, _, _, rfl, ⟨i2.size, i2.lower, i2.upper⟩, .inl ⟨?_, rfl, ?_, ?_⟩⟩
        · rw [h0'] at d2; exact d2
        · rw [d3]
          have := a2.b
          rw [h0'] at this
          simpa using this
        · rw [left_src src' hp, d4]
      · rw [if_neg h0]
        refine ⟨_, _, _, rfl, ⟨i2.size, i2.lower, i2.upper⟩, ?_⟩
        rw [left_src src' hp, d4, ← d2, d3]
        exact at_delivered a2 (fun _ => by omega)
    · rw [if_neg (by omega)]
      refine ⟨_, _, _, rfl, ⟨i2.size, i2.lower, i2.upper⟩, ?_⟩
      rw [left_src src' hp, d3]
      exact at_delivered d2 (fun _ => by omega)
  · rw [if_neg hn]
    refine ⟨_, _, _, rfl, ⟨i2.size, i2.lower, i2.upper⟩, ?_⟩
    show Delivered b o n (left s) j.count j.b (left s2)
    rw [l2]
    have := a2.length
    have := a2.le
    exact at_delivered a2 (fun _ => by omega)

example : Inv (⟨five, [0, 0], 0, 0⟩ : Buf Nat) := ⟨by decide, by decide, by decide⟩

/-! ### Pushing back -/

/-- What a reader with a pushed back element still has to deliver. -/
def pushLeft (s : Push A) : List A := s.saved.toList ++ s.src.rest

/-- Reading delivers the element pushed back first. -/
theorem pushRead_ok (s : Push A) (b : List A) (o n : Nat) (hb : o + n ≤ b.length) :
    ∃ r b' s', pushRead s b o n = .ok (r, b', s') ∧ Delivered b o n (pushLeft s) r b' (pushLeft s') := by
  have ht : ∃ s1 j c, takeSaved s ⟨b, o, n, 0⟩ = .ok (s1, j) ∧ At b o n (pushLeft s) j c ∧ pushLeft s1 = (pushLeft s).drop c ∧
      (s1.saved = none ∨ n = 0) ∧ (c = 0 ∨ c = 1) := by
    unfold takeSaved
    cases hs : s.saved with
    | none => exact ⟨_, _, 0, rfl, at_zero _ _ _ _, rfl, .inl hs, .inl rfl⟩
    | some x =>
      simp only
      by_cases h0 : (n : Int) > 0
      · rw [if_pos h0, if_pos (by omega)]
        have ha := at_more (at_zero b o n (pushLeft s)) hb 1 (by omega) (by simp [pushLeft, hs])
        refine ⟨_, _, 1, rfl, ?_, by simp [pushLeft, hs], .inl rfl, .inr rfl⟩
        have e : b.set o x = b.take o ++ (pushLeft s).take 1 ++ b.drop (o + 1) := by
          have : (pushLeft s).take 1 = [x] := by simp [pushLeft, hs]
          rw [this, List.set_eq_take_append_cons_drop, if_pos (by omega)]
          simp
        simp only [Nat.add_zero, Nat.zero_add, List.drop_zero] at ha
        rw [← e] at ha
        exact ha
      · rw [if_neg h0]
        exact ⟨_, _, 0, rfl, at_zero _ _ _ _, rfl, .inr (by omega), .inl rfl⟩
  obtain ⟨s1, j, c, e1, a1, l1, n1, c1⟩ := ht
  unfold pushRead
  rw [e1]
  simp only [Except.bind]
  unfold readRest
  have hjl := a1.length
  have hcn := a1.le
  by_cases hn : j.length > 0
  · rw [if_pos hn]
    have hsv : s1.saved = none := n1.resolve_right (by omega)
    have hrest : s1.src.rest = (pushLeft s).drop c := by rw [← l1]; simp [pushLeft, hsv]
    have hls : ∀ src' : Src A, pushLeft { s1 with src := src' } = src'.rest := by intro src'; simp [pushLeft, hsv]
    obtain ⟨r, b', src', e, d⟩ := src_more s1.src a1 hb hrest hn
    rw [e]
    simp only [Except.bind]
    rcases d with ⟨d1, d2, d3, d4⟩ | ⟨k, d0, d1, d2, d3⟩
    · rw [if_pos d1]
      simp only
      have hc := a1.count
      by_cases h0 : j.count = 0
      · rw [if_pos h0]
        have h0' : c = 0 := by omega
        refine ⟨_, _, _, rfl, .inl ⟨?_, rfl, ?_, ?_⟩⟩
        · rw [h0'] at d2; exact d2
        · rw [d3]
          have := a1.b
          rw [h0'] at this
          simpa using this
        · rw [hls, d4]
      · rw [if_neg h0]
        refine ⟨_, _, _, rfl, ?_⟩
        rw [hls, d4, ← d2, d3]
        exact at_delivered a1 (fun _ => by omega)
    · rw [if_neg (by omega)]
      refine ⟨_, _, _, rfl, ?_⟩
      rw [hls, d3]
      exact at_delivered d2 (fun _ => by omega)
  · rw [if_neg hn]
    refine ⟨_, _, _, rfl, ?_⟩
    show Delivered b o n (pushLeft s) j.count j.b (pushLeft s1)
    rw [l1]
    exact at_delivered a1 (fun _ => by omega)

/-- One element can be pushed back and is then read next; a second one is refused, and so are several at once. -/
theorem unread_ok (s : Push A) (b : List A) (o : Nat) (n : Int) (ho : o < b.length) :
    (s.saved = none ∧ n = 1 → ∃ s', unread s b o n = .ok s' ∧ pushLeft s' = b[o] :: pushLeft s) ∧
    (¬ (s.saved = none ∧ n = 1) → ∃ e, unread s b o n = .error e) := by
  constructor
  · rintro ⟨h1, rfl⟩
    refine ⟨{ s with saved := some b[o] }, ?_, by simp [pushLeft, h1]⟩
    unfold unread
    rw [if_neg (by simp), h1]
    simp only
    rw [load_nat ho]
    rfl
  · intro h
    unfold unread
    by_cases hn : n = 1
    · rw [if_neg (by simp [hn])]
      cases hs : s.saved with
      | none => exact absurd ⟨hs, hn⟩ h
      | some x => exact ⟨_, rfl⟩
    · rw [if_pos hn]; exact ⟨_, rfl⟩

example : (unread (⟨five, none⟩ : Push Nat) [7] 0 1).toOption.map pushLeft = some [7, 1, 2, 3, 4, 5] := by decide +kernel

/-! ### Arrays and strings -/

/-- What a stream over an array still has to deliver. -/
def arrLeft (s : Arr A) : List A := (s.array.drop s.position.toNat).take (s.limit - s.position).toNat

structure ArrInv (s : Arr A) : Prop where
  lower : 0 ≤ s.position
  mid : s.position ≤ s.limit
  upper : s.limit ≤ s.array.length

theorem arrLeft_length {s : Arr A} (h : ArrInv s) : ((arrLeft s).length : Int) = s.limit - s.position := by
  obtain ⟨h1, h2, h3⟩ := h
  unfold arrLeft
  simp
  omega

/-- A stream over a part of an array has to deliver that part. -/
theorem newArr_partial (array : List A) (o n : Nat) (h : o + n ≤ array.length) :
    ArrInv (newArr array o n) ∧ arrLeft (newArr array o n) = (array.drop o).take n := by
  refine ⟨⟨by simp [newArr], by simp only [newArr]; omega, by simp only [newArr]; omega⟩, ?_⟩
  unfold arrLeft newArr
  simp only [Int.toNat_natCast]
  congr 1
  omega

/-- A part that reaches beyond the array is not cut off at its end, as documented; the read of its first missing byte fails. -/
theorem newArr_beyond (array : List A) (n : Nat) (h : array.length < n) :
    arrRead (⟨array, array.length, (newArr array 0 n).limit⟩) = .error .indexOutOfBounds := by
  unfold arrRead newArr
  simp only
  rw [if_pos (by omega)]
  unfold load
  rw [if_pos (by omega), Int.toNat_natCast, List.getElem?_eq_none (by omega)]
  rfl

theorem arrRead_ok {s : Arr A} (h : ArrInv s) :
    ∃ s', arrRead s = .ok ((arrLeft s).head?, s') ∧ ArrInv s' ∧ arrLeft s' = (arrLeft s).tail := by
  have hl := arrLeft_length h
  obtain ⟨h1, h2, h3⟩ := h
  unfold arrRead
  by_cases hp : s.position < s.limit
  · rw [if_pos hp]
    obtain ⟨p, hp'⟩ : ∃ p : Nat, s.position = p := ⟨_, (Int.toNat_of_nonneg h1).symm⟩
    have hpl : p < s.array.length := by omega
    have hpend : arrLeft s = s.array[p] :: arrLeft { s with position := s.position + 1 } := by
      unfold arrLeft
      simp only [hp', Int.toNat_natCast]
      obtain ⟨m, hm⟩ : ∃ m, (s.limit - (p : Int)).toNat = m + 1 := ⟨(s.limit - (p : Int)).toNat - 1, by omega⟩
      have e1 : ((p : Int) + 1).toNat = p + 1 := by omega
      have e2 : (s.limit - ((p : Int) + 1)).toNat = m := by omega
      rw [hm, e1, e2, List.drop_eq_getElem_cons hpl, List.take_succ_cons]
    refine ⟨{ s with position := s.position + 1 }, ?_, ⟨by simp only; omega, by simp only; omega, h3⟩, by rw [hpend]; rfl⟩
    rw [hpend, hp', load_nat hpl]
    rfl
  · rw [if_neg hp]
    have h0 : arrLeft s = [] := List.eq_nil_of_length_eq_zero (by omega)
    exact ⟨s, by rw [h0]; rfl, ⟨h1, h2, h3⟩, by rw [h0]; rfl⟩

/-- Reading into an array from a stream over an array delivers as much as there is. -/
theorem arrReadArray_ok {s : Arr A} (h : ArrInv s) (b : List A) (o n : Nat) (hb : o + n ≤ b.length) :
    ∃ r b' s', arrReadArray s b o n = .ok (r, b', s') ∧ ArrInv s' ∧ Delivered b o n (arrLeft s) r b' (arrLeft s') ∧
      (arrLeft s ≠ [] → r = (min n (arrLeft s).length : Nat)) ∧ arrAvailable s = (arrLeft s).length := by
  have hl := arrLeft_length h
  obtain ⟨h1, h2, h3⟩ := h
  unfold arrReadArray arrAvailable
  by_cases h0 : n = 0
  · subst h0
    rw [if_pos (by rfl)]
    exact ⟨_, _, _, rfl, ⟨h1, h2, h3⟩, .inr ⟨0, rfl, by simp, by simp, by simp, by simp, by simp⟩, by simp, hl.symm⟩
  · rw [if_neg (by omega)]
    by_cases hp : s.position ≥ s.limit
    · rw [if_pos hp]
      have h0 : arrLeft s = [] := List.eq_nil_of_length_eq_zero (by omega)
      exact ⟨_, _, _, rfl, ⟨h1, h2, h3⟩, .inl ⟨h0, rfl, rfl, h0⟩, fun hne => absurd h0 hne, hl.symm⟩
    · rw [if_neg hp]
      obtain ⟨p, hp'⟩ : ∃ p : Nat, s.position = p := ⟨_, (Int.toNat_of_nonneg h1).symm⟩
      obtain ⟨m, hm⟩ : ∃ m : Nat, m = min n (arrLeft s).length := ⟨_, rfl⟩
      have e : (if s.limit - s.position < (n : Int) then s.limit - s.position else (n : Int)) = (m : Int) := by split <;> omega
      simp only [e]
      have hc := copy_ok s.array b p o m (by omega) (by omega)
      rw [hp', hc]
      refine ⟨_, _, _, rfl, ⟨by simp only; omega, by simp only; omega, h3⟩, .inr ⟨m, rfl, by omega, by omega, fun _ => by omega, ?_, ?_⟩,
        fun _ => by rw [hm], by rw [← hp']; exact hl.symm⟩
      · congr 2
        unfold arrLeft
        rw [hp', Int.toNat_natCast, List.take_take]
        congr 1
        omega
      · unfold arrLeft
        have e1 : ((p : Int) + m).toNat = p + m := by omega
        have e2 : (s.limit - ((p : Int) + m)).toNat = (s.limit - p).toNat - m := by omega
        simp only [hp', e1, e2, Int.toNat_natCast]
        rw [List.drop_take, List.drop_drop]

/-- Reading from a string delivers. -/
theorem strRead_ok (s : List A) (p : Nat) (hp : p ≤ s.length) (b : List A) (o n : Nat) (hb : o + n ≤ b.length) :
    ∃ r b' p' , strRead s p b o n = .ok (r, b', (p' : Nat)) ∧ p' ≤ s.length ∧ Delivered b o n (s.drop p) r b' (s.drop p') := by
  unfold strRead
  simp only
  by_cases hc : (n : Int) > s.length - p ∧ (s.length : Int) - p ≤ 0
  · rw [if_pos (by rw [if_pos hc.1]; exact hc)]
    have : s.drop p = [] := List.drop_of_length_le (by omega)
    exact ⟨_, _, p, rfl, hp, .inl ⟨this, rfl, rfl, this⟩⟩
  · obtain ⟨m, hm⟩ : ∃ m : Nat, m = min n (s.length - p) := ⟨_, rfl⟩
    have e : (if (n : Int) > s.length - p then (s.length : Int) - p else (n : Int)) = (m : Int) := by split <;> omega
    rw [e, if_neg (by omega)]
    have h := copy_ok s b p o m (by omega) (by omega)
    rw [h]
    exact ⟨_, _, p + m, by simp only [Except.bind]; congr 3, by omega, .inr ⟨m, rfl, by omega, by simp; omega, fun _ => by omega, rfl, by
      rw [List.drop_drop]⟩⟩

example : ArrInv (newArr [1, 2, 3, 4] 1 2) ∧ arrLeft (newArr [1, 2, 3, 4] 1 2) = [2, 3] :=
  newArr_partial [1, 2, 3, 4] 1 2 (by decide)

/-! ### Lines -/

/-- No end of a line. -/
def Plain (l : List Nat) : Prop := ∀ c ∈ l, c ≠ 10 ∧ c ≠ 13

/-- The search finds the first end of a line in the buffer. -/
theorem findEnd_ok (buffer : List Nat) (limit : Nat) (hl : limit ≤ buffer.length) : ∀ (n i : Nat), limit - i ≤ n →
    (findEnd buffer limit n i = .ok none ∧ Plain ((buffer.take limit).drop i)) ∨
    (∃ p q k, findEnd buffer limit n i = .ok (some ((i + p.length : Nat), (i + p.length + k : Nat))) ∧ Plain p ∧
      (((buffer.take limit).drop i = p ++ 10 :: q ∧ k = 1) ∨ ((buffer.take limit).drop i = p ++ 13 :: 10 :: q ∧ k = 2) ∨
        ((buffer.take limit).drop i = p ++ 13 :: q ∧ k = 1 ∧ q.head? ≠ some 10))) := by
  intro n
  induction n with
  | zero =>
    intro i h
    left
    refine ⟨rfl, ?_⟩
    rw [List.drop_of_length_le (by simp; omega)]
    intro c hc
    simp at hc
  | succ n ih =>
    intro i h
    unfold findEnd
    by_cases hi : i < limit
    · rw [if_pos (by omega), load_nat (by omega)]
      have ed : (buffer.take limit).drop i = buffer[i] :: (buffer.take limit).drop (i + 1) := by
        rw [List.drop_eq_getElem_cons (by simp; omega)]
        simp
      simp only [Except.bind]
      by_cases h13 : buffer[i] = 13
      · rw [if_pos h13]
        right
        by_cases h1 : i + 1 < limit
        · rw [if_pos (by omega), show ((i : Int) + 1) = ((i + 1 : Nat) : Int) from rfl, load_nat (by omega)]
          have ed2 : (buffer.take limit).drop (i + 1) = buffer[i + 1] :: (buffer.take limit).drop (i + 2) := by
            rw [List.drop_eq_getElem_cons (by simp; omega)]
            simp
          simp only
          by_cases h10 : buffer[i + 1] = 10
          · rw [if_pos h10]
            refine ⟨[], (buffer.take limit).drop (i + 2), 2, rfl, by simp [Plain], .inr (.inl ⟨?_, rfl⟩)⟩
            rw [ed, ed2, h13, h10]; rfl
          · rw [if_neg h10]
            refine ⟨[], (buffer.take limit).drop (i + 1), 1, rfl, by simp [Plain], .inr (.inr ⟨?_, rfl, ?_⟩)⟩
            · rw [ed, h13]; rfl
            · rw [ed2]; simpa using h10
        · rw [if_neg (by omega)]
          refine ⟨[], (buffer.take limit).drop (i + 1), 1, rfl, by simp [Plain], .inr (.inr ⟨?_, rfl, ?_⟩)⟩
          · rw [ed, h13]; rfl
          · rw [List.drop_of_length_le (by simp; omega)]; simp
      · rw [if_neg h13]
        by_cases h10 : buffer[i] = 10
        · rw [if_pos h10]
          right
          refine ⟨[], (buffer.take limit).drop (i + 1), 1, rfl, by simp [Plain], .inl ⟨?_, rfl⟩⟩
          rw [ed, h10]; rfl
        · rw [if_neg h10]
          rw [show ((i : Int) + 1) = ((i + 1 : Nat) : Int) from rfl]
          have hpl : ∀ p, Plain p → Plain (buffer[i] :: p) := by
            intro p hp c hc
            rcases List.mem_cons.1 hc with rfl | hc
            · exact ⟨h10, h13⟩
            · exact hp c hc
          rcases ih (i + 1) (by omega) with ⟨e, p⟩ | ⟨p, q, k, e, hp, hd⟩
          · left
            refine ⟨e, ?_⟩
            rw [ed]; exact hpl _ p
          · right
            refine ⟨buffer[i] :: p, q, k, ?_, hpl p hp, ?_⟩
            · rw [e]
              simp only [List.length_cons]
              congr 3 <;> omega
            · rw [ed]
              rcases hd with ⟨d1, d2⟩ | ⟨d1, d2⟩ | ⟨d1, d2, d3⟩
              · exact .inl ⟨by rw [d1]; rfl, d2⟩
              · exact .inr (.inl ⟨by rw [d1]; rfl, d2⟩)
              · exact .inr (.inr ⟨by rw [d1]; rfl, d2, d3⟩)
    · rw [if_neg (by omega)]
      left
      refine ⟨rfl, ?_⟩
      rw [List.drop_of_length_le (by simp; omega)]
      intro c hc
      simp at hc

/-- `text` begins with the line `line`, after the end of which is `rest`.  After a carriage return that was the last char of a
    buffer (`edge`) a line feed is not taken as a part of the end. -/
def Line (text line rest : List Nat) (edge : Prop) : Prop :=
  Plain line ∧ ((text = line ∧ rest = []) ∨ text = line ++ 10 :: rest ∨ text = line ++ 13 :: 10 :: rest ∨
    (text = line ++ 13 :: rest ∧ (rest.head? ≠ some 10 ∨ edge)))

theorem pend_take {s : Buf A} {p m : Nat} (hp : s.position = p) (hm : s.limit = m) :
    pend s = (s.buffer.take m).drop p := by
  unfold pend
  rw [hp, hm, List.drop_take, Int.toNat_natCast]
  congr 1
  omega

theorem pend_advance (s : Buf A) (k : Nat) (h : 0 ≤ s.position) : pend { s with position := s.position + k } = (pend s).drop k := by
  obtain ⟨p, hp⟩ : ∃ p : Nat, s.position = p := ⟨_, (Int.toNat_of_nonneg h).symm⟩
  unfold pend
  have e1 : ((p : Int) + k).toNat = p + k := by omega
  have e2 : (s.limit - ((p : Int) + k)).toNat = (s.limit - p).toNat - k := by omega
  simp only [hp, e1, e2, Int.toNat_natCast]
  rw [List.drop_take, List.drop_drop]

theorem append_ok (sb buffer : List Nat) (p k : Nat) (h : p + k ≤ buffer.length) :
    append sb buffer p k = .ok (sb ++ (buffer.drop p).take k) := by
  unfold append
  rw [if_neg (by omega)]
  simp

theorem plain_append {p q : List Nat} (hp : Plain p) (hq : Plain q) : Plain (p ++ q) := by
  intro c hc
  rcases List.mem_append.1 hc with hc | hc
  · exact hp c hc
  · exact hq c hc

theorem line_prepend {p text line rest : List Nat} {edge : Prop} (hp : Plain p) (h : Line text line rest edge) :
    Line (p ++ text) (p ++ line) rest edge := by
  obtain ⟨h1, h2⟩ := h
  refine ⟨plain_append hp h1, ?_⟩
  rcases h2 with ⟨a, b⟩ | a | a | ⟨a, b⟩
  · exact .inl ⟨by rw [a], b⟩
  · exact .inr (.inl (by rw [a]; simp))
  · exact .inr (.inr (.inl (by rw [a]; simp)))
  · exact .inr (.inr (.inr ⟨by rw [a]; simp, b⟩))

theorem lineLoop_ok : ∀ (n : Nat) (s : Buf Nat) (sb : List Nat), Inv s →
    (s.src.rest.length + (if pend s = [] then 0 else 1) < n) →
    ∃ o s', lineLoop n s sb = .ok (o, s') ∧ Inv s' ∧
      ((o = none ∧ sb = [] ∧ left s = [] ∧ left s' = []) ∨
        ∃ line, o = some (sb ++ line) ∧ (sb = [] → left s ≠ []) ∧ Line (left s) line (left s') (pend s' = [])) := by
  intro n
  induction n with
  | zero => intro s sb _ h; omega
  | succ n ih =>
    intro s sb hi hn
    unfold lineLoop
    have hf : ∃ s1, (if s.position ≥ s.limit then fill s else .ok s) = .ok s1 ∧ Inv s1 ∧ left s1 = left s ∧
        (s1.position ≥ s1.limit → left s = []) ∧ (pend s1 ≠ [] → s1.src.rest.length < n) := by
      by_cases hp : s.position ≥ s.limit
      · rw [if_pos hp]
        obtain ⟨s1, e, i1, l1, p1, _, f1, f2⟩ := fill_ok hi hp
        refine ⟨s1, e, i1, l1, ?_, ?_⟩
        · intro hge
          cases hl : left s with
          | nil => rfl
          | cons x xs => exact absurd (f2 (by simp [hl])) (by omega)
        · intro hne
          have hpn : pend s = [] := (pend_nil hi).2 hp
          rw [if_pos hpn] at hn
          have hlen : (left s1).length = (left s).length := by rw [l1]
          unfold left at hlen
          rw [hpn] at hlen
          simp only [List.length_append, List.length_nil] at hlen
          have : 0 < (pend s1).length := List.length_pos_iff.2 hne
          omega
      · rw [if_neg hp]
        refine ⟨s, rfl, hi, rfl, fun h => absurd h hp, ?_⟩
        intro hne
        rw [if_neg hne] at hn
        omega
    obtain ⟨s1, e1, i1, l1, x1, x2⟩ := hf
    rw [e1]
    simp only [Except.bind]
    by_cases hp : s1.position ≥ s1.limit
    · rw [if_pos hp]
      have h0 := x1 hp
      refine ⟨_, s1, rfl, i1, ?_⟩
      by_cases hs : sb = []
      · left; subst hs; exact ⟨rfl, rfl, h0, by rw [l1, h0]⟩
      · right
        rw [if_neg (by rw [List.length_eq_zero_iff]; exact hs)]
        refine ⟨[], by simp, fun h => absurd h hs, by simp [Plain], .inl ⟨h0, by rw [l1, h0]⟩⟩
    · rw [if_neg hp]
      have hpne : pend s1 ≠ [] := fun h => hp ((pend_nil i1).1 h)
      have hln : left s ≠ [] := by
        rw [← l1]; unfold left; simp [hpne]
      have hlow := i1.lower
      have hupp := i1.upper
      obtain ⟨p, hp'⟩ : ∃ p : Nat, s1.position = p := ⟨_, (Int.toNat_of_nonneg hlow).symm⟩
      obtain ⟨m, hm⟩ : ∃ m : Nat, s1.limit = m := ⟨_, (Int.toNat_of_nonneg (by omega)).symm⟩
      have hpt := pend_take hp' hm
      rcases findEnd_ok s1.buffer m (by omega) ((m : Int) - p).toNat p (by omega) with ⟨e, pl⟩ | ⟨l, q, k, e, pl, d⟩
      · rw [← hp', ← hm] at e
        rw [e]
        simp only
        have ek : s1.limit - s1.position = ((m - p : Nat) : Int) := by omega
        have ec := append_ok sb s1.buffer p (m - p) (by omega)
        rw [← hp', ← ek] at ec
        rw [ec]
        simp only
        rw [← hpt] at pl
        have ea : (s1.buffer.drop p).take (m - p) = pend s1 := by rw [hpt, List.drop_take]
        rw [ea]
        have hpn : pend { s1 with position := s1.limit } = [] := by
          unfold pend
          simp
        have i2 : Inv { s1 with position := s1.limit } := ⟨i1.size, by simp only; omega, hupp⟩
        have hl2 : left { s1 with position := s1.limit } = s1.src.rest := by
          unfold left; rw [hpn, List.nil_append]
        obtain ⟨o, s', e2, i', r⟩ := ih { s1 with position := s1.limit } (sb ++ pend s1) i2 (by
          rw [if_pos hpn]
          have := x2 hpne
          simpa using this)
        refine ⟨o, s', e2, i', ?_⟩
        rcases r with ⟨r1, r2, r3, r4⟩ | ⟨line, r1, r2, r3⟩
        · exact absurd (List.append_eq_nil_iff.1 r2).2 hpne
        · right
          refine ⟨pend s1 ++ line, by rw [r1]; simp, fun _ => hln, ?_⟩
          rw [← l1]
          have : left s1 = pend s1 ++ left { s1 with position := s1.limit } := by rw [hl2]; rfl
          rw [this]
          exact line_prepend pl r3
      · rw [← hp', ← hm] at e
        rw [e]
        simp only
        have ek : ((p + l.length : Nat) : Int) - s1.position = ((l.length : Nat) : Int) := by omega
        have hlen : l.length + k ≤ (pend s1).length := by
          rw [hpt]
          rcases d with ⟨d1, d2⟩ | ⟨d1, d2⟩ | ⟨d1, d2, d3⟩ <;> rw [d1, d2] <;> simp
        rw [pend_length i1] at hlen
        have ec := append_ok sb s1.buffer p l.length (by omega)
        rw [← hp'] at ec
        rw [ek, ec]
        have ea : (s1.buffer.drop p).take l.length = l := by
          have : (s1.buffer.drop p).take l.length = (pend s1).take l.length := by
            rw [hpt, List.drop_take, List.take_take]
            congr 1
            omega
          rw [this, hpt]
          rcases d with ⟨d1, d2⟩ | ⟨d1, d2⟩ | ⟨d1, d2, d3⟩ <;> rw [d1] <;> simp
        rw [ea]
        have epos : ((p + l.length + k : Nat) : Int) = s1.position + ((l.length + k : Nat) : Int) := by omega
        simp only
        rw [epos]
        have hpa := pend_advance s1 (l.length + k) hlow
        have hla : left { s1 with position := s1.position + ((l.length + k : Nat) : Int) } = (pend s1).drop (l.length + k) ++ s1.src.rest := by
          unfold left
          rw [hpa]
        refine ⟨_, _, rfl, ⟨i1.size, by simp only; omega, hupp⟩, .inr ⟨l, rfl, fun _ => hln, pl, ?_⟩⟩
        rw [hla, hpa, ← l1]
        unfold left
        rw [hpt]
        rcases d with ⟨d1, d2⟩ | ⟨d1, d2⟩ | ⟨d1, d2, d3⟩
        · rw [d1, d2]; exact .inr (.inl (by simp))
        · rw [d1, d2]; exact .inr (.inr (.inl (by simp)))
        · rw [d1, d2]
          refine .inr (.inr (.inr ⟨by simp, ?_⟩))
          cases q with
          | nil => exact .inr (by simp)
          | cons x q => exact .inl (by simpa using d3)

/-- `readLine` gives the next line of the text, the chars before the first end of a line, or null at the end of the text; it
    continues after the end of the line.  Missing: a line feed after a carriage return that was the last char in the buffer is
    not taken as a part of the end. -/
theorem readLine_partial {s : Buf Nat} (h : Inv s) :
    ∃ o s', readLine s = .ok (o, s') ∧ Inv s' ∧
      ((o = none ∧ left s = [] ∧ left s' = []) ∨
        ∃ line, o = some line ∧ left s ≠ [] ∧ Line (left s) line (left s') (pend s' = [])) := by
  obtain ⟨o, s', e, i', r⟩ := lineLoop_ok (s.src.rest.length + 2) s [] h (by split <;> omega)
  refine ⟨o, s', e, i', ?_⟩
  rcases r with ⟨r1, _, r3, r4⟩ | ⟨line, r1, r2, r3⟩
  · exact .inl ⟨r1, r3, r4⟩
  · exact .inr ⟨line, by simpa using r1, r2 rfl, r3⟩

/-- In a text without carriage returns the lines are what is between the line feeds. -/
theorem readLine_feeds {s : Buf Nat} (h : Inv s) (line rest : List Nat) (hl : Plain line) (ht : left s = line ++ 10 :: rest) :
    ∃ s', readLine s = .ok (some line, s') ∧ Inv s' ∧ left s' = rest := by
  obtain ⟨o, s', e, i', r⟩ := readLine_partial h
  have key : ∀ (a b : List Nat) (x y : Nat) (u v : List Nat), Plain a → Plain b → (x = 10 ∨ x = 13) → (y = 10 ∨ y = 13) →
      a ++ x :: u = b ++ y :: v → a = b ∧ x = y ∧ u = v := by
    intro a
    induction a with
    | nil =>
      intro b x y u v _ hb hx hy he
      cases b with
      | nil =>
        simp only [List.nil_append, List.cons.injEq] at he
        exact ⟨rfl, he.1, he.2⟩
      | cons c b =>
        simp only [List.nil_append, List.cons_append, List.cons.injEq] at he
        have := hb c (by simp)
        omega
    | cons c a ih =>
      intro b x y u v ha hb hx hy he
      cases b with
      | nil =>
        simp only [List.nil_append, List.cons_append, List.cons.injEq] at he
        have := ha c (by simp)
        omega
      | cons d b =>
        simp only [List.cons_append, List.cons.injEq] at he
        obtain ⟨r1, r2, r3⟩ := ih b x y u v (fun z hz => ha z (by simp [hz])) (fun z hz => hb z (by simp [hz])) hx hy he.2
        exact ⟨by rw [he.1, r1], r2, r3⟩
  rcases r with ⟨_, r2, _⟩ | ⟨l, r1, _, r3, r4⟩
  · rw [ht] at r2; simp at r2
  · rw [ht] at r4
    rcases r4 with ⟨a, b⟩ | a | a | ⟨a, b⟩
    · exfalso
      have := r3 10 (by rw [← a]; simp)
      omega
    · obtain ⟨k1, _, k3⟩ := key _ _ _ _ _ _ hl r3 (.inl rfl) (.inl rfl) a
      exact ⟨s', by rw [e, r1, k1], i', k3.symm⟩
    · obtain ⟨_, k2, _⟩ := key _ _ _ _ _ _ hl r3 (.inl rfl) (.inr rfl) a
      omega
    · obtain ⟨_, k2, _⟩ := key _ _ _ _ _ _ hl r3 (.inl rfl) (.inr rfl) a
      omega

/-- All lines of a reader. -/
def lines : Nat → Buf Nat → List (List Nat)
  | 0, _ => []
  | n + 1, s =>
    match readLine s with
    | .ok (some l, s) => l :: lines n s
    | _ => []

/-- "a\nb\r\nc" -/
example : lines 9 ⟨⟨[97, 10, 98, 13, 10, 99], fun _ => 9, fun _ => 0, 0⟩, List.replicate 32 0, 0, 0⟩ = [[97], [98], [99]] := by
  decide +kernel

/-- The end of a line that is divided between two buffers gives an empty line too many: "a\r\nb" with a buffer of two places is
    read as "a", "", "b". -/
theorem divided_end : lines 9 ⟨⟨[97, 13, 10, 98], fun _ => 9, fun _ => 0, 0⟩, [0, 0], 0, 0⟩ = [[97], [], [98]] := by
  decide +kernel

end Avian.InStreams
