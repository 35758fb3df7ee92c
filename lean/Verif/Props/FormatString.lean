import Verif.Lib.FormatString

/-
C116: what `String.format` gives.
-/
namespace Avian.FormatString

/-- Where the text stands in its field. -/
inductive Align where
  | right | left | zeros
  deriving DecidableEq, Repr

/-- A specifier as its writer thinks of it; index and width are digits, or empty if there is none. -/
structure Item where
  index : List Char
  align : Align
  width : List Char
  letter : Char

/-- A format as its writer thinks of it. -/
inductive Piece where
  | text (s : List Char)
  | item (i : Item)

/-- The number that digits stand for. -/
def numberOf (ds : List Char) : Nat := ds.foldl (fun n c => n * 10 + (c.toNat - 48)) 0

def Align.written : Align → List Char
  | .right => [] | .left => ['-'] | .zeros => ['0']

/-- A specifier between `%` and its letter. -/
def Item.middle (i : Item) : List Char :=
  (if i.index = [] then [] else i.index ++ ['$']) ++ (i.align.written ++ i.width)

def Piece.written : Piece → List Char
  | .text s => s
  | .item i => '%' :: (i.middle ++ [i.letter])

def written (ps : List Piece) : List Char := ps.flatMap Piece.written

def Item.Valid (i : Item) : Prop :=
  (∀ c ∈ i.index, c.isDigit = true) ∧ (i.index ≠ [] → 1 ≤ numberOf i.index) ∧
  (∀ c ∈ i.width, c.isDigit = true) ∧ i.width.head? ≠ some '0' ∧ (i.width = [] → i.align = .right) ∧
  i.letter ∈ ['s', 'S', 'd', 'x', 'X', 'b', 'B', '%'] ∧
  (i.align = .zeros → i.letter ∈ ['d', 'x', 'X']) ∧ (i.letter = '%' → i.index = [])

def Piece.Valid : Piece → Prop
  | .text s => '%' ∉ s
  | .item i => i.Valid

/-- The digits of a number that is not negative, in a field with any alignment; a negative one not with zeros. -/
def shownNumber (radix : Nat) (align : Align) (v : Int) : Option (List Char) :=
  if 0 ≤ v then some (Nat.toDigits radix v.toNat)
  else if radix = 10 ∧ align ≠ .zeros then some ('-' :: Nat.toDigits radix (-v).toNat) else none

/-- What a letter shows of an argument; `none` where nothing is claimed. -/
def shown (letter : Char) (align : Align) (a : Arg) : Option (List Char) :=
  match letter, a with
  | 's', a => some a.text
  | 'S', a => some (a.text.map Char.toUpper)
  | 'b', a => some (boolText a)
  | 'B', a => some ((boolText a).map Char.toUpper)
  | 'd', .int v => shownNumber 10 align v
  | 'd', .long v => shownNumber 10 align v
  | 'x', .int v => if -2 ^ 31 ≤ v ∧ v < 2 ^ 31 then some (Nat.toDigits 16 (v % 2 ^ 32).toNat) else none
  | 'X', .int v => if -2 ^ 31 ≤ v ∧ v < 2 ^ 31 then some ((Nat.toDigits 16 (v % 2 ^ 32).toNat).map Char.toUpper) else none
  | 'x', .long v => if 0 ≤ v then some (Nat.toDigits 16 v.toNat) else none
  | 'X', .long v => if 0 ≤ v then some ((Nat.toDigits 16 v.toNat).map Char.toUpper) else none
  | _, _ => none

/-- A text in a field of at least `w` characters. -/
def padded : Align → Nat → List Char → List Char
  | .right, w, s => List.replicate (w - s.length) ' ' ++ s
  | .left, w, s => s ++ List.replicate (w - s.length) ' '
  | .zeros, w, s => List.replicate (w - s.length) '0' ++ s

/-- What a format means for the arguments `all`, of which `rest` are those that specifiers without an index have not taken yet. -/
def meaning (all : List Arg) : List Arg → List Piece → Option (List Char)
  | _, [] => some []
  | rest, .text s :: ps => (meaning all rest ps).map (s ++ ·)
  | rest, .item i :: ps =>
    if i.letter = '%' then (meaning all rest ps).map (padded i.align (numberOf i.width) ['%'] ++ ·)
    else if i.index = [] then
      match rest with
      | [] => none
      | a :: rest =>
        (shown i.letter i.align a).bind fun s => (meaning all rest ps).map (padded i.align (numberOf i.width) s ++ ·)
    else
      (all[numberOf i.index - 1]?).bind fun a =>
      (shown i.letter i.align a).bind fun s => (meaning all rest ps).map (padded i.align (numberOf i.width) s ++ ·)

theorem digitsOf_ok (ds : List Char) : ∀ n, (∀ c ∈ ds, c.isDigit = true) →
    digitsOf n ds = .ok (ds.foldl (fun n c => n * 10 + (c.toNat - 48)) n) := by
  induction ds with
  | nil => intro n _; rfl
  | cons c r ih =>
    intro n h
    simp only [digitsOf, h c (by simp), if_true, List.foldl_cons]
    exact ih _ fun x hx => h x (by simp [hx])

theorem valueOf_ok (ds : List Char) (h : ∀ c ∈ ds, c.isDigit = true) : valueOf ds = .ok (numberOf ds : Int) := by
  unfold valueOf
  split
  · rename_i r
    have := h '-' (by simp)
    exact absurd this (by decide)
  · rw [digitsOf_ok ds 0 h]; rfl

theorem digit_ne {c : Char} (h : c.isDigit = true) (d : Char) (hd : d.isDigit = false) : c ≠ d := by
  intro e; rw [e, hd] at h; exact absurd h (by decide)

theorem digit_cases {c : Char} (h : c.isDigit = true) :
    c ∈ ['0', '1', '2', '3', '4', '5', '6', '7', '8', '9'] := by
  simp only [Char.isDigit, Bool.and_eq_true, decide_eq_true_eq] at h
  have h1 : 48 ≤ c.toNat := h.1
  have h2 : c.toNat ≤ 57 := h.2
  have : ∀ n, 48 ≤ n → n ≤ 57 → Char.ofNat n ∈ ['0', '1', '2', '3', '4', '5', '6', '7', '8', '9'] := by
    intro n a b
    have : n = 48 ∨ n = 49 ∨ n = 50 ∨ n = 51 ∨ n = 52 ∨ n = 53 ∨ n = 54 ∨ n = 55 ∨ n = 56 ∨ n = 57 := by omega
    rcases this with e | e | e | e | e | e | e | e | e | e <;> subst e <;> decide
  have e := this c.toNat h1 h2
  rwa [Char.ofNat_toNat] at e

theorem digit_buffer {c : Char} (h : c.isDigit = true) : kind c = .buffer := by
  have := digit_cases h
  simp only [List.mem_cons, List.not_mem_nil, or_false] at this
  rcases this with e | e | e | e | e | e | e | e | e | e <;> subst e <;> decide

theorem parse_buffers (cs : List Char) : ∀ acc rest, (∀ c ∈ cs, kind c = .buffer) →
    parse (.spec acc) (cs ++ rest) = parse (.spec (acc ++ cs)) rest := by
  induction cs with
  | nil => intro acc rest _; simp
  | cons c r ih =>
    intro acc rest h
    rw [List.cons_append, parse, h c (by simp)]
    simp only
    rw [ih _ _ fun x hx => h x (by simp [hx])]
    simp

theorem parse_literal (s : List Char) : ∀ acc rest, '%' ∉ s →
    parse (.literal acc) (s ++ rest) = parse (.literal (acc ++ s)) rest := by
  induction s with
  | nil => intro acc rest _; simp
  | cons c r ih =>
    intro acc rest h
    simp only [List.mem_cons, not_or] at h
    rw [List.cons_append, parse, if_neg (fun e => h.1 e.symm), ih _ _ h.2]
    simp

/-- The conversion of a letter. -/
def convOf (c : Char) : Conv × Bool :=
  if c = 's' then (.strng, false) else if c = 'S' then (.strng, true) else if c = 'd' then (.decml, false)
  else if c = 'x' then (.hxdec, false) else if c = 'X' then (.hxdec, true) else if c = 'b' then (.booln, false)
  else if c = 'B' then (.booln, true) else (.prcnt, false)

theorem kind_letter {c : Char} (h : c ∈ ['s', 'S', 'd', 'x', 'X', 'b', 'B', '%']) :
    kind c = .conv (convOf c).1 (convOf c).2 := by
  simp only [List.mem_cons, List.not_mem_nil, or_false] at h
  rcases h with e | e | e | e | e | e | e | e <;> subst e <;> decide

theorem middle_buffer {i : Item} (h : i.Valid) : ∀ c ∈ i.middle, kind c = .buffer := by
  intro c hc
  simp only [Item.middle, List.mem_append] at hc
  rcases hc with hc | hc | hc
  · split at hc
    · cases hc
    · simp only [List.mem_append, List.mem_singleton] at hc
      rcases hc with hc | hc
      · exact digit_buffer (h.1 c hc)
      · subst hc; decide
  · cases ha : i.align <;> rw [ha] at hc <;> simp [Align.written] at hc <;> subst hc <;> decide
  · exact digit_buffer (h.2.2.1 c hc)

theorem takeWhile_all {p : Char → Bool} : ∀ (l : List Char), (∀ c ∈ l, p c = true) → l.takeWhile p = l := by
  intro l
  induction l with
  | nil => intro _; rfl
  | cons a r ih => intro h; rw [List.takeWhile_cons, h a (by simp), if_pos rfl, ih fun x hx => h x (by simp [hx])]

theorem takeWhile_stop {p : Char → Bool} {d : Char} (hd : p d = false) (r : List Char) :
    ∀ (l : List Char), (∀ c ∈ l, p c = true) → (l ++ d :: r).takeWhile p = l := by
  intro l
  induction l with
  | nil => intro _; simp [hd]
  | cons a l ih =>
    intro h
    rw [List.cons_append, List.takeWhile_cons, h a (by simp), if_pos rfl, ih fun x hx => h x (by simp [hx])]

/-- The flags of an alignment. -/
def Align.flags (a : Align) (up : Bool) : Flags := ⟨up, a == .zeros, a == .left⟩

theorem flagLoop_width (k : Conv) (f : Flags) (w : List Char) (hw : ∀ c ∈ w, c.isDigit = true)
    (h0 : w.head? ≠ some '0') (hne : w ≠ []) : flagLoop k f w = .ok (f, (numberOf w : Int)) := by
  cases w with
  | nil => exact absurd rfl hne
  | cons c r =>
    have hc := hw c (by simp)
    have h0' : c ≠ '0' := fun e => h0 (by simp [e])
    rw [flagLoop, if_neg (digit_ne hc '-' (by decide)), if_neg h0', if_neg, if_pos hc, valueOf_ok _ hw]
    · rfl
    · simp only [List.mem_cons, List.not_mem_nil, or_false, not_or]
      exact ⟨digit_ne hc _ (by decide), digit_ne hc _ (by decide), digit_ne hc _ (by decide),
        digit_ne hc _ (by decide), digit_ne hc _ (by decide)⟩

theorem flagLoop_ok {i : Item} (h : i.Valid) (hne : i.width ≠ []) (pre : List Char) (hp : pre = [] ∨ pre = ['$']) :
    flagLoop (convOf i.letter).1 { upper := (convOf i.letter).2 } (pre ++ (i.align.written ++ i.width)) =
      .ok (i.align.flags (convOf i.letter).2, (numberOf i.width : Int)) := by
  have drop : ∀ k f r, flagLoop k f (['$'] ++ r) = flagLoop k f r := by
    intro k f r; rw [List.singleton_append, flagLoop]; simp
  have base : flagLoop (convOf i.letter).1 { upper := (convOf i.letter).2 } (i.align.written ++ i.width) =
      .ok (i.align.flags (convOf i.letter).2, (numberOf i.width : Int)) := by
    obtain ⟨_, _, hw, h0, _, hl, hz, _⟩ := h
    cases ha : i.align with
    | right => exact flagLoop_width _ _ _ hw h0 hne
    | left =>
      rw [Align.written, List.singleton_append, flagLoop, if_pos rfl, if_pos]
      · exact flagLoop_width _ _ _ hw h0 hne
      · simp only [List.mem_cons, List.not_mem_nil, or_false] at hl
        rcases hl with e | e | e | e | e | e | e | e <;> rw [e] <;> decide
    | zeros =>
      rw [Align.written, List.singleton_append, flagLoop, if_neg (by decide), if_pos rfl, if_pos]
      · exact flagLoop_width _ _ _ hw h0 hne
      · have hz := hz ha
        simp only [List.mem_cons, List.not_mem_nil, or_false] at hz
        rcases hz with e | e | e <;> rw [e] <;> decide
  rcases hp with e | e <;> subst e
  · exact base
  · rw [drop]; exact base

theorem tail_no {i : Item} (h : i.Valid) (d : Char) (hd : d.isDigit = false) (h1 : d ≠ '-') :
    ∀ c ∈ i.align.written ++ i.width, c ≠ d := by
  intro c hc
  rw [List.mem_append] at hc
  rcases hc with hc | hc
  · cases ha : i.align <;> rw [ha] at hc <;> simp [Align.written] at hc <;> subst hc
    · exact h1.symm
    · intro e; subst e; exact absurd hd (by decide)
  · exact digit_ne (h.2.2.1 c hc) d hd

theorem no_dot {i : Item} (h : i.Valid) : ∀ c ∈ i.middle, c ≠ '.' := by
  intro c hc
  simp only [Item.middle] at hc
  rw [List.mem_append] at hc
  rcases hc with hc | hc
  · split at hc
    · cases hc
    · simp only [List.mem_append, List.mem_singleton] at hc
      rcases hc with hc | hc
      · exact digit_ne (h.1 c hc) _ (by decide)
      · subst hc; decide
  · exact tail_no h '.' (by decide) (by decide) c hc

theorem seal_ok {i : Item} (h : i.Valid) :
    sealSpec (convOf i.letter).1 (convOf i.letter).2 i.middle =
      .ok (.spec (convOf i.letter).1 (numberOf i.index : Int) (numberOf i.width : Int) 0
        (i.align.flags (convOf i.letter).2)) := by
  have hdot := no_dot h
  have hprec : precisionOf (convOf i.letter).1 i.middle = .ok 0 := by
    rw [precisionOf, if_neg]; intro e; exact hdot '.' e rfl
  have htw : i.middle.takeWhile (· != '.') = i.middle := takeWhile_all _ fun c hc => by simpa using hdot c hc
  have hwr : i.width = [] → i.align.written = [] ∧ i.align = .right := fun e => by
    have := h.2.2.2.2.1 e; rw [this]; exact ⟨rfl, rfl⟩
  by_cases hi : i.index = []
  · have hm : i.middle = i.align.written ++ i.width := by simp [Item.middle, hi]
    by_cases hw : i.width = []
    · have hm' : i.middle = [] := by rw [hm, (hwr hw).1, hw]; rfl
      rw [sealSpec, if_pos hm', hi, hw, (hwr hw).2]; rfl
    · have hd : '$' ∉ i.middle := by rw [hm]; intro e; exact tail_no h '$' (by decide) (by decide) _ e rfl
      have hne : i.middle ≠ [] := by rw [hm]; simp [hw]
      have hr : remaining i.middle = [] ++ (i.align.written ++ i.width) := by
        rw [remaining, htw, if_neg hd, hm]; rfl
      rw [sealSpec, if_neg hne, indexOf, if_neg hd]
      simp only [Except.bind]
      rw [if_neg (fun e => hd e.1), hprec, hr, flagLoop_ok h hw [] (Or.inl rfl), hi]
      rfl
  · have hm : i.middle = i.index ++ '$' :: (i.align.written ++ i.width) := by simp [Item.middle, hi]
    have hd : '$' ∈ i.middle := by rw [hm]; simp
    have hb : i.middle.takeWhile (· != '$') = i.index := by
      rw [hm]; exact takeWhile_stop (by decide) _ _ fun c hc => by simpa using digit_ne (h.1 c hc) '$' (by decide)
    have hne : i.middle ≠ [] := by rw [hm]; simp
    have hacc : acceptsArgument (convOf i.letter).1 = true := by
      have hl := h.2.2.2.2.2.1
      have hp := h.2.2.2.2.2.2.2
      simp only [List.mem_cons, List.not_mem_nil, or_false] at hl
      rcases hl with e | e | e | e | e | e | e | e
      all_goals first
        | (rw [e]; decide)
        | exact absurd (hp e) hi
    have hidx : indexOf (convOf i.letter).1 i.middle = .ok (numberOf i.index : Int) := by
      rw [indexOf, if_pos hd, if_pos hacc, hb]
      cases hl : i.index.getLast? with
      | none => exact absurd (List.getLast?_eq_none_iff.mp hl) hi
      | some c =>
        have hc : c.isDigit = true := h.1 c (List.mem_of_getLast? hl)
        simp only
        rw [if_neg (digit_ne hc '<' (by decide)), valueOf_ok _ h.1]
    rw [sealSpec, if_neg hne, hidx]
    simp only [Except.bind]
    by_cases hw : i.width = []
    · rw [if_pos, hw, (hwr hw).2]
      · rfl
      · refine ⟨hd, ?_⟩; rw [hb, hm, (hwr hw).1, hw]; simp
    · have hr : remaining i.middle = ['$'] ++ (i.align.written ++ i.width) := by
        rw [remaining, htw, if_pos hd, hb, hm, List.drop_left]; rfl
      rw [if_neg, hprec, hr, flagLoop_ok h hw ['$'] (Or.inr rfl)]
      · rfl
      · intro e
        have e := e.2
        rw [hb, hm] at e
        simp only [List.length_append, List.length_cons] at e
        have : 0 < i.width.length := List.length_pos_iff.mpr hw
        omega

theorem appendify_small (align : Align) (w : Nat) (t : List Char) :
    appendify t (align.flags false) (w : Int) 0 = padded align w t := by
  simp only [appendify, Align.flags, Bool.false_eq_true, if_false]
  rw [if_neg (by omega)]
  by_cases hw : w = 0
  · subst hw; cases align <;> simp [padded]
  · rw [if_pos (by omega)]
    by_cases hd : t.length < w
    · have e : ((w : Int) - t.length).toNat = w - t.length := by omega
      have hd' : (w : Int) - t.length > 0 := by omega
      cases align <;> simp [padded, fill, e] <;> omega
    · have e : w - t.length = 0 := by omega
      cases align <;> simp [padded, e] <;> omega

theorem appendify_ok (align : Align) (up : Bool) (w : Nat) (s : List Char) :
    appendify s (align.flags up) (w : Int) 0 = padded align w (if up then s.map Char.toUpper else s) := by
  cases up with
  | false => exact appendify_small align w s
  | true => exact appendify_small align w (s.map Char.toUpper)

theorem numText_nat (radix : Nat) {v : Int} (h : 0 ≤ v) : numText radix v = Nat.toDigits radix v.toNat := by
  rw [numText, if_neg (by omega)]
  have : v.natAbs = v.toNat := by omega
  rw [this]

theorem shownNumber_ok {radix : Nat} {align : Align} {v : Int} {s : List Char} (h : shownNumber radix align v = some s) :
    numText radix v = s := by
  unfold shownNumber at h
  split at h
  · cases h; exact numText_nat _ (by assumption)
  · split at h
    · cases h
      rw [numText, if_pos (by omega)]
      have : v.natAbs = (-v).toNat := by omega
      rw [this]
    · cases h

theorem intText_hex {v : Int} (h1 : -2 ^ 31 ≤ v) (h2 : v < 2 ^ 31) :
    intText 16 v = Nat.toDigits 16 (v % 2 ^ 32).toNat := by
  unfold intText
  by_cases h : v < 0
  · rw [if_pos ⟨by decide, h⟩, numText_nat _ (by omega)]
    have : v + 2 ^ 32 = v % 2 ^ 32 := by omega
    rw [this]
  · rw [if_neg (fun e => h e.2), numText_nat _ (by omega)]
    have : v = v % 2 ^ 32 := by omega
    rw [← this]

theorem longText_nat (radix : Nat) {v : Int} (h : 0 ≤ v) : longText radix v = Nat.toDigits radix v.toNat := by
  rw [longText, if_pos (Or.inr (by omega)), numText_nat _ h]

theorem convert_ok (other : Conv → Arg → Except Err (List Char)) {c : Char} {align : Align} {a : Arg} {s : List Char}
    (w : Nat) (h : shown c align a = some s) :
    convert other a (convOf c).1 (align.flags (convOf c).2) (w : Int) 0 = .ok (padded align w s) := by
  unfold shown at h
  split at h
  · cases h; exact congrArg Except.ok (appendify_ok align false w _)
  · cases h; exact congrArg Except.ok (appendify_ok align true w _)
  · cases h; exact congrArg Except.ok (appendify_ok align false w _)
  · cases h; exact congrArg Except.ok (appendify_ok align true w _)
  · rename_i v
    have e : intText 10 v = s := by rw [intText, if_neg (by simp)]; exact shownNumber_ok h
    rw [← e]; exact congrArg Except.ok (appendify_ok align false w _)
  · rename_i v
    have e : longText 10 v = s := by rw [longText, if_pos (Or.inl rfl)]; exact shownNumber_ok h
    rw [← e]; exact congrArg Except.ok (appendify_ok align false w _)
  · split at h
    · cases h
      rename_i hv
      rw [← intText_hex hv.1 hv.2]; exact congrArg Except.ok (appendify_ok align false w _)
    · cases h
  · split at h
    · cases h
      rename_i hv
      rw [← intText_hex hv.1 hv.2]; exact congrArg Except.ok (appendify_ok align true w _)
    · cases h
  · split at h
    · cases h
      rename_i hv
      rw [← longText_nat 16 hv]; exact congrArg Except.ok (appendify_ok align false w _)
    · cases h
  · split at h
    · cases h
      rename_i hv
      rw [← longText_nat 16 hv]; exact congrArg Except.ok (appendify_ok align true w _)
    · cases h
  · cases h

theorem parse_item {i : Item} (h : i.Valid) (rest : List Char) :
    parse (.spec []) (i.middle ++ [i.letter] ++ rest) =
      (parse .start rest).map (.spec (convOf i.letter).1 (numberOf i.index : Int) (numberOf i.width : Int) 0
        (i.align.flags (convOf i.letter).2) :: ·) := by
  rw [List.append_assoc, parse_buffers _ _ _ (middle_buffer h), List.nil_append, List.singleton_append, parse,
    kind_letter h.2.2.2.2.2.1]
  simp only
  rw [seal_ok h]
  rfl

theorem accepts_of {c : Char} (h : c ∈ ['s', 'S', 'd', 'x', 'X', 'b', 'B', '%']) (hp : c ≠ '%') :
    acceptsArgument (convOf c).1 = true := by
  simp only [List.mem_cons, List.not_mem_nil, or_false] at h
  rcases h with e | e | e | e | e | e | e | e
  all_goals first
    | (subst e; decide)
    | exact absurd e hp

theorem item_step (other : Conv → Arg → Except Err (List Char)) (all : List Arg) {i : Item} (h : i.Valid)
    (ps : List Piece) (rest : List Arg) (n : Nat) (hn : all.drop n = rest) (out : List Char)
    (hm : meaning all rest (.item i :: ps) = some out) :
    ∃ rest' n' out', all.drop n' = rest' ∧ meaning all rest' ps = some out' ∧
      ∀ cs, formatLoop other all n' cs = .ok out' →
        formatLoop other all n (.spec (convOf i.letter).1 (numberOf i.index : Int) (numberOf i.width : Int) 0
          (i.align.flags (convOf i.letter).2) :: cs) = .ok out := by
  have hm' := hm
  rw [meaning.eq_def] at hm'
  simp only at hm'
  clear hm
  have hm := hm'
  clear hm'
  by_cases hp : i.letter = '%'
  · rw [if_pos hp] at hm
    obtain ⟨out', ho, rfl⟩ := Option.map_eq_some_iff.mp hm
    refine ⟨rest, n, out', hn, ho, fun cs hcs => ?_⟩
    rw [hp, formatLoop]
    simp only
    rw [if_pos (by decide), hcs]
    have e : convert other .null (convOf '%').1 (i.align.flags (convOf '%').2) (numberOf i.width : Int) 0 =
        .ok (padded i.align (numberOf i.width) ['%']) := congrArg Except.ok (appendify_ok i.align false _ _)
    rw [e]; rfl
  · rw [if_neg hp] at hm
    have hacc := accepts_of h.2.2.2.2.2.1 hp
    by_cases hi : i.index = []
    · rw [if_pos hi] at hm
      cases rest with
      | nil => cases hm
      | cons a rest =>
        simp only at hm
        obtain ⟨s, hs, hm⟩ := Option.bind_eq_some_iff.mp hm
        obtain ⟨out', ho, rfl⟩ := Option.map_eq_some_iff.mp hm
        have ha : all[n]? = some a := by
          have := congrArg List.head? hn
          simpa [List.head?_drop] using this
        refine ⟨rest, n + 1, out', ?_, ho, fun cs hcs => ?_⟩
        · have := congrArg List.tail hn
          simpa [List.tail_drop] using this
        · rw [formatLoop]
          simp only
          rw [if_neg (by rw [hacc]; decide), if_pos (by rw [hi]; rfl), ha]
          simp only
          rw [convert_ok other _ hs, hcs]; rfl
    · rw [if_neg hi] at hm
      obtain ⟨a, ha, hm⟩ := Option.bind_eq_some_iff.mp hm
      obtain ⟨s, hs, hm⟩ := Option.bind_eq_some_iff.mp hm
      obtain ⟨out', ho, rfl⟩ := Option.map_eq_some_iff.mp hm
      have h1 := h.2.1 hi
      refine ⟨rest, n, out', hn, ho, fun cs hcs => ?_⟩
      rw [formatLoop]
      simp only
      rw [if_neg (by rw [hacc]; decide), if_neg (by omega), if_neg (by omega), if_neg (by omega)]
      have e : ((numberOf i.index : Int) - 1).toNat = numberOf i.index - 1 := by omega
      rw [e, ha]
      simp only
      rw [convert_ok other _ hs, hcs]; rfl

theorem pieces_ok (other : Conv → Arg → Except Err (List Char)) (all : List Arg) (ps : List Piece) :
    ∀ (rest : List Arg) (n : Nat) (out : List Char), (∀ p ∈ ps, p.Valid) → all.drop n = rest →
      meaning all rest ps = some out →
      (∃ cs, parse .start (written ps) = .ok cs ∧ formatLoop other all n cs = .ok out) ∧
      ∀ acc, ∃ cs, parse (.literal acc) (written ps) = .ok cs ∧ formatLoop other all n cs = .ok (acc ++ out) := by
  induction ps with
  | nil =>
    intro rest n out _ _ hm
    cases hm
    exact ⟨⟨[], rfl, rfl⟩, fun acc => ⟨[.literal acc], rfl, rfl⟩⟩
  | cons p ps ih =>
    intro rest n out hv hn hm
    have hvs : ∀ p ∈ ps, p.Valid := fun q hq => hv q (by simp [hq])
    have hp := hv p (by simp)
    cases p with
    | text s =>
      rw [meaning] at hm
      obtain ⟨out', ho, rfl⟩ := Option.map_eq_some_iff.mp hm
      have hi := ih rest n out' hvs hn ho
      have hw : written (.text s :: ps) = s ++ written ps := rfl
      rw [hw]
      have hlit : ∀ acc, ∃ cs, parse (.literal acc) (s ++ written ps) = .ok cs ∧
          formatLoop other all n cs = .ok (acc ++ (s ++ out')) := by
        intro acc
        obtain ⟨cs, h1, h2⟩ := hi.2 (acc ++ s)
        exact ⟨cs, by rw [parse_literal s acc _ hp]; exact h1, by rw [h2, List.append_assoc]⟩
      refine ⟨?_, hlit⟩
      cases s with
      | nil => exact hi.1
      | cons c s =>
        have hp' : '%' ∉ c :: s := hp
        simp only [List.mem_cons, not_or] at hp'
        obtain ⟨cs, h1, h2⟩ := hi.2 (c :: s)
        refine ⟨cs, ?_, h2⟩
        rw [List.cons_append, parse, if_neg (fun e => hp'.1 e.symm), parse_literal s _ _ hp'.2]
        exact h1
    | item i =>
      have hval : i.Valid := hp
      obtain ⟨rest', n', out', hn', ho, hstep⟩ := item_step other all hval ps rest n hn out hm
      obtain ⟨cs, h1, h2⟩ := (ih rest' n' out' hvs hn' ho).1
      have hw : written (.item i :: ps) = '%' :: (i.middle ++ [i.letter] ++ written ps) := rfl
      rw [hw]
      refine ⟨⟨_, ?_, hstep cs h2⟩, fun acc => ⟨.literal acc ::
        .spec (convOf i.letter).1 (numberOf i.index : Int) (numberOf i.width : Int) 0
          (i.align.flags (convOf i.letter).2) :: cs, ?_, ?_⟩⟩
      · rw [parse, if_pos rfl, parse_item hval, h1]; rfl
      · rw [parse, if_pos rfl, parse_item hval, h1]; rfl
      · rw [formatLoop, hstep cs h2]; rfl

/-- C116: a format gives its texts and its arguments, each in its field. Missing: precision, the flags besides `-` and `0`, zeros before negative numbers, negative Longs in other radices, and the conversions of dates, characters, hash codes and floating-point numbers; the theorems below show that much of this does not hold. -/
theorem format_ok_partial (other : Conv → Arg → Except Err (List Char)) (ps : List Piece) (args : List Arg)
    (out : List Char) (hv : ∀ p ∈ ps, p.Valid) (hm : meaning args args ps = some out) :
    format other (written ps) args = .ok out := by
  obtain ⟨cs, h1, h2⟩ := (pieces_ok other args ps args 0 out hv rfl hm).1
  rw [format, h1]
  exact h2

/-- No conversion beside those that are modelled. -/
def noOther : Conv → Arg → Except Err (List Char) := fun _ _ => .error .format

example : format noOther "%2$-4s|%05d%%".toList [.int 42, .obj "ab".toList] = .ok "ab  |00042%".toList :=
  format_ok_partial noOther
    [.item ⟨['2'], .left, ['4'], 's'⟩, .text ['|'], .item ⟨[], .zeros, ['5'], 'd'⟩, .item ⟨[], .right, [], '%'⟩]
    _ _ (by
      intro p hp
      simp only [List.mem_cons, List.not_mem_nil, or_false] at hp
      rcases hp with e | e | e | e <;> subst e <;> simp [Piece.Valid, Item.Valid] <;> decide) (by decide +kernel)

/-- Whether a piece takes the next argument. -/
def Piece.takes : Piece → Bool
  | .text _ => false
  | .item i => i.letter != '%' && i.index == []

/-- Whether a component takes the next argument. -/
def Cmp.takes : Cmp → Bool
  | .literal _ => false
  | .spec k index _ _ _ => acceptsArgument k && index == 0

theorem item_takes {i : Item} (h : i.Valid) (w : Int) (f : Flags) :
    Cmp.takes (.spec (convOf i.letter).1 (numberOf i.index : Int) w 0 f) = Piece.takes (.item i) := by
  by_cases hp : i.letter = '%'
  · simp only [Cmp.takes, Piece.takes, hp]
    have : acceptsArgument (convOf '%').1 = false := by decide
    rw [this]; rfl
  · have hacc := accepts_of h.2.2.2.2.2.1 hp
    simp only [Cmp.takes, Piece.takes, hacc, Bool.true_and]
    by_cases hi : i.index = []
    · simp [hi, hp, numberOf]
    · have h1 := h.2.1 hi
      have e1 : ((numberOf i.index : Int) == 0) = false := by
        simp only [beq_eq_false_iff_ne]; omega
      rw [e1]
      simp [hi]

theorem pieces_parse (ps : List Piece) : (∀ p ∈ ps, p.Valid) →
    (∃ cs, parse .start (written ps) = .ok cs ∧ cs.countP Cmp.takes = ps.countP Piece.takes) ∧
    ∀ acc, ∃ cs, parse (.literal acc) (written ps) = .ok cs ∧ cs.countP Cmp.takes = ps.countP Piece.takes := by
  induction ps with
  | nil => intro _; exact ⟨⟨[], rfl, rfl⟩, fun acc => ⟨[.literal acc], rfl, rfl⟩⟩
  | cons p ps ih =>
    intro hv
    have hi := ih fun q hq => hv q (by simp [hq])
    have hp := hv p (by simp)
    cases p with
    | text s =>
      have hw : written (.text s :: ps) = s ++ written ps := rfl
      have hc : (Piece.text s :: ps).countP Piece.takes = ps.countP Piece.takes := by simp [Piece.takes]
      rw [hw, hc]
      refine ⟨?_, fun acc => ?_⟩
      · cases s with
        | nil => exact hi.1
        | cons c s =>
          have hp' : '%' ∉ c :: s := hp
          simp only [List.mem_cons, not_or] at hp'
          rw [List.cons_append, parse, if_neg (fun e => hp'.1 e.symm), parse_literal s _ _ hp'.2]
          exact hi.2 _
      · rw [parse_literal s acc _ hp]; exact hi.2 _
    | item i =>
      have hval : i.Valid := hp
      obtain ⟨cs, h1, h2⟩ := hi.1
      have hw : written (.item i :: ps) = '%' :: (i.middle ++ [i.letter] ++ written ps) := rfl
      have ht := item_takes hval (numberOf i.width : Int) (i.align.flags (convOf i.letter).2)
      rw [hw]
      refine ⟨⟨.spec (convOf i.letter).1 (numberOf i.index : Int) (numberOf i.width : Int) 0
          (i.align.flags (convOf i.letter).2) :: cs, ?_, ?_⟩, fun acc => ⟨.literal acc ::
        .spec (convOf i.letter).1 (numberOf i.index : Int) (numberOf i.width : Int) 0
          (i.align.flags (convOf i.letter).2) :: cs, ?_, ?_⟩⟩
      · rw [parse, if_pos rfl, parse_item hval, h1]; rfl
      · rw [List.countP_cons, List.countP_cons, ht, h2]
      · rw [parse, if_pos rfl, parse_item hval, h1]; rfl
      · rw [List.countP_cons, List.countP_cons, List.countP_cons, ht, h2]; rfl

theorem loop_refuses (other : Conv → Arg → Except Err (List Char)) (args : List Arg) (cs : List Cmp) :
    ∀ n, args.length < n + cs.countP Cmp.takes → n ≤ args.length → ∃ e, formatLoop other args n cs = .error e := by
  induction cs with
  | nil => intro n h h'; simp at h; omega
  | cons c cs ih =>
    intro n h h'
    cases c with
    | literal s =>
      obtain ⟨e, he⟩ := ih n (by simpa [Cmp.takes] using h) h'
      exact ⟨e, by rw [formatLoop, he]; rfl⟩
    | spec k index w p f =>
      have next : ∀ (a : Arg) m, (∃ e, formatLoop other args m cs = .error e) →
          ∃ e, ((convert other a k f w p).bind fun s => (formatLoop other args m cs).map (s ++ ·)) = .error e := by
        rintro a m ⟨e, he⟩
        cases convert other a k f w p with
        | error e' => exact ⟨e', rfl⟩
        | ok s => exact ⟨e, by rw [he]; rfl⟩
      have skip : Cmp.takes (.spec k index w p f) = false → ∃ e, formatLoop other args n cs = .error e := by
        intro ht
        rw [List.countP_cons, ht] at h
        exact ih n (by simpa using h) h'
      rw [formatLoop]
      simp only
      split
      · rename_i ha
        exact next _ _ (skip (by simp [Cmp.takes, ha]))
      · rename_i ha
        split
        · rename_i h0
          split
          · exact ⟨_, rfl⟩
          · rename_i a hn
            have hlt : n < args.length := (List.getElem?_eq_some_iff.mp hn).1
            have ht : Cmp.takes (.spec k index w p f) = true := by simp [Cmp.takes, h0, ha]
            rw [List.countP_cons, ht] at h
            exact next _ _ (ih (n + 1) (by simp at h; omega) (by omega))
        · rename_i h0
          have ht : Cmp.takes (.spec k index w p f) = false := by simp [Cmp.takes, h0]
          split
          · split
            · exact ⟨_, rfl⟩
            · exact next _ _ (skip ht)
          · split
            · exact ⟨_, rfl⟩
            · split
              · exact ⟨_, rfl⟩
              · exact next _ _ (skip ht)

/-- C116: a format that takes more arguments than there are is refused, whatever the arguments are. -/
theorem too_few_refused (other : Conv → Arg → Except Err (List Char)) (ps : List Piece) (args : List Arg)
    (hv : ∀ p ∈ ps, p.Valid) (h : args.length < ps.countP Piece.takes) :
    ∃ e, format other (written ps) args = .error e := by
  obtain ⟨cs, h1, h2⟩ := (pieces_parse ps hv).1
  rw [format, h1]
  exact loop_refuses other args cs 0 (by omega) (by omega)

example : ∃ e, format noOther "%s-%s".toList [.obj "a".toList] = .error e :=
  too_few_refused noOther [.item ⟨[], .right, [], 's'⟩, .text ['-'], .item ⟨[], .right, [], 's'⟩] _ (by
      intro p hp
      simp only [List.mem_cons, List.not_mem_nil, or_false] at hp
      rcases hp with e | e | e <;> subst e <;> simp [Piece.Valid, Item.Valid]) (by decide +kernel)

/-- The component of a specifier. -/
def Item.cmp (i : Item) : Cmp :=
  .spec (convOf i.letter).1 (numberOf i.index : Int) (numberOf i.width : Int) 0 (i.align.flags (convOf i.letter).2)

theorem pieces_mem (j : Item) (ps : List Piece) : (∀ p ∈ ps, p.Valid) →
    (∃ cs, parse .start (written ps) = .ok cs ∧ (.item j ∈ ps → j.cmp ∈ cs)) ∧
    ∀ acc, ∃ cs, parse (.literal acc) (written ps) = .ok cs ∧ (.item j ∈ ps → j.cmp ∈ cs) := by
  induction ps with
  | nil => intro _; exact ⟨⟨[], rfl, fun h => nomatch h⟩, fun acc => ⟨[.literal acc], rfl, fun h => nomatch h⟩⟩
  | cons p ps ih =>
    intro hv
    have hi := ih fun q hq => hv q (by simp [hq])
    have hp := hv p (by simp)
    cases p with
    | text s =>
      have hw : written (.text s :: ps) = s ++ written ps := rfl
      have hc : Piece.item j ∈ Piece.text s :: ps ↔ Piece.item j ∈ ps := by simp
      rw [hw]
      simp only [hc]
      refine ⟨?_, fun acc => ?_⟩
      · cases s with
        | nil => exact hi.1
        | cons c s =>
          have hp' : '%' ∉ c :: s := hp
          simp only [List.mem_cons, not_or] at hp'
          rw [List.cons_append, parse, if_neg (fun e => hp'.1 e.symm), parse_literal s _ _ hp'.2]
          exact hi.2 _
      · rw [parse_literal s acc _ hp]; exact hi.2 _
    | item i =>
      have hval : i.Valid := hp
      obtain ⟨cs, h1, h2⟩ := hi.1
      have hw : written (.item i :: ps) = '%' :: (i.middle ++ [i.letter] ++ written ps) := rfl
      have hmem : Piece.item j ∈ Piece.item i :: ps → j.cmp ∈ i.cmp :: cs := by
        intro h
        rcases List.mem_cons.mp h with e | e
        · cases e; simp
        · exact List.mem_cons_of_mem _ (h2 e)
      rw [hw]
      refine ⟨⟨i.cmp :: cs, ?_, hmem⟩, fun acc => ⟨.literal acc :: i.cmp :: cs, ?_, fun h => List.mem_cons_of_mem _ (hmem h)⟩⟩
      · rw [parse, if_pos rfl, parse_item hval, h1]; rfl
      · rw [parse, if_pos rfl, parse_item hval, h1]; rfl

theorem loop_refuses_index (other : Conv → Arg → Except Err (List Char)) (args : List Arg) (k : Conv) (index w p : Int)
    (f : Flags) (hk : acceptsArgument k = true) (hi : (args.length : Int) < index) (cs : List Cmp) :
    .spec k index w p f ∈ cs → ∀ n, ∃ e, formatLoop other args n cs = .error e := by
  induction cs with
  | nil => intro h; cases h
  | cons c cs ih =>
    intro h n
    rcases List.mem_cons.mp h with e | hm
    · subst e
      rw [formatLoop]
      simp only
      rw [if_neg (by rw [hk]; decide), if_neg (by omega), if_neg (by omega), if_neg (by omega),
        List.getElem?_eq_none (by omega)]
      exact ⟨_, rfl⟩
    · cases c with
      | literal s =>
        obtain ⟨e, he⟩ := ih hm n
        exact ⟨e, by rw [formatLoop, he]; rfl⟩
      | spec k' index' w' p' f' =>
        have next : ∀ (a : Arg) m,
            ∃ e, ((convert other a k' f' w' p').bind fun s => (formatLoop other args m cs).map (s ++ ·)) = .error e := by
          intro a m
          obtain ⟨e, he⟩ := ih hm m
          cases convert other a k' f' w' p' with
          | error e' => exact ⟨e', rfl⟩
          | ok s => exact ⟨e, by rw [he]; rfl⟩
        rw [formatLoop]
        simp only
        repeat' split
        all_goals first
          | exact next _ _
          | exact ⟨_, rfl⟩

/-- C116: a format with an index beyond the arguments is refused, wherever it stands. -/
theorem index_refused (other : Conv → Arg → Except Err (List Char)) (ps : List Piece) (args : List Arg) (i : Item)
    (hv : ∀ p ∈ ps, p.Valid) (hi : .item i ∈ ps) (hidx : args.length < numberOf i.index) :
    ∃ e, format other (written ps) args = .error e := by
  have hval : i.Valid := hv _ hi
  have hne : i.index ≠ [] := by intro e; rw [e] at hidx; exact absurd hidx (by simp [numberOf])
  have hacc := accepts_of hval.2.2.2.2.2.1 fun e => hne (hval.2.2.2.2.2.2.2 e)
  obtain ⟨cs, h1, h2⟩ := (pieces_mem i ps hv).1
  rw [format, h1]
  exact loop_refuses_index other args _ _ _ _ _ hacc (by omega) cs (h2 hi) 0

example : ∃ e, format noOther "a%3$s".toList [.obj "a".toList, .int 2] = .error e :=
  index_refused noOther [.text ['a'], .item ⟨['3'], .right, [], 's'⟩] _ ⟨['3'], .right, [], 's'⟩ (by
      intro p hp
      simp only [List.mem_cons, List.not_mem_nil, or_false] at hp
      rcases hp with e | e <;> subst e <;> simp [Piece.Valid, Item.Valid] <;> decide) (by simp) (by decide +kernel)

theorem digitsOf_bad (c : Char) (hc : c.isDigit = false) : ∀ (l : List Char) n, c ∈ l → digitsOf n l = .error .number := by
  intro l
  induction l with
  | nil => intro n h; cases h
  | cons a r ih =>
    intro n h
    rw [digitsOf]
    split
    · rename_i ha
      rcases List.mem_cons.mp h with e | e
      · subst e; rw [hc] at ha; exact absurd ha (by decide)
      · exact ih _ e
    · rfl

theorem valueOf_letter (l : List Char) (h : 't' ∈ l ∨ 'T' ∈ l) : valueOf l = .error .number := by
  unfold valueOf
  have key : ∀ l : List Char, 't' ∈ l ∨ 'T' ∈ l → digitsOf 0 l = .error .number := by
    intro l h
    rcases h with h | h
    · exact digitsOf_bad 't' (by decide) l 0 h
    · exact digitsOf_bad 'T' (by decide) l 0 h
  split
  · rename_i r
    rw [key r (by simpa using h)]; rfl
  · rw [key _ h]; rfl

theorem flagLoop_letter (k : Conv) (t : Char) (ht : t = 't' ∨ t = 'T') (l : List Char) :
    ∀ f, ∃ e, flagLoop k f (l ++ [t]) = .error e := by
  induction l with
  | nil =>
    intro f
    refine ⟨.state, ?_⟩
    rcases ht with e | e <;> subst e <;> simp [flagLoop]
  | cons a r ih =>
    intro f
    rw [List.cons_append, flagLoop]
    split
    · split
      · exact ih _
      · exact ⟨_, rfl⟩
    · split
      · split
        · exact ih _
        · exact ⟨_, rfl⟩
      · split
        · split
          · exact ih _
          · exact ⟨_, rfl⟩
        · split
          · rw [valueOf_letter _ (by rcases ht with e | e <;> subst e <;> simp)]
            exact ⟨_, rfl⟩
          · exact ih _

theorem seal_time (up : Bool) (t : Char) (ht : t = 't' ∨ t = 'T') (l : List Char) :
    ∃ e, sealSpec .dtime up (l ++ [t]) = .error e := by
  rw [sealSpec, if_neg (by simp)]
  cases hi : indexOf .dtime (l ++ [t]) with
  | error e => exact ⟨e, rfl⟩
  | ok index =>
    simp only [Except.bind]
    have hdt : t ≠ '$' := by rcases ht with e | e <;> subst e <;> decide
    have hlt : '$' ∈ l ++ [t] → ((l ++ [t]).takeWhile (· != '$')).length ≤ l.length ∧
        ((l ++ [t]).takeWhile (· != '$')).length + 1 ≠ (l ++ [t]).length := by
      intro h
      have hl : '$' ∈ l := by simpa [hdt.symm] using h
      obtain ⟨a, b, rfl, ha⟩ := List.append_of_mem hl |>.elim fun a h => h.elim fun b e =>
        (show ∃ a b, l = a ++ '$' :: b ∧ ∀ c ∈ a, c ≠ '$' from List.eq_append_cons_of_mem hl |>.elim fun a h =>
          h.elim fun b h => ⟨a, b, h.1, fun c hc e => h.2 (e ▸ hc)⟩)
      have : (a ++ '$' :: b ++ [t]).takeWhile (· != '$') = a := by
        rw [List.append_assoc, List.cons_append]
        exact takeWhile_stop (by decide) _ _ fun c hc => by simpa using ha c hc
      rw [this]
      simp only [List.length_append, List.length_cons, List.length_nil]
      omega
    rw [if_neg (fun e => (hlt e.1).2 e.2)]
    by_cases hdot : '.' ∈ l ++ [t]
    · rw [precisionOf, if_pos hdot, if_neg (by decide)]
      exact ⟨_, rfl⟩
    · rw [precisionOf, if_neg hdot]
      simp only
      have hr : ∃ m, remaining (l ++ [t]) = m ++ [t] := by
        have htw : (l ++ [t]).takeWhile (· != '.') = l ++ [t] := takeWhile_all _ fun c hc => by
          have : c ≠ '.' := fun e => hdot (e ▸ hc)
          simpa using this
        rw [remaining, htw]
        split
        · rename_i h
          exact ⟨_, List.drop_append_of_le_length (hlt h).1⟩
        · exact ⟨l, rfl⟩
      obtain ⟨m, hm⟩ := hr
      rw [hm]
      obtain ⟨e, he⟩ := flagLoop_letter .dtime t ht m { upper := up }
      rw [he]
      exact ⟨e, rfl⟩

/-- Beside C116: no format with a date is accepted: wherever a specifier with `t` or `T` stands after a text, whatever stands in it and whatever follows, and whatever the arguments are, an exception is thrown. -/
theorem dates_refused (other : Conv → Arg → Except Err (List Char)) (text mid rest : List Char) (t : Char) (args : List Arg)
    (htext : '%' ∉ text) (hmid : ∀ c ∈ mid, kind c = .buffer) (ht : t = 't' ∨ t = 'T') :
    ∃ e, format other (text ++ '%' :: (mid ++ t :: rest)) args = .error e := by
  have hspec : ∃ e, parse (.spec []) (mid ++ t :: rest) = .error e := by
    rw [parse_buffers _ _ _ hmid, List.nil_append, parse]
    have hk : ∃ up, kind t = .time up := by
      rcases ht with e | e <;> subst e
      · exact ⟨false, by decide⟩
      · exact ⟨true, by decide⟩
    obtain ⟨up, hk⟩ := hk
    rw [hk]
    simp only
    cases rest with
    | nil => exact ⟨_, rfl⟩
    | cons c r =>
      rw [parse]
      split
      · obtain ⟨e, he⟩ := seal_time up t ht mid
        rw [he]; exact ⟨e, rfl⟩
      · exact ⟨_, rfl⟩
  obtain ⟨e, he⟩ := hspec
  refine ⟨e, ?_⟩
  have : parse .start (text ++ '%' :: (mid ++ t :: rest)) = .error e := by
    cases text with
    | nil => rw [List.nil_append, parse, if_pos rfl, he]
    | cons c s =>
      simp only [List.mem_cons, not_or] at htext
      rw [List.cons_append, parse, if_neg (fun e => htext.1 e.symm), parse_literal s _ _ htext.2, parse, if_pos rfl, he]
      rfl
  rw [format, this]
  rfl

example : ∃ e, format noOther "at %1$tH o'clock".toList [.obj "x".toList] = .error e :=
  dates_refused noOther "at ".toList "1$".toList "H o'clock".toList 't' _ (by decide) (by decide) (Or.inl rfl)

/-- Beside C116: a precision without a width is refused for all numbers: `%.2f` throws IllegalStateException whatever the argument is. -/
theorem precision_alone_refused (other : Conv → Arg → Except Err (List Char)) (ds : List Char) (c : Char) (k : Conv) (up : Bool)
    (args : List Arg) (hds : ∀ d ∈ ds, d.isDigit = true) (hc : kind c = .conv k up) (hk : precisionSupported k = true) :
    format other ('%' :: '.' :: (ds ++ [c])) args = .error .state := by
  have hs : sealSpec k up ('.' :: ds) = .error .state := by
    have hd : '$' ∉ '.' :: ds := by
      simp only [List.mem_cons, not_or]
      exact ⟨by decide, fun h => digit_ne (hds _ h) '$' (by decide) rfl⟩
    rw [sealSpec, if_neg (by simp), indexOf, if_neg hd]
    simp only [Except.bind]
    rw [if_neg (fun e => hd e.1), precisionOf, if_pos (by simp), if_pos hk]
    have e : (('.' :: ds).dropWhile (· != '.')).drop 1 = ds := by simp
    rw [e, valueOf_ok _ hds]
    simp only
    have e : remaining ('.' :: ds) = [] := by simp [remaining]
    rw [e, flagLoop]
    rfl
  have hp : parse .start ('%' :: '.' :: (ds ++ [c])) = .error .state := by
    have hb : ∀ x ∈ '.' :: ds, kind x = .buffer := by
      intro x hx
      rcases List.mem_cons.mp hx with e | e
      · subst e; decide
      · exact digit_buffer (hds x e)
    rw [parse, if_pos rfl, ← List.cons_append, parse_buffers _ _ _ hb, List.nil_append, parse, hc]
    simp only
    rw [hs]
    rfl
  rw [format, hp]
  rfl

example : format noOther "%.2f".toList [.obj "3.14159".toList] = .error .state :=
  precision_alone_refused noOther ['2'] 'f' .float false _ (by decide) (by decide) (by decide)

/-- Beside C116: zeros stand before the sign of each negative number that is shorter than its field. -/
theorem zeros_before_sign (other : Conv → Arg → Except Err (List Char)) (width : List Char) (v : Int)
    (hw : ∀ c ∈ width, c.isDigit = true) (h0 : width.head? ≠ some '0') (hne : width ≠ []) (hv : v < 0) :
    format other ("%0".toList ++ width ++ ['d']) [.int v] =
      .ok (List.replicate (numberOf width - ((Nat.toDigits 10 v.natAbs).length + 1)) '0' ++
        '-' :: Nat.toDigits 10 v.natAbs) := by
  have hval : Item.Valid ⟨[], .zeros, width, 'd'⟩ :=
    ⟨by simp, by simp, hw, h0, fun e => absurd e hne, by simp, by simp, by simp⟩
  have hp : parse .start ("%0".toList ++ width ++ ['d']) =
      .ok [.spec .decml 0 (numberOf width : Int) 0 (Align.zeros.flags false)] := by
    have := parse_item hval []
    have e : ("%0".toList ++ width ++ ['d']) = '%' :: (Item.middle ⟨[], .zeros, width, 'd'⟩ ++ ['d'] ++ []) := by
      simp [Item.middle, Align.written]
    rw [e, parse, if_pos rfl, this]
    rfl
  have ht : intText 10 v = '-' :: Nat.toDigits 10 v.natAbs := by
    rw [intText, if_neg (by simp), numText, if_pos hv]
  have hc : convert other (.int v) .decml (Align.zeros.flags false) (numberOf width : Int) 0 =
      .ok (padded .zeros (numberOf width) ('-' :: Nat.toDigits 10 v.natAbs)) := by
    rw [← ht]; exact congrArg Except.ok (appendify_ok .zeros false _ _)
  rw [format, hp]
  simp only [Except.bind]
  rw [formatLoop]
  simp only
  rw [if_neg (by decide), if_pos trivial]
  simp only [List.getElem?_cons_zero]
  rw [hc]
  simp [Except.bind, formatLoop, Except.map, padded]

example : format noOther "%08d".toList [.int (-7)] = .ok "000000-7".toList := by
  have h := zeros_before_sign noOther ['8'] (-7) (by decide) (by decide) (by decide) (by decide)
  exact h.trans (by decide +kernel)

/-- Beside C116: zeros are written before the sign, `%<s` is refused, a text that is cut is not padded, and a negative Long has wrong digits in other radices. -/
theorem format_wrong :
    format noOther "%05d".toList [.int (-42)] = .ok "00-42".toList ∧
    format noOther "%s %<s".toList [.int 1] = .error .state ∧
    format noOther "%s %<$s".toList [.int 1, .int 2] = .ok "1 2".toList ∧
    format noOther "%5.2s".toList [.obj "abc".toList] = .ok "ab".toList ∧
    format noOther "%x".toList [.long (-2 ^ 63)] = .ok "00".toList ∧
    format noOther "%,d".toList [.int 1000] = .error .state := by
  decide +kernel

end Avian.FormatString
