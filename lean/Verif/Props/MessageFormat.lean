import Verif.Lib.MessageFormat

/-
C112: messages with parameters.
-/
namespace Avian.MessageFormat

/-! ## Specification: a pattern is pieces, one after the other -/

inductive Piece where
  /-- A character that means itself. -/
  | char (c : Nat)
  /-- Two ticks mean one. -/
  | tick
  /-- What is between ticks means itself. -/
  | quoted (c : Nat) (cs : List Nat)
  /-- Digits in braces mean the argument. -/
  | param (digits : List Nat)

def Piece.Fine : Piece → Prop
  | .char c => c ≠ 123 ∧ c ≠ 39
  | .tick => True
  | .quoted c cs => c ≠ 39 ∧ ∀ x ∈ cs, x ≠ 39
  | .param digits => ∀ d ∈ digits, d < 10

def Piece.text : Piece → List Nat
  | .char c => [c]
  | .tick => [39, 39]
  | .quoted c cs => 39 :: c :: (cs ++ [39])
  | .param digits => 123 :: (digits.map (· + 48) ++ [125])

/-- What the pattern may end with. -/
inductive Tail where
  | nothing
  /-- A parameter without its end: dropped. -/
  | openParam (digits : List Nat)
  | badParam (digits : List Nat) (c : Nat) (rest : List Nat)
  | openQuote (cs : List Nat)

def Tail.Fine : Tail → Prop
  | .nothing => True
  | .openParam digits => ∀ d ∈ digits, d < 10
  | .badParam digits c _ => (∀ d ∈ digits, d < 10) ∧ ¬(48 ≤ c ∧ c ≤ 57) ∧ c ≠ 125
  | .openQuote cs => ∀ x ∈ cs, x ≠ 39

def Tail.text : Tail → List Nat
  | .nothing => []
  | .openParam digits => 123 :: digits.map (· + 48)
  | .badParam digits c rest => 123 :: (digits.map (· + 48) ++ c :: rest)
  | .openQuote cs => 39 :: cs

/-- The number that digits denote. -/
def decimal : List Nat → Nat → Nat
  | [], n => n
  | d :: ds, n => decimal ds (n * 10 + d)

/-- The argument, its number as an `int`. -/
def given (args : List (Option (List Nat))) (n : Nat) : Option (List Nat) :=
  if n % 4294967296 < 2147483648 then (args[n % 4294967296]?).map fun a => a.getD [110, 117, 108, 108] else none

def Piece.meaning (args : List (Option (List Nat))) : Piece → Option (List Nat)
  | .char c => some [c]
  | .tick => some [39]
  | .quoted c cs => some (c :: cs)
  | .param digits => given args (decimal digits 0)

def Tail.outcome : Tail → Except Error (List Nat)
  | .nothing => .ok []
  | .openParam _ => .ok []
  | .badParam _ _ _ => .error .illegalArgument
  | .openQuote _ => .error .stringIndex

/-- The meanings of the pieces, one after the other; the first that is wrong is reported. -/
def outcome (args : List (Option (List Nat))) : List Piece → Tail → Except Error (List Nat)
  | [], tail => tail.outcome
  | p :: ps, tail =>
    match p.meaning args with
    | none => .error .arrayIndex
    | some m =>
      match outcome args ps tail with
      | .ok out => .ok (m ++ out)
      | .error e => .error e

def render (ps : List Piece) : List Nat := ps.flatMap Piece.text

/-! ## Theorems -/

theorem argument_given (args : List (Option (List Nat))) (n : Nat) : argument args (BitVec.ofNat 32 n) = given args n := by
  unfold argument given
  have h : (BitVec.ofNat 32 n).toNat = n % 4294967296 := by rw [BitVec.toNat_ofNat]
  by_cases hn : n % 4294967296 < 2147483648
  · have hi : (BitVec.ofNat 32 n).toInt = ((n % 4294967296 : Nat) : Int) := by
      rw [BitVec.toInt_eq_toNat_cond, h, if_pos (by omega)]
    rw [if_pos hn, hi, if_neg (by omega), Int.toNat_natCast]
  · have hi : (BitVec.ofNat 32 n).toInt < 0 := by
      rw [BitVec.toInt_eq_toNat_cond, h, if_neg (by omega)]
      omega
    rw [if_neg hn, if_pos hi]

theorem run_digits (args : List (Option (List Nat))) (ds : List Nat) (hd : ∀ d ∈ ds, d < 10) (n : Nat) (rest target : List Nat) :
    run args (.param (BitVec.ofNat 32 n)) (ds.map (· + 48) ++ rest) target = run args (.param (BitVec.ofNat 32 (decimal ds n))) rest target := by
  induction ds generalizing n with
  | nil => rfl
  | cons d ds ih =>
    have := hd d (List.mem_cons_self ..)
    rw [List.map_cons, List.cons_append, run, if_pos (by omega), Nat.add_sub_cancel, decimal,
      ← ih (fun x hx => hd x (List.mem_cons_of_mem _ hx)) (n * 10 + d), BitVec.ofNat_add, BitVec.ofNat_mul]

theorem run_literal (args : List (Option (List Nat))) (cs : List Nat) (hc : ∀ x ∈ cs, x ≠ 39) (rest target : List Nat) :
    run args .literal (cs ++ rest) target = run args .literal rest (target ++ cs) := by
  induction cs generalizing target with
  | nil => rw [List.nil_append, List.append_nil]
  | cons c cs ih =>
    rw [List.cons_append, run, if_neg (hc c (List.mem_cons_self ..)), ih (fun x hx => hc x (List.mem_cons_of_mem _ hx)), List.append_assoc]
    rfl

theorem run_piece (args : List (Option (List Nat))) (p : Piece) (hp : p.Fine) (rest target : List Nat) :
    run args .text (p.text ++ rest) target =
      match p.meaning args with
      | none => .error .arrayIndex
      | some m => run args .text rest (target ++ m) := by
  cases p with
  | char c => rw [Piece.text, List.cons_append, run, if_neg hp.1, if_neg hp.2]; rfl
  | tick =>
    show run args .text (39 :: 39 :: rest) target = _
    rw [run, if_neg (by decide), if_pos rfl, run, if_pos rfl]
    rfl
  | quoted c cs =>
    show run args .text (39 :: c :: ((cs ++ [39]) ++ rest)) target = _
    rw [run, if_neg (by decide), if_pos rfl, run, if_neg hp.1, List.append_assoc, run_literal args cs hp.2, List.cons_append, run, if_pos rfl,
      List.append_assoc]
    rfl
  | param ds =>
    show run args .text (123 :: ((ds.map (· + 48) ++ [125]) ++ rest)) target = _
    rw [run, if_pos rfl, List.append_assoc, run_digits args ds hp, List.cons_append, run, if_neg (by decide), if_pos rfl, argument_given]
    rfl

theorem run_tail (args : List (Option (List Nat))) (tail : Tail) (ht : tail.Fine) (target : List Nat) :
    run args .text tail.text target =
      match tail.outcome with
      | .ok out => .ok (target ++ out)
      | .error e => .error e := by
  cases tail with
  | nothing => simp [Tail.text, run, Tail.outcome]
  | openParam ds =>
    rw [Tail.text, run, if_pos rfl, ← List.append_nil (ds.map _), run_digits args ds ht, run]
    simp [Tail.outcome]
  | badParam ds c rest =>
    rw [Tail.text, run, if_pos rfl, run_digits args ds ht.1, run, if_neg ht.2.1, if_neg ht.2.2]
    rfl
  | openQuote cs =>
    rw [Tail.text, run, if_neg (by decide), if_pos rfl]
    cases cs with
    | nil => rfl
    | cons c cs =>
      rw [run, if_neg (ht c (List.mem_cons_self ..)), ← List.append_nil cs, run_literal args cs (fun x hx => ht x (List.mem_cons_of_mem _ hx))]
      rfl

theorem run_spec (args : List (Option (List Nat))) (ps : List Piece) (hp : ∀ p ∈ ps, p.Fine) (tail : Tail) (ht : tail.Fine) (target : List Nat) :
    run args .text (render ps ++ tail.text) target =
      match outcome args ps tail with
      | .ok out => .ok (target ++ out)
      | .error e => .error e := by
  induction ps generalizing target with
  | nil => exact run_tail args tail ht target
  | cons p ps ih =>
    rw [render, List.flatMap_cons, List.append_assoc, run_piece args p (hp p (List.mem_cons_self ..)), outcome]
    cases p.meaning args with
    | none => rfl
    | some m =>
      have := ih (fun x hx => hp x (List.mem_cons_of_mem _ hx)) (target ++ m)
      rw [render] at this
      simp only [this]
      cases outcome args ps tail with
      | error e => rfl
      | ok out => simp

/-- The message is the meanings of the pieces of the pattern, one after the other. -/
theorem format_pieces (args : List (Option (List Nat))) (ps : List Piece) (hp : ∀ p ∈ ps, p.Fine) (tail : Tail) (ht : tail.Fine) :
    format (render ps ++ tail.text) args = outcome args ps tail := by
  rw [format, run_spec args ps hp tail ht]
  cases outcome args ps tail <;> rfl

/-! ## Each pattern has pieces -/

def Shape (pattern : List Nat) : Prop := ∃ ps tail, (∀ p ∈ ps, Piece.Fine p) ∧ Tail.Fine tail ∧ pattern = render ps ++ tail.text

theorem shape_cons (p : Piece) (hp : p.Fine) (pattern : List Nat) (h : Shape pattern) : Shape (p.text ++ pattern) := by
  obtain ⟨ps, tail, h1, h2, h3⟩ := h
  refine ⟨p :: ps, tail, ?_, h2, by rw [h3, render, render, List.flatMap_cons, List.append_assoc]⟩
  intro q hq
  rcases List.mem_cons.mp hq with h | h
  · rw [h]; exact hp
  · exact h1 q h

theorem shape_tail (tail : Tail) (ht : tail.Fine) : Shape tail.text := ⟨[], tail, fun _ h => (by cases h), ht, rfl⟩

theorem split_digits (l : List Nat) : ∃ (ds rest : List Nat), (∀ d ∈ ds, d < 10) ∧ l = ds.map (· + 48) ++ rest ∧ ∀ c r, rest = c :: r → ¬(48 ≤ c ∧ c ≤ 57) := by
  induction l with
  | nil => exact ⟨[], [], fun _ h => (by cases h), rfl, fun _ _ h => (by cases h)⟩
  | cons c l ih =>
    by_cases hc : 48 ≤ c ∧ c ≤ 57
    · obtain ⟨ds, rest, h1, h2, h3⟩ := ih
      refine ⟨(c - 48) :: ds, rest, ?_, ?_, h3⟩
      · intro d hd
        rcases List.mem_cons.mp hd with h | h
        · omega
        · exact h1 d h
      · rw [List.map_cons, List.cons_append, ← h2, Nat.sub_add_cancel hc.1]
    · refine ⟨[], c :: l, fun _ h => (by cases h), rfl, ?_⟩
      intro c' r h
      cases h
      exact hc

theorem split_tick (l : List Nat) : (∀ x ∈ l, x ≠ 39) ∨ ∃ cs rest, (∀ x ∈ cs, x ≠ 39) ∧ l = cs ++ 39 :: rest := by
  induction l with
  | nil => exact .inl fun _ h => by cases h
  | cons c l ih =>
    by_cases hc : c = 39
    · exact .inr ⟨[], l, fun _ h => (by cases h), by rw [hc]; rfl⟩
    · rcases ih with h | ⟨cs, rest, h1, h2⟩
      · refine .inl fun x hx => ?_
        rcases List.mem_cons.mp hx with h' | h'
        · rw [h']; exact hc
        · exact h x h'
      · refine .inr ⟨c :: cs, rest, fun x hx => ?_, by rw [h2]; rfl⟩
        rcases List.mem_cons.mp hx with h' | h'
        · rw [h']; exact hc
        · exact h1 x h'

/-- Each pattern is pieces and an end. -/
theorem every_pattern (pattern : List Nat) : Shape pattern := by
  suffices h : ∀ n, ∀ l : List Nat, l.length ≤ n → Shape l from h pattern.length pattern (Nat.le_refl _)
  intro n
  induction n with
  | zero =>
    intro l hl
    rw [List.length_eq_zero_iff.mp (Nat.le_zero.mp hl)]
    exact shape_tail .nothing trivial
  | succ n ih =>
    intro l hl
    cases l with
    | nil => exact shape_tail .nothing trivial
    | cons c l =>
      rw [List.length_cons] at hl
      by_cases h1 : c = 123
      · subst h1
        obtain ⟨ds, rest, hd, hr, hn⟩ := split_digits l
        subst hr
        cases rest with
        | nil => rw [List.append_nil]; exact shape_tail (.openParam ds) hd
        | cons x r =>
          by_cases hx : x = 125
          · subst hx
            have := shape_cons (.param ds) hd r (ih r (by simp at hl; omega))
            simpa [Piece.text] using this
          · exact shape_tail (.badParam ds x r) ⟨hd, hn x r rfl, hx⟩
      · by_cases h2 : c = 39
        · subst h2
          rcases split_tick l with h | ⟨cs, rest, hc, hr⟩
          · exact shape_tail (.openQuote l) h
          · subst hr
            cases cs with
            | nil => exact shape_cons .tick trivial rest (ih rest (by simp at hl; omega))
            | cons x cs =>
              have := shape_cons (.quoted x cs) ⟨hc x (List.mem_cons_self ..), fun y hy => hc y (List.mem_cons_of_mem _ hy)⟩ rest (ih rest (by simp at hl; omega))
              simpa [Piece.text] using this
        · exact shape_cons (.char c) ⟨h1, h2⟩ l (ih l (by omega))

/-- So the outcome of each pattern is that of its pieces. -/
theorem format_total (pattern : List Nat) (args : List (Option (List Nat))) :
    ∃ ps tail, (∀ p ∈ ps, Piece.Fine p) ∧ Tail.Fine tail ∧ pattern = render ps ++ tail.text ∧ format pattern args = outcome args ps tail := by
  obtain ⟨ps, tail, h1, h2, h3⟩ := every_pattern pattern
  exact ⟨ps, tail, h1, h2, h3, by rw [h3]; exact format_pieces args ps h1 tail h2⟩

/-! ## Each text can be a message -/

/-- Ticks doubled, braces between ticks. -/
def escape (s : List Nat) : List Nat := s.flatMap fun c => if c = 39 then [39, 39] else if c = 123 then [39, 123, 39] else [c]

theorem escape_format (s : List Nat) (args : List (Option (List Nat))) : format (escape s) args = .ok s := by
  have key : ∀ s : List Nat, ∃ ps : List Piece, (∀ p ∈ ps, p.Fine) ∧ escape s = render ps ∧ outcome args ps .nothing = .ok s := by
    intro s
    induction s with
    | nil => exact ⟨[], fun _ h => (by cases h), rfl, rfl⟩
    | cons c s ih =>
      obtain ⟨ps, h1, h2, h3⟩ := ih
      have add : ∀ p : Piece, p.Fine → p.meaning args = some [c] → p.text = (if c = 39 then [39, 39] else if c = 123 then [39, 123, 39] else [c]) →
          ∃ ps : List Piece, (∀ p ∈ ps, p.Fine) ∧ escape (c :: s) = render ps ∧ outcome args ps .nothing = .ok (c :: s) := by
        intro p hp hm ht
        refine ⟨p :: ps, ?_, ?_, ?_⟩
        · intro q hq
          rcases List.mem_cons.mp hq with h | h
          · rw [h]; exact hp
          · exact h1 q h
        · rw [render, List.flatMap_cons, ht, ← render, ← h2]; rfl
        · rw [outcome, hm, h3]; rfl
      by_cases hc : c = 39
      · exact add .tick trivial (by rw [hc]; rfl) (by rw [if_pos hc]; rfl)
      · by_cases hb : c = 123
        · exact add (.quoted c []) ⟨hc, fun _ h => by cases h⟩ rfl (by rw [if_neg hc, if_pos hb, hb]; rfl)
        · exact add (.char c) ⟨hb, hc⟩ rfl (by rw [if_neg hc, if_neg hb]; rfl)
  obtain ⟨ps, h1, h2, h3⟩ := key s
  have := format_pieces args ps h1 .nothing trivial
  rw [Tail.text, List.append_nil, ← h2, h3] at this
  exact this

/-! ## Examples -/

/-- "Joe''s age is {0}, not '{0}'" with "30" (the last row of the table in the documentation). -/
example : format ("Joe''s age is {0}, not '{0}'".toList.map Char.toNat) [some [51, 48]] = .ok ("Joe's age is 30, not {0}".toList.map Char.toNat) := by decide +kernel

/-- "{2} + {1} = {0}". -/
example : format ("{2} + {1} = {0}".toList.map Char.toNat) [some [53], none, some [51]] = .ok ("3 + null = 5".toList.map Char.toNat) := by decide +kernel

example : outcome [some [53]] [.param [0], .char 32, .quoted 123 [65], .tick] .nothing = .ok [53, 32, 123, 65, 39] := by decide +kernel

example : format ("it's".toList.map Char.toNat) [] = .error .stringIndex := by decide +kernel

example : format ("{a}".toList.map Char.toNat) [] = .error .illegalArgument := by decide +kernel

example : format ("{1}".toList.map Char.toNat) [some []] = .error .arrayIndex := by decide +kernel

/-- A parameter without its end is dropped without a word. -/
example : format ("a{0".toList.map Char.toNat) [] = .ok [97] := by decide +kernel

/-- The number wraps: 4294967296 is 0. -/
example : format ("{4294967296}".toList.map Char.toNat) [some [53]] = .ok [53] := by decide +kernel

example : escape ("{'a'}".toList.map Char.toNat) = "'{'''a''}".toList.map Char.toNat := by decide +kernel

end Avian.MessageFormat
