import Verif.Lib.Tokenizer

/-
C106: string tokenizers.
-/
namespace Avian.Tokenizer

/-! ## Specification -/

/-- The tokens of a string: longest parts without delimiters, in their order; with `incl` also each delimiter. -/
inductive Tokens (delim : Nat → Bool) (incl : Bool) : List Nat → List (List Nat) → Prop where
  | nil : Tokens delim incl [] []
  | skip {c : Nat} {s : List Nat} {ts : List (List Nat)} (hi : incl = false) (hc : delim c = true) :
      Tokens delim incl s ts → Tokens delim incl (c :: s) ts
  | delimiter {c : Nat} {s : List Nat} {ts : List (List Nat)} (hi : incl = true) (hc : delim c = true) :
      Tokens delim incl s ts → Tokens delim incl (c :: s) ([c] :: ts)
  | token {t s : List Nat} {ts : List (List Nat)} (h0 : t ≠ []) (ht : ∀ c ∈ t, delim c = false) (hs : ∀ c ∈ s.head?, delim c = true) :
      Tokens delim incl s ts → Tokens delim incl (t ++ s) (t :: ts)

/-- The tokens that are still to come. -/
def ToCome (t : Tok) (ts : List (List Nat)) : Prop := Tokens (fun c => t.delimiters.contains c) t.includeDelimiters (t.input.drop t.position) ts

/-- Up to `n` tokens, one after the other. -/
def take (n : Nat) (t : Tok) : List (List Nat) :=
  match n with
  | 0 => []
  | n + 1 =>
    match t.nextToken with
    | none => []
    | some (x, t) => x :: take n t

/-! ## Every string has tokens -/

theorem tokens_exist (delim : Nat → Bool) (incl : Bool) (s : List Nat) : ∃ ts : List (List Nat), Tokens delim incl s ts := by
  induction h : s.length using Nat.strongRecOn generalizing s with
  | ind n ih =>
    cases s with
    | nil => exact ⟨[], .nil⟩
    | cons c s =>
      simp only [List.length_cons] at h
      by_cases hc : delim c = true
      · obtain ⟨ts, hts⟩ := ih s.length (by omega) s rfl
        cases incl with
        | false => exact ⟨ts, .skip rfl hc hts⟩
        | true => exact ⟨[c] :: ts, .delimiter rfl hc hts⟩
      · have hc : delim c = false := by simpa using hc
        obtain ⟨ts, hts⟩ := ih (s.dropWhile fun x => !delim x).length (by
          have := (List.dropWhile_sublist (fun x => !delim x) (l := s)).length_le
          omega) _ rfl
        refine ⟨(c :: s.takeWhile fun x => !delim x) :: ts, ?_⟩
        have := Tokens.token (delim := delim) (incl := incl) (t := c :: s.takeWhile fun x => !delim x) (s := s.dropWhile fun x => !delim x) (ts := ts)
          (by simp) ?_ ?_ hts
        · rw [List.cons_append, List.takeWhile_append_dropWhile] at this
          exact this
        · intro x hx
          rcases List.mem_cons.mp hx with hx | hx
          · rw [hx]; exact hc
          · have := List.all_takeWhile (p := fun x => !delim x) (l := s)
            have := List.all_eq_true.mp this x hx
            simpa using this
        · intro x hx
          have := List.head?_dropWhile_not (fun x => !delim x) s
          rw [Option.mem_def.mp hx] at this
          simpa using this

/-! ## The loops -/

theorem scan_eq (t : Tok) (a s : List Nat) (i : Nat) (ha : ∀ c ∈ a, t.isDelimiter c = false) (hs : ∀ c ∈ s.head?, t.isDelimiter c = true) :
    scan t i (a ++ s) = i + a.length := by
  induction a generalizing i with
  | nil =>
    cases s with
    | nil => rfl
    | cons c s =>
      have := hs c (by simp)
      simp [scan, this]
  | cons x a ih =>
    have hx := ha x (by simp)
    rw [List.cons_append, scan, hx, if_neg (by simp), ih _ (fun c hc => ha c (by simp [hc])), List.length_cons]
    omega

theorem substring_eq (p a s : List Nat) : substring (p ++ (a ++ s)) p.length (p.length + a.length) = a := by
  unfold substring
  rw [← List.append_assoc, ← List.length_append, List.take_left, List.drop_left]

/-- The loop of `nextToken` over the rest of a string with tokens. -/
theorem nextLoop_ok (t : Tok) (hi : t.includeDelimiters = false) (rest : List Nat) (ts : List (List Nat))
    (h : Tokens (fun c => t.delimiters.contains c) false rest ts) (p : List Nat) (hp : t.input = p ++ rest) :
    (ts = [] → nextLoop t p.length rest = none) ∧
    (∀ (x : List Nat) (xs : List (List Nat)), ts = x :: xs → ∃ t' : Tok, nextLoop t p.length rest = some (x, t') ∧ ToCome t' xs ∧
      t'.delimiters = t.delimiters ∧ t'.includeDelimiters = false) := by
  induction h generalizing p with
  | nil => exact ⟨fun _ => rfl, fun x xs h => by simp at h⟩
  | @skip c s ts _ hc hts ih =>
    have hd : t.isDelimiter c = true := hc
    have := ih (p ++ [c]) (by rw [hp]; simp)
    rw [List.length_append, List.length_singleton] at this
    unfold nextLoop
    rw [if_pos hd, hi, if_neg (by simp)]
    exact this
  | delimiter hi' => simp at hi'
  | @token a s ts h0 ha hs hts ih =>
    refine ⟨fun h => by simp at h, ?_⟩
    intro x xs hx
    simp only [List.cons.injEq] at hx
    obtain ⟨rfl, rfl⟩ := hx
    cases a with
    | nil => exact absurd rfl h0
    | cons c a =>
      have hd : t.isDelimiter c = false := ha c (by simp)
      rw [List.cons_append]
      unfold nextLoop
      rw [hd, if_neg (by simp)]
      simp only
      rw [← List.cons_append, scan_eq t (c :: a) s _ ha hs, hp, substring_eq]
      refine ⟨_, rfl, ?_, rfl, hi⟩
      unfold ToCome
      simp only
      rw [hi, ← hp, hp, ← List.append_assoc, ← List.length_append, List.drop_left]
      exact hts

/-- `nextToken` gives the next of the tokens to come, and NoSuchElementException after the last. -/
theorem nextToken_ok_partial (t : Tok) (hi : t.includeDelimiters = false) (hp : t.position ≤ t.input.length) (ts : List (List Nat)) (h : ToCome t ts) :
    (ts = [] → t.nextToken = none) ∧
    (∀ (x : List Nat) (xs : List (List Nat)), ts = x :: xs → ∃ t' : Tok, t.nextToken = some (x, t') ∧ ToCome t' xs ∧
      t'.delimiters = t.delimiters ∧ t'.includeDelimiters = false) := by
  unfold ToCome at h
  rw [hi] at h
  have := nextLoop_ok t hi _ ts h (t.input.take t.position) (List.take_append_drop _ _).symm
  rw [List.length_take, Nat.min_eq_left hp] at this
  exact this

theorem scan_le (t : Tok) (l : List Nat) (i : Nat) : scan t i l ≤ i + l.length := by
  induction l generalizing i with
  | nil => simp [scan]
  | cons c l ih =>
    have := ih (i + 1)
    simp only [scan, List.length_cons]
    split <;> omega

theorem nextLoop_position (t t' : Tok) (x rest : List Nat) (i : Nat) (hr : i + rest.length ≤ t.input.length) (hp : t.position ≤ t.input.length)
    (h : nextLoop t i rest = some (x, t')) : t'.position ≤ t'.input.length := by
  induction rest generalizing i with
  | nil => simp [nextLoop] at h
  | cons c rest ih =>
    simp only [List.length_cons] at hr
    unfold nextLoop at h
    by_cases hc : t.isDelimiter c = true
    · rw [if_pos hc] at h
      by_cases hi : t.includeDelimiters = true
      · rw [if_pos hi] at h
        simp only [Option.some.injEq, Prod.mk.injEq] at h
        rw [← h.2]
        exact hp
      · rw [if_neg hi] at h
        exact ih (i + 1) (by omega) h
    · rw [if_neg hc] at h
      simp only [Option.some.injEq, Prod.mk.injEq] at h
      rw [← h.2]
      have := scan_le t (c :: rest) i
      simp only [List.length_cons] at this
      simp only
      omega

/-- The position stays within the string. -/
theorem nextToken_position (t t' : Tok) (x : List Nat) (hp : t.position ≤ t.input.length) (h : t.nextToken = some (x, t')) :
    t'.position ≤ t'.input.length :=
  nextLoop_position t t' x _ t.position (by rw [List.length_drop]; omega) hp h

theorem take_ok (ts : List (List Nat)) (t : Tok) (hi : t.includeDelimiters = false) (hp : t.position ≤ t.input.length) (h : ToCome t ts) (n : Nat) :
    take n t = ts.take n := by
  induction n generalizing t ts with
  | zero => rfl
  | succ n ih =>
    have hn := nextToken_ok_partial t hi hp ts h
    cases ts with
    | nil => rw [take, hn.1 rfl]; rfl
    | cons x xs =>
      obtain ⟨t', he, hc, hd, hi'⟩ := hn.2 x xs rfl
      rw [take, he, List.take_succ_cons]
      simp only
      rw [ih xs t' hi' (nextToken_position t t' x hp he) hc]

/-- A tokenizer gives the tokens of its string: the longest parts without delimiters. -/
theorem tokenizer_ok_partial (input delimiters : List Nat) :
    ∃ ts : List (List Nat), Tokens (fun c => delimiters.contains c) false input ts ∧ ∀ n : Nat, take n (make input delimiters false) = ts.take n := by
  obtain ⟨ts, h⟩ := tokens_exist (fun c => delimiters.contains c) false input
  exact ⟨ts, h, fun n => take_ok ts (make input delimiters false) rfl (Nat.zero_le _) h n⟩

/-- For "  ab c". -/
example : take 5 (make [32, 32, 97, 98, 32, 99] [32] false) = [[97, 98], [99]] := by decide

/-! ## countTokens -/

theorem countLoop_tokens (t : Tok) (ts : List (List Nat)) (rest : List Nat)
    (h : Tokens (fun c => t.delimiters.contains c) t.includeDelimiters rest ts) (count : Nat) :
    countLoop t count false rest = count + ts.length ∧
    ((∀ c ∈ rest.head?, t.isDelimiter c = true) → countLoop t count true rest = count + 1 + ts.length) := by
  induction h generalizing count with
  | nil => exact ⟨rfl, fun _ => rfl⟩
  | @skip c s ts hi hc hts ih =>
    have hd : t.isDelimiter c = true := hc
    have h1 := (ih count).1
    have h2 := (ih (count + 1)).1
    constructor
    · rw [countLoop, if_pos hd, hi]
      exact h1
    · intro _
      rw [countLoop, if_pos hd, hi]
      exact h2
  | @delimiter c s ts hi hc hts ih =>
    have hd : t.isDelimiter c = true := hc
    have h1 := (ih (count + 1)).1
    have h2 := (ih (count + 1 + 1)).1
    constructor
    · rw [countLoop, if_pos hd, hi, List.length_cons]
      simp only [if_true, Bool.false_eq_true, if_false]
      omega
    · intro _
      rw [countLoop, if_pos hd, hi, List.length_cons]
      simp only [if_true]
      omega
  | @token a s ts h0 ha hs hts ih =>
    have hrun : ∀ (l : List Nat) (k : Nat), (∀ c ∈ l, t.isDelimiter c = false) → countLoop t k true (l ++ s) = countLoop t k true s := by
      intro l k hl
      induction l with
      | nil => rfl
      | cons c l ihl =>
        rw [List.cons_append, countLoop, hl c (by simp), if_neg (by simp), ihl (fun x hx => hl x (by simp [hx]))]
    cases a with
    | nil => exact absurd rfl h0
    | cons c a =>
      have hd : t.isDelimiter c = false := ha c (by simp)
      constructor
      · rw [List.cons_append, countLoop, hd, if_neg (by simp), hrun a count (fun x hx => ha x (by simp [hx])), (ih count).2 hs, List.length_cons]
        omega
      · intro hh
        have := hh c (by simp)
        rw [hd] at this
        simp at this

/-- `countTokens` is the number of tokens to come, with and without delimiters. -/
theorem countTokens_ok (t : Tok) (ts : List (List Nat)) (h : ToCome t ts) : t.countTokens = ts.length := by
  have := (countLoop_tokens t ts _ h 0).1
  rw [Nat.zero_add] at this
  exact this

example : (make [97, 44, 98] [44] true).countTokens = 3 := by decide

/-! ## hasMoreTokens -/

theorem hasLoop_ok (t : Tok) (rest : List Nat) (ts : List (List Nat)) (h : Tokens (fun c => t.delimiters.contains c) t.includeDelimiters rest ts)
    (p : List Nat) (hp : t.input = p ++ rest) (hc : ToCome t ts) :
    (hasLoop t p.length rest).1 = !ts.isEmpty ∧ ToCome (hasLoop t p.length rest).2 ts := by
  induction h generalizing p with
  | nil => exact ⟨rfl, hc⟩
  | @skip c s ts hi hd hts ih =>
    have hd : t.isDelimiter c = true := hd
    have := ih (p ++ [c]) (by rw [hp]; simp) hc
    rw [List.length_append, List.length_singleton] at this
    unfold hasLoop
    rw [if_pos hd, hi, if_neg (by simp)]
    exact this
  | @delimiter c s ts hi hd hts ih =>
    have hd : t.isDelimiter c = true := hd
    unfold hasLoop
    rw [if_pos hd, hi, if_pos rfl]
    exact ⟨rfl, hc⟩
  | @token a s ts h0 ha hs hts ih =>
    cases a with
    | nil => exact absurd rfl h0
    | cons c a =>
      have hd : t.isDelimiter c = false := ha c (by simp)
      rw [List.cons_append] at hp ⊢
      unfold hasLoop
      rw [hd, if_neg (by simp)]
      refine ⟨rfl, ?_⟩
      unfold ToCome
      simp only
      rw [hp, List.drop_left, ← List.cons_append]
      exact .token h0 ha hs hts

/-- `hasMoreTokens` says whether there are tokens to come, and does not change them. -/
theorem hasMoreTokens_ok (t : Tok) (hp : t.position ≤ t.input.length) (ts : List (List Nat)) (h : ToCome t ts) :
    t.hasMoreTokens.1 = !ts.isEmpty ∧ ToCome t.hasMoreTokens.2 ts := by
  have := hasLoop_ok t _ ts h (t.input.take t.position) (List.take_append_drop _ _).symm h
  rw [List.length_take, Nat.min_eq_left hp] at this
  exact this

example : (make [44, 97] [44] false).hasMoreTokens = (true, ⟨[44, 97], [44], false, 1⟩) := by decide

/-! ## What is wrong -/

/-- With delimiters as tokens, the tokenizer stays at the first delimiter and gives it again and again. -/
theorem delimiters_wrong (t : Tok) (c : Nat) (rest : List Nat) (hi : t.includeDelimiters = true) (hr : t.input.drop t.position = c :: rest)
    (hc : t.isDelimiter c = true) (n : Nat) : take n t = List.replicate n [c] := by
  have hs : substring t.input t.position (t.position + 1) = [c] := by
    unfold substring
    rw [List.drop_take, hr, show t.position + 1 - t.position = 1 by omega]
    rfl
  have hn : t.nextToken = some ([c], t) := by
    unfold Tok.nextToken
    rw [hr, nextLoop, if_pos hc, if_pos hi, hs]
  induction n with
  | zero => rfl
  | succ n ih => rw [take, hn, List.replicate_succ]; simp only; rw [ih]

/-- So what it gives for "a,b" is not what was asked for. -/
example : take 4 (make [97, 44, 98] [44] true) = [[97], [44], [44], [44]] := by decide

/-- Asking whether there are more tokens changes what a change of the delimiters gives: " a=b" with "=" after " ". -/
theorem change_wrong : ∃ t : Tok,
    (t.nextTokenWith [61]).map Prod.fst = some [32, 97] ∧ (t.hasMoreTokens.2.nextTokenWith [61]).map Prod.fst = some [97] :=
  ⟨make [32, 97, 61, 98] [32] false, by decide⟩

end Avian.Tokenizer
