import Verif.Lib.JProperties

/-
C101: property files.

`javaLine` is the line that the specification of `java.util.Properties.store` asks for.  It is shown what of this is loaded as it was
meant, and which entries survive `store` and `load` here.
-/
namespace Avian.JProperties

/-! ### The format of Java -/

/-- A hexadecimal digit. -/
def hexDigit (d : Nat) : Nat := if d < 10 then 48 + d else 55 + d

/-- Four of them. -/
def hex4 (c : Nat) : List Nat := [hexDigit (c / 4096 % 16), hexDigit (c / 256 % 16), hexDigit (c / 16 % 16), hexDigit (c % 16)]

/-- One character, as `java.util.Properties.store` writes it; blanks are escaped in keys and at the beginning of values. -/
def javaChar (blank : Bool) (c : Nat) : List Nat :=
  if c = 92 then [92, 92]
  else if c = 32 then (if blank then [92, 32] else [32])
  else if c = 9 then [92, 116]
  else if c = 10 then [92, 110]
  else if c = 13 then [92, 114]
  else if c = 12 then [92, 102]
  else if c = 61 ∨ c = 58 ∨ c = 35 ∨ c = 33 then [92, c]
  else if c < 32 ∨ 126 < c then [92, 117] ++ hex4 c
  else [c]

/-- A text character by character; the flag is whether the character is the first. -/
def spell (f : Bool → Nat → List Nat) : Bool → List Nat → List Nat
  | _, [] => []
  | b, c :: s => f b c ++ spell f false s

/-- An entry. -/
def javaLine (e : List Nat × List Nat) : List Nat := spell (fun _ => javaChar true) true e.1 ++ [61] ++ spell javaChar true e.2 ++ [10]

/-- The first and the last character, if there are any, are no white space. -/
def Trimmed (s : List Nat) : Prop := (∀ c, s.head? = some c → Strings.isWhitespace c = false) ∧ (∀ c, s.getLast? = some c → Strings.isWhitespace c = false)

/-- `trim` takes away white space at both ends only. -/
theorem trim_eq {s : List Nat} (h : Trimmed s) : trim s = s := by
  unfold trim
  have h1 : s.dropWhile Strings.isWhitespace = s := by
    cases s with
    | nil => rfl
    | cons c s => rw [List.dropWhile_cons, h.1 c rfl]; rfl
  rw [h1]
  have h2 : s.reverse.dropWhile Strings.isWhitespace = s.reverse := by
    generalize hr : s.reverse = r
    cases r with
    | nil => rfl
    | cons c r =>
      have : s.getLast? = some c := by
        rw [← List.head?_reverse, hr]; rfl
      rw [List.dropWhile_cons, h.2 c this]; rfl
  rw [h2, List.reverse_reverse]

/-! ### Characters -/

/-- In this state, the parser takes `t` for the character `c`. -/
def Adds (p : Parser) (t : List Nat) (c : Nat) : Prop :=
  ∀ fuel rest, (t ++ rest).length < fuel → ∃ fuel', rest.length < fuel' ∧ parseLoop fuel p false (t ++ rest) = parseLoop fuel' (p.append c) false rest

theorem adds_run {f : Bool → Nat → List Nat} {S : List Nat → Parser} (hS : ∀ a c, (S a).append c = S (a ++ [c])) {G : Bool → Nat → Prop}
    (h : ∀ a c, G a.isEmpty c → Adds (S a) (f a.isEmpty c) c) : ∀ s a fuel rest, (∀ c, s.head? = some c → G a.isEmpty c) → (∀ c ∈ s.tail, G false c) →
    (spell f a.isEmpty s ++ rest).length < fuel →
    ∃ fuel', rest.length < fuel' ∧ parseLoop fuel (S a) false (spell f a.isEmpty s ++ rest) = parseLoop fuel' (S (a ++ s)) false rest
  | [], a, fuel, rest, _, _, hf => ⟨fuel, by simpa [spell] using hf, by simp [spell]⟩
  | c :: s, a, fuel, rest, h1, h2, hf => by
    rw [spell, List.append_assoc] at hf ⊢
    obtain ⟨f1, g1, g2⟩ := h a c (h1 c rfl) fuel _ hf
    have he : (a ++ [c]).isEmpty = false := by simp
    obtain ⟨f2, g3, g4⟩ := adds_run hS h s (a ++ [c]) f1 rest
      (fun x hx => by
        rw [he]
        cases s with
        | nil => cases hx
        | cons y s => cases hx; exact h2 _ (by simp))
      (fun x hx => h2 x (by
        cases s with
        | nil => cases hx
        | cons y s => exact List.mem_cons_of_mem _ hx))
      (by rw [he]; exact g1)
    rw [he] at g4
    exact ⟨f2, g3, by rw [g2, hS, g4, List.append_assoc]; rfl⟩

/-- A character without meaning. -/
theorem adds_raw {p : Parser} {c : Nat} (h1 : c ≠ 92) (h2 : c = 35 ∨ c = 33 → p.key ≠ none) (h3 : c = 32 ∨ c = 13 ∨ c = 9 ∨ c = 58 ∨ c = 61 → p.current = .value)
    (h4 : c ≠ 10) : Adds p [c] c := by
  intro fuel rest hf
  obtain ⟨fuel, rfl⟩ : ∃ n, fuel = n + 1 := ⟨fuel - 1, by omega⟩
  simp only [List.singleton_append, List.length_cons] at hf ⊢
  refine ⟨fuel, by omega, ?_⟩
  rw [parseLoop, if_neg h1]
  by_cases c1 : c = 35 ∨ c = 33
  · rw [if_pos c1, if_neg (h2 c1)]
  · rw [if_neg c1]
    by_cases c2 : c = 32 ∨ c = 13 ∨ c = 9
    · rw [if_pos c2, if_pos (.inr (h3 (by omega)))]
    · rw [if_neg c2]
      by_cases c3 : c = 58 ∨ c = 61
      · rw [if_pos c3, if_pos (.inr (h3 (by omega)))]
      · rw [if_neg c3, if_neg h4]
        by_cases c4 : c = 110
        · rw [if_pos c4]; rfl
        · rw [if_neg c4]
          by_cases c5 : c = 117
          · rw [if_pos c5]; rfl
          · rw [if_neg c5]

/-- An escaped one. -/
theorem adds_escaped {p : Parser} {c : Nat} (h2 : c = 35 ∨ c = 33 → p.key ≠ none) (h3 : c ≠ 110) (h4 : c ≠ 117) : Adds p [92, c] c := by
  intro fuel rest hf
  simp only [List.cons_append, List.nil_append, List.length_cons] at hf ⊢
  obtain ⟨fuel, rfl⟩ : ∃ n, fuel = n + 2 := ⟨fuel - 2, by omega⟩
  refine ⟨fuel, by omega, ?_⟩
  rw [parseLoop, if_pos rfl, if_neg (by decide), parseLoop]
  by_cases c0 : c = 92
  · rw [if_pos c0, if_pos rfl]
  · rw [if_neg c0]
    by_cases c1 : c = 35 ∨ c = 33
    · rw [if_pos c1, if_neg (h2 c1)]
    · rw [if_neg c1]
      by_cases c2 : c = 32 ∨ c = 13 ∨ c = 9
      · rw [if_pos c2, if_pos (.inl rfl)]
      · rw [if_neg c2]
        by_cases c3 : c = 58 ∨ c = 61
        · rw [if_pos c3, if_pos (.inl rfl)]
        · rw [if_neg c3]
          by_cases c4 : c = 10
          · rw [if_pos c4, if_pos rfl]
          · rw [if_neg c4, if_neg h3, if_neg h4]

/-- A new line. -/
theorem adds_n (p : Parser) : Adds p [92, 110] 10 := by
  intro fuel rest hf
  simp only [List.cons_append, List.nil_append, List.length_cons] at hf ⊢
  obtain ⟨fuel, rfl⟩ : ∃ n, fuel = n + 2 := ⟨fuel - 2, by omega⟩
  exact ⟨fuel, by omega, rfl⟩

theorem digit_hex : ∀ d, d < 16 → CodePoint.digit (hexDigit d) 16 = d := by decide

theorem readDigits_step {n c d : Nat} {input : List Nat} (hd : d < 16) (hc : c < 4096) :
    readDigits (n + 1) c (hexDigit d :: input) = readDigits n (c * 16 + d) input := by
  rw [readDigits]
  rw [digit_hex d hd, if_neg (by omega), Int.toNat_natCast, ← Nat.shiftLeft_add_eq_or_of_lt (show d < 2 ^ 4 by omega), Nat.shiftLeft_eq]
  congr 1
  omega

/-- What four digits are read as. -/
theorem readUtf16_ok {c : Nat} (hc : c < 65536) (rest : List Nat) : readUtf16 (hex4 c ++ rest) = .ok (c, rest) := by
  unfold readUtf16 hex4
  simp only [List.cons_append, List.nil_append]
  rw [readDigits_step (by omega) (by omega), readDigits_step (by omega) (by omega), readDigits_step (by omega) (by omega), readDigits_step (by omega) (by omega),
    readDigits]
  congr 2
  omega

theorem adds_u (p : Parser) {c : Nat} (hc : c < 65536) : Adds p ([92, 117] ++ hex4 c) c := by
  intro fuel rest hf
  simp only [List.cons_append, List.nil_append, List.length_cons, List.length_append] at hf ⊢
  obtain ⟨fuel, rfl⟩ : ∃ n, fuel = n + 2 := ⟨fuel - 2, by omega⟩
  refine ⟨fuel, by omega, ?_⟩
  rw [parseLoop, if_pos rfl, if_neg (by decide), parseLoop]
  rw [if_neg (by decide), if_neg (by decide), if_neg (by decide), if_neg (by decide), if_neg (by decide), if_neg (by decide), if_pos rfl, if_pos rfl, readUtf16_ok hc]
  rfl

/-- What Java writes for a character is loaded as this character, except for tabs, carriage returns and form feeds, and `#` and `!` in front of a key. -/
theorem adds_java {p : Parser} {blank : Bool} {c : Nat} (hc : c < 65536) (h1 : c ≠ 9 ∧ c ≠ 13 ∧ c ≠ 12) (h2 : c = 35 ∨ c = 33 → p.key ≠ none)
    (h3 : blank = false → p.current = .value) : Adds p (javaChar blank c) c := by
  unfold javaChar
  by_cases c1 : c = 92
  · rw [if_pos c1, c1]; exact adds_escaped (by omega) (by decide) (by decide)
  · rw [if_neg c1]
    by_cases c2 : c = 32
    · rw [if_pos c2, c2]
      cases blank with
      | true => exact adds_escaped (by omega) (by decide) (by decide)
      | false => exact adds_raw (by decide) (by omega) (fun _ => h3 rfl) (by decide)
    · rw [if_neg c2, if_neg h1.1]
      by_cases c3 : c = 10
      · rw [if_pos c3, c3]; exact adds_n p
      · rw [if_neg c3, if_neg h1.2.1, if_neg h1.2.2]
        by_cases c4 : c = 61 ∨ c = 58 ∨ c = 35 ∨ c = 33
        · rw [if_pos c4]; exact adds_escaped h2 (by omega) (by omega)
        · rw [if_neg c4]
          by_cases c5 : c < 32 ∨ 126 < c
          · rw [if_pos c5]; exact adds_u p hc
          · rw [if_neg c5]; exact adds_raw c1 h2 (by omega) c3

/-! ### Lines -/

/-- While a key is read. -/
def keyState (m : List (List Nat × List Nat)) (k : List Nat) : Parser :=
  if k = [] then ⟨none, none, .null, m⟩ else ⟨some k, none, .key, m⟩

/-- While a value is read. -/
def valueState (m : List (List Nat × List Nat)) (k v : List Nat) : Parser :=
  if v = [] then ⟨some k, none, .null, m⟩ else ⟨some k, some v, .value, m⟩

theorem key_append (m : List (List Nat × List Nat)) (k : List Nat) (c : Nat) : (keyState m k).append c = keyState m (k ++ [c]) := by
  unfold keyState
  cases k <;> simp [Parser.append]

theorem value_append (m : List (List Nat × List Nat)) (k v : List Nat) (c : Nat) : (valueState m k v).append c = valueState m k (v ++ [c]) := by
  unfold valueState
  cases v <;> simp [Parser.append]

/-- One line: a key, `=`, a value and the end, in whatever way their characters are spelled. -/
theorem line_ok {fk fv : Bool → Nat → List Nat} {Gk Gv : Bool → Nat → Prop} (m : List (List Nat × List Nat)) {k v : List Nat}
    (hk : ∀ a c, Gk a.isEmpty c → Adds (keyState m a) (fk a.isEmpty c) c) (hv : ∀ a c, Gv a.isEmpty c → Adds (valueState m k a) (fv a.isEmpty c) c)
    (h1 : ∀ c, k.head? = some c → Gk true c) (h2 : ∀ c ∈ k.tail, Gk false c) (h3 : ∀ c, v.head? = some c → Gv true c) (h4 : ∀ c ∈ v.tail, Gv false c)
    (fuel : Nat) (rest : List Nat) (hf : (spell fk true k ++ [61] ++ spell fv true v ++ [10] ++ rest).length < fuel) :
    ∃ fuel', rest.length < fuel' ∧ parseLoop fuel (keyState m []) false (spell fk true k ++ [61] ++ spell fv true v ++ [10] ++ rest) =
      parseLoop fuel' (keyState (m ++ [(k, trim v)]) []) false rest := by
  simp only [List.append_assoc] at hf ⊢
  obtain ⟨f1, g1, g2⟩ := adds_run (S := keyState m) (key_append m) hk k [] fuel ([61] ++ (spell fv true v ++ ([10] ++ rest))) h1 h2 hf
  simp only [List.isEmpty_nil, List.nil_append] at g2
  simp only [List.length_append, List.length_cons, List.length_nil] at g1
  obtain ⟨f1, rfl⟩ : ∃ n, f1 = n + 1 := ⟨f1 - 1, by omega⟩
  have g3 : parseLoop (f1 + 1) (keyState m k) false ([61] ++ (spell fv true v ++ ([10] ++ rest))) =
      parseLoop f1 (valueState m k []) false (spell fv true v ++ ([10] ++ rest)) := by
    rw [List.singleton_append, parseLoop, if_neg (by decide), if_neg (by decide), if_neg (by decide), if_pos (by decide), if_neg]
    · congr 1
      unfold keyState valueState
      by_cases hk0 : k = []
      · rw [if_pos hk0, hk0]; rfl
      · rw [if_neg hk0]; rfl
    · unfold keyState
      by_cases hk0 : k = []
      · rw [if_pos hk0]; simp
      · rw [if_neg hk0]; simp
  obtain ⟨f2, g4, g5⟩ := adds_run (S := valueState m k) (value_append m k) hv v [] f1 ([10] ++ rest) h3 h4
    (by simp only [List.isEmpty_nil, List.length_append, List.length_cons, List.length_nil]; omega)
  simp only [List.isEmpty_nil, List.nil_append] at g5
  simp only [List.length_append, List.length_cons, List.length_nil] at g4
  obtain ⟨f2, rfl⟩ : ∃ n, f2 = n + 1 := ⟨f2 - 1, by omega⟩
  refine ⟨f2, by omega, ?_⟩
  rw [g2, g3, g5, List.singleton_append, parseLoop, if_neg (by decide), if_neg (by decide), if_neg (by decide), if_neg (by decide), if_pos rfl, if_neg (by decide)]
  congr 1
  unfold valueState keyState Parser.finishLine
  by_cases hv0 : v = []
  · rw [if_pos hv0, hv0]; rfl
  · rw [if_neg hv0]; rfl

/-- Lines one after the other. -/
theorem lines_ok {line : List Nat × List Nat → List Nat} {G : List Nat × List Nat → Prop}
    (h : ∀ e m fuel rest, G e → (line e ++ rest).length < fuel →
      ∃ fuel', rest.length < fuel' ∧ parseLoop fuel (keyState m []) false (line e ++ rest) = parseLoop fuel' (keyState (m ++ [e]) []) false rest) :
    ∀ (es : List (List Nat × List Nat)) m fuel, (∀ e ∈ es, G e) → (es.flatMap line).length < fuel → parseLoop fuel (keyState m []) false (es.flatMap line) = .ok (m ++ es)
  | [], m, fuel, _, hf => by
    obtain ⟨fuel, rfl⟩ : ∃ n, fuel = n + 1 := ⟨fuel - 1, by omega⟩
    rw [List.flatMap_nil, parseLoop, List.append_nil]
    rfl
  | e :: es, m, fuel, hg, hf => by
    rw [List.flatMap_cons] at hf ⊢
    obtain ⟨f1, g1, g2⟩ := h e m fuel _ (hg e (by simp)) hf
    rw [g2, lines_ok h es (m ++ [e]) f1 (fun x hx => hg x (by simp [hx])) g1, List.append_assoc]
    rfl

/-! ### Files of Java -/

/-- What of Java's format is understood: characters other than tab, carriage return and form feed, no `#` or `!` in front of the key, and no white space at the
ends of the value. -/
def JavaOk (e : List Nat × List Nat) : Prop :=
  (∀ c ∈ e.1, c < 65536 ∧ c ≠ 9 ∧ c ≠ 13 ∧ c ≠ 12) ∧ (∀ c, e.1.head? = some c → c ≠ 35 ∧ c ≠ 33) ∧
  (∀ c ∈ e.2, c < 65536 ∧ c ≠ 9 ∧ c ≠ 13 ∧ c ≠ 12) ∧ Trimmed e.2

theorem head_mem {s : List Nat} {c : Nat} (h : s.head? = some c) : c ∈ s := by
  cases s with
  | nil => cases h
  | cons x s => cases h; simp

/-- The lines that Java writes are loaded as the entries they were written for. -/
theorem load_java_partial (es : List (List Nat × List Nat)) (h : ∀ e ∈ es, JavaOk e) : load (es.flatMap javaLine) = .ok es := by
  unfold load
  have := lines_ok (line := javaLine) (G := JavaOk) ?_ es [] _ h (Nat.lt_succ_self _)
  · simpa [keyState] using this
  rintro ⟨k, v⟩ m fuel rest ⟨h1, h2, h3, h4⟩ hf
  have := line_ok (fk := fun _ => javaChar true) (fv := javaChar)
    (Gk := fun b c => (c < 65536 ∧ c ≠ 9 ∧ c ≠ 13 ∧ c ≠ 12) ∧ (b = true → c ≠ 35 ∧ c ≠ 33))
    (Gv := fun _ c => c < 65536 ∧ c ≠ 9 ∧ c ≠ 13 ∧ c ≠ 12) m (k := k) (v := v) ?_ ?_
    (fun c hc => ⟨h1 c (head_mem hc), fun _ => h2 c hc⟩) (fun c hc => ⟨h1 c (List.mem_of_mem_tail hc), nofun⟩)
    (fun c hc => h3 c (head_mem hc)) (fun c hc => h3 c (List.mem_of_mem_tail hc)) fuel rest hf
  · rw [trim_eq h4] at this
    exact this
  · rintro a c ⟨hc, hh⟩
    refine adds_java hc.1 hc.2 (fun hcc => ?_) nofun
    unfold keyState
    by_cases ha : a = []
    · exfalso
      have := hh (by rw [ha]; rfl)
      omega
    · rw [if_neg ha]; simp
  · intro a c hc
    refine adds_java hc.1 hc.2 (fun _ => ?_) (fun hb => ?_)
    · unfold valueState
      by_cases ha : a = []
      · rw [if_pos ha]; simp
      · rw [if_neg ha]; simp
    · unfold valueState
      rw [if_neg]
      rintro rfl
      cases hb

/-! ### Files of this library -/

/-- What can be stored: ASCII characters other than backslash and new line, no white space, `:` or `=` in keys, no `#` or `!` in front of them, values that do not begin
with white space, `:` or `=` and do not end with white space. -/
def StoreOk (e : List Nat × List Nat) : Prop :=
  (∀ c ∈ e.1, 0 < c ∧ c < 128 ∧ c ≠ 92 ∧ c ≠ 10 ∧ c ≠ 32 ∧ c ≠ 13 ∧ c ≠ 9 ∧ c ≠ 58 ∧ c ≠ 61) ∧ (∀ c, e.1.head? = some c → c ≠ 35 ∧ c ≠ 33) ∧
  (∀ c ∈ e.2, 0 < c ∧ c < 128 ∧ c ≠ 92 ∧ c ≠ 10) ∧ (∀ c, e.2.head? = some c → c ≠ 58 ∧ c ≠ 61) ∧ Trimmed e.2

theorem encode_ascii : ∀ (s : List Nat), (∀ c ∈ s, 0 < c ∧ c < 128) → JUtf8.encode s = s
  | [], _ => rfl
  | c :: s, h => by
    have hc := h c (by simp)
    have ih := encode_ascii s (fun x hx => h x (by simp [hx]))
    unfold JUtf8.encode at ih ⊢
    rw [List.flatMap_cons, ih]
    unfold JUtf8.encodeChar
    rw [if_neg (by omega), if_pos (by omega), Nat.mod_eq_of_lt (by omega)]
    rfl

theorem spell_raw : ∀ (s : List Nat) b, spell (fun _ c => [c]) b s = s
  | [], _ => rfl
  | c :: s, b => by rw [spell, spell_raw s]; rfl

theorem skipComment_ok : ∀ (s rest : List Nat), (∀ c ∈ s, c ≠ 10) → skipComment (s ++ 10 :: rest) = rest
  | [], rest, _ => rfl
  | c :: s, rest, h => by
    rw [List.cons_append, skipComment, if_neg (h c (by simp)), skipComment_ok s rest (fun x hx => h x (by simp [hx]))]

/-- What is stored is loaded, for these entries and for comments of one line. -/
theorem store_load_partial (comment : List Nat) (es : List (List Nat × List Nat)) (hc : ∀ c ∈ comment, 0 < c ∧ c < 128 ∧ c ≠ 10) (h : ∀ e ∈ es, StoreOk e) :
    load (store comment es) = .ok es := by
  have hlines : ∀ fuel, (es.flatMap storeEntry).length < fuel → parseLoop fuel (keyState [] []) false (es.flatMap storeEntry) = .ok ([] ++ es) := by
    intro fuel hf
    refine lines_ok (line := storeEntry) (G := StoreOk) ?_ es [] fuel h hf
    rintro ⟨k, v⟩ m fuel rest ⟨h1, h2, h3, h4, h5⟩ hf
    have := line_ok (fk := fun _ c => [c]) (fv := fun _ c => [c])
      (Gk := fun b c => (0 < c ∧ c < 128 ∧ c ≠ 92 ∧ c ≠ 10 ∧ c ≠ 32 ∧ c ≠ 13 ∧ c ≠ 9 ∧ c ≠ 58 ∧ c ≠ 61) ∧ (b = true → c ≠ 35 ∧ c ≠ 33))
      (Gv := fun b c => (0 < c ∧ c < 128 ∧ c ≠ 92 ∧ c ≠ 10) ∧ (b = true → c ≠ 58 ∧ c ≠ 61 ∧ Strings.isWhitespace c = false)) m (k := k) (v := v) ?_ ?_
      (fun c hc => ⟨h1 c (head_mem hc), fun _ => h2 c hc⟩) (fun c hc => ⟨h1 c (List.mem_of_mem_tail hc), nofun⟩)
      (fun c hc => ⟨h3 c (head_mem hc), fun _ => ⟨(h4 c hc).1, (h4 c hc).2, h5.1 c hc⟩⟩) (fun c hc => ⟨h3 c (List.mem_of_mem_tail hc), nofun⟩) fuel rest
    · rw [trim_eq h5, spell_raw, spell_raw] at this
      unfold storeEntry at hf ⊢
      rw [encode_ascii k (fun c hc => by have := h1 c hc; omega), encode_ascii v (fun c hc => by have := h3 c hc; omega)] at hf ⊢
      exact this hf
    · rintro a c ⟨hc, hh⟩
      refine adds_raw hc.2.2.1 (fun hcc => ?_) (by omega) hc.2.2.2.1
      unfold keyState
      by_cases ha : a = []
      · exfalso
        have := hh (by rw [ha]; rfl)
        omega
      · rw [if_neg ha]; simp
    · rintro a c ⟨hc, hh⟩
      refine adds_raw hc.2.2.1 (fun _ => ?_) (fun hw => ?_) hc.2.2.2
      · unfold valueState
        by_cases ha : a = []
        · rw [if_pos ha]; simp
        · rw [if_neg ha]; simp
      · unfold valueState
        by_cases ha : a = []
        · exfalso
          obtain ⟨e1, e2, e3⟩ := hh (by rw [ha]; rfl)
          rcases hw with rfl | rfl | rfl | rfl | rfl <;> first | exact absurd e3 (by decide) | omega
        · rw [if_neg ha]
  unfold load store
  rw [encode_ascii comment (fun c h => by have := hc c h; omega)]
  simp only [List.cons_append, List.nil_append, List.append_assoc, List.length_cons]
  rw [parseLoop, if_neg (by decide), if_pos (by decide), if_pos rfl]
  have : skipComment (32 :: (comment ++ 10 :: es.flatMap storeEntry)) = es.flatMap storeEntry :=
    skipComment_ok (32 :: comment) _ (fun c hm => by
      rcases List.mem_cons.1 hm with rfl | hm
      · decide
      · exact (hc c hm).2.2)
  rw [this]
  exact hlines _ (by simp only [List.length_append, List.length_cons]; omega)

/-! ### Cases -/

/-- `a b = c`, `:` and `é` as a key, and values with `#`, blanks inside and several lines. -/
example : JavaOk ([97, 32, 98, 32, 61, 32, 99], [35, 32, 120, 10, 121]) ∧ JavaOk ([58], []) ∧ JavaOk ([233], [8364, 92]) := by
  simp [JavaOk, Trimmed, Strings.isWhitespace]

example : load ([([97, 32, 61], [35, 32, 120, 10, 121]), ([233], [8364, 92])].flatMap javaLine) = .ok [([97, 32, 61], [35, 32, 120, 10, 121]), ([233], [8364, 92])] := by
  decide +kernel

example : StoreOk ([97, 35], [98, 32, 61, 99]) := by
  simp [StoreOk, Trimmed, Strings.isWhitespace]

example : load (store [120] [([97, 35], [98, 32, 61, 99]), ([], []), ([110], [117])]) = .ok [([97, 35], [98, 32, 61, 99]), ([], []), ([110], [117])] := by
  decide +kernel

/-! ### What is wrong -/

/-- A value beginning with `=` loses it: for `a==b`, Java loads the value `=b`. -/
theorem equals_wrong : load [97, 61, 61, 98, 10] = .ok [([97], [98])] ∧ load (store [] [([97], [61, 98])]) = .ok [([97], [98])] := by decide +kernel

/-- `store` does not escape: a key with a blank, a value with a new line and a backslash. -/
theorem store_escape_wrong : load (store [] [([97, 32, 98], [99])]) = .ok [([97], [98, 61, 99])] ∧
    load (store [] [([97], [98, 10, 99])]) = .ok [([97], [98]), ([99], [])] ∧ load (store [] [([97], [98, 92, 99])]) = .ok [([97], [98, 99])] := by decide +kernel

/-- Nor does it put a sign before the other lines of a comment. -/
theorem comment_wrong : load (store [120, 10, 121] []) = .ok [([121], [])] := by decide +kernel

/-- Escaped tabs, carriage returns and form feeds are loaded as the letters. -/
theorem escape_letter_wrong : load (javaLine ([97], [98, 9, 99])) = .ok [([97], [98, 116, 99])] ∧ load (javaLine ([97], [98, 13, 99])) = .ok [([97], [98, 114, 99])] ∧
    load (javaLine ([97], [98, 12, 99])) = .ok [([97], [98, 102, 99])] := by decide +kernel

/-- A line that begins with an escaped `#` is taken for a comment. -/
theorem escaped_comment_wrong : load (javaLine ([35, 97], [98])) = .ok [] := by decide +kernel

/-- White space at the ends of values is lost, also if it is escaped. -/
theorem value_trimmed_wrong : load (javaLine ([97], [32, 98, 32])) = .ok [([97], [98])] := by decide +kernel

/-- A line that goes on after a backslash: the new line and the blanks after it stay in the value, while Java loads `bc`. -/
theorem continuation_wrong : load [97, 61, 98, 92, 10, 32, 99, 10] = .ok [([97], [98, 10, 32, 99])] := by decide +kernel

/-- Only a new line ends a line: with carriage returns only, as Java allows, all lines are one. -/
theorem carriage_return_wrong : load [97, 61, 98, 13, 99, 61, 100, 13] = .ok [([97], [98, 13, 99, 61, 100])] := by decide +kernel

/-- No character from 128 on survives `store` and `load`. -/
theorem store_load_not_ascii (c : Nat) (h1 : 128 ≤ c) (h2 : c < 65536) : ∃ v, load (store [] [([97], [c])]) = .ok [([97], v)] ∧ v ≠ [c] := by
  have key : ∀ v : List Nat, (∀ x ∈ v, 128 ≤ x) → load ([35, 32, 10, 97, 61] ++ v ++ [10]) = .ok [([97], v)] := by
    intro v hv
    have hraw := line_ok (fk := fun _ c => [c]) (fv := fun _ c => [c]) (Gk := fun _ c => c = 97) (Gv := fun _ c => 128 ≤ c) [] (k := [97]) (v := v)
      (fun a c hc => adds_raw (by omega) (by omega) (by omega) (by omega))
      (fun a c hc => adds_raw (by omega) (by omega) (by omega) (by omega))
      (fun c hc => by cases hc; rfl) (fun c hc => by cases hc) (fun c hc => hv c (head_mem hc)) (fun c hc => hv c (List.mem_of_mem_tail hc))
      (v.length + 6) [] (by rw [spell_raw, spell_raw]; simp)
    have ht : Trimmed v := by
      refine ⟨fun c hc => ?_, fun c hc => ?_⟩
      · have := hv c (head_mem hc)
        simp [Strings.isWhitespace]; omega
      · have := hv c (List.mem_of_getLast? hc)
        simp [Strings.isWhitespace]; omega
    obtain ⟨f, g1, g2⟩ := hraw
    rw [spell_raw, spell_raw, trim_eq ht] at g2
    obtain ⟨f, rfl⟩ : ∃ n, f = n + 1 := ⟨f - 1, by simp at g1; omega⟩
    unfold load
    simp only [List.cons_append, List.nil_append, List.append_nil, List.length_cons, List.length_append, List.length_nil] at g2 ⊢
    rw [parseLoop, if_neg (by decide), if_pos (by decide), if_pos rfl]
    have hs : skipComment (32 :: 10 :: 97 :: 61 :: (v ++ [10])) = 97 :: 61 :: (v ++ [10]) := by
      rw [skipComment, if_neg (by decide), skipComment, if_pos rfl]
    rw [hs]
    have : (⟨none, none, .null, []⟩ : Parser) = keyState [] [] := rfl
    rw [this, show v.length + (0 + 1) + 1 + 1 + 1 + 1 + 1 = v.length + 6 by omega, g2, parseLoop]
    rfl
  have hstore : store [] [([97], [c])] = [35, 32, 10, 97, 61] ++ JUtf8.encodeChar c ++ [10] := by
    simp [store, storeEntry, JUtf8.encode, JUtf8.encodeChar]
  have hbytes : (∀ x ∈ JUtf8.encodeChar c, 128 ≤ x) ∧ JUtf8.encodeChar c ≠ [c] := by
    have hor : ∀ a b : Nat, 128 ≤ a → a < 256 → b < 256 → 128 ≤ (a ||| b) % 256 := by
      intro a b h1 h2 h3
      have h4 : a ||| b < 2 ^ 8 := Nat.or_lt_two_pow (by omega) (by omega)
      have h5 : a ≤ a ||| b := Nat.left_le_or
      omega
    unfold JUtf8.encodeChar
    rw [if_neg (by omega), if_neg (by omega)]
    by_cases h3 : c < 0x800
    · rw [if_pos h3]
      refine ⟨?_, by simp⟩
      intro x hx
      have : c >>> 6 < 256 := by rw [Nat.shiftRight_eq_div_pow]; omega
      have : c &&& 0x3F < 256 := Nat.lt_of_le_of_lt Nat.and_le_right (by decide)
      simp only [List.mem_cons, List.not_mem_nil, or_false] at hx
      rcases hx with rfl | rfl <;> exact hor _ _ (by decide) (by decide) (by assumption)
    · rw [if_neg h3]
      refine ⟨?_, by simp⟩
      intro x hx
      have : (c >>> 12) &&& 0x0F < 256 := Nat.lt_of_le_of_lt Nat.and_le_right (by decide)
      have : (c >>> 6) &&& 0x3F < 256 := Nat.lt_of_le_of_lt Nat.and_le_right (by decide)
      have : c &&& 0x3F < 256 := Nat.lt_of_le_of_lt Nat.and_le_right (by decide)
      simp only [List.mem_cons, List.not_mem_nil, or_false] at hx
      rcases hx with rfl | rfl | rfl <;> exact hor _ _ (by decide) (by decide) (by assumption)
  exact ⟨JUtf8.encodeChar c, by rw [hstore, key _ hbytes.1], hbytes.2⟩

end Avian.JProperties
