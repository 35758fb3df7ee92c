import Verif.Lib.RegexCompiler
import Verif.Props.PikeVM

/-
C97: what `java.util.regex` matches.

The meaning of an expression is given by `Lang`, without machines: from where to where in the characters it can match.  It is shown that the
machine of the compiler finds a match exactly if there is one.
-/
namespace Avian.PikeVM

/-! ### The meaning of expressions -/

/-- What may differ between dialects: what `.` matches, and where `\b`, `\B` and `$` match. -/
structure Sem where
  dot : Nat → Prop
  boundary : List Nat → Nat → Bool → Prop
  lineEnd : List Nat → Nat → Prop

/-- `n` times one after the other. -/
def Times (P : Nat → Nat → Prop) : Nat → Nat → Nat → Prop
  | 0, i, j => i = j
  | n + 1, i, j => ∃ k, P i k ∧ Times P n k j

/-- The expression matches the characters from `i` to `j`. -/
def Lang (S : Sem) (s : List Nat) : Re → Nat → Nat → Prop
  | .nil, i, j => j = i
  | .chr c, i, j => s[i]? = some c ∧ j = i + 1
  | .dot, i, j => (∃ c, s[i]? = some c ∧ S.dot c) ∧ j = i + 1
  | .cls m, i, j => (∃ c, s[i]? = some c ∧ m c = true) ∧ j = i + 1
  | .boundary w, i, j => S.boundary s i w ∧ j = i
  | .lineStart, i, j => i = 0 ∧ j = i
  | .lineEnd, i, j => S.lineEnd s i ∧ j = i
  | .seq a b, i, j => ∃ k, Lang S s a i k ∧ Lang S s b k j
  | .alt a b, i, j => Lang S s a i j ∨ Lang S s b i j
  | .rep e min max _, i, j => ∃ n, min ≤ n ∧ (∀ m, max = some m → n ≤ m) ∧ Times (fun i j => Lang S s e i j) n i j
  | .cap e, i, j => Lang S s e i j
  | .look negative e, i, j => (negative = false ↔ ∃ k, Lang S s e i k) ∧ j = i

/-- A word character is there. -/
def wordAt (s : List Nat) (i : Nat) : Bool := (s[i]?.map wordCharacter).getD false

/-- A word character is just before. -/
def wordBefore (s : List Nat) (i : Nat) : Bool := if i = 0 then false else wordAt s (i - 1)

/-- The characters that end a line (`java.util.regex.Pattern`). -/
def terminator (c : Nat) : Bool := c == 10 || c == 13 || c == 0x85 || c == 0x2028 || c == 0x2029

/-- What the specification of `java.util.regex.Pattern` says, without flags. -/
def java : Sem where
  dot c := terminator c = false
  boundary s i w := (wordBefore s i != wordAt s i) = w
  lineEnd s i := i = s.length ∨ (i + 1 = s.length ∧ (∃ c, s[i]? = some c ∧ terminator c = true) ∧ ¬ (s[i]? = some 10 ∧ 0 < i ∧ s[i - 1]? = some 13)) ∨
    (i + 2 = s.length ∧ s[i]? = some 13 ∧ s[i + 1]? = some 10)

/-- What the code does instead. -/
def code : Sem where
  dot c := c ≠ 0 ∧ c ≠ 13 ∧ c ≠ 10
  boundary s i w := i < s.length ∧ (wordBefore s i != wordAt s i) = w
  lineEnd s i := i = s.length

/-- What the constructors of the source let through: characters, and repetitions that can be met (Compiler.java:120-131). -/
def Re.ok : Re → Prop
  | .chr c => c ≤ 0xffff
  | .seq a b => a.ok ∧ b.ok
  | .alt a b => a.ok ∧ b.ok
  | .rep e min max _ => e.ok ∧ ∀ m, max = some m → min ≤ m ∧ 0 < m
  | .cap e => e.ok
  | .look _ e => e.ok
  | _ => True

/-- How deep lookarounds are. -/
def Re.depth : Re → Nat
  | .seq a b => max a.depth b.depth
  | .alt a b => max a.depth b.depth
  | .rep e _ _ _ => e.depth
  | .cap e => e.depth
  | .look _ e => e.depth + 1
  | _ => 0

/-! ### Where the code of an expression is -/

/-- A way on to `k`, and one to the next instruction. -/
def Fork (vm : VM) (o k : Nat) : Prop :=
  (vm.program[o]? = some SPLIT ∨ vm.program[o]? = some SPLIT_JMP) ∧ vm.program[o + 1]? = some (k : Int)

/-- Pieces of code one after the other. -/
def Pieces (C : Nat → Nat → Prop) : Nat → Nat → Nat → Prop
  | 0, o, o' => o' = o
  | n + 1, o, o' => ∃ p, C o p ∧ Pieces C n p o'

/-- Pieces of code that can be left out from some place on. -/
def Skips (vm : VM) (C : Nat → Nat → Prop) (stop : Nat) : Nat → Nat → Prop
  | 0, o => stop = o
  | n + 1, o => Fork vm o stop ∧ ∃ p, C (o + 2) p ∧ Skips vm C stop n p

/-- The rest of a repetition. -/
def Tail (vm : VM) (C : Nat → Nat → Prop) (min : Nat) (max : Option Nat) (o o' : Nat) : Prop :=
  match max with
  | none =>
    if 0 < min then ∃ q, C o q ∧ Fork vm q o ∧ o' = q + 2
    else Fork vm o o' ∧ ∃ q, C (o + 2) q ∧ Fork vm q (o + 2) ∧ o' = q + 2
  | some m => ∃ q, (if 0 < min then C o q else q = o) ∧ Skips vm C o' (m - min) q

/-- The program has the code of the expression from `o` to `o'`. -/
def Code : Re → VM → Nat → Nat → Prop
  | .nil, _, o, o' => o' = o
  | .chr c, vm, o, o' => vm.program[o]? = some (c : Int) ∧ o' = o + 1
  | .dot, vm, o, o' => vm.program[o]? = some DOT ∧ o' = o + 1
  | .cls m, vm, o, o' => vm.program[o]? = some CHARACTER_CLASS ∧ (∃ k : Nat, vm.program[o + 1]? = some (k : Int) ∧ vm.classes[k]? = some m) ∧ o' = o + 2
  | .boundary w, vm, o, o' => vm.program[o]? = some (if w then WORD_BOUNDARY else NON_WORD_BOUNDARY) ∧ o' = o + 1
  | .lineStart, vm, o, o' => vm.program[o]? = some LINE_START ∧ o' = o + 1
  | .lineEnd, vm, o, o' => vm.program[o]? = some LINE_END ∧ o' = o + 1
  | .seq a b, vm, o, o' => ∃ p, Code a vm o p ∧ Code b vm p o'
  | .alt a b, vm, o, o' => ∃ p, Fork vm o (p + 2) ∧ Code a vm (o + 2) p ∧ vm.program[p]? = some JMP ∧ vm.program[p + 1]? = some (o' : Int) ∧
      Code b vm (p + 2) o'
  | .rep e min max _, vm, o, o' => ∃ p, Pieces (fun o o' => Code e vm o o') (min - 1) o p ∧ Tail vm (fun o o' => Code e vm o o') min max p o'
  | .cap e, vm, o, o' => ∃ p, vm.program[o]? = some SAVE_OFFSET ∧ (∃ k : Nat, vm.program[o + 1]? = some (k : Int)) ∧ Code e vm (o + 2) p ∧
      vm.program[p]? = some SAVE_OFFSET ∧ (∃ k : Nat, vm.program[p + 1]? = some (k : Int)) ∧ o' = p + 2
  | .look negative e, vm, o, o' => vm.program[o]? = some (if negative then NEGATIVE_LOOKAHEAD else LOOKAHEAD) ∧
      (∃ (k : Nat) (v : VM), vm.program[o + 1]? = some (k : Int) ∧ vm.lookarounds[k]? = some v ∧ v.findPrefixLength = 0 ∧ Code e v 0 v.program.length) ∧
      o' = o + 2

/-! ### The compiler writes this code -/

/-- A piece of the program. -/
def Has (p : List Int) (o : Nat) (l : List Int) : Prop := ∀ k x, l[k]? = some x → p[o + k]? = some x

theorem Has.append {p : List Int} {o : Nat} {a b : List Int} (h : Has p o (a ++ b)) : Has p o a ∧ Has p (o + a.length) b := by
  refine ⟨fun k x hx => h k x ?_, fun k x hx => ?_⟩
  · rw [List.getElem?_append_left (List.getElem?_eq_some_iff.1 hx).1]; exact hx
  · have := h (a.length + k) x (by rw [List.getElem?_append_right (by omega)]; simpa using hx)
    rw [← this]; congr 1; omega

theorem Has.cons {p : List Int} {o : Nat} {x : Int} {l : List Int} (h : Has p o (x :: l)) : p[o]? = some x ∧ Has p (o + 1) l := by
  have h1 := Has.append (a := [x]) (b := l) h
  exact ⟨h1.1 0 x rfl, h1.2⟩

/-- The tables have what was collected so far. -/
def Fits (vm : VM) (t : Tables) : Prop := t.classes <+: vm.classes ∧ t.lookarounds <+: vm.lookarounds

/-- Nothing is taken away from the tables. -/
def Mono (f : Nat → Tables → List Int × Tables) : Prop :=
  ∀ o t, t.classes <+: (f o t).2.classes ∧ t.lookarounds <+: (f o t).2.lookarounds

theorem Mono.fits {f : Nat → Tables → List Int × Tables} (h : Mono f) {vm : VM} {o : Nat} {t : Tables} (hf : Fits vm (f o t).2) : Fits vm t :=
  ⟨(h o t).1.trans hf.1, (h o t).2.trans hf.2⟩

theorem Mono.copies {f : Nat → Tables → List Int × Tables} (h : Mono f) : ∀ n, Mono (copies f n)
  | 0, o, t => ⟨List.prefix_refl _, List.prefix_refl _⟩
  | n + 1, o, t => ⟨(h o t).1.trans (Mono.copies h n _ _).1, (h o t).2.trans (Mono.copies h n _ _).2⟩

theorem Mono.options {f : Nat → Tables → List Int × Tables} (h : Mono f) {sp : Int} {stop : Nat} : ∀ n, Mono (options f sp stop n)
  | 0, o, t => ⟨List.prefix_refl _, List.prefix_refl _⟩
  | n + 1, o, t => ⟨(h (o + 2) t).1.trans (Mono.options h n _ _).1, (h (o + 2) t).2.trans (Mono.options h n _ _).2⟩

theorem Mono.repeatTail {f : Nat → Tables → List Int × Tables} (h : Mono f) {min : Nat} {max : Option Nat} {g : Bool} : Mono (repeatTail f min max g) := by
  intro o t
  unfold PikeVM.repeatTail
  cases max with
  | none =>
    simp only
    by_cases hm : 0 < min
    · rw [if_pos hm]; exact h o t
    · rw [if_neg hm]; exact h (o + 2) t
  | some m =>
    simp only
    by_cases hm : 0 < min
    · simp only [if_pos hm]
      exact ⟨(h o t).1.trans (Mono.options h _ _ _).1, (h o t).2.trans (Mono.options h _ _ _).2⟩
    · simp only [if_neg hm]
      exact Mono.options h _ _ _

theorem write_mono : ∀ e : Re, Mono (write e)
  | .nil, _, _ | .chr _, _, _ | .dot, _, _ | .boundary _, _, _ | .lineStart, _, _ | .lineEnd, _, _ => ⟨List.prefix_refl _, List.prefix_refl _⟩
  | .cls m, _, t => ⟨List.prefix_append _ _, List.prefix_refl _⟩
  | .seq a b, o, t => ⟨(write_mono a o t).1.trans (write_mono b _ _).1, (write_mono a o t).2.trans (write_mono b _ _).2⟩
  | .alt a b, o, t => ⟨(write_mono a _ t).1.trans (write_mono b _ _).1, (write_mono a _ t).2.trans (write_mono b _ _).2⟩
  | .rep e min max g, o, t =>
    ⟨((write_mono e).copies _ o t).1.trans ((write_mono e).repeatTail _ _).1, ((write_mono e).copies _ o t).2.trans ((write_mono e).repeatTail _ _).2⟩
  | .cap e, o, t => write_mono e (o + 2) { t with groups := t.groups + 1 }
  | .look n e, o, t => ⟨List.prefix_refl _, List.prefix_append _ _⟩

/-- What `f` writes is code of the kind `C`. -/
def Writes (vm : VM) (f : Nat → Tables → List Int × Tables) (C : Nat → Nat → Prop) : Prop :=
  ∀ o t, Has vm.program o (f o t).1 → Fits vm (f o t).2 → C o (o + (f o t).1.length)

theorem copies_code {vm : VM} {f : Nat → Tables → List Int × Tables} {C : Nat → Nat → Prop} (hm : Mono f) (h : Writes vm f C) :
    ∀ n, Writes vm (copies f n) (Pieces C n)
  | 0, o, t, _, _ => rfl
  | n + 1, o, t, h1, h2 => by
    have h1' : Has vm.program o ((f o t).1 ++ (copies f n (o + (f o t).1.length) (f o t).2).1) := h1
    have h2' : Fits vm (copies f n (o + (f o t).1.length) (f o t).2).2 := h2
    refine ⟨o + (f o t).1.length, h o t h1'.append.1 ((hm.copies n).fits h2'), ?_⟩
    have := copies_code hm h n _ _ h1'.append.2 h2'
    show Pieces C n _ (o + ((f o t).1 ++ (copies f n (o + (f o t).1.length) (f o t).2).1).length)
    rw [List.length_append, ← Nat.add_assoc]
    exact this

theorem options_stop {f : Nat → Tables → List Int × Tables} {sp : Int} {a b : Nat} :
    ∀ n o t, (options f sp a n o t).1.length = (options f sp b n o t).1.length
  | 0, _, _ => rfl
  | n + 1, o, t => by
    have := options_stop (f := f) (sp := sp) (a := a) (b := b) n (o + 2 + (f (o + 2) t).1.length) (f (o + 2) t).2
    simp only [options, List.length_append, List.length_cons, this]

theorem options_code {vm : VM} {f : Nat → Tables → List Int × Tables} {C : Nat → Nat → Prop} (hm : Mono f) (h : Writes vm f C) {sp : Int}
    (hsp : sp = SPLIT ∨ sp = SPLIT_JMP) {stop : Nat} : ∀ n o t, Has vm.program o (options f sp stop n o t).1 → Fits vm (options f sp stop n o t).2 →
      stop = o + (options f sp stop n o t).1.length → Skips vm C stop n o
  | 0, o, t, _, _, e => e
  | n + 1, o, t, h1, h2, e => by
    have h1' : Has vm.program o (sp :: (stop : Int) :: ((f (o + 2) t).1 ++ (options f sp stop n (o + 2 + (f (o + 2) t).1.length) (f (o + 2) t).2).1)) := h1
    have h2' : Fits vm (options f sp stop n (o + 2 + (f (o + 2) t).1.length) (f (o + 2) t).2).2 := h2
    obtain ⟨a1, h3⟩ := h1'.cons
    obtain ⟨a2, h4⟩ := h3.cons
    have h5 := h4.append
    refine ⟨⟨?_, a2⟩, o + 2 + (f (o + 2) t).1.length, h (o + 2) t h5.1 ((hm.options n).fits h2'), ?_⟩
    · rcases hsp with rfl | rfl
      · exact Or.inl a1
      · exact Or.inr a1
    · refine options_code hm h hsp n _ _ h5.2 h2' ?_
      have e' : stop = o + (sp :: (stop : Int) :: ((f (o + 2) t).1 ++ (options f sp stop n (o + 2 + (f (o + 2) t).1.length) (f (o + 2) t).2).1)).length := e
      rw [List.length_cons, List.length_cons, List.length_append] at e'
      omega

theorem tail_code {vm : VM} {f : Nat → Tables → List Int × Tables} {C : Nat → Nat → Prop} (hm : Mono f) (h : Writes vm f C) {min : Nat}
    {max : Option Nat} {g : Bool} : Writes vm (repeatTail f min max g) (Tail vm C min max) := by
  intro o t h1 h2
  have hs : (if g = true then SPLIT else SPLIT_JMP) = SPLIT ∨ (if g = true then SPLIT else SPLIT_JMP) = SPLIT_JMP := by cases g <;> simp
  have hj : (if g = true then SPLIT_JMP else SPLIT) = SPLIT ∨ (if g = true then SPLIT_JMP else SPLIT) = SPLIT_JMP := by cases g <;> simp
  have fork : ∀ {q k : Nat} {x : Int}, (x = SPLIT ∨ x = SPLIT_JMP) → vm.program[q]? = some x → vm.program[q + 1]? = some (k : Int) → Fork vm q k := by
    intro q k x hx h1 h2
    refine ⟨?_, h2⟩
    rcases hx with rfl | rfl
    · exact Or.inl h1
    · exact Or.inr h1
  unfold repeatTail at h1 h2 ⊢
  unfold Tail
  cases max with
  | none =>
    simp only at h1 h2 ⊢
    by_cases hmin : 0 < min
    · rw [if_pos hmin] at h1 h2 ⊢
      rw [if_pos hmin]
      have h3 := h1.append
      obtain ⟨b1, h4⟩ := h3.2.cons
      obtain ⟨b2, -⟩ := h4.cons
      refine ⟨_, h o t h3.1 h2, fork hj b1 b2, ?_⟩
      rw [List.length_append, List.length_cons, List.length_cons, List.length_nil]; omega
    · rw [if_neg hmin] at h1 h2 ⊢
      rw [if_neg hmin]
      simp only [List.cons_append] at h1 ⊢
      obtain ⟨a1, h3⟩ := h1.cons
      obtain ⟨a2, h4⟩ := h3.cons
      have h5 := h4.append
      obtain ⟨b1, h6⟩ := h5.2.cons
      obtain ⟨b2, -⟩ := h6.cons
      have hl : o + ((if g = true then SPLIT else SPLIT_JMP) :: ((o + 2 + (f (o + 2) t).1.length + 2 : Nat) : Int) :: ((f (o + 2) t).1 ++
          [if g = true then SPLIT_JMP else SPLIT, ((o + 2 : Nat) : Int)])).length = o + 2 + (f (o + 2) t).1.length + 2 := by
        rw [List.length_cons, List.length_cons, List.length_append, List.length_cons, List.length_cons, List.length_nil]; omega
      rw [hl]
      exact ⟨fork hs a1 a2, _, h (o + 2) t h5.1 h2, fork hj b1 b2, rfl⟩
  | some m =>
    simp only at h1 h2 ⊢
    have h3 := h1.append
    refine ⟨o + (if 0 < min then f o t else ([], t)).1.length, ?_, ?_⟩
    · by_cases hmin : 0 < min
      · rw [if_pos hmin]
        simp only [if_pos hmin] at h2 h3 ⊢
        exact h o t h3.1 ((hm.options _).fits h2)
      · rw [if_neg hmin]
        simp only [if_neg hmin]
        rfl
    · have := options_code hm h hs _ _ _ h3.2 h2 (congrArg (_ + ·) (options_stop _ _ _))
      rw [List.length_append, ← Nat.add_assoc]
      rw [options_stop (b := 0)]
      exact this

theorem fits_look {v : VM} {x : List Int × Tables} (h : v = .mk x.1 0 x.2.groups x.2.classes x.2.lookarounds) :
    Has v.program 0 x.1 ∧ Fits v x.2 ∧ v.findPrefixLength = 0 ∧ v.program.length = 0 + x.1.length := by
  subst h
  refine ⟨fun k y hk => ?_, ⟨List.prefix_refl _, List.prefix_refl _⟩, rfl, ?_⟩
  · rw [Nat.zero_add]; exact hk
  · rw [Nat.zero_add]; rfl

theorem prefix_get {α : Type} {a b : List α} {x : α} (h : a ++ [x] <+: b) : b[a.length]? = some x := by
  obtain ⟨c, rfl⟩ := h
  simp

theorem write_code : ∀ (e : Re) (vm : VM), Writes vm (write e) (fun o o' => Code e vm o o')
  | .nil, vm, o, t, h1, h2 => rfl
  | .chr c, vm, o, t, h1, h2 => ⟨h1.cons.1, rfl⟩
  | .dot, vm, o, t, h1, h2 => ⟨h1.cons.1, rfl⟩
  | .cls m, vm, o, t, h1, h2 => ⟨h1.cons.1, ⟨_, h1.cons.2.cons.1, prefix_get h2.1⟩, rfl⟩
  | .boundary w, vm, o, t, h1, h2 => ⟨h1.cons.1, rfl⟩
  | .lineStart, vm, o, t, h1, h2 => ⟨h1.cons.1, rfl⟩
  | .lineEnd, vm, o, t, h1, h2 => ⟨h1.cons.1, rfl⟩
  | .seq a b, vm, o, t, h1, h2 => by
    have h1' : Has vm.program o ((write a o t).1 ++ (write b (o + (write a o t).1.length) (write a o t).2).1) := h1
    refine ⟨_, write_code a vm o t h1'.append.1 ((write_mono b).fits h2), ?_⟩
    have := write_code b vm _ _ h1'.append.2 h2
    show Code b vm _ (o + ((write a o t).1 ++ (write b (o + (write a o t).1.length) (write a o t).2).1).length)
    rw [List.length_append, ← Nat.add_assoc]
    exact this
  | .alt a b, vm, o, t, h1, h2 => by
    have ha := write_code a vm (o + 2) t
    have hb := write_code b vm (o + 2 + (write a (o + 2) t).1.length + 2) (write a (o + 2) t).2
    have hmb := fun vm => (write_mono b).fits (vm := vm) (o := o + 2 + (write a (o + 2) t).1.length + 2) (t := (write a (o + 2) t).2)
    have h2' : Fits vm (write b (o + 2 + (write a (o + 2) t).1.length + 2) (write a (o + 2) t).2).2 := h2
    simp only [write] at h1 ⊢
    clear h2
    generalize write a (o + 2) t = x at *
    generalize write b (o + 2 + x.1.length + 2) x.2 = y at *
    simp only [List.cons_append] at h1 ⊢
    obtain ⟨a1, h3⟩ := h1.cons
    obtain ⟨a2, h4⟩ := h3.cons
    have h5 := h4.append
    obtain ⟨b1, h6⟩ := h5.2.cons
    obtain ⟨b2, h7⟩ := h6.cons
    have hl : o + (SPLIT :: ((o + 2 + x.1.length + 2 : Nat) : Int) :: (x.1 ++ JMP :: ((o + 2 + x.1.length + 2 + y.1.length : Nat) : Int) :: y.1)).length =
        o + 2 + x.1.length + 2 + y.1.length := by
      simp only [List.length_cons, List.length_append]; omega
    rw [hl]
    exact ⟨o + 2 + x.1.length, ⟨Or.inl a1, a2⟩, ha h5.1 (hmb vm h2'), b1, b2, hb h7 h2'⟩
  | .rep e min max g, vm, o, t, h1, h2 => by
    have h1' : Has vm.program o ((copies (write e) (min - 1) o t).1 ++ (repeatTail (write e) min max g (o + (copies (write e) (min - 1) o t).1.length)
      (copies (write e) (min - 1) o t).2).1) := h1
    have h3 := h1'.append
    refine ⟨_, copies_code (write_mono e) (write_code e vm) _ o t h3.1 (((write_mono e).repeatTail).fits h2), ?_⟩
    have := tail_code (write_mono e) (write_code e vm) _ _ h3.2 h2
    show Tail vm _ min max _ (o + ((copies (write e) (min - 1) o t).1 ++ (repeatTail (write e) min max g (o + (copies (write e) (min - 1) o t).1.length)
      (copies (write e) (min - 1) o t).2).1).length)
    rw [List.length_append, ← Nat.add_assoc]
    exact this
  | .cap e, vm, o, t, h1, h2 => by
    have h1' : Has vm.program o (SAVE_OFFSET :: ((2 * t.groups : Nat) : Int) :: ((write e (o + 2) { t with groups := t.groups + 1 }).1 ++
      [SAVE_OFFSET, ((2 * t.groups + 1 : Nat) : Int)])) := h1
    obtain ⟨a1, h3⟩ := h1'.cons
    obtain ⟨a2, h4⟩ := h3.cons
    have h5 := h4.append
    obtain ⟨b1, h6⟩ := h5.2.cons
    obtain ⟨b2, -⟩ := h6.cons
    refine ⟨_, a1, ⟨_, a2⟩, write_code e vm _ _ h5.1 h2, b1, ⟨_, b2⟩, ?_⟩
    show o + (SAVE_OFFSET :: ((2 * t.groups : Nat) : Int) :: ((write e (o + 2) { t with groups := t.groups + 1 }).1 ++
      [SAVE_OFFSET, ((2 * t.groups + 1 : Nat) : Int)])).length = _
    simp only [List.length_cons, List.length_append, List.length_nil]
    omega
  | .look neg e, vm, o, t, h1, h2 => by
    obtain ⟨f1, f2, f3, f4⟩ := fits_look (x := write e 0 ⟨0, [], []⟩) rfl
    refine ⟨h1.cons.1, ⟨_, _, h1.cons.2.cons.1, prefix_get h2.2, f3, ?_⟩, rfl⟩
    rw [f4]
    exact write_code e _ 0 _ f1 f2

/-! ### Ways through the code -/

section
variable (vm : VM) (s : List Nat) (start : Nat) (look : Nat → Nat → Option Bool)

/-- `n` moves. -/
def Run : Nat → Nat → Nat → Nat → Nat → Prop
  | 0, i, p, k, q => k = i ∧ q = p
  | n + 1, i, p, k, q => ∃ i' p', Move vm s start look i p i' p' ∧ Run n i' p' k q

/-- The code from `o` to `o'` is left at `o'` only, and then what `L` says was matched; else all the instructions are proper ones. -/
def Sound (L : Nat → Nat → Prop) (o o' : Nat) : Prop :=
  ∀ n i k q, start ≤ i → i ≤ s.length → Run vm s start look n i o k q →
    (∃ j m, start ≤ j ∧ j ≤ s.length ∧ m ≤ n ∧ L i j ∧ Run vm s start look m j o' k q) ∨
    (o ≤ q ∧ q < o' ∧ q < vm.program.length ∧ act vm s start look k (s.getD k 0) q ≠ .bad)

/-- What `L` says can be matched. -/
def Complete (L : Nat → Nat → Prop) (o o' : Nat) : Prop :=
  ∀ i j, start ≤ i → i ≤ s.length → L i j → i ≤ j ∧ j ≤ s.length ∧ ∃ n, Run vm s start look n i o j o'

end

section
variable {vm : VM} {s : List Nat} {start : Nat} {look : Nat → Nat → Option Bool}

theorem Run.trans : ∀ {n m i p k q l r : Nat}, Run vm s start look n i p k q → Run vm s start look m k q l r → Run vm s start look (n + m) i p l r
  | 0, m, i, p, k, q, l, r, ⟨h1, h2⟩, h => by subst h1 h2; rw [Nat.zero_add]; exact h
  | n + 1, m, i, p, k, q, l, r, ⟨i', p', h1, h2⟩, h => by
    rw [show n + 1 + m = n + m + 1 by omega]
    exact ⟨i', p', h1, h2.trans h⟩

theorem Reach.iff {pc0 k q : Nat} : Reach vm s start look pc0 k q ↔ ∃ n, Run vm s start look n start pc0 k q := by
  constructor
  · intro h
    induction h with
    | start => exact ⟨0, rfl, rfl⟩
    | move h h1 ih =>
      obtain ⟨n, hn⟩ := ih
      exact ⟨n + 1, hn.trans (m := 1) ⟨_, _, h1, rfl, rfl⟩⟩
  · rintro ⟨n, h⟩
    have : ∀ n i p, Reach vm s start look pc0 i p → Run vm s start look n i p k q → Reach vm s start look pc0 k q := by
      intro n
      induction n with
      | zero => rintro i p h ⟨rfl, rfl⟩; exact h
      | succ n ih => rintro i p h ⟨i', p', h1, h2⟩; exact ih i' p' (.move h h1) h2
    exact this n _ _ .start h

theorem Run.imm {n i p k q : Nat} {ps : List Nat} {sv : Option Nat} (h : Run vm s start look (n + 1) i p k q)
    (ha : act vm s start look i (s.getD i 0) p = .imm ps sv) : ∃ p' ∈ ps, Run vm s start look n i p' k q := by
  obtain ⟨i', p', h1, h2⟩ := h
  cases h1 with
  | imm h3 h4 h5 =>
    rw [ha] at h4
    injection h4 with e1 e2
    subst e1
    exact ⟨p', h5, h2⟩
  | eat h3 h4 h5 => rw [ha] at h5; cases h5

theorem Run.eat {n i p k q p1 : Nat} (h : Run vm s start look (n + 1) i p k q)
    (ha : act vm s start look i (s.getD i 0) p = .eat p1) : i < s.length ∧ Run vm s start look n (i + 1) p1 k q := by
  obtain ⟨i', p', h1, h2⟩ := h
  cases h1 with
  | imm h3 h4 h5 => rw [ha] at h4; cases h4
  | eat h3 h4 h5 =>
    rw [ha] at h5
    injection h5 with e1
    subst e1
    exact ⟨h4, h2⟩

theorem Run.die {n i p k q : Nat} (h : Run vm s start look (n + 1) i p k q) (ha : act vm s start look i (s.getD i 0) p = .die) : False := by
  obtain ⟨i', p', h1, h2⟩ := h
  cases h1 with
  | imm h3 h4 h5 => rw [ha] at h4; cases h4
  | eat h3 h4 h5 => rw [ha] at h5; cases h5

theorem lt_of_get {α : Type} {l : List α} {o : Nat} {x : α} (h : l[o]? = some x) : o < l.length := (List.getElem?_eq_some_iff.1 h).1

theorem arg_of {p : List Int} {o k : Nat} (h : p[o + 1]? = some (k : Int)) : arg p o = some k := by
  unfold arg
  rw [h]

/-- An instruction that consumes a character. -/
theorem eat_ok {L : Nat → Nat → Prop} {o o' : Nat} (hl : o < vm.program.length) (ho : o < o') (P : Nat → Prop) [DecidablePred P]
    (ha : ∀ i, act vm s start look i (s.getD i 0) o = if P (s.getD i 0) then .eat o' else .die)
    (hL : ∀ i j, L i j ↔ (∃ c, s[i]? = some c ∧ P c) ∧ j = i + 1) :
    Sound vm s start look L o o' ∧ Complete vm s start look L o o' := by
  refine ⟨fun n i k q hs hi h => ?_, fun i j hs hi h => ?_⟩
  · cases n with
    | zero =>
      obtain ⟨rfl, rfl⟩ := h
      refine Or.inr ⟨Nat.le_refl _, ho, hl, ?_⟩
      rw [ha]
      by_cases hp : P (s.getD k 0)
      · rw [if_pos hp]; nofun
      · rw [if_neg hp]; nofun
    | succ n =>
      have h1 := ha i
      by_cases hp : P (s.getD i 0)
      · rw [if_pos hp] at h1
        obtain ⟨h2, h3⟩ := h.eat h1
        refine Or.inl ⟨i + 1, n, by omega, by omega, by omega, (hL _ _).2 ⟨⟨s.getD i 0, ?_, hp⟩, rfl⟩, h3⟩
        rw [List.getD_eq_getElem?_getD, List.getElem?_eq_getElem h2]; rfl
      · rw [if_neg hp] at h1
        exact (h.die h1).elim
  · obtain ⟨⟨c, h1, h2⟩, rfl⟩ := (hL _ _).1 h
    have h3 := lt_of_get h1
    have h4 : s.getD i 0 = c := by rw [List.getD_eq_getElem?_getD, h1]; rfl
    refine ⟨by omega, h3, 1, i + 1, o', .eat (by omega) h3 ?_, rfl, rfl⟩
    rw [ha, h4, if_pos h2]

/-- An instruction that asks for something. -/
theorem test_ok {L : Nat → Nat → Prop} {o o' : Nat} {sv : Option Nat} (hl : o < vm.program.length) (ho : o < o') (P : Nat → Prop)
    (ha : ∀ i, start ≤ i → i ≤ s.length → act vm s start look i (s.getD i 0) o = .imm [o'] sv ∧ P i ∨ act vm s start look i (s.getD i 0) o = .die ∧ ¬ P i)
    (hL : ∀ i j, start ≤ i → i ≤ s.length → (L i j ↔ P i ∧ j = i)) :
    Sound vm s start look L o o' ∧ Complete vm s start look L o o' := by
  refine ⟨fun n i k q hs hi h => ?_, fun i j hs hi h => ?_⟩
  · cases n with
    | zero =>
      obtain ⟨rfl, rfl⟩ := h
      refine Or.inr ⟨Nat.le_refl _, ho, hl, ?_⟩
      rcases ha k hs hi with ⟨h, _⟩ | ⟨h, _⟩
      · rw [h]; nofun
      · rw [h]; nofun
    | succ n =>
      rcases ha i hs hi with ⟨h1, hp⟩ | ⟨h1, _⟩
      · obtain ⟨p', h2, h3⟩ := h.imm h1
        rw [List.mem_singleton] at h2
        subst h2
        exact Or.inl ⟨i, n, hs, hi, by omega, (hL _ _ hs hi).2 ⟨hp, rfl⟩, h3⟩
      · exact (h.die h1).elim
  · obtain ⟨hp, rfl⟩ := (hL _ _ hs hi).1 h
    rcases ha j hs hi with ⟨h1, _⟩ | ⟨_, h1⟩
    · exact ⟨Nat.le_refl _, hi, 1, j, o', .imm (by omega) h1 (List.mem_singleton.2 rfl), rfl, rfl⟩
    · exact absurd hp h1

theorem act_fork {o k i c : Nat} (h : Fork vm o k) :
    o < vm.program.length ∧ ∃ ps, act vm s start look i c o = .imm ps none ∧ ∀ x, x ∈ ps ↔ x = k ∨ x = o + 2 := by
  obtain ⟨h1, h2⟩ := h
  have h3 := arg_of h2
  refine ⟨h1.elim lt_of_get lt_of_get, ?_⟩
  rcases h1 with h1 | h1
  · refine ⟨[k, o + 2], ?_, by simp⟩
    unfold act
    rw [h1]
    simp [h3, SPLIT, DOT, DOTALL, WORD_BOUNDARY, NON_WORD_BOUNDARY, LINE_START, LINE_END, CHARACTER_CLASS, LOOKAHEAD, NEGATIVE_LOOKAHEAD, SAVE_OFFSET]
  · refine ⟨[o + 2, k], ?_, by simp [or_comm]⟩
    unfold act
    rw [h1]
    simp [h3, SPLIT, SPLIT_JMP, DOT, DOTALL, WORD_BOUNDARY, NON_WORD_BOUNDARY, LINE_START, LINE_END, CHARACTER_CLASS, LOOKAHEAD, NEGATIVE_LOOKAHEAD, SAVE_OFFSET]

theorem Run.fork {n i o k x q : Nat} (h : Run vm s start look n i o x q) (hf : Fork vm o k) :
    (x = i ∧ q = o ∧ q < vm.program.length ∧ act vm s start look x (s.getD x 0) q ≠ .bad) ∨
    ∃ m, m < n ∧ (Run vm s start look m i k x q ∨ Run vm s start look m i (o + 2) x q) := by
  obtain ⟨h1, ps, h2, h3⟩ := act_fork (s := s) (start := start) (look := look) (i := i) (c := s.getD i 0) hf
  cases n with
  | zero =>
    obtain ⟨rfl, rfl⟩ := h
    refine Or.inl ⟨rfl, rfl, h1, ?_⟩
    rw [h2]; nofun
  | succ n =>
    obtain ⟨p', h4, h5⟩ := h.imm h2
    rcases (h3 p').1 h4 with rfl | rfl
    · exact Or.inr ⟨n, by omega, Or.inl h5⟩
    · exact Or.inr ⟨n, by omega, Or.inr h5⟩

theorem Fork.go {o k : Nat} (h : Fork vm o k) (i : Nat) : Run vm s start look 1 i o i k ∧ Run vm s start look 1 i o i (o + 2) := by
  obtain ⟨h1, ps, h2, h3⟩ := act_fork (s := s) (start := start) (look := look) (i := i) (c := s.getD i 0) h
  exact ⟨⟨i, k, .imm (by omega) h2 ((h3 _).2 (Or.inl rfl)), rfl, rfl⟩, ⟨i, o + 2, .imm (by omega) h2 ((h3 _).2 (Or.inr rfl)), rfl, rfl⟩⟩

theorem Sound.comp {A B L : Nat → Nat → Prop} {o p o' : Nat} (ha : Sound vm s start look A o p) (hb : Sound vm s start look B p o') (h1 : o ≤ p) (h2 : p ≤ o')
    (hL : ∀ i k j, A i k → B k j → L i j) : Sound vm s start look L o o' := by
  intro n i k q hs hi h
  rcases ha n i k q hs hi h with ⟨j, m, j1, j2, j3, j4, j5⟩ | ⟨q1, q2, q3⟩
  · rcases hb m j k q j1 j2 j5 with ⟨l, r, l1, l2, l3, l4, l5⟩ | ⟨q1, q2, q3⟩
    · exact Or.inl ⟨l, r, l1, l2, by omega, hL _ _ _ j4 l4, l5⟩
    · exact Or.inr ⟨by omega, q2, q3⟩
  · exact Or.inr ⟨q1, by omega, q3⟩

theorem Complete.comp {A B L : Nat → Nat → Prop} {o p o' : Nat} (ha : Complete vm s start look A o p) (hb : Complete vm s start look B p o')
    (hL : ∀ i j, L i j → ∃ k, A i k ∧ B k j) : Complete vm s start look L o o' := by
  intro i j hs hi h
  obtain ⟨k, h1, h2⟩ := hL i j h
  obtain ⟨a1, a2, n, a3⟩ := ha i k hs hi h1
  obtain ⟨b1, b2, m, b3⟩ := hb k j (by omega) a2 h2
  exact ⟨by omega, b2, n + m, a3.trans b3⟩

theorem Sound.mono {A B : Nat → Nat → Prop} {o o' : Nat} (ha : Sound vm s start look A o o') (h : ∀ i j, A i j → B i j) : Sound vm s start look B o o' := by
  intro n i k q hs hi h'
  rcases ha n i k q hs hi h' with ⟨j, m, j1, j2, j3, j4, j5⟩ | q1
  · exact Or.inl ⟨j, m, j1, j2, j3, h _ _ j4, j5⟩
  · exact Or.inr q1

theorem Sound.mono' {A B : Nat → Nat → Prop} {o o' : Nat} (ha : Sound vm s start look A o o') (h : ∀ i j, j ≤ s.length → A i j → B i j) :
    Sound vm s start look B o o' := by
  intro n i k q hs hi h'
  rcases ha n i k q hs hi h' with ⟨j, m, j1, j2, j3, j4, j5⟩ | q1
  · exact Or.inl ⟨j, m, j1, j2, j3, h _ _ j2 j4, j5⟩
  · exact Or.inr q1

theorem Complete.mono {A B : Nat → Nat → Prop} {o o' : Nat} (ha : Complete vm s start look A o o') (h : ∀ i j, B i j → A i j) : Complete vm s start look B o o' :=
  fun i j hs hi h' => ha i j hs hi (h i j h')

theorem nothing_ok (o : Nat) : Sound vm s start look (fun i j => j = i) o o ∧ Complete vm s start look (fun i j => j = i) o o := by
  refine ⟨fun n i k q hs hi h => Or.inl ⟨i, n, hs, hi, Nat.le_refl _, rfl, h⟩, fun i j hs hi h => ?_⟩
  subst h
  exact ⟨Nat.le_refl _, hi, 0, rfl, rfl⟩

/-- Both at once, and that the code does not go backwards. -/
def Right (vm : VM) (s : List Nat) (start : Nat) (look : Nat → Nat → Option Bool) (L : Nat → Nat → Prop) (o o' : Nat) : Prop :=
  o ≤ o' ∧ Sound vm s start look L o o' ∧ Complete vm s start look L o o'

theorem Right.iff {A B : Nat → Nat → Prop} {o o' : Nat} (ha : Right vm s start look A o o') (h : ∀ i j, A i j ↔ B i j) : Right vm s start look B o o' :=
  ⟨ha.1, ha.2.1.mono fun i j => (h i j).1, ha.2.2.mono fun i j => (h i j).2⟩

theorem Right.comp {A B : Nat → Nat → Prop} {o p o' : Nat} (ha : Right vm s start look A o p) (hb : Right vm s start look B p o') :
    Right vm s start look (fun i j => ∃ k, A i k ∧ B k j) o o' :=
  ⟨Nat.le_trans ha.1 hb.1, ha.2.1.comp hb.2.1 ha.1 hb.1 fun _ k _ h1 h2 => ⟨k, h1, h2⟩, ha.2.2.comp hb.2.2 fun _ _ h => h⟩

/-- A piece that can be left out. -/
theorem Right.skip {A : Nat → Nat → Prop} {o o' : Nat} (ha : Right vm s start look A (o + 2) o') (hf : Fork vm o o') :
    Right vm s start look (fun i j => j = i ∨ A i j) o o' := by
  refine ⟨by have := ha.1; omega, fun n i k q hs hi h => ?_, fun i j hs hi h => ?_⟩
  · rcases h.fork hf with ⟨h1, h2, h3⟩ | ⟨m, hm, h1 | h1⟩
    · exact Or.inr ⟨by omega, by have := ha.1; omega, h3⟩
    · exact Or.inl ⟨i, m, hs, hi, by omega, Or.inl rfl, h1⟩
    · rcases ha.2.1 m i k q hs hi h1 with ⟨j, r, j1, j2, j3, j4, j5⟩ | ⟨q1, q2⟩
      · exact Or.inl ⟨j, r, j1, j2, by omega, Or.inr j4, j5⟩
      · exact Or.inr ⟨by omega, q2⟩
  · rcases h with rfl | h
    · exact ⟨Nat.le_refl _, hi, 1, (hf.go _).1⟩
    · obtain ⟨a1, a2, n, a3⟩ := ha.2.2 i j hs hi h
      exact ⟨a1, a2, 1 + n, (hf.go _).2.trans a3⟩

theorem Times.add {P : Nat → Nat → Prop} : ∀ {a b i j : Nat}, Times P (a + b) i j ↔ ∃ k, Times P a i k ∧ Times P b k j
  | 0, b, i, j => by
    rw [Nat.zero_add]
    exact ⟨fun h => ⟨i, rfl, h⟩, fun ⟨k, h1, h2⟩ => by cases h1; exact h2⟩
  | a + 1, b, i, j => by
    rw [show a + 1 + b = a + b + 1 by omega]
    constructor
    · rintro ⟨k, h1, h2⟩
      obtain ⟨l, h3, h4⟩ := Times.add.1 h2
      exact ⟨l, ⟨k, h1, h3⟩, h4⟩
    · rintro ⟨l, ⟨k, h1, h3⟩, h4⟩
      exact ⟨k, h1, Times.add.2 ⟨l, h3, h4⟩⟩

theorem Times.one {P : Nat → Nat → Prop} {i j : Nat} : Times P 1 i j ↔ P i j :=
  ⟨fun ⟨k, h1, h2⟩ => by cases h2; exact h1, fun h => ⟨j, h, rfl⟩⟩

theorem pieces_ok {P C : Nat → Nat → Prop} (hC : ∀ o o', C o o' → Right vm s start look P o o') :
    ∀ n o o', Pieces C n o o' → Right vm s start look (Times P n) o o'
  | 0, o, o', h => by
    cases h
    exact ⟨Nat.le_refl _, (nothing_ok o).1.mono fun i j h => h.symm, (nothing_ok o).2.mono fun i j h => h.symm⟩
  | n + 1, o, o', ⟨p, h1, h2⟩ => (hC _ _ h1).comp (pieces_ok hC n p o' h2)

theorem skips_ok {P C : Nat → Nat → Prop} (hC : ∀ o o', C o o' → Right vm s start look P o o') {stop : Nat} :
    ∀ n o, Skips vm C stop n o → Right vm s start look (fun i j => ∃ m, m ≤ n ∧ Times P m i j) o stop
  | 0, o, h => by
    cases h
    refine Right.iff ⟨Nat.le_refl _, nothing_ok stop⟩ fun i j => ⟨fun h => ⟨0, Nat.le_refl _, h.symm⟩, ?_⟩
    rintro ⟨m, h1, h2⟩
    have : m = 0 := by omega
    subst this
    exact h2.symm
  | n + 1, o, ⟨h1, p, h2, h3⟩ => by
    refine (((hC _ _ h2).comp (skips_ok hC n p h3)).skip h1).iff fun i j => ⟨?_, ?_⟩
    · rintro (h | ⟨k, h4, m, h5, h6⟩)
      · exact ⟨0, by omega, h.symm⟩
      · exact ⟨m + 1, by omega, k, h4, h6⟩
    · rintro ⟨m, h4, h5⟩
      cases m with
      | zero => exact Or.inl h5.symm
      | succ m =>
        obtain ⟨k, h6, h7⟩ := h5
        exact Or.inr ⟨k, h6, m, by omega, h7⟩

/-- A loop. -/
theorem loop_ok {P : Nat → Nat → Prop} {o q : Nat} (h : Right vm s start look P o q) (hf : Fork vm q o) :
    Right vm s start look (fun i j => ∃ m, 1 ≤ m ∧ Times P m i j) o (q + 2) := by
  refine ⟨by have := h.1; omega, ?_, ?_⟩
  · intro n
    induction n using Nat.strongRecOn with
    | ind n ih =>
      intro i k r hs hi hr
      rcases h.2.1 n i k r hs hi hr with ⟨j, m, j1, j2, j3, j4, j5⟩ | ⟨q1, q2, q3⟩
      · rcases j5.fork hf with ⟨h1, h2, h3⟩ | ⟨l, hl, h1 | h1⟩
        · exact Or.inr ⟨by have := h.1; omega, by omega, h3⟩
        · rcases ih l (by omega) j k r j1 j2 h1 with ⟨x, y, x1, x2, x3, ⟨z, z1, z2⟩, x5⟩ | q1
          · exact Or.inl ⟨x, y, x1, x2, by omega, ⟨z + 1, by omega, j, j4, z2⟩, x5⟩
          · exact Or.inr q1
        · exact Or.inl ⟨j, l, j1, j2, by omega, ⟨1, Nat.le_refl _, Times.one.2 j4⟩, h1⟩
      · exact Or.inr ⟨q1, by omega, q3⟩
  · rintro i j hs hi ⟨m, hm, ht⟩
    induction m generalizing i with
    | zero => omega
    | succ m ih =>
      obtain ⟨k, h1, h2⟩ := ht
      obtain ⟨a1, a2, n, a3⟩ := h.2.2 i k hs hi h1
      cases m with
      | zero =>
        cases h2
        exact ⟨a1, a2, n + 1, a3.trans (hf.go _).2⟩
      | succ m =>
        obtain ⟨b1, b2, l, b3⟩ := ih k (by omega) a2 (by omega) h2
        exact ⟨by omega, b2, n + 1 + l, (a3.trans (hf.go _).1).trans b3⟩

theorem tail_ok {P C : Nat → Nat → Prop} (hC : ∀ o o', C o o' → Right vm s start look P o o') {min : Nat} {max : Option Nat} {o o' : Nat}
    (h : Tail vm C min max o o') (hx : ∀ x, max = some x → min ≤ x) :
    Right vm s start look (fun i j => ∃ m, min - (min - 1) ≤ m ∧ (∀ x, max = some x → m ≤ x - (min - 1)) ∧ Times P m i j) o o' := by
  unfold Tail at h
  cases max with
  | none =>
    simp only at h
    by_cases hm : 0 < min
    · rw [if_pos hm] at h
      obtain ⟨q, h1, h2, rfl⟩ := h
      refine (loop_ok (hC _ _ h1) h2).iff fun i j => ⟨?_, ?_⟩
      · rintro ⟨m, h3, h4⟩
        exact ⟨m, by omega, nofun, h4⟩
      · rintro ⟨m, h3, -, h4⟩
        exact ⟨m, by omega, h4⟩
    · rw [if_neg hm] at h
      obtain ⟨h0, q, h1, h2, rfl⟩ := h
      refine ((loop_ok (hC _ _ h1) h2).skip h0).iff fun i j => ⟨?_, ?_⟩
      · rintro (h | ⟨m, h3, h4⟩)
        · exact ⟨0, by omega, nofun, h.symm⟩
        · exact ⟨m, by omega, nofun, h4⟩
      · rintro ⟨m, h3, -, h4⟩
        cases m with
        | zero => exact Or.inl h4.symm
        | succ m => exact Or.inr ⟨m + 1, by omega, h4⟩
  | some x =>
    simp only at h
    obtain ⟨q, h1, h2⟩ := h
    have h3 := skips_ok hC _ _ h2
    by_cases hm : 0 < min
    · rw [if_pos hm] at h1
      refine ((hC _ _ h1).comp h3).iff fun i j => ⟨?_, ?_⟩
      · rintro ⟨k, h4, m, h5, h6⟩
        refine ⟨m + 1, by omega, fun y hy => ?_, k, h4, h6⟩
        cases hy
        have := hx x rfl
        omega
      · rintro ⟨m, h4, h5, h6⟩
        have := h5 x rfl
        cases m with
        | zero => omega
        | succ m =>
          obtain ⟨k, h7, h8⟩ := h6
          exact ⟨k, h7, m, by omega, h8⟩
    · rw [if_neg hm] at h1
      subst h1
      refine h3.iff fun i j => ⟨?_, ?_⟩
      · rintro ⟨m, h4, h5⟩
        refine ⟨m, by omega, fun y hy => ?_, h5⟩
        cases hy
        omega
      · rintro ⟨m, h4, h5, h6⟩
        have := h5 x rfl
        exact ⟨m, by omega, h6⟩

theorem alt_ok {A B : Nat → Nat → Prop} {o p o' : Nat} (ha : Right vm s start look A (o + 2) o') (hb : Right vm s start look B p o') (h1 : o ≤ p)
    (hf : Fork vm o p) : Right vm s start look (fun i j => A i j ∨ B i j) o o' := by
  refine ⟨by have := ha.1; omega, fun n i k q hs hi h => ?_, fun i j hs hi h => ?_⟩
  · rcases h.fork hf with ⟨h1, h2, h3⟩ | ⟨m, hm, h2 | h2⟩
    · exact Or.inr ⟨by omega, by have := ha.1; omega, h3⟩
    · rcases hb.2.1 m i k q hs hi h2 with ⟨j, r, j1, j2, j3, j4, j5⟩ | ⟨q1, q2⟩
      · exact Or.inl ⟨j, r, j1, j2, by omega, Or.inr j4, j5⟩
      · exact Or.inr ⟨by omega, q2⟩
    · rcases ha.2.1 m i k q hs hi h2 with ⟨j, r, j1, j2, j3, j4, j5⟩ | ⟨q1, q2⟩
      · exact Or.inl ⟨j, r, j1, j2, by omega, Or.inl j4, j5⟩
      · exact Or.inr ⟨by omega, q2⟩
  · rcases h with h | h
    · obtain ⟨a1, a2, n, a3⟩ := ha.2.2 i j hs hi h
      exact ⟨a1, a2, 1 + n, (hf.go _).2.trans a3⟩
    · obtain ⟨a1, a2, n, a3⟩ := hb.2.2 i j hs hi h
      exact ⟨a1, a2, 1 + n, (hf.go _).1.trans a3⟩

/-! ### Single instructions -/

theorem wordAt_getD (i : Nat) : wordCharacter (s.getD i 0) = wordAt s i := by
  unfold wordAt
  rw [List.getD_eq_getElem?_getD]
  cases s[i]? <;> rfl

theorem boundary_of (i i2 c : Nat) (w : Bool) : boundary s i i2 w c =
    if w then if wordAt s i2 = false then wordCharacter c else decide (i < s.length) && !wordCharacter c
    else if wordAt s i2 = false then decide (i < s.length) && !wordCharacter c else wordCharacter c := by
  unfold boundary wordAt
  cases s[i2]? <;> rfl

theorem boundary_eq {i : Nat} {w : Bool} (h1 : start ≤ i) (h2 : i ≤ s.length) :
    boundary s i (before s start i) w (s.getD i 0) = true ↔ code.boundary s i w := by
  show _ ↔ i < s.length ∧ (wordBefore s i != wordAt s i) = w
  rw [boundary_of, wordAt_getD]
  rcases Nat.lt_or_ge i s.length with h | h
  · have hb : wordAt s (before s start i) = wordBefore s i := by
      unfold before wordBefore
      rw [if_pos (by omega)]
      by_cases h0 : i = 0
      · rw [if_pos h0, if_pos h0]
        unfold wordAt
        rw [List.getElem?_eq_none (Nat.le_refl _)]; rfl
      · rw [if_neg h0, if_neg h0]
    simp only [hb, h, decide_true, Bool.true_and, true_and]
    cases wordBefore s i <;> cases wordAt s i <;> cases w <;> simp
  · have ha : wordAt s i = false := by
      unfold wordAt
      rw [List.getElem?_eq_none h]; rfl
    have hd : decide (i < s.length) = false := by simp; omega
    simp only [ha, hd, Bool.false_and, Bool.not_false]
    have : ¬ i < s.length := by omega
    simp only [this, false_and, iff_false]
    cases w <;> simp

/-- The instructions with an argument. -/
theorem act_arg {o k i c : Nat} {op : Int} (h : vm.program[o]? = some op) (ho : op ≤ -20) (h2 : vm.program[o + 1]? = some (k : Int)) :
    act vm s start look i c o =
      if op = CHARACTER_CLASS then
        match vm.classes[k]? with
        | none => .bad
        | some m => if m c then .eat (o + 2) else .die
      else if op = LOOKAHEAD then
        match look k i with
        | none => .bad
        | some b => if b then .imm [o + 2] none else .die
      else if op = NEGATIVE_LOOKAHEAD then
        match look k i with
        | none => .bad
        | some b => if b then .die else .imm [o + 2] none
      else if op = SAVE_OFFSET then .imm [o + 2] (some k)
      else if op = SPLIT then .imm [k, o + 2] none
      else if op = SPLIT_JMP then .imm [o + 2, k] none
      else if op = JMP then .imm [k] none
      else .bad := by
  unfold act
  rw [h]
  simp only [arg_of h2]
  rw [if_neg (by unfold DOT; omega), if_neg (by unfold DOTALL; omega), if_neg (by unfold WORD_BOUNDARY; omega), if_neg (by unfold NON_WORD_BOUNDARY; omega),
    if_neg (by unfold LINE_START; omega), if_neg (by unfold LINE_END; omega), if_neg (by omega)]
  cases vm.classes[k]? <;> cases look k i <;> rfl

/-- The lookarounds (of expressions that are not deeper than `d`) are right. -/
def LookOk (d : Nat) (vm : VM) (s : List Nat) (look : Nat → Nat → Option Bool) : Prop :=
  ∀ k v e, vm.lookarounds[k]? = some v → v.findPrefixLength = 0 → e.ok → e.depth < d → Code e v 0 v.program.length → ∀ i, i ≤ s.length →
    ∃ b, look k i = some b ∧ (b = true ↔ ∃ j, Lang code s e i j)

theorem code_ok {d : Nat} (hlook : LookOk d vm s look) : ∀ (e : Re) (o o' : Nat), e.ok → e.depth ≤ d → Code e vm o o' →
    Right vm s start look (fun i j => Lang code s e i j) o o'
  | .nil, o, o', hok, hd, h => by
    cases h
    exact ⟨Nat.le_refl _, nothing_ok o⟩
  | .chr c, o, o', hok, hd, ⟨h1, h2⟩ => by
    subst h2
    have hok' : c ≤ 0xffff := hok
    refine ⟨by omega, eat_ok (lt_of_get h1) (by omega) (fun x => x = c) (fun i => ?_) (fun i j => ?_)⟩
    · unfold act
      rw [h1]
      simp only
      rw [if_neg (by unfold DOT; omega), if_neg (by unfold DOTALL; omega), if_neg (by unfold WORD_BOUNDARY; omega),
        if_neg (by unfold NON_WORD_BOUNDARY; omega), if_neg (by unfold LINE_START; omega), if_neg (by unfold LINE_END; omega), if_pos (by omega)]
      by_cases hc : s.getD i 0 = c
      · rw [if_pos (by rw [hc]), if_pos hc]
      · rw [if_neg (by omega), if_neg hc]
    · show _ ∧ _ ↔ _
      simp
  | .dot, o, o', hok, hd, ⟨h1, h2⟩ => by
    subst h2
    refine ⟨by omega, eat_ok (lt_of_get h1) (by omega) (fun c => c ≠ 0 ∧ c ≠ 13 ∧ c ≠ 10) (fun i => ?_) (fun i j => Iff.rfl)⟩
    unfold act
    rw [h1]
    simp only
    rw [if_pos trivial]
  | .cls m, o, o', hok, hd, ⟨h1, ⟨k, h2, h3⟩, h4⟩ => by
    subst h4
    refine ⟨by omega, eat_ok (lt_of_get h1) (by omega) (fun c => m c = true) (fun i => ?_) (fun i j => Iff.rfl)⟩
    rw [act_arg h1 (by decide) h2, if_pos rfl, h3]
  | .boundary w, o, o', hok, hd, ⟨h1, h2⟩ => by
    subst h2
    refine ⟨by omega, test_ok (sv := none) (lt_of_get h1) (by omega) (fun i => code.boundary s i w) (fun i hs hi => ?_) (fun i j _ _ => Iff.rfl)⟩
    have hb := boundary_eq (w := w) hs hi
    have ha : act vm s start look i (s.getD i 0) o = if boundary s i (before s start i) w (s.getD i 0) then .imm [o + 1] none else .die := by
      unfold act
      rw [h1]
      cases w <;> simp [DOT, DOTALL, WORD_BOUNDARY, NON_WORD_BOUNDARY]
    rw [ha]
    by_cases h : boundary s i (before s start i) w (s.getD i 0) = true
    · rw [if_pos h]; exact Or.inl ⟨rfl, hb.1 h⟩
    · rw [if_neg h]; exact Or.inr ⟨rfl, fun h' => h (hb.2 h')⟩
  | .lineStart, o, o', hok, hd, ⟨h1, h2⟩ => by
    subst h2
    refine ⟨by omega, test_ok (sv := none) (lt_of_get h1) (by omega) (fun i => i = 0) (fun i hs hi => ?_) (fun i j _ _ => Iff.rfl)⟩
    have ha : act vm s start look i (s.getD i 0) o = if i = 0 then .imm [o + 1] none else .die := by
      unfold act
      rw [h1]
      simp [DOT, DOTALL, WORD_BOUNDARY, NON_WORD_BOUNDARY, LINE_START]
    rw [ha]
    by_cases h : i = 0
    · rw [if_pos h]; exact Or.inl ⟨rfl, h⟩
    · rw [if_neg h]; exact Or.inr ⟨rfl, h⟩
  | .lineEnd, o, o', hok, hd, ⟨h1, h2⟩ => by
    subst h2
    refine ⟨by omega, test_ok (sv := none) (lt_of_get h1) (by omega) (fun i => i = s.length) (fun i hs hi => ?_) (fun i j _ _ => Iff.rfl)⟩
    have ha : act vm s start look i (s.getD i 0) o = if i = s.length then .imm [o + 1] none else .die := by
      unfold act
      rw [h1]
      simp [DOT, DOTALL, WORD_BOUNDARY, NON_WORD_BOUNDARY, LINE_START, LINE_END]
    rw [ha]
    by_cases h : i = s.length
    · rw [if_pos h]; exact Or.inl ⟨rfl, h⟩
    · rw [if_neg h]; exact Or.inr ⟨rfl, h⟩
  | .seq a b, o, o', hok, hd, ⟨p, h1, h2⟩ => by
    have hd' : max a.depth b.depth ≤ d := hd
    exact (code_ok hlook a o p hok.1 (by omega) h1).comp (code_ok hlook b p o' hok.2 (by omega) h2)
  | .alt a b, o, o', hok, hd, ⟨p, h1, h2, h3, h4, h5⟩ => by
    have hd' : max a.depth b.depth ≤ d := hd
    have ra := code_ok hlook a _ _ hok.1 (by omega) h2
    have rb := code_ok hlook b _ _ hok.2 (by omega) h5
    have hj : Right vm s start look (fun i j => j = i) p o' := by
      refine ⟨by have := rb.1; omega, test_ok (sv := none) (lt_of_get h3) (by have := rb.1; omega) (fun i => True) (fun i hs hi => ?_)
        (fun i j _ _ => by simp)⟩
      rw [act_arg h3 (by decide) h4]
      exact Or.inl ⟨rfl, trivial⟩
    refine alt_ok ((ra.comp hj).iff fun i j => ?_) rb (by have := ra.1; omega) h1
    constructor
    · rintro ⟨k, h6, rfl⟩; exact h6
    · intro h; exact ⟨j, h, rfl⟩
  | .rep e min max g, o, o', hok, hd, ⟨p, h1, h2⟩ => by
    have hC := fun o o' => code_ok hlook e o o' hok.1 hd
    have hx : ∀ x, max = some x → min ≤ x := fun x h => (hok.2 x h).1
    have hx0 : ∀ x, max = some x → 0 < x := fun x h => (hok.2 x h).2
    refine ((pieces_ok hC _ o p h1).comp (tail_ok hC h2 hx)).iff fun i j => ⟨?_, ?_⟩
    · rintro ⟨k, h3, m, h4, h5, h6⟩
      refine ⟨min - 1 + m, by omega, fun x hm => ?_, Times.add.2 ⟨k, h3, h6⟩⟩
      have := h5 x hm
      have := hx x hm
      omega
    · rintro ⟨m, h4, h5, h6⟩
      rw [show m = min - 1 + (m - (min - 1)) by omega] at h6
      obtain ⟨k, h7, h8⟩ := Times.add.1 h6
      refine ⟨k, h7, m - (min - 1), by omega, fun x hm => ?_, h8⟩
      have := h5 x hm
      omega
  | .cap e, o, o', hok, hd, ⟨p, h1, ⟨k, h2⟩, h3, h4, ⟨l, h5⟩, h6⟩ => by
    subst h6
    have re := code_ok hlook e _ _ hok hd h3
    have hsv : ∀ {o k : Nat}, vm.program[o]? = some SAVE_OFFSET → vm.program[o + 1]? = some (k : Int) →
        Right vm s start look (fun i j => j = i) o (o + 2) := by
      intro o k h1 h2
      refine ⟨by omega, test_ok (sv := some k) (lt_of_get h1) (by omega) (fun i => True) (fun i hs hi => ?_) (fun i j _ _ => by simp)⟩
      rw [act_arg h1 (by decide) h2]
      exact Or.inl ⟨rfl, trivial⟩
    refine (((hsv h1 h2).comp re).comp (hsv h4 h5)).iff fun i j => ?_
    constructor
    · rintro ⟨k, ⟨l, rfl, h⟩, rfl⟩; exact h
    · intro h; exact ⟨j, ⟨i, rfl, h⟩, rfl⟩
  | .look neg e, o, o', hok, hd, ⟨h1, ⟨k, v, h2, h3, h4, h5⟩, h6⟩ => by
    subst h6
    have hd' : e.depth < d := hd
    refine ⟨by omega, test_ok (sv := none) (lt_of_get h1) (by omega) (fun i => neg = false ↔ ∃ j, Lang code s e i j) (fun i hs hi => ?_)
      (fun i j _ _ => Iff.rfl)⟩
    obtain ⟨b, hb, hb'⟩ := hlook k v e h3 h4 hok hd' h5 i hi
    have ha : act vm s start look i (s.getD i 0) o = if b = neg then .die else .imm [o + 2] none := by
      rw [act_arg h1 (by cases neg <;> decide) h2]
      cases neg <;> cases b <;> simp [hb, CHARACTER_CLASS, LOOKAHEAD, NEGATIVE_LOOKAHEAD]
    rw [ha, ← hb']
    cases neg <;> cases b <;> simp

/-! ### Whole machines -/

theorem Run.end_ {n i k q : Nat} (h : Run vm s start look n i vm.program.length k q) : k = i ∧ q = vm.program.length := by
  cases n with
  | zero => exact h
  | succ n =>
    obtain ⟨i', p', h1, h2⟩ := h
    cases h1 with
    | imm h _ _ => exact absurd rfl h
    | eat h _ _ => exact absurd rfl h

/-- A machine that is code as a whole, or at its end. -/
theorem whole_ok {L : Nat → Nat → Prop} {pc0 : Nat} (h : Right vm s start look L pc0 vm.program.length) (hs : start ≤ s.length) :
    Good vm s start look pc0 ∧ ∀ anchorEnd, AcceptsFrom vm s start look pc0 anchorEnd start ↔ ∃ j, L start j ∧ (anchorEnd = true → j = s.length) := by
  refine ⟨fun i p _ hr => ?_, fun ae => ⟨?_, ?_⟩⟩
  · obtain ⟨n, hn⟩ := Reach.iff.1 hr
    rcases h.2.1 n _ _ _ (Nat.le_refl _) hs hn with ⟨j, m, j1, j2, j3, j4, j5⟩ | ⟨q1, q2, q3, q4⟩
    · have := j5.end_
      rw [this.2]
      exact ⟨Nat.le_refl _, fun h => absurd rfl h⟩
    · exact ⟨by omega, fun _ => q4⟩
  · rintro ⟨j, h1, h2, h3, h4⟩
    obtain ⟨n, hn⟩ := Reach.iff.1 h3
    rcases h.2.1 n _ _ _ (Nat.le_refl _) hs hn with ⟨l, m, j1, j2, j3, j4, j5⟩ | ⟨q1, q2, q3, q4⟩
    · have := j5.end_.1
      subst this
      exact ⟨j, j4, h4⟩
    · omega
  · rintro ⟨j, h1, h2⟩
    obtain ⟨a1, a2, n, a3⟩ := h.2.2 start j (Nat.le_refl _) hs h1
    exact ⟨j, a1, a2, Reach.iff.2 ⟨n, a3⟩, h2⟩

end

/-- The lookarounds of a run. -/
def lookOf (d : Nat) (vm : VM) (s : List Nat) (k i : Nat) : Option Bool :=
  match vm.lookarounds[k]? with
  | none => none
  | some v =>
    match run d v s i true false false with
    | some (.done b _) => some b
    | _ => none

theorem run_eq (d : Nat) (vm : VM) (s : List Nat) (start : Nat) (a b c : Bool) : run (d + 1) vm s start a b c = begin vm s start (lookOf d vm s) a b c := rfl

/-- Lookarounds find what they have to find. -/
theorem look_ok (s : List Nat) : ∀ d vm, LookOk d vm s (lookOf d vm s)
  | 0, vm, k, v, e, h1, h2, h3, h4, h5, i, hi => absurd h4 (by omega)
  | d + 1, vm, k, v, e, h1, h2, h3, h4, h5, i, hi => by
    unfold lookOf
    rw [h1]
    simp only [run_eq]
    have hr := code_ok (start := i) (look_ok s d v) e 0 v.program.length h3 (by omega) h5
    obtain ⟨hg, ha⟩ := whole_ok hr hi
    have hb := begin_ok (anchorStart := true) (anchorEnd := false) (result := false) hi (by rw [if_pos rfl, h2]; exact hg)
    simp only [if_pos, h2] at hb
    rw [ha false] at hb
    by_cases hL : ∃ j, Lang code s e i j
    · have hL' : ∃ j, Lang code s e i j ∧ (false = true → j = s.length) := hL.elim fun j h => ⟨j, h, nofun⟩
      rw [(hb.2 hL').1 trivial]
      exact ⟨true, rfl, by simpa using hL⟩
    · have hL' : ¬ ∃ j, Lang code s e i j ∧ (false = true → j = s.length) := fun h => hL (h.elim fun j h => ⟨j, h.1⟩)
      rw [hb.1 hL']
      exact ⟨false, rfl, by simpa using hL⟩

theorem compile_code (e : Re) : Code (.cap e) (compile e) 5 (compile e).program.length := by
  have h := write_code (.cap e) (compile e) 5 ⟨0, [], []⟩ (fun k x hk => ?_) ⟨List.prefix_refl _, List.prefix_refl _⟩
  · have hl : (compile e).program.length = 5 + (write (.cap e) 5 ⟨0, [], []⟩).1.length := by
      show ([SPLIT_JMP, 5, DOTALL, SPLIT, 2] ++ (write (.cap e) 5 ⟨0, [], []⟩).1).length = _
      rw [List.length_append]; rfl
    rw [hl]
    exact h
  · show ([SPLIT_JMP, 5, DOTALL, SPLIT, 2] ++ (write (.cap e) 5 ⟨0, [], []⟩).1)[5 + k]? = _
    rw [List.getElem?_append_right (by show 5 ≤ 5 + k; omega)]
    show (write (.cap e) 5 ⟨0, [], []⟩).1[5 + k - 5]? = _
    rw [Nat.add_sub_cancel_left]
    exact hk

/-- `.*?` in front of a program. -/
theorem prefix_ok {vm : VM} {s : List Nat} {start : Nat} {look : Nat → Nat → Option Bool} {rest : List Int} (h : vm.program = [SPLIT_JMP, 5, DOTALL, SPLIT, 2] ++ rest) :
    Right vm s start look (fun i j => i ≤ j ∧ j ≤ s.length) 0 5 := by
  have f0 : Fork vm 0 5 := by unfold Fork; rw [h]; exact ⟨Or.inr rfl, rfl⟩
  have f3 : Fork vm 3 2 := by unfold Fork; rw [h]; exact ⟨Or.inl rfl, rfl⟩
  have g2 : vm.program[2]? = some DOTALL := by rw [h]; rfl
  have r2 : Right vm s start look (fun i j => (∃ c, s[i]? = some c ∧ True) ∧ j = i + 1) 2 3 := by
    refine ⟨by omega, eat_ok (lt_of_get g2) (by omega) (fun c => True) (fun i => ?_) (fun i j => Iff.rfl)⟩
    unfold act
    rw [g2]
    rfl
  have r := (loop_ok r2 f3).skip f0
  have up : ∀ m i j, Times (fun i j => (∃ c, s[i]? = some c ∧ True) ∧ j = i + 1) m i j → i ≤ j := by
    intro m
    induction m with
    | zero => intro i j h; cases h; exact Nat.le_refl _
    | succ m ih => rintro i j ⟨k, ⟨_, rfl⟩, h⟩; have := ih _ _ h; omega
  have down : ∀ m i, i + m ≤ s.length → Times (fun i j => (∃ c, s[i]? = some c ∧ True) ∧ j = i + 1) m i (i + m) := by
    intro m
    induction m with
    | zero => intro i _; rfl
    | succ m ih =>
      intro i h
      refine ⟨i + 1, ⟨⟨_, List.getElem?_eq_getElem (by omega), trivial⟩, rfl⟩, ?_⟩
      have := ih (i + 1) (by omega)
      rwa [show i + 1 + m = i + (m + 1) by omega] at this
  refine ⟨by omega, r.2.1.mono' ?_, r.2.2.mono ?_⟩
  · rintro i j hj (h | ⟨m, _, h⟩)
    · exact ⟨by omega, hj⟩
    · exact ⟨up m i j h, hj⟩
  · rintro i j ⟨h1, h2⟩
    rcases Nat.eq_or_lt_of_le h1 with h | h
    · exact Or.inl h.symm
    · refine Or.inr ⟨j - i, by omega, ?_⟩
      have := down (j - i) i (by omega)
      rwa [show i + (j - i) = j by omega] at this

/-! ### The properties -/

/-- `Matcher.matches` answers whether the expression matches the characters as a whole. -/
theorem matches_ok {e : Re} (hok : e.ok) (d : Nat) (hd : e.depth ≤ d) (s : List Nat) :
    (Lang code s e 0 s.length → ∃ o, isMatch (d + 1) (compile e) s = some (.done true (some o))) ∧
    (¬ Lang code s e 0 s.length → isMatch (d + 1) (compile e) s = some (.done false none)) := by
  have hr := code_ok (start := 0) (look_ok s d (compile e)) (.cap e) 5 _ hok hd (compile_code e)
  obtain ⟨hg, ha⟩ := whole_ok hr (Nat.zero_le _)
  have hb := begin_ok (anchorStart := true) (anchorEnd := true) (result := true) (Nat.zero_le s.length) (by rw [if_pos rfl]; exact hg)
  simp only [if_pos] at hb
  have ha' : AcceptsFrom (compile e) s 0 (lookOf d (compile e) s) (compile e).findPrefixLength true 0 ↔ Lang code s e 0 s.length := by
    refine (ha true).trans ⟨?_, fun h => ⟨_, h, fun _ => rfl⟩⟩
    rintro ⟨j, h1, h2⟩
    have := h2 rfl
    subst this
    exact h1
  rw [ha'] at hb
  exact ⟨fun h => (hb.2 h).2.1 trivial trivial trivial, hb.1⟩

/-- `Matcher.find` answers whether the expression matches somewhere (what is missing: that there is no exception, and where). -/
theorem find_ok_partial {e : Re} (hok : e.ok) (d : Nat) (hd : e.depth ≤ d) (s : List Nat) (offset : Nat) (ho : offset ≤ s.length) :
    (¬ (∃ i j, offset ≤ i ∧ i ≤ s.length ∧ Lang code s e i j) → find (d + 1) (compile e) s offset = some (.done false none)) ∧
    ((∃ i j, offset ≤ i ∧ i ≤ s.length ∧ Lang code s e i j) →
      ∀ x, find (d + 1) (compile e) s offset = some x → x = .fail ∨ ∃ o, x = .done true o) := by
  have hr := code_ok (start := offset) (look_ok s d (compile e)) (.cap e) 5 _ hok hd (compile_code e)
  obtain ⟨hg, ha⟩ := whole_ok ((prefix_ok rfl).comp hr) ho
  have hb := begin_ok (anchorStart := false) (anchorEnd := false) (result := true) ho hg
  simp only [Bool.false_eq_true, if_false] at hb
  have ha' : AcceptsFrom (compile e) s offset (lookOf d (compile e) s) 0 false offset ↔ ∃ i j, offset ≤ i ∧ i ≤ s.length ∧ Lang code s e i j := by
    refine (ha false).trans ⟨?_, ?_⟩
    · rintro ⟨j, ⟨i, ⟨h1, h2⟩, h3⟩, _⟩; exact ⟨i, j, h1, h2, h3⟩
    · rintro ⟨i, j, h1, h2, h3⟩; exact ⟨j, ⟨i, ⟨h1, h2⟩, h3⟩, nofun⟩
  rw [ha'] at hb
  exact ⟨hb.1, fun h => (hb.2 h).2.2⟩

/-- There is no `\b` and no `\B`. -/
def Re.noBoundary : Re → Prop
  | .boundary _ => False
  | .seq a b => a.noBoundary ∧ b.noBoundary
  | .alt a b => a.noBoundary ∧ b.noBoundary
  | .rep e _ _ _ => e.noBoundary
  | .cap e => e.noBoundary
  | .look _ e => e.noBoundary
  | _ => True

theorem times_iff {P Q : Nat → Nat → Prop} (h : ∀ i j, P i j ↔ Q i j) : ∀ n i j, Times P n i j ↔ Times Q n i j
  | 0, _, _ => Iff.rfl
  | n + 1, i, j => exists_congr fun k => and_congr (h i k) (times_iff h n k j)

theorem lang_iff {S T : Sem} {s : List Nat} (hd : ∀ c ∈ s, S.dot c ↔ T.dot c) (hl : ∀ i, S.lineEnd s i ↔ T.lineEnd s i) :
    ∀ (e : Re), e.noBoundary → ∀ i j, Lang S s e i j ↔ Lang T s e i j
  | .nil, _, _, _ | .chr _, _, _, _ | .cls _, _, _, _ | .lineStart, _, _, _ => Iff.rfl
  | .dot, _, i, j => by
    refine and_congr (exists_congr fun c => ⟨fun ⟨h1, h2⟩ => ⟨h1, ?_⟩, fun ⟨h1, h2⟩ => ⟨h1, ?_⟩⟩) Iff.rfl
    · exact (hd c (List.mem_of_getElem? h1)).1 h2
    · exact (hd c (List.mem_of_getElem? h1)).2 h2
  | .boundary _, h, _, _ => h.elim
  | .lineEnd, _, i, j => and_congr (hl i) Iff.rfl
  | .seq a b, h, i, j => exists_congr fun k => and_congr (lang_iff hd hl a h.1 i k) (lang_iff hd hl b h.2 k j)
  | .alt a b, h, i, j => or_congr (lang_iff hd hl a h.1 i j) (lang_iff hd hl b h.2 i j)
  | .rep e _ _ _, h, i, j => exists_congr fun n => and_congr Iff.rfl (and_congr Iff.rfl (times_iff (fun i j => lang_iff hd hl e h i j) n i j))
  | .cap e, h, i, j => lang_iff hd hl e h i j
  | .look n e, h, i, j => and_congr (iff_congr Iff.rfl (exists_congr fun k => lang_iff hd hl e h i k)) Iff.rfl

/-- Where there are no line terminators and no zeros, the code agrees with the specification, apart from `\b` and `\B`. -/
theorem lang_java {s : List Nat} (hs : ∀ c ∈ s, c ≠ 0 ∧ terminator c = false) (e : Re) (h : e.noBoundary) (i j : Nat) :
    Lang java s e i j ↔ Lang code s e i j := by
  have hdot : ∀ c ∈ s, java.dot c ↔ code.dot c := by
    intro c hc
    refine ⟨fun _ => ⟨(hs c hc).1, ?_, ?_⟩, fun _ => (hs c hc).2⟩
    · rintro rfl; exact absurd (hs _ hc).2 (by decide)
    · rintro rfl; exact absurd (hs _ hc).2 (by decide)
  refine lang_iff hdot (fun i => ⟨?_, Or.inl⟩) e h i j
  · rintro (h | ⟨h1, ⟨c, h2, h3⟩, h4⟩ | ⟨h1, h2, h3⟩)
    · exact h
    · have := (hs c (List.mem_of_getElem? h2)).2
      rw [h3] at this; cases this
    · exact absurd (hs _ (List.mem_of_getElem? h2)).2 (by decide)

/-- `Matcher.matches` as Java specifies it, for these texts and expressions. -/
theorem matches_java_partial {e : Re} (hok : e.ok) (hb : e.noBoundary) (d : Nat) (hd : e.depth ≤ d) {s : List Nat}
    (hs : ∀ c ∈ s, c ≠ 0 ∧ terminator c = false) :
    (Lang java s e 0 s.length → ∃ o, isMatch (d + 1) (compile e) s = some (.done true (some o))) ∧
    (¬ Lang java s e 0 s.length → isMatch (d + 1) (compile e) s = some (.done false none)) := by
  rw [lang_java hs e hb]
  exact matches_ok hok d hd s

/-- A search that starts behind the end, as `find()` does after an empty match at the end, fails with an exception. -/
theorem find_past_end (d : Nat) (vm : VM) (s : List Nat) (offset : Nat) (h : s.length < offset) : find (d + 1) vm s offset = some .fail := by
  show begin vm s offset _ false false true = _
  unfold begin
  rw [if_pos h]

/-! ### Cases -/

/-- `a` -/
def chrA : Re := .chr 97
/-- `(?=ab)(a|ab)*c{2,3}$` -/
def sample : Re :=
  .seq (.look false (.seq chrA (.seq (.chr 98) .nil)))
    (.seq (.rep (.cap (.alt (.seq chrA .nil) (.seq chrA (.seq (.chr 98) .nil)))) 0 none true) (.seq (.rep (.chr 99) 2 (some 3) true) (.seq .lineEnd .nil)))

example : sample.ok ∧ sample.noBoundary ∧ sample.depth ≤ 1 := by
  simp [sample, chrA, Re.ok, Re.noBoundary, Re.depth]

example : ∀ c ∈ [97, 98, 97, 99, 99], c ≠ 0 ∧ terminator c = false := by decide

/-- `abacc` is matched (the last round of the group is the second `a`). -/
example : isMatch 2 (compile sample) [97, 98, 97, 99, 99] = some (.done true (some [1, 6, 3, 4])) := by decide +kernel

/-- `aacc` is not, since it does not start with `ab`. -/
example : isMatch 2 (compile sample) [97, 97, 99, 99] = some (.done false none) := by decide +kernel

/-- `abc` is not either. -/
example : isMatch 2 (compile sample) [97, 98, 99] = some (.done false none) := by decide +kernel

/-- In `xabcc`, it is found at 1. -/
example : find 2 (compile sample) [120, 97, 98, 99, 99] 0 = some (.done true (some [2, 6, 2, 4])) := by decide +kernel

/-- `a+|ab.` -/
def plusOrDot : Re := .alt (.rep chrA 1 none true) (.seq chrA (.seq (.chr 98) (.seq .dot .nil)))

/-- `a+|ab.` is found in `aaabc` as the whole text, which it does not match. -/
theorem find_not_match : find 1 (compile plusOrDot) [97, 97, 97, 98, 99] 0 = some (.done true (some [1, 6])) ∧
    ¬ Lang java [97, 97, 97, 98, 99] plusOrDot 0 5 := by
  refine ⟨by decide +kernel, fun h => ?_⟩
  obtain ⟨o, ho⟩ := (matches_java_partial (e := plusOrDot) (by simp [plusOrDot, chrA, Re.ok]) (by simp [plusOrDot, chrA, Re.noBoundary]) 0
    (by simp [plusOrDot, chrA, Re.depth]) (s := [97, 97, 97, 98, 99]) (by decide)).1 h
  have : isMatch 1 (compile plusOrDot) [97, 97, 97, 98, 99] = some (.done false none) := by decide +kernel
  rw [this] at ho
  cases ho

/-- `abcd|bc` -/
def notLeft : Re := .alt (.seq chrA (.seq (.chr 98) (.seq (.chr 99) (.seq (.chr 100) .nil)))) (.seq (.chr 98) (.seq (.chr 99) .nil))

/-- `abcd|bc` is found in `abcd` at 1, although it matches at 0. -/
theorem find_not_leftmost : find 1 (compile notLeft) [97, 98, 99, 100] 0 = some (.done true (some [2, 4])) ∧
    Lang java [97, 98, 99, 100] notLeft 0 4 := by
  refine ⟨by decide +kernel, Or.inl ⟨1, ⟨rfl, rfl⟩, 2, ⟨rfl, rfl⟩, 3, ⟨rfl, rfl⟩, 4, ⟨rfl, rfl⟩, rfl⟩⟩

/-- `a\b` is not found in `a`, since `\b` does not match at the end. -/
theorem boundary_end_wrong : find 1 (compile (.seq chrA (.boundary true))) [97] 0 = some (.done false none) ∧
    Lang java [97] (.seq chrA (.boundary true)) 0 1 :=
  ⟨by decide +kernel, 1, ⟨rfl, rfl⟩, rfl, rfl⟩

/-- `\b` and `\B` both do not match at the end of any text. -/
theorem boundary_end (s : List Nat) (w : Bool) (j : Nat) : ¬ Lang code s (.boundary w) s.length j :=
  fun h => Nat.lt_irrefl _ h.1.1

/-- `.` does not match a zero, and matches the line separator U+2028. -/
theorem dot_wrong : isMatch 1 (compile .dot) [0] = some (.done false none) ∧ Lang java [0] .dot 0 1 ∧
    isMatch 1 (compile .dot) [0x2028] = some (.done true (some [1, 2])) ∧ ¬ Lang java [0x2028] .dot 0 1 := by
  refine ⟨by decide +kernel, ⟨⟨0, rfl, rfl⟩, rfl⟩, by decide +kernel, ?_⟩
  rintro ⟨⟨c, h1, h2⟩, _⟩
  cases h1
  exact absurd (show terminator 0x2028 = false from h2) (by decide)

/-- `$` does not match before a newline at the end. -/
theorem line_end_wrong : find 1 (compile (.seq chrA .lineEnd)) [97, 10] 0 = some (.done false none) ∧
    Lang java [97, 10] (.seq chrA .lineEnd) 0 1 := by
  refine ⟨by decide +kernel, 1, ⟨rfl, rfl⟩, Or.inr (Or.inl ⟨rfl, ⟨10, rfl, rfl⟩, ?_⟩), rfl⟩
  rintro ⟨_, _, h⟩
  cases h

/-- How many groups an expression has. -/
def Re.captures : Re → Nat
  | .seq a b => a.captures + b.captures
  | .alt a b => a.captures + b.captures
  | .rep e _ _ _ => e.captures
  | .cap e => e.captures + 1
  | .look _ e => e.captures
  | _ => 0

/-- `(a){2}(b)` -/
def twice : Re := .seq (.rep (.cap chrA) 2 (some 2) true) (.cap (.chr 98))

/-- `(a){2}(b)` has two groups, but the machine has three besides group 0: the second group is the second `a`, where `b` is expected. -/
theorem group_numbers_wrong : twice.captures = 2 ∧ (compile twice).groups = 4 ∧
    isMatch 1 (compile twice) [97, 97, 98] = some (.done true (some [1, 4, 1, 2, 2, 3, 3, 4])) := by
  refine ⟨rfl, rfl, by decide +kernel⟩

/-- `(a*)?b` on `b`: the group is not set, where it is the empty string in Java. -/
theorem group_lost : isMatch 1 (compile (.seq (.rep (.cap (.rep chrA 0 none true)) 0 (some 1) true) (.chr 98))) [98] =
    some (.done true (some [1, 2, 0, 0])) := by decide +kernel

end Avian.PikeVM
