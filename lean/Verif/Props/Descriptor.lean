import Verif.Text.Descriptor

/-
Property C23: method descriptors are measured correctly.
-/
namespace Avian.Descriptor

/-! ### Specification: the descriptor grammar of the class file format -/

/-- Primitive types. -/
inductive Prim where
  | byte | char | double | float | int | long | short | boolean
  deriving DecidableEq

/-- Field types. -/
inductive Ty where
  | prim (p : Prim)
  | cls (name : List (BitVec 8))
  | arr (element : Ty)

/-- The letter of a primitive type. -/
def Prim.letter : Prim → Char
  | .byte => 'B' | .char => 'C' | .double => 'D' | .float => 'F' | .int => 'I' | .long => 'J'
  | .short => 'S' | .boolean => 'Z'

/-- The descriptor text of a type. -/
def Ty.text : Ty → List (BitVec 8)
  | .prim p => [ch p.letter]
  | .cls n => ch 'L' :: (n ++ [ch ';'])
  | .arr e => ch '[' :: e.text

/-- Class names hold neither a semicolon nor a zero byte. -/
def Ty.Ok : Ty → Prop
  | .prim _ => True
  | .cls n => ch ';' ∉ n ∧ 0#8 ∉ n
  | .arr e => e.Ok

/-- Stack slots of a value: long and double take two. -/
def Ty.slots : Ty → Nat
  | .prim .long => 2
  | .prim .double => 2
  | _ => 1

/-- The kind of a return type; `none` is `void`. -/
def kind : Option Ty → FieldCode
  | none => .void
  | some (.prim .byte) => .byte
  | some (.prim .char) => .char
  | some (.prim .double) => .double
  | some (.prim .float) => .float
  | some (.prim .int) => .int
  | some (.prim .long) => .long
  | some (.prim .short) => .short
  | some (.prim .boolean) => .boolean
  | some _ => .object

/-- The text of a return type. -/
def retText : Option Ty → List (BitVec 8)
  | none => [ch 'V']
  | some t => t.text

/-- The text of a method descriptor, with its terminating zero. -/
def text (params : List Ty) (ret : Option Ty) : List (BitVec 8) :=
  ch '(' :: (params.flatMap Ty.text ++ ch ')' :: (retText ret ++ [0#8]))

/-! ### Proofs -/

private theorem skipClass_name (n rest : List (BitVec 8)) (h1 : ch ';' ∉ n) (h2 : 0#8 ∉ n) :
    skipClass (n ++ ch ';' :: rest) = some (ch ';' :: rest) := by
  induction n with
  | nil => simp [skipClass]
  | cons c t ih =>
    simp only [List.mem_cons, not_or] at h1 h2
    rw [List.cons_append, skipClass, if_pos ⟨fun h => h2.1 h.symm, fun h => h1.1 h.symm⟩]
    exact ih h1.2 h2.2

private theorem skipClass_L (n rest : List (BitVec 8)) (h1 : ch ';' ∉ n) (h2 : 0#8 ∉ n) :
    skipClass (ch 'L' :: (n ++ ch ';' :: rest)) = some (ch ';' :: rest) := by
  rw [skipClass, if_pos (by decide)]
  exact skipClass_name n rest h1 h2

/-- The element type below the brackets. -/
private def base : Ty → Ty
  | .arr e => base e
  | t => t

private theorem base_ok : ∀ t : Ty, t.Ok → (base t).Ok ∧ ∀ e, base t ≠ .arr e
  | .prim p, _ => ⟨trivial, by intro e; simp [base]⟩
  | .cls n, h => ⟨h, by intro e; simp [base]⟩
  | .arr e, h => base_ok e h

private theorem letter_ne (p : Prim) : ch p.letter ≠ ch '[' ∧ ch p.letter ≠ ch 'L' ∧
    ch p.letter ≠ ch ')' := by
  cases p <;> decide

private theorem skipBrackets_text : ∀ (t : Ty) (rest : List (BitVec 8)),
    skipBrackets (t.text ++ rest) = some ((base t).text ++ rest)
  | .prim p, rest => by simp [Ty.text, skipBrackets, letter_ne p, base]
  | .cls n, rest => by
    simp only [Ty.text, base, List.cons_append, skipBrackets]
    rw [if_neg (by decide)]
  | .arr e, rest => by
    simp only [Ty.text, base, List.cons_append, skipBrackets, if_true]
    exact skipBrackets_text e rest

private theorem next_text (t : Ty) (h : t.Ok) (rest : List (BitVec 8)) :
    next (t.text ++ rest) = some (t.text ++ rest, rest) := by
  cases t with
  | prim p =>
    obtain ⟨h1, h2, _⟩ := letter_ne p
    simp [Ty.text, next, h1, h2]
  | cls n =>
    have := skipClass_L n rest h.1 h.2
    simp only [Ty.text, List.cons_append, List.append_assoc, List.nil_append, next, if_true, this]
    rfl
  | arr e =>
    have hb := skipBrackets_text (.arr e) rest
    obtain ⟨hok, hne⟩ := base_ok (.arr e) h
    have hsb : skipBrackets (ch '[' :: (e.text ++ rest)) = some ((base (.arr e)).text ++ rest) := hb
    simp only [Ty.text, List.cons_append, next]
    rw [if_neg (by decide), if_pos trivial, hsb, Option.bind_some]
    cases hbt : base (.arr e) with
    | prim p => simp [Ty.text, letter_ne p]
    | cls n =>
      rw [hbt] at hok
      have := skipClass_L n rest hok.1 hok.2
      simp only [Ty.text, List.cons_append, List.append_assoc, List.nil_append, if_true, this]
      rfl
    | arr e' => exact absurd hbt (hne e')

private theorem text_head (t : Ty) : ∃ c r, t.text = c :: r ∧ c ≠ ch ')' ∧
    ((c = ch 'J' ∨ c = ch 'D') ↔ t.slots = 2) ∧ (t.slots = 2 ∨ t.slots = 1) := by
  cases t with
  | prim p => exact ⟨_, _, rfl, (letter_ne p).2.2, by cases p <;> decide, by cases p <;> decide⟩
  | cls n => exact ⟨_, _, rfl, by decide, by simp [Ty.slots]; decide, Or.inr rfl⟩
  | arr e => exact ⟨_, _, rfl, by decide, by simp [Ty.slots]; decide, Or.inr rfl⟩

/-- The start of every parameter. -/
def starts : List Ty → List (BitVec 8) → List Ptr
  | [], _ => []
  | t :: ts, rest => (t.text ++ (ts.flatMap Ty.text ++ rest)) :: starts ts rest

/-- The slots of a parameter list. -/
def slots : List Ty → Nat
  | [] => 0
  | t :: ts => t.slots + slots ts

private theorem scanLoop_params (rest : List (BitVec 8)) : ∀ (params : List Ty),
    (∀ t ∈ params, t.Ok) → ∀ fuel st n f, params.length < fuel →
    scanLoop fuel (params.flatMap Ty.text ++ ch ')' :: rest) st n f =
      some (st ++ starts params (ch ')' :: rest), n + params.length, f + slots params,
        ch ')' :: rest) := by
  intro params
  induction params with
  | nil =>
    intro _ fuel st n f hf
    cases fuel with
    | zero => simp at hf
    | succ fuel => simp [scanLoop, hasNext, starts, slots]
  | cons t ts ih =>
    intro hok fuel st n f hf
    cases fuel with
    | zero => simp at hf
    | succ fuel =>
      obtain ⟨c, r, hc, hne, hs, hs2⟩ := text_head t
      have hn := next_text t (hok t (by simp)) (ts.flatMap Ty.text ++ ch ')' :: rest)
      have hcat : (t :: ts).flatMap Ty.text ++ ch ')' :: rest
          = t.text ++ (ts.flatMap Ty.text ++ ch ')' :: rest) := by simp
      rw [hcat, scanLoop]
      have hh : hasNext (t.text ++ (ts.flatMap Ty.text ++ ch ')' :: rest)) = some true := by
        rw [hc]; simp [hasNext, hne]
      rw [hh, Option.bind_some, if_pos rfl, hn, Option.bind_some]
      simp only [hc, List.cons_append]
      rw [ih (fun t ht => hok t (by simp [ht])) fuel _ _ _ (by simpa using hf)]
      simp only [starts, slots, hc, List.cons_append, List.append_assoc, List.length_cons,
        List.nil_append, Option.some.injEq, Prod.mk.injEq, true_and, and_true]
      refine ⟨by omega, ?_⟩
      rcases hs2 with h2 | h2
      · rw [if_pos (hs.mpr h2), h2]; omega
      · have : ¬ (c = ch 'J' ∨ c = ch 'D') := by rw [hs, h2]; decide
        rw [if_neg this, h2]; omega

private theorem fuel_enough (params : List Ty) (rest : List (BitVec 8)) :
    params.length < (ch '(' :: (params.flatMap Ty.text ++ ch ')' :: rest)).length + 1 := by
  have : ∀ params : List Ty, params.length ≤ (params.flatMap Ty.text).length := by
    intro params
    induction params with
    | nil => simp
    | cons t ts ih =>
      obtain ⟨c, r, hc, _⟩ := text_head t
      rw [List.flatMap_cons, List.length_append, hc]
      simp only [List.length_cons]
      omega
  have := this params
  simp only [List.length_cons, List.length_append]
  omega

theorem fieldCode_ret (ret : Option Ty) : ∃ c r, retText ret = c :: r ∧
    fieldCode c = some (kind ret) := by
  cases ret with
  | none => exact ⟨_, _, rfl, by decide⟩
  | some t =>
    cases t with
    | prim p => exact ⟨_, _, rfl, by cases p <;> decide⟩
    | cls n => exact ⟨_, _, rfl, rfl⟩
    | arr e => exact ⟨_, _, rfl, rfl⟩

/-- C23: for every well-formed descriptor the scanner computes the number of parameters, the
number of stack slots (two for long and double, one more for the receiver) and the return kind, and
reads only inside the string. -/
theorem scan_correct (params : List Ty) (ret : Option Ty) (hok : ∀ t ∈ params, t.Ok)
    (static_ : Bool) :
    scanMethodSpec (text params ret) static_ =
      some (params.length, slots params + (if static_ then 0 else 1), kind ret) := by
  obtain ⟨c, r, hc, hk⟩ := fieldCode_ret ret
  rw [scanMethodSpec, text, List.tail_cons,
    scanLoop_params _ params hok _ [] 0 0 (fuel_enough params _)]
  simp only [Option.bind_some, List.tail_cons, hc, List.cons_append, hk, Option.map_some]
  cases static_ <;> simp

/-- C23: the separate footprint function agrees. -/
theorem footprint_correct (params : List Ty) (ret : Option Ty) (hok : ∀ t ∈ params, t.Ok)
    (static_ : Bool) :
    parameterFootprint (text params ret) static_ =
      some (slots params + (if static_ then 0 else 1)) := by
  rw [parameterFootprint, text, List.tail_cons,
    scanLoop_params _ params hok _ [] 0 0 (fuel_enough params _)]
  cases static_ <;> simp

/-- C23: an iteration visits the parameters in order, one pointer each, and each pointer is at the
first letter of its parameter. -/
theorem iterator_visits_parameters (params : List Ty) (ret : Option Ty)
    (hok : ∀ t ∈ params, t.Ok) :
    ∃ ps, parameterStarts (text params ret) = some ps ∧ ps.length = params.length ∧
      ∀ i (h : i < params.length) (h' : i < ps.length), params[i].text <+: ps[i] := by
  rw [parameterStarts, text, List.tail_cons,
    scanLoop_params _ params hok _ [] 0 0 (fuel_enough params _)]
  refine ⟨_, rfl, ?_, ?_⟩
  · simp only [List.nil_append]
    induction params with
    | nil => rfl
    | cons t ts ih => simp [starts, ih (fun t ht => hok t (by simp [ht]))]
  · simp only [List.nil_append]
    generalize (ch ')' :: (retText ret ++ [0#8])) = rest
    clear hok
    induction params with
    | nil => intro i h; simp at h
    | cons t ts ih =>
      intro i h h'
      cases i with
      | zero => simp [starts]
      | succ i =>
        simp only [starts, List.getElem_cons_succ]
        exact ih i (by simpa using h) (by simpa [starts] using h')

/-- `(I[[Jx/Y;D)[B` as an instance method. -/
example : scanMethodSpec (text [.prim .int, .arr (.arr (.prim .long)),
    .cls [ch 'x', ch '/', ch 'Y'], .prim .double] (some (.arr (.prim .byte)))) false
    = some (4, 6, .object) :=
  scan_correct _ _ (by simp [Ty.Ok]; decide) false

/-- C23 (limit): a descriptor without `)` makes the scanner read past the end of the string. -/
theorem malformed_reads_outside : scanMethodSpec [ch '(', ch 'I', 0#8] true = none := by decide

end Avian.Descriptor
