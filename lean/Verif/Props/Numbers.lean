import Verif.Lib.Numbers

/-
Property C54: numbers as text.
-/
namespace Avian.Numbers

/-! ### Specification -/

/-- The value of a sequence of digits, most significant first. -/
def value (r : Nat) (ds : List Nat) : Nat := ds.foldl (fun a d => a * r + d) 0

/-- The character of a digit. -/
def letter (d : Nat) : Nat := if d < 10 then 48 + d else 87 + d

/-- `s` is the number `v` written in base `r`: a minus sign if it is negative, then digits without
leading zeros. -/
def Numeral (r : Nat) (v : Int) (s : List Nat) : Prop :=
  ∃ ds : List Nat, (∀ d ∈ ds, d < r) ∧ ds ≠ [] ∧ (ds.head? ≠ some 0 ∨ ds = [0]) ∧
    value r ds = v.natAbs ∧ s = (if v < 0 then [45] else []) ++ ds.map letter

/-- The character stands for the digit, small or capital. -/
def Denotes (c d : Nat) : Prop := c = letter d ∨ 10 ≤ d ∧ c = 55 + d

/-- The characters stand for the digits, one by one. -/
inductive Spells : List Nat → List Nat → Prop
  | nil : Spells [] []
  | cons {c d : Nat} {s ds : List Nat} : Denotes c d → Spells s ds → Spells (c :: s) (d :: ds)

private theorem Spells.length_eq {s ds : List Nat} (h : Spells s ds) : s.length = ds.length := by
  induction h with
  | nil => rfl
  | cons _ _ ih => simp [ih]



/-! ### Digits -/

private def digitsOf (r : Nat) (hr : 2 ≤ r) (m : Nat) : List Nat :=
  if h : m = 0 then [] else digitsOf r hr (m / r) ++ [m % r]
termination_by m
decreasing_by exact Nat.div_lt_self (by omega) (by omega)

private theorem digitsOf_zero (r : Nat) (hr : 2 ≤ r) : digitsOf r hr 0 = [] := by
  rw [digitsOf]; simp

private theorem digitsOf_pos (r : Nat) (hr : 2 ≤ r) {m : Nat} (h : m ≠ 0) :
    digitsOf r hr m = digitsOf r hr (m / r) ++ [m % r] := by
  rw [digitsOf]; simp [h]

private theorem value_append (r : Nat) (ds : List Nat) (d : Nat) :
    value r (ds ++ [d]) = value r ds * r + d := by
  simp [value, List.foldl_append]

private theorem digits_facts (r : Nat) (hr : 2 ≤ r) : ∀ m,
    value r (digitsOf r hr m) = m ∧ (∀ d ∈ digitsOf r hr m, d < r) ∧
    (digitsOf r hr m).head? ≠ some 0 ∧ (m ≠ 0 → digitsOf r hr m ≠ []) := by
  intro m
  induction m using Nat.strongRecOn with
  | _ m ih =>
    by_cases h : m = 0
    · subst h
      rw [digitsOf_zero]
      simp [value]
    · obtain ⟨h1, h2, h3, h4⟩ := ih (m / r) (Nat.div_lt_self (by omega) (by omega))
      rw [digitsOf_pos r hr h]
      refine ⟨?_, ?_, ?_, by simp⟩
      · rw [value_append, h1, Nat.mul_comm]; exact Nat.div_add_mod m r
      · intro d hd
        rcases List.mem_append.1 hd with hd | hd
        · exact h2 d hd
        · rw [List.mem_singleton.1 hd]; exact Nat.mod_lt _ (by omega)
      · by_cases hq : m / r = 0
        · rw [hq, digitsOf_zero, List.nil_append]
          simp only [List.head?_cons, ne_eq, Option.some.injEq]
          have : m % r = m := Nat.mod_eq_of_lt ((Nat.div_eq_zero_iff_lt (by omega)).1 hq)
          omega
        · have := h4 hq
          rw [List.head?_append]
          cases hh : (digitsOf r hr (m / r)).head? with
          | none => rw [List.head?_eq_none_iff] at hh; exact absurd hh this
          | some x => rw [hh] at h3; simpa using h3

private theorem digits_length (r : Nat) (hr : 2 ≤ r) : ∀ k m, m < 2 ^ k →
    (digitsOf r hr m).length ≤ k := by
  intro k
  induction k with
  | zero => intro m h; have : m = 0 := by omega
            subst this; rw [digitsOf_zero]; simp
  | succ k ih =>
    intro m h
    by_cases h0 : m = 0
    · subst h0; rw [digitsOf_zero]; simp
    · rw [digitsOf_pos r hr h0, List.length_append]
      have : m / r < 2 ^ k := by
        apply Nat.lt_of_le_of_lt (Nat.div_le_div_left hr (by omega))
        omega
      have := ih _ this
      simp; omega

/-! ### Writing -/

private def sgn (neg : Bool) (m : Nat) : Int := if neg then -(m : Int) else m

private theorem sgn_zero (neg : Bool) (m : Nat) : sgn neg m = 0 ↔ m = 0 := by
  unfold sgn; split <;> omega

private theorem sgn_tdiv (neg : Bool) (m r : Nat) : (sgn neg m).tdiv r = sgn neg (m / r) := by
  unfold sgn
  split
  · rw [Int.neg_tdiv]; rfl
  · rfl

private theorem sgn_tmod (neg : Bool) (m r : Nat) :
    (if neg = true then -((sgn neg m).tmod r) else (sgn neg m).tmod r) = ((m % r : Nat) : Int) := by
  unfold sgn
  split
  · rw [Int.neg_tmod]; simp only [Int.neg_neg]; rfl
  · rfl

private theorem digitChar_letter {d : Nat} (h : d < 36) : digitChar (d : Int) = letter d := by
  unfold digitChar letter toChar
  split
  · rw [if_pos (by omega)]; omega
  · rw [if_neg (by omega)]; omega

private theorem sizeLoop_eq (r : Nat) (hr : 2 ≤ r) (neg : Bool) : ∀ fuel m size,
    (digitsOf r hr m).length < fuel →
    sizeLoop (r : Int) fuel (sgn neg m) size = some (size + (digitsOf r hr m).length) := by
  intro fuel
  induction fuel with
  | zero => intro m size h; omega
  | succ fuel ih =>
    intro m size h
    rw [sizeLoop]
    by_cases h0 : m = 0
    · rw [if_pos ((sgn_zero _ _).2 h0), h0, digitsOf_zero]; rfl
    · rw [if_neg (fun h1 => h0 ((sgn_zero _ _).1 h1)), sgn_tdiv]
      rw [digitsOf_pos r hr h0, List.length_append] at h
      simp only [List.length_singleton] at h
      rw [ih _ _ (by omega), digitsOf_pos r hr h0, List.length_append]
      simp only [List.length_singleton, Option.some.injEq]
      omega

private theorem store_eq (A B : List Nat) (x c : Nat) :
    store (A ++ x :: B) (A.length : Int) c = some (A ++ c :: B) := by
  unfold store
  rw [if_pos ⟨by omega, by simp; omega⟩]
  simp

private theorem fillLoop_eq (r : Nat) (hr : 2 ≤ r) (hr2 : r ≤ 36) (neg : Bool) : ∀ fuel m
    (A C B : List Nat), (digitsOf r hr m).length < fuel →
    C.length = (digitsOf r hr m).length →
    fillLoop (r : Int) neg fuel (sgn neg m) ((A.length + C.length : Nat) - 1 : Int) (A ++ C ++ B)
      = some ((A.length : Int) - 1, A ++ (digitsOf r hr m).map letter ++ B) := by
  intro fuel
  induction fuel with
  | zero => intro m A C B h; omega
  | succ fuel ih =>
    intro m A C B h hC
    rw [fillLoop]
    by_cases h0 : m = 0
    · rw [if_pos ((sgn_zero _ _).2 h0), h0, digitsOf_zero]
      subst h0
      rw [digitsOf_zero] at hC
      have : C = [] := List.eq_nil_of_length_eq_zero (by simpa using hC)
      subst this
      simp
    · rw [if_neg (fun h1 => h0 ((sgn_zero _ _).1 h1)), sgn_tdiv, sgn_tmod]
      rw [digitsOf_pos r hr h0] at h hC ⊢
      rw [List.length_append, List.length_singleton] at h hC
      rcases List.eq_nil_or_concat C with hc | ⟨C', x, hc⟩
      · subst hc; simp at hC
      · subst hc
        rw [List.concat_eq_append, List.length_append, List.length_singleton] at hC
        rw [List.concat_eq_append]
        have e1 : A ++ (C' ++ [x]) ++ B = (A ++ C') ++ x :: B := by simp
        have e2 : ((A.length + (C' ++ [x]).length : Nat) - 1 : Int) = ((A ++ C').length : Int) := by
          simp; omega
        rw [e1, e2, store_eq, Option.bind_some]
        have e3 : (((A ++ C').length : Int) - 1) = ((A.length + C'.length : Nat) - 1 : Int) := by
          simp
        have := ih (m / r) A C' (digitChar ((m % r : Nat) : Int) :: B) (by omega) (by omega)
        rw [e3, this, digitChar_letter (Nat.lt_of_lt_of_le (Nat.mod_lt _ (by omega)) hr2)]
        simp

private theorem toString_eq (r : Nat) (hr : 2 ≤ r) (hr2 : r ≤ 36) (v : Int) (hv : v ≠ 0) (fuel : Nat)
    (hf : (digitsOf r hr v.natAbs).length < fuel) :
    toString fuel v r = some (.ok ((if v < 0 then [45] else []) ++
      (digitsOf r hr v.natAbs).map letter)) := by
  unfold toString
  rw [if_neg (by omega), if_neg hv]
  have hs : v = sgn (decide (v < 0)) v.natAbs := by
    unfold sgn
    by_cases h : v < 0
    · simp [h]; omega
    · simp [h]; omega
  by_cases hneg : v < 0
  · simp only [hneg, decide_true, if_true] at hs ⊢
    have e1 := sizeLoop_eq r hr true fuel v.natAbs 1 hf
    rw [← hs] at e1
    rw [e1, Option.bind_some]
    have e2 := fillLoop_eq r hr hr2 true fuel v.natAbs [0]
      (List.replicate (digitsOf r hr v.natAbs).length 0) [] hf (by simp)
    rw [← hs] at e2
    have e3 : List.replicate (1 + (digitsOf r hr v.natAbs).length) 0 =
        [0] ++ List.replicate (digitsOf r hr v.natAbs).length 0 ++ [] := by
      rw [List.append_nil, Nat.add_comm, List.replicate_succ]; rfl
    have e4 : (((1 + (digitsOf r hr v.natAbs).length : Nat) : Int) - 1) =
        (([0] : List Nat).length + (List.replicate (digitsOf r hr v.natAbs).length 0).length : Nat) - 1 := by
      simp
    rw [e3, e4, e2, Option.bind_some]
    have := store_eq [] ((digitsOf r hr v.natAbs).map letter) 0 45
    simp at this
    simp [this]
  · simp only [hneg, decide_false, Bool.false_eq_true, if_false] at hs ⊢
    have e1 := sizeLoop_eq r hr false fuel v.natAbs 0 hf
    rw [← hs] at e1
    rw [e1, Option.bind_some]
    have e2 := fillLoop_eq r hr hr2 false fuel v.natAbs []
      (List.replicate (digitsOf r hr v.natAbs).length 0) [] hf (by simp)
    rw [← hs] at e2
    simp only [Nat.zero_add, List.nil_append, List.append_nil, List.length_nil,
      List.length_replicate] at e2 ⊢
    rw [e2]; rfl

/-- C54: every number is written correctly in every base from 2 to 36, in at most 65 turns of the
loops. -/
theorem toString_numeral (r : Nat) (hr : 2 ≤ r) (hr2 : r ≤ 36) (v : Int) (h1 : -2 ^ 63 ≤ v)
    (h2 : v < 2 ^ 64) : ∃ s, (∀ fuel, 65 ≤ fuel → toString fuel v r = some (.ok s)) ∧ Numeral r v s := by
  by_cases hv : v = 0
  · subst hv
    refine ⟨[48], fun fuel _ => ?_, [0], by simp; omega, by simp, Or.inr rfl, by simp [value],
      by simp [letter]⟩
    unfold toString
    rw [if_neg (by omega), if_pos rfl]
  · obtain ⟨d1, d2, d3, d4⟩ := digits_facts r hr v.natAbs
    refine ⟨_, fun fuel hf => toString_eq r hr hr2 v hv fuel ?_, _, d2, d4 (by omega), Or.inl d3, d1,
      rfl⟩
    have := digits_length r hr 64 v.natAbs (by omega)
    omega

/-! ### Reading -/

theorem digit_denotes {c d r : Nat} (h : Denotes c d) (hd : d < r) (hr : r ≤ 36) :
    digit c r = d := by
  unfold Denotes letter at h
  unfold digit
  have : (if 48 ≤ c ∧ c ≤ 57 then some ((c : Int) - 48)
    else if 97 ≤ c ∧ c ≤ 122 then some ((c : Int) - 97 + 10)
    else if 65 ≤ c ∧ c ≤ 90 then some ((c : Int) - 65 + 10)
    else none) = some (d : Int) := by
    rcases h with h | h
    · by_cases hd10 : d < 10
      · rw [if_pos hd10] at h
        rw [if_pos (by omega)]; congr 1; omega
      · rw [if_neg hd10] at h
        rw [if_neg (by omega), if_pos (by omega)]; congr 1; omega
    · rw [if_neg (by omega), if_neg (by omega), if_pos (by omega)]; congr 1; omega
  rw [this]
  simp only
  rw [if_pos (by omega)]

private theorem value_cons (r d : Nat) (ds : List Nat) :
    value r (d :: ds) = d * r ^ ds.length + value r ds := by
  have gen : ∀ (ds : List Nat) a, ds.foldl (fun a d => a * r + d) a = a * r ^ ds.length + value r ds := by
    intro ds
    induction ds with
    | nil => intro a; simp [value]
    | cons e ds ih =>
      intro a
      simp only [List.foldl_cons, value, Nat.zero_mul, Nat.zero_add]
      rw [ih, ih]
      rw [List.length_cons, Nat.pow_succ, Nat.add_mul, Nat.mul_assoc, Nat.mul_comm r, Nat.add_assoc]
  simp only [value, List.foldl_cons, Nat.zero_mul, Nat.zero_add]
  exact gen ds d

private theorem wrap_add (a b c : Int) : wrap64 (wrap64 (a + wrap64 b) + c) = wrap64 (a + b + c) := by
  unfold wrap64
  rw [Int.bmod_add_bmod, Int.add_right_comm, Int.add_bmod_bmod, Int.add_right_comm]

private theorem wrap_wrap (a : Int) : wrap64 (wrap64 a) = wrap64 a := by
  unfold wrap64; exact Int.bmod_bmod

private theorem wrap_neg (a : Int) : wrap64 (-(wrap64 a)) = wrap64 (-a) := by
  unfold wrap64
  rw [← Int.zero_sub (Int.bmod a _), Int.sub_bmod_bmod, Int.zero_sub]

theorem wrap_of_range {x : Int} (h1 : -2 ^ 63 ≤ x) (h2 : x < 2 ^ 63) : wrap64 x = x := by
  unfold wrap64
  exact Int.bmod_eq_of_le (by omega) (by omega)

private theorem parseLoop_eq (r : Nat) (hr : 2 ≤ r) (hr2 : r ≤ 36) : ∀ (s ds : List Nat) (number : Int),
    Spells s ds → (∀ d ∈ ds, d < r) → ∀ f : Int,
    (ds ≠ [] → f = ((r ^ (ds.length - 1) : Nat) : Int)) → wrap64 number = number →
    parseLoop (r : Int) s number f = .ok (wrap64 (number + value r ds)) := by
  intro s ds number h
  induction h generalizing number with
  | nil =>
    intro _ f _ hw
    rw [parseLoop]; simp [value, hw]
  | @cons c d s ds hc _ ih =>
    intro hd f hf hw
    have hd0 := hd d (List.mem_cons_self ..)
    have hf' := hf (by simp)
    rw [List.length_cons, Nat.add_sub_cancel] at hf'
    rw [parseLoop, digit_denotes hc hd0 hr2, if_pos (by omega)]
    rw [ih _ (fun e he => hd e (List.mem_cons_of_mem _ he)) _ ?_ (wrap_wrap _)]
    · rw [wrap_add, value_cons, hf']
      congr 2
      push_cast
      rw [Int.add_assoc]
    · intro hne
      rw [hf']
      obtain ⟨k, hk⟩ : ∃ k, ds.length = k + 1 := ⟨ds.length - 1, by
        have : ds.length ≠ 0 := fun h => hne (List.eq_nil_of_length_eq_zero h)
        omega⟩
      rw [hk, Nat.add_sub_cancel, Nat.pow_succ]
      show ((r ^ k * r / r : Nat) : Int) = _
      rw [Nat.mul_div_cancel _ (by omega)]

private theorem pow_eq (r : Nat) : ∀ k, r ^ k < 2 ^ 63 → 1 ≤ r → pow (r : Int) k = ((r ^ k : Nat) : Int) := by
  intro k
  induction k with
  | zero => intro _ _; simp [pow]
  | succ k ih =>
    intro h h1
    have : r ^ k ≤ r ^ (k + 1) := Nat.pow_le_pow_right h1 (by omega)
    rw [pow, ih (by omega) h1]
    rw [wrap_of_range]
    · push_cast; rw [Int.pow_succ]
    · have : (0 : Int) ≤ ((r ^ k : Nat) : Int) * r := Int.mul_nonneg (by omega) (by omega)
      omega
    · have : ((r ^ k : Nat) : Int) * r = ((r ^ (k + 1) : Nat) : Int) := by push_cast; rw [Int.pow_succ]
      rw [this]; omega

/-- C54: a sequence of digits, small or capital letters, is read as its value with its sign
(modulo 2^64, so exactly when it is in the range), provided that the weight of its first digit is in
the range. -/
theorem parse_digits (r : Nat) (hr : 2 ≤ r) (hr2 : r ≤ 36) (neg : Bool) (s ds : List Nat)
    (h : Spells s ds) (hd : ∀ d ∈ ds, d < r) (hw : r ^ (ds.length - 1) < 2 ^ 63) :
    parseLong ((if neg then [45] else []) ++ s) r =
      .ok (wrap64 (if neg then -(value r ds : Int) else value r ds)) := by
  have hlen : s.length = ds.length := h.length_eq
  have hloop := parseLoop_eq r hr hr2 s ds 0 h hd (pow (r : Int) (s.length - 1))
    (fun _ => by rw [hlen]; exact pow_eq r _ hw (by omega)) (by decide)
  cases neg with
  | true =>
    simp only [parseLong, if_true, List.cons_append, List.nil_append, List.head?_cons, decide_true,
      List.tail_cons, hloop, Int.zero_add]
    simp only [Except.map, wrap_neg]
  | false =>
    have hne : ¬ s.head? = some 45 := by
      intro h1
      cases h with
      | nil => simp at h1
      | cons hc _ =>
        simp only [List.head?_cons, Option.some.injEq] at h1
        subst h1
        unfold Denotes letter at hc
        rcases hc with hc | hc
        · split at hc <;> omega
        · omega
    simp only [parseLong, Bool.false_eq_true, if_false, List.nil_append, hne, decide_false, hloop,
      Int.zero_add]
    rfl

private theorem denotes_map (ds : List Nat) : Spells (ds.map letter) ds := by
  induction ds with
  | nil => exact .nil
  | cons d ds ih => exact .cons (Or.inl rfl) ih

private theorem value_ge (r : Nat) (d : Nat) (ds : List Nat) (hd : d ≠ 0) :
    r ^ ds.length ≤ value r (d :: ds) := by
  rw [value_cons]
  have : r ^ ds.length ≤ d * r ^ ds.length := Nat.le_mul_of_pos_left _ (by omega)
  omega

private theorem value_zero (r : Nat) (hr : 1 ≤ r) (ds : List Nat) (h : value r ds = 0) :
    ∀ d ∈ ds, d = 0 := by
  induction ds with
  | nil => simp
  | cons e ds ih =>
    rw [value_cons] at h
    have hp : 0 < r ^ ds.length := Nat.pow_pos (by omega)
    have he : e = 0 := by
      rcases Nat.eq_zero_or_pos e with h1 | h1
      · exact h1
      · have := Nat.mul_pos h1 hp
        omega
    intro d hd
    rcases List.mem_cons.1 hd with hd | hd
    · rw [hd, he]
    · exact ih (by omega) d hd

private theorem parseLoop_zeros (r : Nat) (hr : 1 ≤ r) (number f : Int) (hw : wrap64 number = number) :
    ∀ ds : List Nat, (∀ d ∈ ds, d = 0) → ∀ f : Int,
      parseLoop (r : Int) (ds.map letter) number f = .ok number := by
  intro ds
  induction ds with
  | nil => intro _ f; rfl
  | cons d ds ih =>
    intro h f
    have hd := h d (List.mem_cons_self ..)
    subst hd
    have e : digit (letter 0) (r : Int) = 0 := by
      unfold digit letter
      simp
      omega
    rw [List.map_cons, parseLoop, e, if_pos (by omega)]
    have : wrap64 (number + wrap64 (0 * f)) = number := by
      rw [Int.zero_mul, show wrap64 0 = 0 by decide, Int.add_zero, hw]
    rw [this]
    exact ih (fun e he => h e (List.mem_cons_of_mem _ he)) _

/-- C54: every number in the range, written in any base from 2 to 36, is read back. -/
theorem parse_numeral (r : Nat) (hr : 2 ≤ r) (hr2 : r ≤ 36) (v : Int) (h1 : -2 ^ 63 ≤ v)
    (h2 : v < 2 ^ 63) (s : List Nat) (hs : Numeral r v s) : parseLong s r = .ok v := by
  obtain ⟨ds, hd, hne, hz, hval, rfl⟩ := hs
  obtain ⟨d, ds', rfl⟩ : ∃ d ds', ds = d :: ds' := by
    cases ds with
    | nil => exact absurd rfl hne
    | cons d ds' => exact ⟨d, ds', rfl⟩
  have hsign : (if v < 0 then [45] else ([] : List Nat)) = if decide (v < 0) then [45] else [] := by
    by_cases h : v < 0 <;> simp [h]
  have hres : (if decide (v < 0) = true then -(value r (d :: ds') : Int) else value r (d :: ds')) = v := by
    rw [hval]
    by_cases h : v < 0 <;> simp [h] <;> omega
  by_cases hw : r ^ ds'.length < 2 ^ 63
  · have := parse_digits r hr hr2 (decide (v < 0)) _ _ (denotes_map (d :: ds')) hd (by simpa using hw)
    rw [hsign, this, hres, wrap_of_range h1 h2]
  · -- the smallest number in a base whose power it is
    have hd0 : d ≠ 0 := by
      intro h
      rcases hz with hz | hz
      · simp [h] at hz
      · have : ds' = [] := by simpa using (List.cons.inj hz).2
        subst this
        simp at hw
    have hge := value_ge r d ds' hd0
    have hv : v = -2 ^ 63 := by omega
    have hval' : value r (d :: ds') = 2 ^ 63 := by rw [hval, hv]; decide
    have hp : r ^ ds'.length = 2 ^ 63 := by omega
    rw [value_cons, hp] at hval'
    have hd1 : d = 1 ∧ value r ds' = 0 := by omega
    obtain ⟨rfl, hrest⟩ := hd1
    have hzero := value_zero r (by omega) ds' hrest
    have hpow : pow (r : Int) ds'.length = -2 ^ 63 := by
      cases hk : ds'.length with
      | zero => rw [hk] at hp; simp at hp
      | succ k =>
        rw [hk, Nat.pow_succ] at hp
        have hlt : r ^ k < 2 ^ 63 := by
          rw [← hp]
          have : 0 < r ^ k := Nat.pow_pos (by omega)
          calc r ^ k < r ^ k * 2 := by omega
            _ ≤ r ^ k * r := Nat.mul_le_mul_left _ hr
        rw [pow, pow_eq r k hlt (by omega)]
        have : ((r ^ k : Nat) : Int) * r = 2 ^ 63 := by
          have := congrArg (Nat.cast : Nat → Int) hp
          rw [Int.natCast_mul] at this
          exact this
        rw [this]; decide
    have h1r : digit (letter 1) (r : Int) = 1 :=
      digit_denotes (d := 1) (Or.inl rfl) (by omega) hr2
    subst hv
    have : parseLoop (r : Int) (letter 1 :: ds'.map letter) 0 (-2 ^ 63) = .ok (-2 ^ 63) := by
      rw [parseLoop, h1r, if_pos (by omega)]
      rw [show wrap64 (0 + wrap64 (1 * -2 ^ 63)) = -2 ^ 63 by decide]
      exact parseLoop_zeros r (by omega) _ 0 (by decide) ds' hzero _
    simp only [parseLong, List.map_cons]
    simp only [show ((-2 ^ 63 : Int) < 0) = True by simp, if_true, List.cons_append, List.nil_append,
      List.head?_cons, decide_true, List.tail_cons, List.length_cons, List.length_map,
      Nat.add_sub_cancel, hpow, this]
    rfl

/-- C54: writing and reading back gives the number. -/
theorem parse_toString (r : Nat) (hr : 2 ≤ r) (hr2 : r ≤ 36) (v : Int) (h1 : -2 ^ 63 ≤ v)
    (h2 : v < 2 ^ 63) : ∃ s, toString 65 v r = some (.ok s) ∧ parseLong s r = .ok v := by
  obtain ⟨s, hs, hn⟩ := toString_numeral r hr hr2 v h1 (by omega)
  exact ⟨s, hs 65 (Nat.le_refl _), parse_numeral r hr hr2 v h1 h2 s hn⟩

/-- C54: the same for `int`. -/
theorem parseInt_toString (r : Nat) (hr : 2 ≤ r) (hr2 : r ≤ 36) (v : Int) (h1 : -2 ^ 31 ≤ v)
    (h2 : v < 2 ^ 31) : ∃ s, toString 65 v r = some (.ok s) ∧ parseInt s r = .ok v := by
  obtain ⟨s, hs, hp⟩ := parse_toString r hr hr2 v (by omega) (by omega)
  refine ⟨s, hs, ?_⟩
  unfold parseInt
  rw [hp]
  show Except.ok (wrap32 v) = _
  congr 1
  exact Int.bmod_eq_of_le (by omega) (by omega)

/-- C54: what contains any other character is refused. -/
theorem parse_refuses (r : Nat) (hr2 : r ≤ 36) (s : List Nat)
    (h : ∃ c ∈ (if s.head? = some 45 then s.tail else s), ∀ d, d < r → ¬ Denotes c d) :
    parseLong s r = .error .numberFormat := by
  have loop : ∀ (t : List Nat) (number f : Int), (∃ c ∈ t, ∀ d, d < r → ¬ Denotes c d) →
      parseLoop (r : Int) t number f = .error .numberFormat := by
    intro t
    induction t with
    | nil => intro _ _ h; obtain ⟨c, hc, _⟩ := h; simp at hc
    | cons c t ih =>
      intro number f h
      rw [parseLoop]
      split
      · rename_i hdig
        refine ih _ _ ?_
        obtain ⟨c', hc', hn⟩ := h
        rcases List.mem_cons.1 hc' with rfl | hc'
        · exfalso
          unfold digit at hdig
          by_cases a1 : 48 ≤ c' ∧ c' ≤ 57
          · simp only [if_pos a1] at hdig
            split at hdig
            · exact hn (c' - 48) (by omega) (Or.inl (by unfold letter; rw [if_pos (by omega)]; omega))
            · omega
          · by_cases a2 : 97 ≤ c' ∧ c' ≤ 122
            · simp only [if_neg a1, if_pos a2] at hdig
              split at hdig
              · exact hn (c' - 87) (by omega)
                  (Or.inl (by unfold letter; rw [if_neg (by omega)]; omega))
              · omega
            · by_cases a3 : 65 ≤ c' ∧ c' ≤ 90
              · simp only [if_neg a1, if_neg a2, if_pos a3] at hdig
                split at hdig
                · exact hn (c' - 55) (by omega) (Or.inr (by omega))
                · omega
              · simp only [if_neg a1, if_neg a2, if_neg a3] at hdig
                omega
        · exact ⟨c', hc', hn⟩
      · rfl
  have e : (if decide (s.head? = some 45) = true then s.tail else s) =
      (if s.head? = some 45 then s.tail else s) := by
    by_cases h : s.head? = some 45 <;> simp [h]
  unfold parseLong
  simp only [e]
  rw [loop _ _ _ h]
  rfl

/-- C54: `Integer.toHexString`, `toOctalString` and `toBinaryString` write the value modulo 2^32. -/
theorem toUnsignedString_numeral (r : Nat) (hr : 2 ≤ r) (hr2 : r ≤ 36) (v : Int) :
    ∃ s, toUnsignedString 65 v r = some (.ok s) ∧ Numeral r (v % 2 ^ 32) s := by
  obtain ⟨s, hs, hn⟩ := toString_numeral r hr hr2 (v % 2 ^ 32) (by omega) (by omega)
  exact ⟨s, hs 65 (Nat.le_refl _), hn⟩

/-! ### Examples -/

private def chars (s : String) : List Nat := s.toList.map Char.toNat

/-- The smallest `long` in base 8, where its first digit weighs 2^63. -/
example : toString 65 (-2 ^ 63) 8 = some (.ok (chars "-1000000000000000000000")) ∧
    parseLong (chars "-1000000000000000000000") 8 = .ok (-2 ^ 63) := by decide +kernel

example : parseLong (chars "-7fFf") 16 = .ok (-32767) := by decide +kernel

/-! ### Limits of the code -/

/-- C54 (limit of the code): leading zeros may change the value: the weight of the first digit
overflows. -/
theorem leading_zeros_change_value :
    parseLong (chars "00000000000000000001") 10 = .ok 0 := by decide +kernel

/-- C54 (limit of the code): numbers out of range are not refused. -/
theorem out_of_range_accepted : parseInt (chars "4294967297") 10 = .ok 1 ∧
    parseLong (chars "9223372036854775808") 10 = .ok (-2 ^ 63) := by decide +kernel

/-- C54 (limit of the code): texts without digits are read as zero, and a plus sign is refused. -/
theorem empty_accepted : parseLong [] 10 = .ok 0 ∧ parseLong (chars "-") 10 = .ok 0 ∧
    parseLong (chars "+1") 10 = .error .numberFormat := by decide +kernel

/-- C54 (limit of the code): `Long.toHexString(-1)` is "-1", not the value modulo 2^64. -/
theorem long_hex_negative : longToUnsignedString 65 (-1) 16 = some (.ok (chars "-1")) := by
  decide +kernel

/-- C54: exactly the bases below 1 and above 36 are refused. -/
theorem toString_refuses (fuel : Nat) (v radix : Int) :
    toString fuel v radix = some (.error .illegalArgument) ↔ radix < 1 ∨ 36 < radix := by
  unfold toString
  split
  · rename_i h; simpa using h
  · rename_i h
    constructor
    · intro e
      exfalso
      split at e
      · simp at e
      · simp only [Option.bind_eq_some_iff] at e
        obtain ⟨a, _, b, _, e⟩ := e
        split at e
        · obtain ⟨_, _, e⟩ := Option.map_eq_some_iff.1 e
          simp at e
        · simp at e
    · intro h'; exact absurd h' h

example : toString 65 255 37 = some (.error .illegalArgument) := (toString_refuses _ _ _).2 (.inr (by decide))

/-- C54 (limit of the code): base 1 is let through and never ends, for every number but zero. -/
theorem base_one_never_ends (fuel : Nat) (v : Int) (hv : v ≠ 0) : toString fuel v 1 = none := by
  have loop : ∀ fuel size, sizeLoop 1 fuel v size = none := by
    intro fuel
    induction fuel with
    | zero => intro size; rfl
    | succ fuel ih =>
      intro size
      rw [sizeLoop, if_neg hv, Int.tdiv_one]; exact ih _
  unfold toString
  rw [if_neg (by omega), if_neg hv]
  simp only [loop, Option.bind_none]

example : toString 1000 5 1 = none := base_one_never_ends 1000 5 (by decide)

end Avian.Numbers
