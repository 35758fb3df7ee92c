import Verif.Codegen.Handlers

/-
C96: exceptions in compiled code reach the handler that the bytecode names, and stack traces its lines.
-/
namespace Avian.Handlers

/-! ### Specification -/

/-- Code laid out in the order of the instructions (C95). -/
structure Sound (c : Code) : Prop where
  mono : ∀ i j, c.visited i = true → c.visited j = true → i ≤ j → c.off i ≤ c.off j
  inside : ∀ i, c.visited i = true → i < c.len * (c.subs + 1)
  small : c.size < 2 ^ 32

/-- The byte at `k` belongs to the code of the instruction at `i`: it is behind its start and before the starts of all that follow. -/
structure InCode (c : Code) (i k : Nat) : Prop where
  visited : c.visited i = true
  start : c.off i ≤ k
  stop : k < c.size
  before : ∀ j, c.visited j = true → i < j → k < c.off j

/-- The entry of the bytecode guards the instruction, and takes the exception. -/
def Takes (shutdown : Bool) (inst : Nat → Bool) (ip : Nat) (e : Entry) : Bool :=
  decide (e.start ≤ ip) && decide (ip < e.stop) && exceptionMatch shutdown inst e.type

/-- Where an exception of the instruction at `ip` goes: to the handler of the first entry that takes it. -/
def handlerOf (shutdown : Bool) (inst : Nat → Bool) (es : List Entry) (ip : Nat) : Option Nat :=
  (es.find? (Takes shutdown inst ip)).map (·.ip)

/-- The end of every range with translated instructions is a translated instruction, or the end of a method without subroutines. -/
def EndsKnown (c : Code) (es : List Entry) : Prop :=
  ∀ e ∈ es, ∀ k, k ≤ c.subs → (∃ j, c.visited j = true ∧ k * c.len + e.start ≤ j ∧ j < k * c.len + e.stop) →
    (e.stop < c.len ∧ c.visited (k * c.len + e.stop) = true) ∨ (c.subs = 0 ∧ e.stop = c.len)

/-- The line of an instruction: that of the last entry at or in front of it. -/
def lineOf (es : List (Nat × Nat)) (ip : Nat) : Option Nat := ((es.filter fun e => e.1 ≤ ip).getLast?).map (·.2)

/-- A line whose instructions were translated has one of them in front of its last byte; the first instruction of the last line was
translated if there is any. -/
def Whole (c : Code) : List (Nat × Nat) → Prop
  | [] => True
  | [a] => (∃ j, c.visited j = true ∧ a.1 ≤ j) → c.visited a.1 = true
  | a :: b :: es => ((∃ j, c.visited j = true ∧ a.1 ≤ j ∧ j < b.1) → ∃ j, c.visited j = true ∧ a.1 ≤ j ∧ j < b.1 - 1) ∧ Whole c (b :: es)

/-! ### Proofs -/

variable {c : Code} {shutdown : Bool} {inst : Nat → Bool}

theorem InCode.le_iff {i k s : Nat} (hc : Sound c) (h : InCode c i k) (hs : c.visited s = true) : c.off s ≤ k ↔ s ≤ i := by
  constructor
  · intro h1
    rcases Nat.lt_or_ge i s with h2 | h2
    · have := h.before s hs h2; omega
    · exact h2
  · intro h1
    exact Nat.le_trans (hc.mono s i hs h.visited h1) h.start

theorem forwards_some {v : Nat → Bool} {a b s : Nat} (h : forwards v a b = some s) :
    v s = true ∧ a ≤ s ∧ s < b ∧ ∀ j, a ≤ j → v j = true → s ≤ j := by
  unfold forwards at h
  obtain ⟨h1, as, bs, h2, h3⟩ := List.find?_eq_some_iff_append.1 h
  have hm : s ∈ List.range' a (b - a) := by rw [h2]; simp
  rw [List.mem_range'_1] at hm
  refine ⟨h1, hm.1, by omega, fun j hj hv => ?_⟩
  rcases Nat.lt_or_ge j s with hlt | hge
  · exfalso
    have hjm : j ∈ List.range' a (b - a) := by rw [List.mem_range'_1]; omega
    rw [h2, List.mem_append, List.mem_cons] at hjm
    have hp : (List.range' a (b - a)).Pairwise (· < ·) := List.pairwise_lt_range'
    rw [h2, List.pairwise_append, List.pairwise_cons] at hp
    rcases hjm with h | rfl | h
    · have := h3 j h; simp [hv] at this
    · omega
    · have := hp.2.1.1 j h; omega
  · exact hge

theorem forwards_none {v : Nat → Bool} {a b : Nat} : forwards v a b = none ↔ ∀ j, a ≤ j → j < b → v j = false := by
  unfold forwards
  rw [List.find?_eq_none]
  constructor
  · intro h j h1 h2
    have := h j (by rw [List.mem_range'_1]; omega)
    simpa using this
  · intro h j hj
    rw [List.mem_range'_1] at hj
    simp [h j hj.1 (by omega)]

theorem backwards_end {c : Code} {a b : Nat} (hb : a < c.len * (c.subs + 1)) (hv : c.visited a = true) (hab : b ≤ a) :
    backwards c.visited c.len c.subs a b = some a := by
  unfold backwards
  rw [if_neg (by omega)]
  have e : a + 1 - b = (a - b) + 1 := by omega
  rw [e, List.range'_concat, List.reverse_append]
  have e2 : b + 1 * (a - b) = a := by omega
  rw [e2]
  simp [hv]

/-- One entry. -/
theorem one_ok (hc : Sound c) {es : List Entry} (hl : ∀ e ∈ es, e.stop ≤ c.len) (he : EndsKnown c es) {e : Entry} (hm : e ∈ es) {n : Nat}
    (hn : n ≤ c.subs) :
    ∃ r, translateOne c (n * c.len) e = some r ∧
      (∀ x, r = some x → x.target = c.off e.ip ∧ x.type = e.type) ∧
      ∀ i k, InCode c i k → ((∃ x, r = some x ∧ x.start ≤ k ∧ k < x.stop) ↔ n * c.len + e.start ≤ i ∧ i < n * c.len + e.stop) := by
  unfold translateOne
  cases hf : forwards c.visited (n * c.len + e.start) (n * c.len + e.stop) with
  | none =>
    refine ⟨none, rfl, by simp, fun i k h => ⟨by simp, fun hi => ?_⟩⟩
    have := (forwards_none.1 hf) i hi.1 hi.2
    rw [h.visited] at this
    cases this
  | some s =>
    obtain ⟨s1, s2, s3, s4⟩ := forwards_some hf
    have hnl : (n + 1) * c.len ≤ c.len * (c.subs + 1) := by
      rw [Nat.mul_comm c.len]; exact Nat.mul_le_mul_right _ (by omega)
    rw [Nat.add_mul, Nat.one_mul] at hnl
    rcases he e hm n hn ⟨s, s1, s2, s3⟩ with ⟨h1, h2⟩ | ⟨h1, h2⟩
    · rw [show backwards c.visited c.len c.subs (n * c.len + e.stop) (n * c.len + e.start) = some (n * c.len + e.stop) from
        backwards_end (by omega) h2 (by omega)]
      have hne : n * c.len + e.stop ≠ c.len := by
        intro hcon
        cases n with
        | zero => omega
        | succ n => rw [Nat.add_mul] at hcon; omega
      refine ⟨some _, rfl, ?_, ?_⟩
      · rintro x ⟨⟩; exact ⟨rfl, rfl⟩
      · intro i k h
        rw [if_neg hne]
        constructor
        · rintro ⟨x, ⟨⟩, hx1, hx2⟩
          have hx1 : c.off s ≤ k := hx1
          have hx2 : k < c.off (n * c.len + e.stop) := hx2
          have a1 := (h.le_iff hc s1).1 hx1
          have a2 : ¬ n * c.len + e.stop ≤ i := fun hh => by have := (h.le_iff hc h2).2 hh; omega
          omega
        · intro ⟨hi1, hi2⟩
          have a1 := (h.le_iff hc s1).2 (s4 i hi1 h.visited)
          exact ⟨_, rfl, a1, h.before _ h2 hi2⟩
    · have hn0 : n = 0 := by omega
      subst hn0
      have hb : backwards c.visited c.len c.subs (0 * c.len + e.stop) (0 * c.len + e.start) = some c.len := by
        unfold backwards
        rw [h1, h2, if_pos (by omega), if_neg (by omega)]
      rw [hb]
      refine ⟨some _, rfl, ?_, ?_⟩
      · rintro x ⟨⟩; exact ⟨rfl, rfl⟩
      · intro i k h
        rw [if_pos rfl]
        constructor
        · rintro ⟨x, ⟨⟩, hx1, hx2⟩
          have hx1 : c.off s ≤ k := hx1
          have a1 := (h.le_iff hc s1).1 hx1
          have a2 := hc.inside i h.visited
          rw [h1] at a2
          omega
        · intro ⟨hi1, hi2⟩
          have a1 := (h.le_iff hc s1).2 (s4 i hi1 h.visited)
          exact ⟨_, rfl, a1, h.stop⟩

/-- An entry of the compiled table takes the exception at `k`. -/
def Hit (shutdown : Bool) (inst : Nat → Bool) (k : Nat) (r : Range) : Bool :=
  decide (r.start ≤ k ∧ k < r.stop) && exceptionMatch shutdown inst r.type

/-- An entry, in copy `n`. -/
def TakesIn (shutdown : Bool) (inst : Nat → Bool) (base i : Nat) (e : Entry) : Bool :=
  decide (base + e.start ≤ i ∧ i < base + e.stop) && exceptionMatch shutdown inst e.type

theorem copy_ok (hc : Sound c) {all : List Entry} (hl : ∀ e ∈ all, e.stop ≤ c.len) (he : EndsKnown c all) {n : Nat} (hn : n ≤ c.subs) :
    ∀ es, (∀ e ∈ es, e ∈ all) → ∃ rs, translateCopy c (n * c.len) es = some rs ∧
      ∀ i k, InCode c i k → (rs.find? (Hit shutdown inst k)).map (·.target) =
        (es.find? (TakesIn shutdown inst (n * c.len) i)).map fun e => c.off e.ip
  | [], _ => ⟨[], rfl, fun _ _ _ => rfl⟩
  | e :: es, hs => by
    obtain ⟨r, h1, h2, h3⟩ := one_ok hc hl he (hs e List.mem_cons_self) hn
    obtain ⟨rs, h4, h5⟩ := copy_ok hc hl he hn es (fun x hx => hs x (List.mem_cons_of_mem _ hx))
    refine ⟨r.toList ++ rs, by simp only [translateCopy, h1, h4], fun i k h => ?_⟩
    have h6 := h3 i k h
    cases r with
    | none =>
      have hno : TakesIn shutdown inst (n * c.len) i e = false := by
        unfold TakesIn
        have : ¬ (n * c.len + e.start ≤ i ∧ i < n * c.len + e.stop) := fun hh => by
          obtain ⟨x, hx, _⟩ := h6.2 hh; cases hx
        simp only [this, decide_false, Bool.false_and]
      rw [List.find?_cons_of_neg (by simp [hno])]
      exact h5 i k h
    | some x =>
      obtain ⟨ht, hty⟩ := h2 x rfl
      have hsame : Hit shutdown inst k x = TakesIn shutdown inst (n * c.len) i e := by
        unfold Hit TakesIn
        rw [hty]
        congr 1
        rw [decide_eq_decide]
        constructor
        · intro hh; exact h6.1 ⟨x, rfl, hh⟩
        · intro hh
          obtain ⟨y, hy, hh⟩ := h6.2 hh
          cases hy
          exact hh
      simp only [Option.toList_some, List.cons_append, List.nil_append, List.find?_cons, hsame]
      cases hb : TakesIn shutdown inst (n * c.len) i e with
      | true => simp [ht]
      | false => exact h5 i k h

theorem from_ok (hc : Sound c) {es : List Entry} (hl : ∀ e ∈ es, e.stop ≤ c.len) (he : EndsKnown c es) :
    ∀ m n, n + m ≤ c.subs + 1 → ∃ rs, translateFrom c es m n = some rs ∧
      ∀ i k, InCode c i k → (rs.find? (Hit shutdown inst k)).map (·.target) =
        if n ≤ i / c.len ∧ i / c.len < n + m then (es.find? (Takes shutdown inst (i % c.len))).map (fun e => c.off e.ip) else none
  | 0, n, _ => ⟨[], rfl, fun i k _ => by rw [if_neg (by omega)]; rfl⟩
  | m + 1, n, hnm => by
    obtain ⟨rs, h1, h2⟩ := copy_ok (shutdown := shutdown) (inst := inst) hc hl he (n := n) (by omega) es (fun _ h => h)
    obtain ⟨rs', h3, h4⟩ := from_ok hc hl he m (n + 1) (by omega)
    refine ⟨rs ++ rs', by simp only [translateFrom, h1, h3], fun i k h => ?_⟩
    rw [List.find?_append, Option.map_or, h2 i k h, h4 i k h]
    have hdm := Nat.div_add_mod i c.len
    have hpos : 0 < c.len := by
      rcases Nat.eq_zero_or_pos c.len with hz | hz
      · have := hc.inside i h.visited; rw [hz] at this; omega
      · exact hz
    have hlt := Nat.mod_lt i hpos
    by_cases hq : i / c.len = n
    · have hsame : es.find? (TakesIn shutdown inst (n * c.len) i) = es.find? (Takes shutdown inst (i % c.len)) := by
        congr 1
        funext e
        unfold TakesIn Takes
        rw [← Bool.decide_and]
        congr 1
        rw [decide_eq_decide]
        rw [hq, Nat.mul_comm] at hdm
        omega
      rw [hsame, if_neg (by omega), if_pos (by omega), Option.or_none]
    · have hnone : es.find? (TakesIn shutdown inst (n * c.len) i) = none := by
        rw [List.find?_eq_none]
        intro e hem
        have := hl e hem
        have : ¬ (n * c.len + e.start ≤ i ∧ i < n * c.len + e.stop) := by
          intro hh
          apply hq
          refine Nat.div_eq_of_lt_le (by omega) ?_
          rw [Nat.add_mul]; omega
        simp [TakesIn, this]
      rw [hnone]
      simp only [Option.map_none, Option.none_or]
      by_cases hr : n + 1 ≤ i / c.len ∧ i / c.len < n + 1 + m
      · rw [if_pos hr, if_pos (by omega)]
      · rw [if_neg hr, if_neg (by omega)]

theorem key_eq {k : Nat} (h : k < 2 ^ 32) : (k + 1 + 2 ^ 32 - 1) % 2 ^ 32 = k := by omega

/-! ### Theorems: handlers -/

/-- **C96.** An exception raised in the code of an instruction (of any copy, when there are subroutines) goes to the handler of the first
entry of the bytecode's table that guards the instruction and takes the exception; nowhere in this method if there is none. -/
theorem handler_ok_partial (hc : Sound c) {es : List Entry} (hl : ∀ e ∈ es, e.stop ≤ c.len) (he : EndsKnown c es) :
    ∃ rs, translate c es = some rs ∧
      ∀ i k, InCode c i k → find shutdown inst rs (k + 1) = (handlerOf shutdown inst es (i % c.len)).map c.off := by
  obtain ⟨rs, h1, h2⟩ := from_ok (shutdown := shutdown) (inst := inst) hc hl he (c.subs + 1) 0 (by omega)
  refine ⟨rs, h1, fun i k h => ?_⟩
  have h3 := h2 i k h
  unfold find
  simp only
  rw [key_eq (Nat.lt_trans h.stop hc.small)]
  have hq : i / c.len < c.subs + 1 := Nat.div_lt_of_lt_mul (hc.inside i h.visited)
  rw [if_pos ⟨Nat.zero_le _, by omega⟩] at h3
  unfold handlerOf
  rw [Option.map_map]
  exact h3

/-- **C96, a disagreement.** The end of the range is an instruction that was not translated (nothing reaches it): an exception of the last
instruction of the range finds no handler, although the entry guards it and takes every exception. -/
theorem dead_end_wrong (hc : Sound c) (hsub : c.subs = 0) {e : Entry} (hl : e.stop < c.len) (hty : e.type = 0)
    (hdead : c.visited e.stop = false) {i k : Nat} (hik : InCode c i k) (hi : e.start ≤ i) (hi' : i < e.stop)
    (hlast : ∀ j, c.visited j = true → i < j → e.stop ≤ j) :
    handlerOf shutdown inst [e] i = some e.ip ∧ ∃ rs, translate c [e] = some rs ∧ find shutdown inst rs (k + 1) = none := by
  constructor
  · simp [handlerOf, Takes, hi, hi', exceptionMatch, hty]
  · have hb : backwards c.visited c.len c.subs e.stop e.start = some i := by
      unfold backwards
      rw [hsub, if_neg (by omega), List.find?_eq_some_iff_append]
      refine ⟨hik.visited, (List.range' (i + 1) (e.stop - i)).reverse, (List.range' e.start (i - e.start)).reverse, ?_, ?_⟩
      · rw [show e.stop + 1 - e.start = (i - e.start) + (1 + (e.stop - i)) by omega, ← List.range'_append_1, ← List.range'_append_1,
          show e.start + (i - e.start) = i by omega]
        simp
      · intro j hj
        rw [List.mem_reverse, List.mem_range'_1] at hj
        rcases Nat.lt_or_ge j e.stop with h1 | h1
        · cases hv : c.visited j with
          | false => rfl
          | true => have := hlast j hv (by omega); omega
        · have : j = e.stop := by omega
          rw [this, hdead]; rfl
    obtain ⟨s, hs⟩ : ∃ s, forwards c.visited e.start e.stop = some s := by
      cases hf : forwards c.visited e.start e.stop with
      | some s => exact ⟨s, rfl⟩
      | none => have := (forwards_none.1 hf) i hi hi'; rw [hik.visited] at this; cases this
    rw [hsub] at hb
    have ht : translate c [e] = some [⟨c.off s, if i = c.len then c.size else c.off i, c.off e.ip, e.type⟩] := by
      simp [translate, hsub, translateFrom, translateCopy, translateOne, hs, hb]
    refine ⟨_, ht, ?_⟩
    unfold find
    simp only
    rw [key_eq (Nat.lt_trans hik.stop hc.small), if_neg (by omega)]
    have := hik.start
    have hno : ¬ (c.off s ≤ k ∧ k < c.off i) := by omega
    simp [hno]

/-- **C96, a disagreement.** A range that ends with the method, in a subroutine: an assertion fails. -/
theorem subroutine_end_wrong : ∃ c : Code, ∃ e : Entry, Sound c ∧ e.start < e.stop ∧ e.stop = c.len ∧ translate c [e] = none := by
  refine ⟨⟨fun i => decide (i < 8), fun i => 5 * i, 40, 4, 1⟩, ⟨2, 4, 0, 0⟩, ⟨?_, ?_, by decide⟩, by decide, by decide, by decide +kernel⟩
  · intro i j _ _ h
    show 5 * i ≤ 5 * j
    omega
  · intro i h
    simpa using h

/-! ### Proofs: lines -/

/-- What `translateLines` puts in the table, not packed. -/
def lineStarts (c : Code) : List (Nat × Nat) → List (Nat × Nat)
  | [] => []
  | [a] =>
    match forwards c.visited a.1 (a.1 + 1) with
    | none => []
    | some f => [(f, a.2)]
  | a :: b :: es =>
    match forwards c.visited a.1 (b.1 - 1) with
    | none => lineStarts c (b :: es)
    | some f => (f, a.2) :: lineStarts c (b :: es)

theorem lineStarts_cons (c : Code) (a b : Nat × Nat) (es : List (Nat × Nat)) : lineStarts c (a :: b :: es) =
    match forwards c.visited a.1 (b.1 - 1) with
    | none => lineStarts c (b :: es)
    | some f => (f, a.2) :: lineStarts c (b :: es) := rfl

def pack (e : Nat × Nat) : BitVec 64 := Lines.lineNumber (BitVec.ofNat 64 e.1) (BitVec.ofNat 64 e.2)

theorem translateLines_eq : ∀ es, translateLines c es = (lineStarts c es).map fun e => pack (c.off e.1, e.2)
  | [] => rfl
  | [a] => by
    obtain ⟨a1, a2⟩ := a
    unfold translateLines lineStarts
    simp only
    cases forwards c.visited a1 (a1 + 1) <;> rfl
  | a :: b :: es => by
    have ih := translateLines_eq (b :: es)
    obtain ⟨a1, a2⟩ := a
    obtain ⟨b1, b2⟩ := b
    unfold translateLines lineStarts
    simp only
    cases forwards c.visited a1 (b1 - 1) with
    | none => exact ih
    | some f => simp only [List.map_cons, ih]; rfl

theorem lineStarts_ge {m : Nat} : ∀ es : List (Nat × Nat), (∀ e ∈ es, m ≤ e.1) → ∀ e ∈ lineStarts c es, m ≤ e.1 ∧ c.visited e.1 = true
  | [], _, e, h => by cases h
  | [a], hm, e, h => by
    unfold lineStarts at h
    cases hf : forwards c.visited a.1 (a.1 + 1) with
    | none => rw [hf] at h; cases h
    | some f =>
      rw [hf] at h
      obtain ⟨f1, f2, f3, _⟩ := forwards_some hf
      have ha := hm a List.mem_cons_self
      rw [List.mem_singleton.1 h]
      exact ⟨Nat.le_trans ha f2, f1⟩
  | a :: b :: es, hm, e, h => by
    have ih := lineStarts_ge (b :: es) (fun x hx => hm x (List.mem_cons_of_mem _ hx))
    unfold lineStarts at h
    cases hf : forwards c.visited a.1 (b.1 - 1) with
    | none => rw [hf] at h; exact ih e h
    | some f =>
      rw [hf] at h
      obtain ⟨f1, f2, f3, _⟩ := forwards_some hf
      have ha := hm a List.mem_cons_self
      rcases List.mem_cons.1 h with h | h
      · rw [h]; exact ⟨Nat.le_trans ha f2, f1⟩
      · exact ih e h

theorem lineStarts_sorted : ∀ es : List (Nat × Nat), es.Pairwise (fun a b => a.1 ≤ b.1) → (lineStarts c es).Pairwise (fun a b => a.1 < b.1)
  | [], _ => List.Pairwise.nil
  | [a], _ => by
    unfold lineStarts
    cases forwards c.visited a.1 (a.1 + 1) <;> simp
  | a :: b :: es, hp => by
    have hp2 := (List.pairwise_cons.1 hp).2
    have ih := lineStarts_sorted (b :: es) hp2
    unfold lineStarts
    cases hf : forwards c.visited a.1 (b.1 - 1) with
    | none => exact ih
    | some f =>
      obtain ⟨f1, f2, f3, _⟩ := forwards_some hf
      refine List.pairwise_cons.2 ⟨fun e he => ?_, ih⟩
      have := (lineStarts_ge (m := b.1) (b :: es) (fun x hx => by
        rcases List.mem_cons.1 hx with rfl | hx
        · exact Nat.le_refl _
        · exact (List.pairwise_cons.1 hp2).1 x hx) e he).1
      show f < e.1
      omega

/-- The last element that is in front, and its line. -/
def lastOf (p : Nat × Nat → Bool) (l : List (Nat × Nat)) : Option Nat := ((l.filter p).getLast?).map (·.2)

theorem lastOf_cons (p : Nat × Nat → Bool) (a : Nat × Nat) (l : List (Nat × Nat)) :
    lastOf p (a :: l) = (lastOf p l).or (if p a then some a.2 else none) := by
  unfold lastOf
  by_cases h : p a = true
  · rw [List.filter_cons_of_pos h, List.getLast?_cons, if_pos h]
    cases (l.filter p).getLast? <;> rfl
  · rw [List.filter_cons_of_neg h, if_neg h, Option.or_none]

theorem lastOf_none {p : Nat × Nat → Bool} {l : List (Nat × Nat)} (h : lastOf p l = none) : ∀ e ∈ l, p e = false := by
  unfold lastOf at h
  rw [Option.map_eq_none_iff, List.getLast?_eq_none_iff, List.filter_eq_nil_iff] at h
  intro e he
  simpa using h e he

theorem starts_line (hc : Sound c) {i k : Nat} (h : InCode c i k) : ∀ es : List (Nat × Nat), es.Pairwise (fun a b => a.1 ≤ b.1) → Whole c es →
    lastOf (fun e => decide (c.off e.1 ≤ k)) (lineStarts c es) = lastOf (fun e => decide (e.1 ≤ i)) es
  | [], _, _ => rfl
  | [a], _, hw => by
    unfold lineStarts
    rw [lastOf_cons]
    cases hf : forwards c.visited a.1 (a.1 + 1) with
    | none =>
      have h1 := (forwards_none.1 hf) a.1 (Nat.le_refl _) (by omega)
      have h2 : ¬ a.1 ≤ i := fun hh => by
        have := hw ⟨i, h.visited, hh⟩
        rw [h1] at this; cases this
      simp only [h2, decide_false, Bool.false_eq_true, if_false, Option.or_none]
      rfl
    | some f =>
      obtain ⟨f1, f2, f3, _⟩ := forwards_some hf
      have hfa : f = a.1 := by omega
      subst hfa
      simp only [lastOf_cons, h.le_iff hc f1]
      rfl
  | a :: b :: es, hp, hw => by
    have hp2 := (List.pairwise_cons.1 hp).2
    have ih := starts_line hc h (b :: es) hp2 hw.2
    rw [lastOf_cons, ← ih, lineStarts_cons]
    cases ht : lastOf (fun e => decide (c.off e.1 ≤ k)) (lineStarts c (b :: es)) with
    | some x =>
      cases hf : forwards c.visited a.1 (b.1 - 1) with
      | none => simp only [ht, Option.some_or]
      | some f => simp only [lastOf_cons, ht, Option.some_or]
    | none =>
      have hb : ¬ b.1 ≤ i := by
        rw [ih] at ht
        have := lastOf_none ht b List.mem_cons_self
        simpa using this
      cases hf : forwards c.visited a.1 (b.1 - 1) with
      | none =>
        have h2 : ¬ a.1 ≤ i := fun hh => by
          obtain ⟨j, j1, j2, j3⟩ := hw.1 ⟨i, h.visited, hh, by omega⟩
          have := (forwards_none.1 hf) j j2 j3
          rw [j1] at this; cases this
        simp only [ht, h2, decide_false, Bool.false_eq_true, if_false, Option.none_or]
      | some f =>
        obtain ⟨f1, f2, f3, f4⟩ := forwards_some hf
        have hiff : c.off f ≤ k ↔ a.1 ≤ i := by
          rw [h.le_iff hc f1]
          exact ⟨fun hh => by omega, fun hh => f4 i hh h.visited⟩
        simp only [lastOf_cons, ht, hiff]

/-- Words of the table. -/
theorem pack_toNat {e : Nat × Nat} (h1 : e.1 < 2 ^ 32) (h2 : e.2 < 2 ^ 16) : (pack e).toNat = e.1 * 2 ^ 32 + e.2 := by
  unfold pack Lines.lineNumber
  rw [BitVec.toNat_or, BitVec.toNat_shiftLeft, BitVec.toNat_ofNat, BitVec.toNat_ofNat, Nat.mod_eq_of_lt (show e.1 < 2 ^ 64 by omega),
    Nat.mod_eq_of_lt (show e.2 < 2 ^ 64 by omega), Nat.shiftLeft_eq, Nat.mod_eq_of_lt (by omega), Nat.mul_comm,
    Nat.two_pow_add_eq_or_of_lt (by omega)]

theorem pack_ip {e : Nat × Nat} (h1 : e.1 < 2 ^ 32) (h2 : e.2 < 2 ^ 16) : (Lines.lineNumberIp (pack e)).toNat = e.1 := by
  unfold Lines.lineNumberIp
  rw [BitVec.toNat_setWidth, BitVec.toNat_ushiftRight, pack_toNat h1 h2, Nat.shiftRight_eq_div_pow]
  omega

theorem pack_line {e : Nat × Nat} (h1 : e.1 < 2 ^ 32) (h2 : e.2 < 2 ^ 16) : (Lines.lineNumberLine (pack e)).toInt = e.2 := by
  have h : (Lines.lineNumberLine (pack e)).toNat = e.2 := by
    unfold Lines.lineNumberLine
    rw [BitVec.toNat_setWidth, BitVec.toNat_and, pack_toNat h1 h2, show (0xFFFFFFFF#64).toNat = 2 ^ 32 - 1 from rfl,
      Nat.and_two_pow_sub_one_eq_mod]
    omega
  rw [BitVec.toInt_eq_toNat_cond, h, if_pos (by omega)]

/-- The line of the covering entry is found in every ordered table. -/
theorem search_ok {T : List (Nat × Nat)} (hsm : ∀ e ∈ T, e.1 < 2 ^ 32 ∧ e.2 < 2 ^ 16) (hp : T.Pairwise (fun a b => a.1 ≤ b.1)) {key : BitVec 32}
    (hd : ∀ i, ∀ h : i + 1 < T.length, T[i].1 = T[i + 1].1 → T[i].1 ≠ key.toNat) {m : Nat} (hm : m < T.length) (hm1 : T[m].1 ≤ key.toNat)
    (hm2 : ∀ j, m < j → ∀ h : j < T.length, key.toNat < T[j].1) :
    ∀ (fuel bottom top : Nat), top - bottom < fuel → bottom ≤ m → m < top → top ≤ T.length →
      (Lines.search (T.map pack) key fuel bottom top).map (Lines.finish (T.map pack)) = some (T[m].2 : Int) := by
  have hat : ∀ i, ∀ h : i < T.length, (T.map pack).getD i 0 = pack T[i] := by
    intro i h
    rw [List.getD_eq_getElem?_getD, List.getElem?_map, List.getElem?_eq_getElem h]; rfl
  have hip : ∀ i, ∀ h : i < T.length, (Lines.lineNumberIp ((T.map pack).getD i 0)).toNat = T[i].1 := by
    intro i h
    rw [hat i h, pack_ip (hsm _ (List.getElem_mem h)).1 (hsm _ (List.getElem_mem h)).2]
  intro fuel
  induction fuel with
  | zero => intro bottom top h; omega
  | succ fuel ih =>
    intro bottom top hf hb hmt htop
    simp only [Lines.search]
    rw [if_neg (by omega)]
    have hlo : bottom ≤ bottom + (top - bottom) / 2 := by omega
    have hhi : bottom + (top - bottom) / 2 < top := by omega
    generalize bottom + (top - bottom) / 2 = mid at hlo hhi
    have hml : mid < T.length := by omega
    rw [List.length_map]
    rcases Nat.lt_trichotomy mid m with hlt | heq | hgt
    · have h1 : T[mid + 1].1 ≤ key.toNat := by
        rcases Nat.eq_or_lt_of_le (show mid + 1 ≤ m by omega) with e | e
        · simp only [e]; exact hm1
        · have := List.pairwise_iff_getElem.1 hp (mid + 1) m (by omega) hm e
          omega
      have h2 : T[mid].1 ≤ T[mid + 1].1 := List.pairwise_iff_getElem.1 hp mid (mid + 1) hml (by omega) (by omega)
      rw [if_neg, if_neg, if_pos]
      · exact ih (mid + 1) top (by omega) (by omega) hmt htop
      · rw [BitVec.lt_def, hip mid hml]
        rcases Nat.lt_or_ge T[mid].1 key.toNat with h | h
        · exact h
        · exact absurd (show T[mid].1 = key.toNat by omega) (hd mid (by omega) (by omega))
      · rw [BitVec.lt_def, hip mid hml]; omega
      · rintro ⟨_, h | h⟩
        · omega
        · rw [BitVec.lt_def, hip (mid + 1) (by omega)] at h; omega
    · subst heq
      rw [if_pos]
      · simp only [Option.map_some, Lines.finish]
        rw [hat mid hml, pack_line (hsm _ (List.getElem_mem hml)).1 (hsm _ (List.getElem_mem hml)).2]
      · refine ⟨by rw [BitVec.le_def, hip mid hml]; exact hm1, ?_⟩
        rcases Nat.eq_or_lt_of_le (show mid + 1 ≤ T.length by omega) with e | e
        · exact Or.inl e
        · right; rw [BitVec.lt_def, hip (mid + 1) e]; exact hm2 (mid + 1) (by omega) e
    · have h1 := hm2 mid hgt hml
      rw [if_neg, if_pos]
      · exact ih bottom mid (by omega) hb hgt (by omega)
      · rw [BitVec.lt_def, hip mid hml]; exact h1
      · rintro ⟨h, _⟩
        rw [BitVec.le_def, hip mid hml] at h; omega

/-- The last of an ordered list. -/
theorem lastOf_index {k l : Nat} : ∀ {T : List (Nat × Nat)}, T.Pairwise (fun a b => a.1 ≤ b.1) → lastOf (fun e => decide (e.1 ≤ k)) T = some l →
    ∃ m, ∃ h : m < T.length, T[m].2 = l ∧ T[m].1 ≤ k ∧ ∀ j, m < j → ∀ h : j < T.length, k < T[j].1
  | [], _, h => by cases h
  | a :: T, hp, h => by
    rw [lastOf_cons] at h
    cases ht : lastOf (fun e => decide (e.1 ≤ k)) T with
    | some x =>
      rw [ht] at h
      obtain ⟨m, h1, h2, h3, h4⟩ := lastOf_index (List.pairwise_cons.1 hp).2 ht
      cases h
      refine ⟨m + 1, by simpa using h1, h2, h3, fun j hj hl => ?_⟩
      obtain ⟨j, rfl⟩ : ∃ j', j = j' + 1 := ⟨j - 1, by omega⟩
      exact h4 j (by omega) (by simpa using hl)
    | none =>
      rw [ht] at h
      by_cases ha : a.1 ≤ k
      · simp only [ha, decide_true, if_true, Option.none_or] at h
        refine ⟨0, by simp, Option.some.inj h, ha, fun j hj hl => ?_⟩
        obtain ⟨j, rfl⟩ : ∃ j', j = j' + 1 := ⟨j - 1, by omega⟩
        have hl' : j < T.length := by simpa using hl
        have := lastOf_none ht T[j] (List.getElem_mem hl')
        simp only [List.getElem_cons_succ]
        simpa using this
      · simp only [ha, decide_false, Bool.false_eq_true, if_false, Option.none_or] at h
        cases h

/-! ### Theorems: lines -/

/-- **C96.** The line reported for a position in the code of an instruction is the line of the last entry of the bytecode's table at or in
front of the instruction, and the search ends.  `hnd`: no instruction in front of it starts at the very position. -/
theorem line_ok_partial (hc : Sound c) {es : List (Nat × Nat)} (hp : es.Pairwise (fun a b => a.1 ≤ b.1)) (hsm : ∀ e ∈ es, e.2 < 2 ^ 16)
    (hw : Whole c es) {i k line : Nat} (h : InCode c i k) (hnd : ∀ j, c.visited j = true → j < i → c.off j < k) (hoff : ∀ j, c.visited j = true → c.off j < 2 ^ 32)
    (hl : lineOf es i = some line) {fuel : Nat} (hf : es.length < fuel) :
    Lines.findLineNumber false (some (translateLines c es)) (BitVec.ofNat 32 (k + 1)) fuel = some (line : Int) := by
  have hk : k < 2 ^ 32 := Nat.lt_trans h.stop hc.small
  have hkey : (BitVec.ofNat 32 (k + 1) - 1).toNat = k := by
    rw [BitVec.toNat_sub, BitVec.toNat_ofNat]
    simp
    omega
  have hst := starts_line hc h es hp hw
  have hT : translateLines c es = ((lineStarts c es).map fun e => (c.off e.1, e.2)).map pack := by
    rw [translateLines_eq, List.map_map]; rfl
  have hge := lineStarts_ge (c := c) (m := 0) es (fun _ _ => Nat.zero_le _)
  have hln : ∀ es : List (Nat × Nat), (lineStarts c es).length ≤ es.length ∧ ∀ e ∈ lineStarts c es, ∃ e' ∈ es, e.2 = e'.2 := by
    intro es
    induction es with
    | nil => exact ⟨Nat.le_refl _, fun e h => by cases h⟩
    | cons a es ih =>
      cases es with
      | nil =>
        unfold lineStarts
        cases forwards c.visited a.1 (a.1 + 1) with
        | none => exact ⟨by simp, fun e h => by cases h⟩
        | some f => exact ⟨by simp, fun e h => ⟨a, List.mem_cons_self, by rw [List.mem_singleton.1 h]⟩⟩
      | cons b es =>
        unfold lineStarts
        cases forwards c.visited a.1 (b.1 - 1) with
        | none => exact ⟨Nat.le_succ_of_le ih.1, fun e h => by obtain ⟨x, hx, hx'⟩ := ih.2 e h; exact ⟨x, List.mem_cons_of_mem _ hx, hx'⟩⟩
        | some f =>
          refine ⟨Nat.succ_le_succ ih.1, fun e h => ?_⟩
          rcases List.mem_cons.1 h with h | h
          · exact ⟨a, List.mem_cons_self, by rw [h]⟩
          · obtain ⟨x, hx, hx'⟩ := ih.2 e h
            exact ⟨x, List.mem_cons_of_mem _ hx, hx'⟩
  have hsorted := lineStarts_sorted (c := c) es hp
  have hll : lastOf (fun e => decide (e.1 ≤ k)) ((lineStarts c es).map fun e => (c.off e.1, e.2)) = some line := by
    have : lastOf (fun e => decide (e.1 ≤ i)) es = some line := hl
    rw [← hst] at this
    rw [← this]
    unfold lastOf
    rw [List.filter_map, List.getLast?_map, Option.map_map]
    rfl
  have hps : ((lineStarts c es).map fun e => (c.off e.1, e.2)).Pairwise (fun a b => a.1 ≤ b.1) := by
    rw [List.pairwise_map]
    refine List.Pairwise.imp_of_mem ?_ hsorted
    intro a b ha hb hab
    exact hc.mono a.1 b.1 (hge a ha).2 (hge b hb).2 (by omega)
  obtain ⟨m, hm, hm1, hm2, hm3⟩ := lastOf_index hps hll
  simp only [Lines.findLineNumber, hT, Bool.false_eq_true, if_false]
  have := search_ok (T := (lineStarts c es).map fun e => (c.off e.1, e.2)) (key := BitVec.ofNat 32 (k + 1) - 1) (m := m) ?_ hps ?_ hm
    (by rw [hkey]; exact hm2) (by rw [hkey]; exact hm3) fuel 0 ((lineStarts c es).map fun e => (c.off e.1, e.2)).length ?_ (Nat.zero_le _) hm (Nat.le_refl _)
  · rw [List.length_map (f := pack), this, hm1]
  · intro e he
    obtain ⟨x, hx, rfl⟩ := List.mem_map.1 he
    obtain ⟨y, hy, hy'⟩ := (hln es).2 x hx
    exact ⟨hoff _ (hge x hx).2, by show x.2 < 2 ^ 16; rw [hy']; exact hsm y hy⟩
  · intro n hn heq
    rw [hkey]
    intro hcon
    rw [List.length_map] at hn
    simp only [List.getElem_map] at heq hcon
    have h1 := List.pairwise_iff_getElem.1 hsorted n (n + 1) (by omega) hn (by omega)
    have v1 := (hge _ (List.getElem_mem (show n < (lineStarts c es).length by omega))).2
    have v2 := (hge _ (List.getElem_mem hn)).2
    have h2 := (h.le_iff hc v2).1 (by omega)
    have h3 := hnd _ v1 (by omega)
    omega
  · have := (hln es).1
    rw [List.length_map]
    omega

/-- **C96, a disagreement.** A line of a single instruction of one byte is left out: an exception there is reported for the line in front. -/
theorem one_byte_line_wrong : ∃ c : Code, ∃ es : List (Nat × Nat), Sound c ∧ InCode c 3 16 ∧ lineOf es 3 = some 11 ∧
    Lines.findLineNumber false (some (translateLines c es)) 17 9 = some 10 := by
  refine ⟨⟨fun i => decide (i < 6), fun i => 5 * i, 30, 6, 0⟩, [(0, 10), (3, 11), (4, 12)], ⟨?_, ?_, by decide⟩, ⟨by decide, by decide, by decide, ?_⟩, by decide, by decide +kernel⟩
  · intro i j _ _ h
    show 5 * i ≤ 5 * j
    omega
  · intro i h
    simpa using h
  · intro j _ h
    show 16 < 5 * j
    omega

/-- **C96, a disagreement.** A line without machine code (such as a constant put in a local variable) in front of an instruction that faults
with its first machine instruction: the search for the line never ends. -/
theorem empty_line_never_ends : ∃ c : Code, ∃ es : List (Nat × Nat), Sound c ∧ Whole c es ∧ es.Pairwise (fun a b => a.1 < b.1) ∧ InCode c 4 5 ∧
    lineOf es 4 = some 12 ∧ ∀ fuel, Lines.findLineNumber false (some (translateLines c es)) 6 fuel = none := by
  refine ⟨⟨fun i => decide (i = 0 ∨ i = 2 ∨ i = 4), fun i => if i = 0 then 0 else 5, 30, 6, 0⟩, [(0, 10), (2, 11), (4, 12)], ⟨?_, ?_, by decide⟩, ?_, by decide,
    ⟨by decide, by decide, by decide, ?_⟩, by decide, ?_⟩
  · intro i j _ _ h
    show (if i = 0 then 0 else 5) ≤ (if j = 0 then 0 else 5)
    split <;> split <;> omega
  · intro i h
    have h : i = 0 ∨ i = 2 ∨ i = 4 := by simpa using h
    show i < 6 * (0 + 1)
    omega
  · exact ⟨fun _ => ⟨0, by decide, by decide, by decide⟩, fun _ => ⟨2, by decide, by decide, by decide⟩, fun _ => by decide⟩
  · intro j hj h
    have h : j = 0 ∨ j = 2 ∨ j = 4 := by simpa using hj
    omega
  · have e : translateLines ⟨fun i => decide (i = 0 ∨ i = 2 ∨ i = 4), fun i => if i = 0 then 0 else 5, 30, 6, 0⟩ [(0, 10), (2, 11), (4, 12)] =
        [0x000000000000000a#64, 0x000000050000000b#64, 0x000000050000000c#64] := by decide +kernel
    rw [e]
    have hs : ∀ fuel, Lines.search [0x000000000000000a#64, 0x000000050000000b#64, 0x000000050000000c#64] 5 fuel 0 3 = none := by
      intro fuel
      induction fuel with
      | zero => rfl
      | succ n ih => exact ih
    intro fuel
    have := hs fuel
    simp only [Lines.findLineNumber, Bool.false_eq_true, if_false]
    rw [show ((6 : BitVec 32) - 1) = 5 by decide, show ([0x000000000000000a#64, 0x000000050000000b#64, 0x000000050000000c#64] : List (BitVec 64)).length = 3 from rfl, this]
    rfl

/-! ### Concrete cases -/

/-- Eight bytes of bytecode with instructions at 0, 1, 4, 5, 7 (nothing reaches 6), without code for 1. -/
def sample : Code := ⟨fun i => [0, 1, 4, 5, 7].contains i, fun i => [0, 9, 0, 0, 9, 20, 0, 31].getD i 0, 40, 8, 0⟩

example : EndsKnown sample [⟨0, 4, 5, 3⟩, ⟨1, 5, 7, 0⟩, ⟨6, 7, 0, 0⟩, ⟨4, 8, 7, 2⟩] := by
  have h : ∀ e ∈ [(⟨0, 4, 5, 3⟩ : Entry), ⟨1, 5, 7, 0⟩, ⟨6, 7, 0, 0⟩, ⟨4, 8, 7, 2⟩],
    (e.stop < 8 ∧ sample.visited e.stop = true) ∨ e.stop = 8 := by decide
  intro e he k hk _
  have hk0 : k = 0 := Nat.le_zero.1 hk
  subst hk0
  rcases h e he with h | h
  · exact Or.inl ⟨h.1, by rw [Nat.zero_mul, Nat.zero_add]; exact h.2⟩
  · exact Or.inr ⟨rfl, h⟩

example : translate sample [⟨0, 4, 5, 3⟩, ⟨1, 5, 7, 0⟩, ⟨6, 7, 0, 0⟩, ⟨4, 8, 7, 2⟩] = some [⟨0, 9, 20, 3⟩, ⟨9, 20, 31, 0⟩, ⟨9, 40, 31, 2⟩] := by decide +kernel

example : find false (· == 2) [⟨0, 9, 20, 3⟩, ⟨9, 20, 31, 0⟩, ⟨9, 40, 31, 2⟩] 10 = some 31 ∧
    find false (· == 3) [⟨0, 9, 20, 3⟩, ⟨9, 20, 31, 0⟩, ⟨9, 40, 31, 2⟩] 9 = some 20 ∧
    find true (· == 3) [⟨0, 9, 20, 3⟩, ⟨9, 20, 31, 0⟩, ⟨9, 40, 31, 2⟩] 9 = none := by decide +kernel

/-- The end of the range is not reached: an exception of instruction 5 is lost. -/
example : translate sample [⟨4, 6, 7, 0⟩] = some [⟨9, 20, 31, 0⟩] ∧ find false (fun _ => true) [⟨9, 20, 31, 0⟩] 25 = none := by decide +kernel

example : Lines.findLineNumber false (some (translateLines sample [(0, 20), (4, 21), (7, 30)])) 25 8 = some 21 := by decide +kernel

end Avian.Handlers
