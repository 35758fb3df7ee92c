import Verif.Class.PoolMask

/-
Written constant pools, and the first pass of the parser over them.
-/
namespace Avian.ClassFile
open Avian.Stream

/-! ### Written constants (JVM specification, 4.4) -/

/-- A constant as a class file states it; numbers refer to other constants. -/
inductive Entry where
  | utf8 (l : List (BitVec 8))
  | integer (v : BitVec 32)
  | float (v : BitVec 32)
  | long (v : BitVec 64)
  | double (v : BitVec 64)
  | cls (name : Nat)
  | string (text : Nat)
  | field (cls nameType : Nat)
  | method (cls nameType : Nat)
  | interfaceMethod (cls nameType : Nat)
  | nameAndType (name type : Nat)
  | methodHandle (kind ref : Nat)
  | methodType (descriptor : Nat)
  | invokeDynamic (bootstrap nameType : Nat)
  deriving DecidableEq

def Entry.tag : Entry → Nat
  | .utf8 _ => 1 | .integer _ => 3 | .float _ => 4 | .long _ => 5 | .double _ => 6
  | .cls _ => 7 | .string _ => 8 | .field _ _ => 9 | .method _ _ => 10
  | .interfaceMethod _ _ => 11 | .nameAndType _ _ => 12 | .methodHandle _ _ => 15
  | .methodType _ => 16 | .invokeDynamic _ _ => 18

def Entry.payload : Entry → List (BitVec 8)
  | .utf8 l => be2 l.length ++ l
  | .integer v | .float v => be4 v.toNat
  | .long v | .double v => be8 v.toNat
  | .cls a | .string a | .methodType a => be2 a
  | .field a b | .method a b | .interfaceMethod a b | .nameAndType a b
  | .invokeDynamic a b => be2 a ++ be2 b
  | .methodHandle k r => be1 k ++ be2 r

/-- The bytes of a constant. -/
def Entry.bytes (e : Entry) : List (BitVec 8) := be1 e.tag ++ e.payload

/-- The numbers fit their fields. -/
def Entry.Fits : Entry → Prop
  | .utf8 l => l.length < 65536
  | .integer _ | .float _ | .long _ | .double _ => True
  | .cls a | .string a | .methodType a => a < 65536
  | .field a b | .method a b | .interfaceMethod a b | .nameAndType a b
  | .invokeDynamic a b => a < 65536 ∧ b < 65536
  | .methodHandle k r => k < 256 ∧ r < 65536

/-- Two constant numbers are used up by a long or double. -/
def Entry.wide : Entry → Bool
  | .long _ | .double _ => true
  | _ => false

/-- Constants delivered as objects. -/
def Entry.isObject : Entry → Bool
  | .integer _ | .float _ | .long _ | .double _ => false
  | _ => true

def Entry.isFloat : Entry → Bool
  | .float _ | .double _ => true
  | _ => false

/-- Who owns each constant number (from number one on); the flag is set for the unusable second
number of a long or double. -/
def slots : List Entry → List (Entry × Bool)
  | [] => []
  | e :: es => (if e.wide then [(e, false), (e, true)] else [(e, false)]) ++ slots es

/-- The constant with this number. -/
def constant (es : List Entry) : Nat → Option Entry
  | 0 => none
  | k + 1 => match (slots es)[k]? with
    | some (e, false) => some e
    | _ => none

/-- A written constant pool: the count plus one, and the constants. -/
def poolBytes (es : List Entry) : List (BitVec 8) :=
  be2 ((slots es).length + 1) ++ es.flatMap Entry.bytes

/-! ### Scanning -/

def width (e : Entry) : Nat := if e.wide then 2 else 1

theorem Masks.congr {n p o f o' f'} (h : Masks n p o f) (ho : ∀ j, o j = o' j)
    (hf : ∀ j, f j = f' j) : Masks n p o' f' := by
  have h1 : o = o' := funext ho
  have h2 : f = f' := funext hf
  subst h1; subst h2; exact h

/-- The object bit and the float bits after scanning one constant. -/
def markO (e : Entry) (i : Nat) (o : Nat → Bool) : Nat → Bool :=
  fun j => o j || (e.isObject && decide (j = i))
def markF (e : Entry) (i : Nat) (f : Nat → Bool) : Nat → Bool :=
  fun j => f j || (e.isFloat && (decide (j = i) || (e.wide && decide (j = i + 1))))

private theorem scan_obj {n p o f} (h : Masks n p o f) {i : Nat} (hi : i < n) (m : BitVec 32)
    (l : List (BitVec 8)) (hl : l.length = m.toNat) :
    ∃ p', Reads (do
        let pool ← lift (p.markObject i)
        skip m
        pure (1, pool)) l (1, p') ∧
      Masks n p' (fun j => o j || decide (j = i)) f ∧ ∀ j, j < n → p'.body j = p.body j := by
  obtain ⟨p', h1, h2, h3⟩ := h.mark hi
  refine ⟨p', ?_, h2, h3⟩
  refine Reads.seq (Reads.lift h1) ?_
  exact Reads.map (reads_skip _ _ hl) (Reads.pure _)

theorem scan_entry {n p o f} (h : Masks n p o f) (e : Entry) (he : e.Fits) {i : Nat}
    (hi : i + width e ≤ n) :
    ∃ p', Reads (scanEntry n p i) e.bytes (width e, p') ∧
      Masks n p' (markO e i o) (markF e i f) ∧ ∀ j, j < n → p'.body j = p.body j := by
  have hi' : i < n := by unfold width at hi; split at hi <;> omega
  cases e with
  | utf8 l =>
    obtain ⟨p', h1, h2, h3⟩ := h.mark hi'
    refine ⟨p', ?_, h2.congr (fun j => by simp [markO, Entry.isObject])
      (fun j => by simp [markF, Entry.isFloat]), h3⟩
    refine Reads.bind (reads_read1 1) ?_
    refine Reads.seq (Reads.lift h1) ?_
    refine Reads.bind (reads_read2 _) ?_
    refine Reads.map (reads_skip _ l ?_) (Reads.pure _)
    simp only [Entry.Fits] at he
    simp only [BitVec.toNat_setWidth, BitVec.toNat_ofNat]
    omega
  | integer v =>
    refine ⟨p, ?_, h.congr (fun j => by simp [markO, Entry.isObject])
      (fun j => by simp [markF, Entry.isFloat]), fun _ _ => rfl⟩
    refine Reads.bind (reads_read1 3) ?_
    exact Reads.map (reads_skip _ _ rfl) (Reads.pure _)
  | float v =>
    obtain ⟨p', h1, h2, h3⟩ := h.setBit hi'
    refine ⟨p', ?_, h2.congr (fun j => by simp [markO, Entry.isObject])
      (fun j => by simp [markF, Entry.isFloat, Entry.wide]), h3⟩
    refine Reads.bind (reads_read1 4) ?_
    refine Reads.seq (Reads.lift h1) ?_
    exact Reads.map (reads_skip _ _ rfl) (Reads.pure _)
  | long v =>
    refine ⟨p, ?_, h.congr (fun j => by simp [markO, Entry.isObject])
      (fun j => by simp [markF, Entry.isFloat]), fun _ _ => rfl⟩
    refine Reads.bind (reads_read1 5) ?_
    exact Reads.map (reads_skip _ _ rfl) (Reads.pure _)
  | double v =>
    obtain ⟨p1, h1, h2, h3⟩ := h.setBit hi'
    obtain ⟨p2, h4, h5, h6⟩ := h2.setBit (i := i + 1) (by simp [width, Entry.wide] at hi; omega)
    refine ⟨p2, ?_, h5.congr (fun j => by simp [markO, Entry.isObject])
      (fun j => by simp [markF, Entry.isFloat, Entry.wide, Bool.or_assoc]),
      fun j hj => (h6 j hj).trans (h3 j hj)⟩
    refine Reads.bind (reads_read1 6) ?_
    refine Reads.seq (Reads.lift h1) ?_
    refine Reads.seq (Reads.lift h4) ?_
    exact Reads.map (reads_skip _ _ rfl) (Reads.pure _)
  | cls a =>
    obtain ⟨p', h1, h2, h3⟩ := scan_obj h hi' 2#32 (be2 a) rfl
    exact ⟨p', Reads.bind (reads_read1 7) h1, h2.congr (fun j => by simp [markO, Entry.isObject])
      (fun j => by simp [markF, Entry.isFloat]), h3⟩
  | string a =>
    obtain ⟨p', h1, h2, h3⟩ := scan_obj h hi' 2#32 (be2 a) rfl
    exact ⟨p', Reads.bind (reads_read1 8) h1, h2.congr (fun j => by simp [markO, Entry.isObject])
      (fun j => by simp [markF, Entry.isFloat]), h3⟩
  | field a b =>
    obtain ⟨p', h1, h2, h3⟩ := scan_obj h hi' 4#32 (be2 a ++ be2 b) rfl
    exact ⟨p', Reads.bind (reads_read1 9) h1, h2.congr (fun j => by simp [markO, Entry.isObject])
      (fun j => by simp [markF, Entry.isFloat]), h3⟩
  | method a b =>
    obtain ⟨p', h1, h2, h3⟩ := scan_obj h hi' 4#32 (be2 a ++ be2 b) rfl
    exact ⟨p', Reads.bind (reads_read1 10) h1, h2.congr (fun j => by simp [markO, Entry.isObject])
      (fun j => by simp [markF, Entry.isFloat]), h3⟩
  | interfaceMethod a b =>
    obtain ⟨p', h1, h2, h3⟩ := scan_obj h hi' 4#32 (be2 a ++ be2 b) rfl
    exact ⟨p', Reads.bind (reads_read1 11) h1, h2.congr (fun j => by simp [markO, Entry.isObject])
      (fun j => by simp [markF, Entry.isFloat]), h3⟩
  | nameAndType a b =>
    obtain ⟨p', h1, h2, h3⟩ := scan_obj h hi' 4#32 (be2 a ++ be2 b) rfl
    exact ⟨p', Reads.bind (reads_read1 12) h1, h2.congr (fun j => by simp [markO, Entry.isObject])
      (fun j => by simp [markF, Entry.isFloat]), h3⟩
  | methodHandle k r =>
    obtain ⟨p', h1, h2, h3⟩ := scan_obj h hi' 3#32 (be1 k ++ be2 r) rfl
    exact ⟨p', Reads.bind (reads_read1 15) h1, h2.congr (fun j => by simp [markO, Entry.isObject])
      (fun j => by simp [markF, Entry.isFloat]), h3⟩
  | methodType a =>
    obtain ⟨p', h1, h2, h3⟩ := scan_obj h hi' 2#32 (be2 a) rfl
    exact ⟨p', Reads.bind (reads_read1 16) h1, h2.congr (fun j => by simp [markO, Entry.isObject])
      (fun j => by simp [markF, Entry.isFloat]), h3⟩
  | invokeDynamic a b =>
    obtain ⟨p', h1, h2, h3⟩ := scan_obj h hi' 4#32 (be2 a ++ be2 b) rfl
    exact ⟨p', Reads.bind (reads_read1 18) h1, h2.congr (fun j => by simp [markO, Entry.isObject])
      (fun j => by simp [markF, Entry.isFloat]), h3⟩

/-- The object bit of a slot. -/
def objAt (es : List Entry) (k : Nat) : Bool :=
  match (slots es)[k]? with
  | some (e, false) => e.isObject
  | _ => false

/-- The float bit of a slot. -/
def floatAt (es : List Entry) (k : Nat) : Bool :=
  match (slots es)[k]? with
  | some (e, _) => e.isFloat
  | _ => false

theorem slots_cons_length (e : Entry) (es : List Entry) :
    (slots (e :: es)).length = width e + (slots es).length := by
  simp only [slots, width, List.length_append]
  cases e.wide <;> rfl

theorem slots_zero (e : Entry) (es : List Entry) : (slots (e :: es))[0]? = some (e, false) := by
  simp only [slots]
  cases e.wide <;> rfl

theorem slots_skip (e : Entry) (es : List Entry) (k : Nat) :
    (slots (e :: es))[width e + k]? = (slots es)[k]? := by
  simp only [slots, width]
  cases e.wide with
  | false => simp only [Bool.false_eq_true, if_false]; rw [Nat.add_comm]; rfl
  | true => simp only [if_true]; rw [Nat.add_comm]; rfl

theorem slots_second (e : Entry) (es : List Entry) (k : Nat) (h0 : k ≠ 0) (h : k < width e) :
    (slots (e :: es))[k]? = some (e, true) ∧ e.wide = true := by
  simp only [width] at h
  cases hw : e.wide with
  | false => simp [hw] at h; omega
  | true =>
    have : k = 1 := by simp [hw] at h; omega
    subst this
    simp [slots, hw]

theorem width_pos (e : Entry) : 0 < width e := by unfold width; split <;> omega

theorem scan_loop (d : List (BitVec 8)) (er n : Nat) (es : List Entry) :
    ∀ fuel i p o f idx s q, (∀ e ∈ es, e.Fits) → i + (slots es).length = n → n < fuel + i →
    Masks n p o f → On d er s q → Has d q (es.flatMap Entry.bytes) →
    ∃ p' idx' s', scanLoop n fuel p idx i s = some ((p', idx'), s') ∧
      On d er s' (q + (es.flatMap Entry.bytes).length) ∧
      Masks n p' (fun j => o j || (decide (i ≤ j) && objAt es (j - i)))
        (fun j => f j || (decide (i ≤ j) && floatAt es (j - i))) ∧
      (∀ j, j < n → p'.body j = p.body j) ∧ (∀ j, j < i → idx' j = idx j) ∧
      ∀ k e, (slots es)[k]? = some (e, false) →
        ∃ q', idx' (i + k) = some (BitVec.ofNat 32 q') ∧ Has d q' e.bytes ∧ q' ≤ d.length := by
  induction es with
  | nil =>
    intro fuel i p o f idx s q _ hi hfuel hm hon _
    simp only [slots, List.length_nil, Nat.add_zero] at hi
    subst hi
    cases fuel with
    | zero => omega
    | succ fuel =>
    refine ⟨p, idx, s, ?_, by simpa using hon, hm.congr (fun j => by simp [objAt, slots])
      (fun j => by simp [floatAt, slots]), fun _ _ => rfl, fun _ _ => rfl, ?_⟩
    · simp only [scanLoop, Nat.lt_irrefl, if_false]; rfl
    · intro k e he; simp [slots] at he
  | cons e es ih =>
    intro fuel i p o f idx s q hfit hi hfuel hm hon hhas
    rw [slots_cons_length] at hi
    have hwp := width_pos e
    cases fuel with
    | zero => omega
    | succ fuel =>
    rw [List.flatMap_cons] at hhas
    obtain ⟨p1, r1, m1, b1⟩ := scan_entry hm e (hfit e (List.mem_cons_self ..)) (i := i) (by omega)
    obtain ⟨s1, e1, o1⟩ := r1 d er s q hon hhas.left
    obtain ⟨p2, idx2, s2, e2, o2, m2, b2, i2, x2⟩ := ih fuel (i + width e) p1 _ _
      (fun j => if j = i then some s.position else idx j) s1 _
      (fun e' he' => hfit e' (List.mem_cons_of_mem _ he')) (by omega) (by omega) m1 o1 hhas.right
    refine ⟨p2, idx2, s2, ?_, ?_, ?_, fun j hj => (b2 j hj).trans (b1 j hj), ?_, ?_⟩
    · show (if i < n then _ else _ : P _) s = _
      rw [if_pos (by omega)]
      show (scanEntry n p i s).bind (fun r => scanLoop n fuel r.1.2 _ (i + r.1.1) r.2) = _
      rw [e1, Option.bind_some]
      exact e2
    · rw [List.flatMap_cons, List.length_append, ← Nat.add_assoc]; exact o2
    · refine m2.congr (fun j => ?_) (fun j => ?_)
      · simp only [markO, Bool.or_assoc]
        congr 1
        by_cases h1 : i ≤ j
        · by_cases h2 : i + width e ≤ j
          · have h3 : ¬ j = i := by omega
            have h4 : j - i = width e + (j - (i + width e)) := by omega
            simp only [objAt, h1, h2, h3, decide_true, Bool.true_and, decide_false, Bool.and_false,
              Bool.false_or]
            rw [h4, slots_skip]
          · by_cases h3 : j = i
            · subst h3
              simp [objAt, slots_zero, h2]
            · obtain ⟨h4, h5⟩ := slots_second e es (j - i) (by omega) (by omega)
              simp [objAt, h4, h2, h3]
        · have h2 : ¬ i + width e ≤ j := by omega
          have h3 : ¬ j = i := by omega
          simp [h1, h2, h3]
      · simp only [markF, Bool.or_assoc]
        congr 1
        by_cases h1 : i ≤ j
        · by_cases h2 : i + width e ≤ j
          · have h3 : ¬ j = i := by omega
            have h4 : j - i = width e + (j - (i + width e)) := by omega
            have h5 : (e.wide && decide (j = i + 1)) = false := by
              unfold width at h2
              cases hw : e.wide <;> simp [hw] at h2 ⊢
              omega
            simp only [floatAt, h1, h2, h3, h5, decide_true, Bool.true_and, decide_false,
              Bool.and_false, Bool.false_or, Bool.or_false]
            rw [h4, slots_skip]
          · by_cases h3 : j = i
            · subst h3
              simp [floatAt, slots_zero, h2]
            · obtain ⟨h4, h5⟩ := slots_second e es (j - i) (by omega) (by omega)
              have h6 : j = i + 1 := by simp [width, h5] at h2; omega
              simp only [floatAt, h4]
              subst h6
              simp [h5, width]
        · have h2 : ¬ i + width e ≤ j := by omega
          have h3 : ¬ j = i := by omega
          have h4 : ¬ j = i + 1 := by omega
          simp [h1, h2, h3, h4]
    · intro j hj
      rw [i2 j (by omega), if_neg (by omega)]
    · intro k e' hk
      by_cases hkw : width e ≤ k
      · obtain ⟨k', rfl⟩ : ∃ k', k = width e + k' := ⟨k - width e, by omega⟩
        rw [slots_skip] at hk
        obtain ⟨q', h1, h2⟩ := x2 k' e' hk
        exact ⟨q', by rw [← Nat.add_assoc]; exact h1, h2⟩
      · by_cases hk0 : k = 0
        · subst hk0
          rw [slots_zero] at hk
          obtain rfl : e = e' := by simpa using hk
          refine ⟨q, ?_, hhas.left, hon.le⟩
          rw [Nat.add_zero, i2 i (by omega), if_pos rfl, on_position hon]
        · obtain ⟨h4, _⟩ := slots_second e es k hk0 (by omega)
          rw [h4] at hk
          simp at hk

end Avian.ClassFile
