import Verif.Lib.JBitSet

/-
C71: sets of bits.
-/
namespace Avian.JBitSet

/-! ### The specification: a set of numbers -/

/-- Whether the number `j` is in the set. -/
def mem (bits : List Word) (j : Nat) : Bool := (bits[j / 64]?.getD 0).getLsbD (j % 64)

inductive Op where
  | get (i : Int)
  | set (i : Int)
  | clear (i : Int)
  | flip (i : Int)
  | setRange (i j : Int)
  | clearRange (i j : Int)
  | flipRange (i j : Int)
  | and (other : List Word)
  | andNot (other : List Word)
  | or (other : List Word)
  | xor (other : List Word)
  | isEmpty

inductive Res where
  | done
  | refused
  | bool (b : Bool)
  deriving DecidableEq

/-- The number is in the range; a range with a negative end is refused. -/
def within (i j : Int) (k : Nat) : Bool := decide (0 ≤ i ∧ i ≤ k ∧ (k : Int) < j)

/-- The set after the operation. -/
def after (f : Nat → Bool) : Op → Nat → Bool
  | .get _ => f
  | .set i => fun k => f k || within i (i + 1) k
  | .clear i => fun k => f k && !within i (i + 1) k
  | .flip i => fun k => f k ^^ within i (i + 1) k
  | .setRange i j => fun k => f k || within i j k
  | .clearRange i j => fun k => f k && !within i j k
  | .flipRange i j => fun k => f k ^^ within i j k
  | .and other => fun k => f k && mem other k
  | .andNot other => fun k => f k && !mem other k
  | .or other => fun k => f k || mem other k
  | .xor other => fun k => f k ^^ mem other k
  | .isEmpty => f

/-- The answer of the operation: a negative index is refused, and so is for `flip` a range that ends before it begins. -/
def Answer (f : Nat → Bool) : Op → Res → Prop
  | .get i, r => if i < 0 then r = .refused else r = .bool (f i.toNat)
  | .set i, r | .clear i, r | .flip i, r | .setRange i _, r | .clearRange i _, r => if i < 0 then r = .refused else r = .done
  | .flipRange i j, r => if i < 0 ∨ j < i then r = .refused else r = .done
  | .and _, r | .andNot _, r | .or _, r | .xor _, r => r = .done
  | .isEmpty, r => ∃ b, r = .bool b ∧ (b = true ↔ ∀ k, f k = false)

def result (r : List Word × Bool) : Res × List Word := (match r.2 with | true => .done | false => .refused, r.1)

/-- What the code does. -/
def exec (bits : List Word) : Op → Res × List Word
  | .get i => (match get bits i with | none => .refused | some b => .bool b, bits)
  | .set i => result (set bits i)
  | .clear i => result (clear bits i)
  | .flip i => result (flip bits i)
  | .setRange i j => result (setRange bits i j)
  | .clearRange i j => result (clearRange bits i j)
  | .flipRange i j => result (flipRange bits i j)
  | .and other => (.done, and bits other)
  | .andNot other => (.done, andNot bits other)
  | .or other => (.done, or bits other)
  | .xor other => (.done, xor bits other)
  | .isEmpty => (.bool (isEmpty bits), bits)

def runCode (bits : List Word) : List Op → List Res × List Word
  | [] => ([], bits)
  | op :: ops => ((exec bits op).1 :: (runCode (exec bits op).2 ops).1, (runCode (exec bits op).2 ops).2)

def runSpec (f : Nat → Bool) : List Op → Nat → Bool
  | [] => f
  | op :: ops => runSpec (after f op) ops

/-- The answers are those of the set. -/
def Answers (f : Nat → Bool) : List Op → List Res → Prop
  | [], [] => True
  | op :: ops, r :: rs => Answer f op r ∧ Answers (after f op) ops rs
  | _, _ => False

/-- Ranges of `set` and `clear` are not empty, and `clear` goes not beyond the capacity. -/
def Usable (capacity : Nat) : Op → Prop
  | .setRange i j => i < j
  | .clearRange i j => i < j ∧ j ≤ capacity
  | _ => True

/-! ### Words -/

theorem test_bit (w : Word) (k : Nat) (hk : k < 64) : (w &&& 1#64 <<< k != 0) = w.getLsbD k := by
  have h : (1#64 <<< k) = BitVec.twoPow 64 k := rfl
  rw [h, BitVec.and_twoPow]
  cases hb : w.getLsbD k with
  | false => simp
  | true =>
    simp only [if_true]
    have : BitVec.twoPow 64 k ≠ 0 := by
      intro e
      have := congrArg (fun x => BitVec.getLsbD x k) e
      simp [BitVec.getLsbD_twoPow, hk] at this
    simpa using this

theorem shiftCount_nat (j : Nat) : shiftCount (j : Int) = j % 64 := by
  unfold shiftCount; rw [show ((j : Int).tmod 64) = ((j % 64 : Nat) : Int) from rfl]; omega

theorem longPosition_nat (j : Nat) : longPosition (j : Int) = ((j / 64 : Nat) : Int) := by
  unfold longPosition; omega

theorem bitPosition_bit (i k : Nat) (hk : k < 64) : (bitPosition (i : Int)).getLsbD k = decide (k = i % 64) := by
  unfold bitPosition
  rw [shiftCount_nat, show (1#64 <<< (i % 64)) = BitVec.twoPow 64 (i % 64) from rfl, BitVec.getLsbD_twoPow]
  have : i % 64 < 64 := Nat.mod_lt _ (by decide)
  simp only [this, decide_true, Bool.true_and, decide_eq_decide]
  omega

theorem ones_bit (k : Nat) (hk : k < 64) : (BitVec.allOnes 64).getLsbD k = true := by
  rw [BitVec.getLsbD_allOnes]; exact decide_eq_true hk

/-- The mask of a range within a word. -/
theorem trueMask_bit (f t k : Nat) (h : f < t) (hw : f % 64 + (t - f) ≤ 64) (hk : k < 64) :
    (getTrueMask f t).getLsbD k = decide (f % 64 ≤ k ∧ k < f % 64 + (t - f)) := by
  unfold getTrueMask
  rw [shiftCount_nat, BitVec.getLsbD_shiftLeft, BitVec.getLsbD_ushiftRight]
  have e : ((64 - ((t : Int) - (f : Int))) % 64).toNat = 64 - (t - f) := by omega
  rw [e]
  simp only [hk, decide_true, Bool.true_and]
  by_cases h1 : k < f % 64
  · simp only [h1, decide_true, Bool.not_true, Bool.false_and]
    exact (decide_eq_false (by omega)).symm
  · simp only [h1, decide_false, Bool.not_false, Bool.true_and]
    by_cases h2 : k < f % 64 + (t - f)
    · rw [ones_bit _ (by omega)]
      exact (decide_eq_true (by omega)).symm
    · rw [BitVec.getLsbD_of_ge _ _ (by omega)]
      exact (decide_eq_false (by omega)).symm

/-! ### The array -/

theorem mem_set {bits : List Word} {p : Nat} (hp : p < bits.length) (w : Word) (j : Nat) :
    mem (bits.set p w) j = if j / 64 = p then w.getLsbD (j % 64) else mem bits j := by
  unfold mem
  rw [List.getElem?_set]
  by_cases h : p = j / 64
  · subst h
    simp [hp]
  · rw [if_neg h, if_neg (fun e => h e.symm)]

theorem mem_word {bits : List Word} {p : Nat} {w : Word} (hw : bits[p]? = some w) (j : Nat) (hj : j / 64 = p) :
    w.getLsbD (j % 64) = mem bits j := by
  unfold mem
  rw [hj, hw]; rfl

theorem mem_beyond {bits : List Word} {j : Nat} (h : bits.length ≤ j / 64) : mem bits j = false := by
  unfold mem
  rw [List.getElem?_eq_none h]
  simp

theorem enlarge_length (bits : List Word) (n : Int) :
    bits.length ≤ (enlarge bits n).length ∧ n < (enlarge bits n).length := by
  unfold enlarge
  split
  · simp only [List.length_append, List.length_replicate]; omega
  · omega

theorem enlarge_mem (bits : List Word) (n : Int) (j : Nat) : mem (enlarge bits n) j = mem bits j := by
  unfold enlarge
  split
  · unfold mem
    rw [List.getElem?_append]
    split
    · rfl
    · next h =>
      rw [List.getElem?_replicate, List.getElem?_eq_none (Nat.le_of_not_lt h)]
      split <;> rfl
  · rfl

theorem load_nat {bits : List Word} {p : Nat} (h : p < bits.length) : load bits (p : Int) = some bits[p] := by
  unfold load
  rw [if_pos (by omega), Int.toNat_natCast, List.getElem?_eq_getElem h]

theorem load_neg {bits : List Word} {i : Int} (h : i < 0) : load bits i = none := by
  unfold load
  rw [if_neg (by omega)]

/-! ### Single bits -/

theorem get_ok (bits : List Word) (i : Nat) : get bits i = some (mem bits i) := by
  unfold get
  rw [longPosition_nat]
  have hk : i % 64 < 64 := Nat.mod_lt _ (by decide)
  split
  · next h =>
    rw [load_nat (by omega)]
    simp only [Option.map_some]
    unfold bitPosition
    rw [shiftCount_nat, test_bit _ _ hk, mem_word (List.getElem?_eq_getElem _) i rfl]
  · rw [mem_beyond (by omega)]

theorem get_neg (bits : List Word) (i : Int) (h : i < 0) : get bits i = none := by
  unfold get
  have : longPosition i < 0 := by unfold longPosition; omega
  rw [if_pos (by omega), load_neg this]
  rfl

theorem set_ok (bits : List Word) (i : Nat) : (set bits i).2 = true ∧ bits.length ≤ (set bits i).1.length ∧
    ∀ k, mem (set bits i).1 k = (mem bits k || decide (k = i)) := by
  have hl := enlarge_length bits (i / 64 : Nat)
  unfold set
  simp only [longPosition_nat]
  rw [load_nat (by omega)]
  refine ⟨rfl, by simp only [List.length_set]; exact hl.1, ?_⟩
  intro k
  have hk : k % 64 < 64 := Nat.mod_lt _ (by decide)
  simp only [Int.toNat_natCast]
  rw [mem_set (by omega)]
  split
  · next h =>
    rw [BitVec.getLsbD_or, mem_word (List.getElem?_eq_getElem _) k h, enlarge_mem, bitPosition_bit _ _ hk]
    congr 1
    rw [decide_eq_decide]; omega
  · next h =>
    rw [enlarge_mem, decide_eq_false (by rintro rfl; exact h rfl), Bool.or_false]

theorem clear_ok (bits : List Word) (i : Nat) : (clear bits i).2 = true ∧ bits.length ≤ (clear bits i).1.length ∧
    ∀ k, mem (clear bits i).1 k = (mem bits k && !decide (k = i)) := by
  unfold clear
  simp only [longPosition_nat]
  split
  · next hl =>
    rw [load_nat (by omega)]
    refine ⟨rfl, by simp, ?_⟩
    intro k
    have hk : k % 64 < 64 := Nat.mod_lt _ (by decide)
    simp only [Int.toNat_natCast]
    rw [mem_set (by omega)]
    split
    · next h =>
      rw [BitVec.getLsbD_and, BitVec.getLsbD_xor, ones_bit _ hk, mem_word (List.getElem?_eq_getElem _) k h,
        bitPosition_bit _ _ hk, Bool.true_xor]
      congr 2
      rw [decide_eq_decide]; omega
    · next h =>
      rw [decide_eq_false (by rintro rfl; exact h rfl)]; simp
  · next hl =>
    refine ⟨rfl, Nat.le_refl _, ?_⟩
    intro k
    simp only
    by_cases hki : k = i
    · subst hki
      rw [mem_beyond (by omega)]; rfl
    · rw [decide_eq_false hki]; simp

/-! ### Ranges -/

/-- What the mask does to each bit. -/
structure BitOp (op : Word → Word → Word) (g : Bool → Bool → Bool) : Prop where
  bit : ∀ x y k, k < 64 → (op x y).getLsbD k = g (x.getLsbD k) (y.getLsbD k)
  same : ∀ b, g b false = b

theorem or_bit : BitOp (· ||| ·) (· || ·) := ⟨fun x y k _ => BitVec.getLsbD_or, by simp⟩
theorem xor_bit : BitOp (· ^^^ ·) (fun a b => a ^^ b) := ⟨fun x y k _ => BitVec.getLsbD_xor, by simp⟩
theorem clear_bit : BitOp (fun w mask => w &&& (BitVec.allOnes 64 ^^^ mask)) (fun a b => a && !b) :=
  ⟨fun x y k hk => by rw [BitVec.getLsbD_and, BitVec.getLsbD_xor, ones_bit k hk, Bool.true_xor], by simp⟩

theorem maskLoop_ok {op : Word → Word → Word} {g : Bool → Bool → Bool} (ho : BitOp op g) :
    ∀ (n c p t : Nat) (bits : List Word), c / 64 = p → c < t → n + p = (t - 1) / 64 + 1 → n + p ≤ bits.length →
      (maskLoop op n ⟨p, t, c⟩ bits).2 = true ∧ (maskLoop op n ⟨p, t, c⟩ bits).1.length = bits.length ∧
      ∀ k, mem (maskLoop op n ⟨p, t, c⟩ bits).1 k = g (mem bits k) (decide (c ≤ k ∧ k < t)) := by
  intro n
  induction n with
  | zero => intro c p t bits h1 h2 h3 h4; omega
  | succ n ih =>
    intro c p t bits h1 h2 h3 h4
    unfold maskLoop
    have hto : min (t : Int) (((p : Int) + 1) * 64) = ((min t ((p + 1) * 64) : Nat) : Int) := by omega
    simp only [Masks.next, hto]
    rw [load_nat (by omega)]
    simp only [Int.toNat_natCast]
    have hm : ∀ k, k / 64 = p → (getTrueMask (c : Int) ((min t ((p + 1) * 64) : Nat) : Int)).getLsbD (k % 64) =
        decide (c ≤ k ∧ k < t) := by
      intro k hk
      rw [trueMask_bit c _ (k % 64) (by omega) (by omega) (Nat.mod_lt _ (by decide)), decide_eq_decide]
      omega
    have hone : ∀ k, mem (bits.set p (op bits[p] (getTrueMask (c : Int) ((min t ((p + 1) * 64) : Nat) : Int)))) k =
        if k / 64 = p then g (mem bits k) (decide (c ≤ k ∧ k < t)) else mem bits k := by
      intro k
      rw [mem_set (by omega)]
      split
      · next h =>
        rw [ho.bit _ _ _ (Nat.mod_lt _ (by decide)), mem_word (List.getElem?_eq_getElem _) k h, hm k h]
      · rfl
    cases n with
    | zero =>
      unfold maskLoop
      refine ⟨rfl, by simp, ?_⟩
      intro k
      simp only
      rw [hone k]
      split
      · rfl
      · rw [decide_eq_false (by omega), ho.same]
    | succ n =>
      have hmin : min t ((p + 1) * 64) = (p + 1) * 64 := by omega
      rw [hmin] at hone hm ⊢
      obtain ⟨r1, r2, r3⟩ := ih ((p + 1) * 64) (p + 1) t
        (bits.set p (op bits[p] (getTrueMask (c : Int) (((p + 1) * 64 : Nat) : Int)))) (by omega) (by omega) (by omega)
        (by simp only [List.length_set]; omega)
      simp only [Int.natCast_add, Int.cast_ofNat_Int] at r1 r2 r3 hone ⊢
      refine ⟨r1, by rw [r2]; simp, ?_⟩
      intro k
      rw [r3, hone k]
      split
      · next h =>
        rw [show decide ((p + 1) * 64 ≤ k ∧ k < t) = false from decide_eq_false (by omega), ho.same]
      · next h =>
        congr 1
        rw [decide_eq_decide]; omega

theorem partitions_nat {i j : Nat} (h : i < j) : partitions i j = (((j - 1) / 64 + 1 - i / 64 : Nat) : Int) := by
  unfold partitions longPosition; omega

theorem masked_ok {op : Word → Word → Word} {g : Bool → Bool → Bool} (ho : BitOp op g) (i j : Nat) (h : i < j)
    (bits : List Word) (hl : (j - 1) / 64 < bits.length) :
    (masked op i j bits).2 = true ∧ (masked op i j bits).1.length = bits.length ∧
      ∀ k, mem (masked op i j bits).1 k = g (mem bits k) (within i j k) := by
  have := maskLoop_ok ho ((j - 1) / 64 + 1 - i / 64) i (i / 64) j bits rfl h (by omega) (by omega)
  unfold masked
  rw [partitions_nat h, longPosition_nat, Int.toNat_natCast]
  refine ⟨this.1, this.2.1, ?_⟩
  intro k
  rw [this.2.2 k]
  unfold within
  congr 1
  rw [decide_eq_decide]; omega

theorem masked_neg (op : Word → Word → Word) (i j : Int) (h : i < 0) (hj : i < j) (bits : List Word) :
    masked op i j bits = (bits, false) := by
  unfold masked
  obtain ⟨n, hn⟩ : ∃ n, (partitions i j).toNat = n + 1 := by
    refine ⟨(partitions i j).toNat - 1, ?_⟩
    unfold partitions longPosition; omega
  rw [hn]
  unfold maskLoop
  have : longPosition i < 0 := by unfold longPosition; omega
  simp only [Masks.next]
  rw [load_neg this]

theorem lastPartition_nat {i j : Nat} (h : i < j) : lastPartition i j = (((j - 1) / 64 : Nat) : Int) := by
  unfold lastPartition partitions longPosition; omega

/-! ### Two sets -/

theorem combine_length (op : Word → Word → Word) : ∀ xs ys : List Word, (combine op xs ys).length = xs.length
  | [], _ => by simp [combine]
  | _ :: _, [] => by simp [combine]
  | x :: xs, y :: ys => by simp [combine, combine_length op xs ys]

theorem combine_get (op : Word → Word → Word) : ∀ (xs ys : List Word) (p : Nat),
    (combine op xs ys)[p]? = match xs[p]?, ys[p]? with
      | some x, some y => some (op x y)
      | some x, none => some x
      | none, _ => none
  | [], ys, p => by simp [combine]
  | x :: xs, [], p => by
    simp only [combine, List.getElem?_nil]
    cases (x :: xs)[p]? <;> rfl
  | x :: xs, y :: ys, 0 => by simp [combine]
  | x :: xs, y :: ys, p + 1 => by
    simp only [combine, List.getElem?_cons_succ]
    exact combine_get op xs ys p

theorem combine_mem {op : Word → Word → Word} {g : Bool → Bool → Bool} (ho : BitOp op g) (xs ys : List Word)
    (hl : ys.length ≤ xs.length) (k : Nat) : mem (combine op xs ys) k = g (mem xs k) (mem ys k) := by
  have hk : k % 64 < 64 := Nat.mod_lt _ (by decide)
  unfold mem
  rw [combine_get]
  cases hx : xs[k / 64]? with
  | none =>
    have h1 := List.getElem?_eq_none_iff.1 hx
    rw [List.getElem?_eq_none (Nat.le_trans hl h1)]
    simp [ho.same]
  | some x =>
    cases hy : ys[k / 64]? with
    | none => simp [ho.same]
    | some y => exact ho.bit x y _ hk

theorem andNot_bit : BitOp (fun x y => x &&& ~~~y) (fun a b => a && !b) :=
  ⟨fun x y k hk => by rw [BitVec.getLsbD_and, BitVec.getLsbD_not]; simp [hk], by simp⟩

theorem and_mem (bits other : List Word) (k : Nat) : mem (and bits other) k = (mem bits k && mem other k) := by
  have hk : k % 64 < 64 := Nat.mod_lt _ (by decide)
  unfold and mem
  simp only
  rw [List.getElem?_append]
  have hmin : Nat.min bits.length other.length = min bits.length other.length := rfl
  rw [hmin]
  simp only [List.length_take, combine_length]
  split
  · next h =>
    rw [List.getElem?_take, if_pos (by omega), combine_get, List.getElem?_eq_getElem (by omega),
      List.getElem?_eq_getElem (by omega)]
    simp
  · next h =>
    rw [List.getElem?_replicate]
    have : bits.length ≤ k / 64 ∨ other.length ≤ k / 64 := by omega
    rcases this with h1 | h1
    · rw [List.getElem?_eq_none h1]
      split <;> simp
    · rw [List.getElem?_eq_none (l := other) h1]
      split <;> simp

theorem combined {op : Word → Word → Word} {g : Bool → Bool → Bool} (ho : BitOp op g) (bits other : List Word) (k : Nat) :
    mem (combine op (enlarge bits (Nat.max bits.length other.length)) other) k = g (mem bits k) (mem other k) ∧
      bits.length ≤ (combine op (enlarge bits (Nat.max bits.length other.length)) other).length := by
  have hl := enlarge_length bits (Nat.max bits.length other.length)
  have hm : other.length ≤ Nat.max bits.length other.length := Nat.le_max_right _ _
  rw [combine_length]
  refine ⟨?_, hl.1⟩
  rw [combine_mem ho _ _ (by omega), enlarge_mem]

theorem isEmpty_ok : ∀ bits : List Word, isEmpty bits = true ↔ ∀ k, mem bits k = false
  | [] => by simp [isEmpty, mem]
  | w :: ws => by
    have hsucc : ∀ k, mem (w :: ws) (k + 64) = mem ws k := by
      intro k
      unfold mem
      rw [show (k + 64) / 64 = k / 64 + 1 by omega, show (k + 64) % 64 = k % 64 by omega, List.getElem?_cons_succ]
    have hfirst : ∀ k, k < 64 → mem (w :: ws) k = w.getLsbD k := by
      intro k hk
      unfold mem
      rw [show k / 64 = 0 by omega, show k % 64 = k by omega]; rfl
    unfold isEmpty
    by_cases hw : w = 0
    · rw [if_neg (by simpa using hw), isEmpty_ok ws]
      constructor
      · intro h k
        by_cases hk : k < 64
        · rw [hfirst k hk, hw]; simp
        · have := hsucc (k - 64)
          rw [show k - 64 + 64 = k by omega] at this
          rw [this]; exact h _
      · intro h k
        rw [← hsucc]; exact h _
    · rw [if_pos hw]
      simp only [Bool.false_eq_true, false_iff]
      intro h
      apply hw
      apply BitVec.eq_of_getLsbD_eq
      intro k hk
      rw [← hfirst k hk, h k]
      simp

/-! ### The claims -/

theorem within_one (i : Int) (h : 0 ≤ i) (k : Nat) : within i (i + 1) k = decide (k = i.toNat) := by
  unfold within
  rw [decide_eq_decide]; omega

theorem within_neg (i j : Int) (h : i < 0) (k : Nat) : within i j k = false := by
  unfold within
  exact decide_eq_false (by omega)

theorem flipRange_ok (bits : List Word) (i j : Int) : bits.length ≤ (flipRange bits i j).1.length ∧
    (flipRange bits i j).2 = !decide (i < 0 ∨ j < i) ∧
    ∀ k, mem (flipRange bits i j).1 k = (mem bits k ^^ within i j k) := by
  unfold flipRange
  by_cases h : i > j ∨ i < 0 ∨ j < 0
  · rw [if_pos h]
    refine ⟨Nat.le_refl _, ?_, ?_⟩
    · rw [decide_eq_true (by omega)]; rfl
    · intro k
      have : within i j k = false := decide_eq_false (by omega)
      rw [this]; simp
  · rw [if_neg h]
    by_cases he : i = j
    · subst he
      rw [if_neg (by simp)]
      refine ⟨Nat.le_refl _, ?_, ?_⟩
      · rw [decide_eq_false (by omega)]; rfl
      · intro k
        have : within i i k = false := decide_eq_false (by omega)
        rw [this]; simp
    · rw [if_pos he]
      obtain ⟨a, rfl⟩ : ∃ a : Nat, i = a := ⟨i.toNat, by omega⟩
      obtain ⟨b, rfl⟩ : ∃ b : Nat, j = b := ⟨j.toNat, by omega⟩
      have hab : a < b := by omega
      rw [lastPartition_nat hab]
      have hl := enlarge_length bits ((b - 1) / 64 : Nat)
      obtain ⟨r1, r2, r3⟩ := masked_ok xor_bit a b hab (enlarge bits ((b - 1) / 64 : Nat)) (by omega)
      refine ⟨by rw [r2]; exact hl.1, by rw [r1, decide_eq_false (by omega)]; rfl, ?_⟩
      intro k
      rw [r3, enlarge_mem]

theorem exec_ok (bits : List Word) (capacity : Nat) (hc : capacity ≤ 64 * bits.length) (op : Op) (hu : Usable capacity op) :
    Answer (mem bits) op (exec bits op).1 ∧ (∀ k, mem (exec bits op).2 k = after (mem bits) op k) ∧
      bits.length ≤ (exec bits op).2.length := by
  cases op with
  | get i =>
    refine ⟨?_, fun _ => rfl, Nat.le_refl _⟩
    simp only [Answer, exec]
    split
    · next h => rw [get_neg bits i h]
    · next h =>
      obtain ⟨a, rfl⟩ : ∃ a : Nat, i = a := ⟨i.toNat, by omega⟩
      rw [get_ok]; rfl
  | set i =>
    simp only [Answer, exec, result, after]
    by_cases h : i < 0
    · have hp : longPosition i < 0 := by unfold longPosition; omega
      have he : enlarge bits (longPosition i) = bits := by unfold enlarge; rw [if_neg (by omega)]
      have : set bits i = (bits, false) := by
        unfold set; simp only; rw [he, load_neg hp]
      rw [this, if_pos h]
      refine ⟨rfl, ?_, Nat.le_refl _⟩
      intro k; rw [within_neg _ _ h]; simp
    · obtain ⟨a, rfl⟩ : ∃ a : Nat, i = a := ⟨i.toNat, by omega⟩
      obtain ⟨r1, r2, r3⟩ := set_ok bits a
      rw [r1, if_neg h]
      refine ⟨rfl, ?_, r2⟩
      intro k
      rw [r3, within_one _ (by omega)]; simp
  | clear i =>
    simp only [Answer, exec, result, after]
    by_cases h : i < 0
    · have hp : longPosition i < 0 := by unfold longPosition; omega
      have : clear bits i = (bits, false) := by
        unfold clear; rw [if_pos (by omega), load_neg hp]
      rw [this, if_pos h]
      refine ⟨rfl, ?_, Nat.le_refl _⟩
      intro k; rw [within_neg _ _ h]; simp
    · obtain ⟨a, rfl⟩ : ∃ a : Nat, i = a := ⟨i.toNat, by omega⟩
      obtain ⟨r1, r2, r3⟩ := clear_ok bits a
      rw [r1, if_neg h]
      refine ⟨rfl, ?_, r2⟩
      intro k
      rw [r3, within_one _ (by omega)]; simp
  | flip i =>
    simp only [Answer, exec, result, after, flip]
    obtain ⟨r1, r2, r3⟩ := flipRange_ok bits i (i + 1)
    refine ⟨?_, r3, r1⟩
    rw [r2]
    by_cases h : i < 0
    · rw [decide_eq_true (by omega), if_pos h]; rfl
    · rw [decide_eq_false (by omega), if_neg h]; rfl
  | setRange i j =>
    simp only [Answer, exec, result, after, setRange]
    have hij : i < j := hu
    have hl := enlarge_length bits (lastPartition i j)
    by_cases h : i < 0
    · rw [masked_neg _ i j h hij, if_pos h]
      refine ⟨rfl, ?_, hl.1⟩
      intro k; rw [within_neg _ _ h, enlarge_mem]; simp
    · obtain ⟨a, rfl⟩ : ∃ a : Nat, i = a := ⟨i.toNat, by omega⟩
      obtain ⟨b, rfl⟩ : ∃ b : Nat, j = b := ⟨j.toNat, by omega⟩
      have hab : a < b := by omega
      rw [lastPartition_nat hab] at hl ⊢
      obtain ⟨r1, r2, r3⟩ := masked_ok or_bit a b hab (enlarge bits ((b - 1) / 64 : Nat)) (by omega)
      rw [r1, if_neg h]
      refine ⟨rfl, ?_, by rw [r2]; exact hl.1⟩
      intro k
      rw [r3, enlarge_mem]
  | clearRange i j =>
    simp only [Answer, exec, result, after, clearRange]
    obtain ⟨hij, hj⟩ : i < j ∧ j ≤ capacity := hu
    by_cases h : i < 0
    · rw [masked_neg _ i j h hij, if_pos h]
      refine ⟨rfl, ?_, Nat.le_refl _⟩
      intro k; rw [within_neg _ _ h]; simp
    · obtain ⟨a, rfl⟩ : ∃ a : Nat, i = a := ⟨i.toNat, by omega⟩
      obtain ⟨b, rfl⟩ : ∃ b : Nat, j = b := ⟨j.toNat, by omega⟩
      have hab : a < b := by omega
      obtain ⟨r1, r2, r3⟩ := masked_ok clear_bit a b hab bits (by omega)
      rw [r1, if_neg h]
      exact ⟨rfl, r3, by rw [r2]; exact Nat.le_refl _⟩
  | flipRange i j =>
    simp only [Answer, exec, result, after]
    obtain ⟨r1, r2, r3⟩ := flipRange_ok bits i j
    refine ⟨?_, r3, r1⟩
    rw [r2]
    by_cases h : i < 0 ∨ j < i
    · rw [decide_eq_true h, if_pos h]; rfl
    · rw [decide_eq_false h, if_neg h]; rfl
  | and other =>
    refine ⟨rfl, and_mem bits other, ?_⟩
    simp only [exec, and, List.length_append, List.length_take, List.length_replicate, combine_length]
    have : Nat.min bits.length other.length = min bits.length other.length := rfl
    omega
  | andNot other =>
    exact ⟨rfl, fun k => (combined andNot_bit bits other k).1, (combined andNot_bit bits other 0).2⟩
  | or other => exact ⟨rfl, fun k => (combined or_bit bits other k).1, (combined or_bit bits other 0).2⟩
  | xor other => exact ⟨rfl, fun k => (combined xor_bit bits other k).1, (combined xor_bit bits other 0).2⟩
  | isEmpty => exact ⟨⟨_, rfl, isEmpty_ok bits⟩, fun _ => rfl, Nat.le_refl _⟩

theorem run_ok (capacity : Nat) : ∀ (ops : List Op) (bits : List Word) (f : Nat → Bool), (∀ k, mem bits k = f k) →
    capacity ≤ 64 * bits.length → (∀ op ∈ ops, Usable capacity op) →
    Answers f ops (runCode bits ops).1 ∧ ∀ k, mem (runCode bits ops).2 k = runSpec f ops k
  | [], _, _, hm, _, _ => ⟨trivial, hm⟩
  | op :: ops, bits, f, hm, hc, hu => by
    have hf : f = mem bits := (funext hm).symm
    subst hf
    obtain ⟨h1, h2, h3⟩ := exec_ok bits capacity hc op (hu op (List.mem_cons_self ..))
    have := run_ok capacity ops (exec bits op).2 (after (mem bits) op) h2 (by omega)
      (fun o ho => hu o (List.mem_cons_of_mem _ ho))
    exact ⟨⟨h1, this.1⟩, this.2⟩

/-- C71, for `set` and `clear` with ranges that are not empty and, for `clear`, within the first capacity: whatever is
done to a set made for `capacity` numbers, every answer is that of the set of numbers, and so is what `get` tells in the
end.  (The full claim would be for all ranges; see `empty_range` and `clear_beyond`.) -/
theorem set_partial (capacity : Nat) (ops : List Op) (hu : ∀ op ∈ ops, Usable capacity op) :
    ∃ bits, new capacity = some bits ∧ Answers (fun _ => false) ops (runCode bits ops).1 ∧
      ∀ k : Nat, get (runCode bits ops).2 k = some (runSpec (fun _ => false) ops k) := by
  unfold new
  have hn : ∃ n : Nat, (if (capacity : Int).tmod 64 = 0 then longPosition capacity else longPosition capacity + 1) = n ∧
      capacity ≤ 64 * n := by
    rw [longPosition_nat, show ((capacity : Int).tmod 64) = ((capacity % 64 : Nat) : Int) from rfl]
    split
    · exact ⟨capacity / 64, rfl, by omega⟩
    · exact ⟨capacity / 64 + 1, by omega, by omega⟩
  obtain ⟨n, hn, hcap⟩ := hn
  simp only [hn]
  rw [if_neg (by omega)]
  refine ⟨_, rfl, ?_⟩
  have := run_ok capacity ops (List.replicate ((n : Int) + 1).toNat 0) (fun _ => false) (by
    intro k
    unfold mem
    rw [List.getElem?_replicate]
    split <;> simp) (by simp only [List.length_replicate]; omega) hu
  refine ⟨this.1, ?_⟩
  intro k
  rw [get_ok, this.2 k]

/-- A history with ranges over several words and a refused index. -/
example : (∀ op ∈ [Op.setRange 60 200, .clearRange 64 100, .flip 130, .set (-1), .get 63, .get 64, .get 130, .and [0xFF], .isEmpty],
      Usable 100 op) ∧
    (runCode (List.replicate 3 0) [.setRange 60 200, .clearRange 64 100, .flip 130, .set (-1), .get 63, .get 64, .get 130,
      .and [0xFF], .isEmpty]).1 =
    [.done, .done, .done, .refused, .bool true, .bool false, .bool false, .done, .bool true] := by
  refine ⟨?_, by decide +kernel⟩
  intro op hop
  simp only [List.mem_cons, List.not_mem_nil, or_false] at hop
  rcases hop with rfl | rfl | rfl | rfl | rfl | rfl | rfl | rfl | rfl <;> simp [Usable]

/-- C71 (limit of the code): an empty range that begins within a word is not empty: `set(n, n)` adds the numbers from `n`
to the end of the word. -/
theorem empty_range (bits : List Word) (n : Nat) (hn : n % 64 ≠ 0) (k : Nat) :
    mem (setRange bits n n).1 k = (mem bits k || decide (n ≤ k ∧ k / 64 = n / 64)) := by
  have hp : partitions (n : Int) n = 1 := by unfold partitions longPosition; omega
  have hlp : lastPartition (n : Int) n = ((n / 64 : Nat) : Int) := by
    unfold lastPartition; rw [hp]; unfold longPosition; omega
  have hl := enlarge_length bits (n / 64 : Nat)
  unfold setRange masked
  rw [hlp, hp, longPosition_nat, show (1 : Int).toNat = 0 + 1 from rfl]
  unfold maskLoop
  have hto : min (n : Int) ((((n / 64 : Nat) : Int) + 1) * 64) = n := by omega
  simp only [Masks.next, hto]
  rw [load_nat (by omega)]
  simp only [Int.toNat_natCast]
  unfold maskLoop
  simp only
  have hk : k % 64 < 64 := Nat.mod_lt _ (by decide)
  rw [mem_set (by omega)]
  split
  · next h =>
    rw [BitVec.getLsbD_or, mem_word (List.getElem?_eq_getElem _) k h, enlarge_mem]
    congr 1
    unfold getTrueMask
    rw [shiftCount_nat, show ((64 - ((n : Int) - n)) % 64).toNat = 0 by omega, BitVec.getLsbD_shiftLeft]
    simp only [hk, decide_true, Bool.true_and, BitVec.ushiftRight_zero]
    rw [ones_bit _ (by omega), Bool.and_true, ← decide_not, decide_eq_decide]
    omega
  · next h =>
    rw [enlarge_mem, decide_eq_false (by omega), Bool.or_false]

/-- C71 (limit of the code): `clear` of a range that goes beyond the words of the set fails. -/
theorem clear_beyond (bits : List Word) (i j : Nat) (hi : bits.length ≤ i / 64) (h : i < j) :
    exec bits (.clearRange i j) = (.refused, bits) := by
  obtain ⟨n, hn⟩ : ∃ n, (partitions i j).toNat = n + 1 := by
    refine ⟨(partitions i j).toNat - 1, ?_⟩
    rw [partitions_nat h]; omega
  simp only [exec, clearRange, masked, hn]
  unfold maskLoop
  simp only [Masks.next, longPosition_nat]
  have : load bits ((i / 64 : Nat) : Int) = none := by
    unfold load
    rw [if_pos (by omega), Int.toNat_natCast, List.getElem?_eq_none hi]
  rw [this]
  rfl

/-- C71: sets with equally many words intersect if and only if they have a common number. -/
theorem intersects_partial : ∀ (xs ys : List Word), xs.length = ys.length →
    ∃ b, intersects xs ys = some b ∧ (b = true ↔ ∃ k, mem xs k = true ∧ mem ys k = true)
  | [], [], _ => ⟨false, rfl, by simp [mem]⟩
  | x :: xs, y :: ys, h => by
    obtain ⟨b, h1, h2⟩ := intersects_partial xs ys (by simpa using h)
    have hsucc : ∀ (w : Word) ws k, mem (w :: ws) (k + 64) = mem ws k := by
      intro w ws k
      unfold mem
      rw [show (k + 64) / 64 = k / 64 + 1 by omega, show (k + 64) % 64 = k % 64 by omega, List.getElem?_cons_succ]
    have hfirst : ∀ (w : Word) ws k, k < 64 → mem (w :: ws) k = w.getLsbD k := by
      intro w ws k hk
      unfold mem
      rw [show k / 64 = 0 by omega, show k % 64 = k by omega]; rfl
    unfold intersects
    by_cases hxy : x &&& y = 0
    · rw [if_neg (by simpa using hxy)]
      refine ⟨b, h1, h2.trans ⟨?_, ?_⟩⟩
      · rintro ⟨k, k1, k2⟩
        exact ⟨k + 64, by rw [hsucc]; exact k1, by rw [hsucc]; exact k2⟩
      · rintro ⟨k, k1, k2⟩
        by_cases hk : k < 64
        · rw [hfirst _ _ _ hk] at k1 k2
          have := congrArg (fun w => BitVec.getLsbD w k) hxy
          simp [k1, k2] at this
        · refine ⟨k - 64, ?_, ?_⟩
          · rw [← hsucc x, show k - 64 + 64 = k by omega]; exact k1
          · rw [← hsucc y, show k - 64 + 64 = k by omega]; exact k2
    · rw [if_pos hxy]
      refine ⟨true, rfl, ⟨fun _ => ?_, fun _ => rfl⟩⟩
      apply Classical.byContradiction
      intro hno
      apply hxy
      apply BitVec.eq_of_getLsbD_eq
      intro k hk
      rw [BitVec.getLsbD_and]
      cases hx : x.getLsbD k <;> cases hy : y.getLsbD k <;> try simp
      exact hno ⟨k, by rw [hfirst _ _ _ hk]; exact hx, by rw [hfirst _ _ _ hk]; exact hy⟩
  | [], _ :: _, h => by simp at h
  | _ :: _, [], h => by simp at h

/-- C71 (limit of the code): `intersects` of sets with different numbers of words fails unless there is a common number
in the words both have. -/
theorem intersects_fails : ∀ (xs ys : List Word), xs.length ≠ ys.length → (∀ k, ¬ (mem xs k = true ∧ mem ys k = true)) →
    intersects xs ys = none
  | [], [], h, _ => absurd rfl h
  | x :: xs, y :: ys, h, hno => by
    have hsucc : ∀ (w : Word) ws k, mem (w :: ws) (k + 64) = mem ws k := by
      intro w ws k
      unfold mem
      rw [show (k + 64) / 64 = k / 64 + 1 by omega, show (k + 64) % 64 = k % 64 by omega, List.getElem?_cons_succ]
    have hfirst : ∀ (w : Word) ws k, k < 64 → mem (w :: ws) k = w.getLsbD k := by
      intro w ws k hk
      unfold mem
      rw [show k / 64 = 0 by omega, show k % 64 = k by omega]; rfl
    unfold intersects
    have hxy : x &&& y = 0 := by
      apply BitVec.eq_of_getLsbD_eq
      intro k hk
      rw [BitVec.getLsbD_and]
      have := hno k
      rw [hfirst _ _ _ hk, hfirst _ _ _ hk] at this
      cases hx : x.getLsbD k <;> cases hy : y.getLsbD k <;> simp_all
    rw [if_neg (by simpa using hxy)]
    refine intersects_fails xs ys (by simpa using h) ?_
    intro k hk
    refine hno (k + 64) ?_
    rw [hsucc, hsucc]; exact hk
  | [], _ :: _, _, _ => rfl
  | _ :: _, [], _, _ => rfl

/-- The sets with one number below 64 (two words) and one above 192 (five words). -/
example : (new 64).bind (fun a => (new 256).bind fun b => intersects (set a 3).1 (set b 200).1) = none := by decide +kernel

/-! ### Enumeration -/

/-- No word without numbers comes before a word with numbers. -/
def NoGap (bits : List Word) : Prop := ∀ p q : Nat, p < q → bits[p]? = some 0 → ∀ w, bits[q]? = some w → w = 0

theorem scan_ok (w : Word) : ∀ fuel c, 64 ≤ fuel + c % 64 →
    match scanWord w false fuel c with
    | .inl i => c ≤ i ∧ i / 64 = c / 64 ∧ w.getLsbD (i % 64) = true ∧ ∀ k, c ≤ k → k < i → w.getLsbD (k % 64) = false
    | .inr i => i = (c / 64 + 1) * 64 ∧ ∀ k, c ≤ k → k < i → w.getLsbD (k % 64) = false := by
  intro fuel
  induction fuel with
  | zero => intro c hc; have := Nat.mod_lt c (show 64 > 0 by decide); omega
  | succ fuel ih =>
    intro c hc
    unfold scanWord
    have hk : c % 64 < 64 := Nat.mod_lt _ (by decide)
    have hb : (((w &&& bitPosition c) != 0) ^^ false) = w.getLsbD (c % 64) := by
      unfold bitPosition
      rw [shiftCount_nat, test_bit w _ hk, Bool.xor_false]
    rw [hb]
    by_cases ht : w.getLsbD (c % 64) = true
    · rw [if_pos ht]
      exact ⟨Nat.le_refl _, rfl, ht, by intro k h1 h2; omega⟩
    · rw [if_neg ht]
      have hf : w.getLsbD (c % 64) = false := by simpa using ht
      by_cases hn : (c + 1) % 64 = 0
      · rw [if_neg (by simpa using hn)]
        refine ⟨by omega, ?_⟩
        intro k h1 h2
        rw [show k = c by omega]; exact hf
      · rw [if_pos hn]
        have := ih (c + 1) (by omega)
        cases hs : scanWord w false fuel (c + 1) with
        | inl i =>
          rw [hs] at this
          simp only at this ⊢
          refine ⟨by omega, by omega, this.2.2.1, ?_⟩
          intro k h1 h2
          by_cases hkc : k = c
          · rw [hkc]; exact hf
          · exact this.2.2.2 k (by omega) h2
        | inr i =>
          rw [hs] at this
          simp only at this ⊢
          refine ⟨by omega, ?_⟩
          intro k h1 h2
          by_cases hkc : k = c
          · rw [hkc]; exact hf
          · exact this.2 k (by omega) h2

/-- Only zero words are left: nothing is found, whatever `current` is. -/
theorem nextLoop_zeros (bits : List Word) (hz : ∀ q, p ≤ q → ∀ w, bits[q]? = some w → w = 0) :
    ∀ fuel q c, p ≤ q → nextLoop bits false fuel q c = -1 := by
  intro fuel
  induction fuel with
  | zero => intros; rfl
  | succ fuel ih =>
    intro q c hq
    unfold nextLoop
    cases hw : bits[q]? with
    | none => rfl
    | some w =>
      simp only
      rw [if_pos (hz q hq w hw)]
      exact ih _ _ (by omega)

/-- The result of a search for the next number: it is the least number of the set not below `c`, and -1 if there is none. -/
def Next (bits : List Word) (c : Nat) (r : Int) : Prop :=
  (∃ i : Nat, r = i ∧ c ≤ i ∧ mem bits i = true ∧ ∀ k, c ≤ k → k < i → mem bits k = false) ∨
  (r = -1 ∧ ∀ k, c ≤ k → mem bits k = false)

theorem nextLoop_ok (bits : List Word) (hg : NoGap bits) : ∀ fuel c, bits.length ≤ fuel + c / 64 →
    Next bits c (nextLoop bits false fuel (c / 64) c) := by
  intro fuel
  induction fuel with
  | zero =>
    intro c hc
    right
    refine ⟨rfl, ?_⟩
    intro k hk
    exact mem_beyond (by omega)
  | succ fuel ih =>
    intro c hc
    unfold nextLoop
    cases hw : bits[c / 64]? with
    | none =>
      right
      refine ⟨rfl, ?_⟩
      intro k hk
      have := List.getElem?_eq_none_iff.1 hw
      exact mem_beyond (by omega)
    | some w =>
      simp only
      by_cases h0 : w = 0
      · rw [if_pos h0]
        subst h0
        have hz : ∀ q, c / 64 ≤ q → ∀ w, bits[q]? = some w → w = 0 := by
          intro q hq w hw'
          by_cases he : q = c / 64
          · rw [he, hw] at hw'; exact (Option.some.inj hw').symm
          · exact hg (c / 64) q (by omega) hw w hw'
        right
        refine ⟨nextLoop_zeros bits hz _ _ _ (by omega), ?_⟩
        intro k hk
        unfold mem
        cases hk' : bits[k / 64]? with
        | none => simp
        | some v => rw [hz (k / 64) (by omega) v hk']; simp
      · rw [if_neg h0]
        have hs := scan_ok w 64 c (by omega)
        cases hsc : scanWord w false 64 c with
        | inl i =>
          rw [hsc] at hs
          simp only at hs ⊢
          left
          refine ⟨i, rfl, hs.1, ?_, ?_⟩
          · rw [← mem_word hw i hs.2.1]; exact hs.2.2.1
          · intro k h1 h2
            rw [← mem_word hw k (by omega)]; exact hs.2.2.2 k h1 h2
        | inr i =>
          rw [hsc] at hs
          simp only at hs ⊢
          have hlow : ∀ k, c ≤ k → k < i → mem bits k = false := by
            intro k h1 h2
            rw [← mem_word hw k (by omega)]; exact hs.2 k h1 h2
          have := ih i (by omega)
          rw [show i / 64 = c / 64 + 1 by omega] at this
          rcases this with ⟨j, e, h1, h2, h3⟩ | ⟨e, h3⟩
          · left
            refine ⟨j, e, by omega, h2, ?_⟩
            intro k k1 k2
            by_cases hk : k < i
            · exact hlow k k1 hk
            · exact h3 k (by omega) k2
          · right
            refine ⟨e, ?_⟩
            intro k k1
            by_cases hk : k < i
            · exact hlow k k1 hk
            · exact h3 k (by omega)

/-- C71, for sets in which no word without numbers comes before a word with numbers: `nextSetBit` tells the least number
of the set that is not below the index, or -1.  (The full claim would be for all sets; see `next_skips`.) -/
theorem nextSetBit_partial (bits : List Word) (hg : NoGap bits) (c : Nat) : Next bits c (nextSetBit bits c) := by
  unfold nextSetBit nextBit
  exact nextLoop_ok bits hg bits.length c (by omega)

/-- The numbers of the set, ascending, from `c` below `n`. -/
def numbers (bits : List Word) (c n : Nat) : List Nat := (List.range' c (n - c)).filter (mem bits)

theorem numbers_skip (bits : List Word) (n : Nat) : ∀ d c, (∀ k, c ≤ k → k < c + d → mem bits k = false) →
    numbers bits c n = numbers bits (c + d) n := by
  intro d
  induction d with
  | zero => intros; rfl
  | succ d ih =>
    intro c h
    have h1 : numbers bits c n = numbers bits (c + 1) n := by
      unfold numbers
      by_cases hc : c < n
      · rw [show n - c = (n - (c + 1)) + 1 by omega, List.range'_succ, List.filter_cons, h c (Nat.le_refl _) (by omega)]
        simp
      · rw [show n - c = 0 by omega, show n - (c + 1) = 0 by omega]; rfl
    rw [h1, ih (c + 1) (fun k k1 k2 => h k (by omega) (by omega)), show c + 1 + d = c + (d + 1) by omega]

theorem numbers_cons (bits : List Word) (n c : Nat) (hc : c < n) (h : mem bits c = true) :
    numbers bits c n = c :: numbers bits (c + 1) n := by
  unfold numbers
  rw [show n - c = (n - (c + 1)) + 1 by omega, List.range'_succ, List.filter_cons, h]
  simp

theorem countLoop_ok (bits : List Word) (hg : NoGap bits) : ∀ fuel c m, 64 * bits.length + 1 ≤ fuel + c →
    countLoop bits fuel (nextSetBit bits c) m = some (m + (numbers bits c (64 * bits.length)).length) ∨
      (64 * bits.length < c) := by
  intro fuel
  induction fuel with
  | zero => intro c m h; right; omega
  | succ fuel ih =>
    intro c m h
    left
    unfold countLoop
    rcases nextSetBit_partial bits hg c with ⟨i, e, h1, h2, h3⟩ | ⟨e, h3⟩
    · rw [e, if_pos (by omega), Int.toNat_natCast]
      have hin : i < 64 * bits.length := by
        apply Classical.byContradiction
        intro hn
        rw [mem_beyond (by omega)] at h2
        exact absurd h2 (by simp)
      rcases ih (i + 1) (m + 1) (by omega) with h4 | h4
      · rw [h4, numbers_skip bits _ (i - c) c (fun k k1 k2 => h3 k k1 (by omega)), show c + (i - c) = i by omega,
          numbers_cons bits _ i hin h2]
        simp only [List.length_cons]
        congr 1; omega
      · omega
    · rw [e, if_neg (by omega)]
      rw [numbers_skip bits _ (64 * bits.length - c) c (fun k k1 _ => h3 k k1)]
      unfold numbers
      rw [show 64 * bits.length - (c + (64 * bits.length - c)) = 0 by omega]
      rfl

/-- C71, for the same sets: `cardinality` is the number of numbers in the set. -/
theorem cardinality_partial (bits : List Word) (hg : NoGap bits) :
    cardinality bits = some ((List.range (64 * bits.length)).filter (mem bits)).length := by
  unfold cardinality
  rcases countLoop_ok bits hg (64 * bits.length + 1) 0 0 (by omega) with h | h
  · rw [h]
    unfold numbers
    rw [Nat.zero_add, Nat.sub_zero, List.range_eq_range']
  · omega

/-- A set with numbers in the first two of four words. -/
example : NoGap [5, 1, 0, 0] ∧ cardinality [5, 1, 0, 0] = some 3 := by
  refine ⟨?_, by decide +kernel⟩
  intro p q hpq hp w hq
  rcases p with _ | _ | _ | _ | p
  · simp at hp
  · simp at hp
  · rcases q with _ | _ | _ | _ | q <;> simp_all
  · rcases q with _ | _ | _ | _ | q <;> simp_all
  · simp at hp

/-- C71 (limit of the code): behind a word without numbers the next word is skipped, and the words behind that are taken
for others: the set with only the number 64 is said to have none, and the set with only 128 to have 64. -/
theorem next_skips : nextSetBit (set newDefault 64).1 0 = -1 ∧ cardinality (set newDefault 64).1 = some 0 ∧
    nextSetBit (set newDefault 128).1 0 = 64 := by decide +kernel

/-- C71 (limit of the code): in a set without numbers there is said to be no clear bit, and the length is said to be that
of the array. -/
theorem clear_none : nextClearBit newDefault 0 = -1 ∧ length newDefault = 128 := by decide +kernel

end Avian.JBitSet
