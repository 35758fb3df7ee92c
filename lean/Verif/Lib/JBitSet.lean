import Verif.Lib.Outcome

/-
Sets of bits (classpath/java/util/BitSet.java).

Indices are integers; they are below 2^31 - 64, so that the arithmetic of the code does not overflow.  The array of
longs is the list of its words, and memory does not run out.  The other set of a binary operation is another object.
-/
namespace Avian.JBitSet

abbrev Word := BitVec 64

/-- BitSet.java:27-29 `longPosition`. -/
def longPosition (index : Int) : Int := index / 64

/-- The count of a shift of a long is taken modulo 64, also after `%`, which may be negative. -/
def shiftCount (index : Int) : Nat := (index.tmod 64 % 64).toNat

/-- BitSet.java:31-33 `bitPosition`. -/
def bitPosition (index : Int) : Word := 1#64 <<< shiftCount index

/-- BitSet.java:35-38 `getTrueMask`; `MASK >>> n` uses the low six bits of `n`. -/
def getTrueMask (fromIndex toIndex : Int) : Word :=
  (BitVec.allOnes 64 >>> ((64 - (toIndex - fromIndex)) % 64).toNat) <<< shiftCount fromIndex

/-- BitSet.java:89-97 `enlarge`, for an array that exists. -/
def enlarge (bits : List Word) (newPartition : Int) : List Word :=
  if (bits.length : Int) < newPartition + 1 then bits ++ List.replicate ((newPartition + 1).toNat - bits.length) 0
  else bits

/-- BitSet.java:40-46 `new BitSet(bitLength)`; `none` if the size of the array is negative. -/
def new (bitLength : Int) : Option (List Word) :=
  let n := if bitLength.tmod 64 = 0 then longPosition bitLength else longPosition bitLength + 1
  if n + 1 < 0 then none else some (List.replicate (n + 1).toNat 0)

/-- BitSet.java:48-50 `new BitSet()`. -/
def newDefault : List Word := List.replicate 2 0

/-- `bits[i]`; `none` is the exception. -/
def load (bits : List Word) (i : Int) : Option Word := if 0 ≤ i then bits[i.toNat]? else none

/-- BitSet.java:53-56, 65-67, 74-76, 83-85: the loops over the words both arrays have. -/
def combine (op : Word → Word → Word) : List Word → List Word → List Word
  | x :: xs, y :: ys => op x y :: combine op xs ys
  | xs, _ => xs

/-- BitSet.java:52-60 `and`. -/
def and (bits other : List Word) : List Word :=
  let min := Nat.min bits.length other.length
  (combine (· &&& ·) bits other).take min ++ List.replicate (bits.length - min) 0

/-- BitSet.java:62-69 `andNot`. -/
def andNot (bits other : List Word) : List Word :=
  combine (fun x y => x &&& ~~~y) (enlarge bits (Nat.max bits.length other.length)) other

/-- BitSet.java:71-78 `or`. -/
def or (bits other : List Word) : List Word :=
  combine (· ||| ·) (enlarge bits (Nat.max bits.length other.length)) other

/-- BitSet.java:80-87 `xor`. -/
def xor (bits other : List Word) : List Word :=
  combine (· ^^^ ·) (enlarge bits (Nat.max bits.length other.length)) other

/-- BitSet.java:99-105 `get`. -/
def get (bits : List Word) (index : Int) : Option Bool :=
  if longPosition index < bits.length then
    (load bits (longPosition index)).map fun w => w &&& bitPosition index != 0
  else some false

/-- BitSet.java:221-226: the fields of a `MaskInfoIterator`; the number of partitions left takes the place of
`currentPartitionOffset < numPartitionsToTraverse`. -/
structure Masks where
  partition : Int
  toIndex : Int
  currentFirstIndex : Int

/-- BitSet.java:228-234: the number of partitions to traverse. -/
def partitions (fromIndex toIndex : Int) : Int := longPosition (toIndex - 1) - longPosition fromIndex + 1

/-- BitSet.java:253-255 `getLastPartition`. -/
def lastPartition (fromIndex toIndex : Int) : Int := longPosition fromIndex + partitions fromIndex toIndex - 1

/-- BitSet.java:236-243 `next`. -/
def Masks.next (m : Masks) : (Word × Int) × Masks :=
  let currentToIndex := min m.toIndex ((m.partition + 1) * 64)
  ((getTrueMask m.currentFirstIndex currentToIndex, m.partition),
    { m with currentFirstIndex := currentToIndex, partition := m.partition + 1 })

/-- BitSet.java:117-120, 133-136, 148-151: the loop over the masks; the answer says whether it came to its end (and not
to an exception). -/
def maskLoop (op : Word → Word → Word) : Nat → Masks → List Word → List Word × Bool
  | 0, _, bits => (bits, true)
  | n + 1, m, bits =>
    match load bits m.next.1.2 with
    | none => (bits, false)
    | some w => maskLoop op n m.next.2 (bits.set m.next.1.2.toNat (op w m.next.1.1))

/-- The loop for the range. -/
def masked (op : Word → Word → Word) (fromIndex toIndex : Int) (bits : List Word) : List Word × Bool :=
  maskLoop op (partitions fromIndex toIndex).toNat ⟨longPosition fromIndex, toIndex, fromIndex⟩ bits

/-- BitSet.java:111-122 `flip(fromIndex, toIndex)`. -/
def flipRange (bits : List Word) (fromIndex toIndex : Int) : List Word × Bool :=
  if fromIndex > toIndex ∨ fromIndex < 0 ∨ toIndex < 0 then (bits, false)
  else if fromIndex ≠ toIndex then
    masked (· ^^^ ·) fromIndex toIndex (enlarge bits (lastPartition fromIndex toIndex))
  else (bits, true)

/-- BitSet.java:107-109 `flip(index)`. -/
def flip (bits : List Word) (index : Int) : List Word × Bool := flipRange bits index (index + 1)

/-- BitSet.java:124-128 `set(index)`. -/
def set (bits : List Word) (index : Int) : List Word × Bool :=
  let bits := enlarge bits (longPosition index)
  match load bits (longPosition index) with
  | none => (bits, false)
  | some w => (bits.set (longPosition index).toNat (w ||| bitPosition index), true)

/-- BitSet.java:130-137 `set(start, end)`. -/
def setRange (bits : List Word) (start fin : Int) : List Word × Bool :=
  masked (· ||| ·) start fin (enlarge bits (lastPartition start fin))

/-- BitSet.java:139-144 `clear(index)`. -/
def clear (bits : List Word) (index : Int) : List Word × Bool :=
  if longPosition index < bits.length then
    match load bits (longPosition index) with
    | none => (bits, false)
    | some w => (bits.set (longPosition index).toNat (w &&& (BitVec.allOnes 64 ^^^ bitPosition index)), true)
  else (bits, true)

/-- BitSet.java:146-152 `clear(start, end)`. -/
def clearRange (bits : List Word) (start fin : Int) : List Word × Bool :=
  masked (fun w mask => w &&& (BitVec.allOnes 64 ^^^ mask)) start fin bits

/-- BitSet.java:154-161 `isEmpty`. -/
def isEmpty : List Word → Bool
  | [] => true
  | w :: ws => if w ≠ 0 then false else isEmpty ws

/-- BitSet.java:163-171 `intersects`; the loop goes to the larger length, and reading beyond the end of an array is the
exception `none`. -/
def intersects : List Word → List Word → Option Bool
  | [], [] => some false
  | x :: xs, y :: ys => if x &&& y ≠ 0 then some true else intersects xs ys
  | _, _ => none

/-- BitSet.java:173-175 `length`. -/
def length (bits : List Word) : Nat := bits.length <<< 6

/-- BitSet.java:193-200: the inner loop of `nextBit`; it makes at most 64 turns. -/
def scanWord (value : Word) (bitClear : Bool) : Nat → Nat → Nat ⊕ Nat
  | 0, current => .inr current
  | fuel + 1, current =>
    if ((value &&& bitPosition current) != 0) ^^ bitClear then .inl current
    else if (current + 1) % 64 ≠ 0 then scanWord value bitClear fuel (current + 1)
    else .inr (current + 1)

/-- BitSet.java:187-204: the outer loop of `nextBit`. -/
def nextLoop (bits : List Word) (bitClear : Bool) : Nat → Nat → Nat → Int
  | 0, _, _ => -1
  | fuel + 1, pos, current =>
    match bits[pos]? with
    | none => -1
    | some value =>
      if value = 0 then nextLoop bits bitClear fuel (pos + 1 + 1) ((pos + 1) <<< 6)
      else
        match scanWord value bitClear 64 current with
        | .inl found => found
        | .inr current => nextLoop bits bitClear fuel (pos + 1) current

/-- BitSet.java:181-206 `nextBit`, from an index that is not negative. -/
def nextBit (bits : List Word) (fromIndex : Nat) (bitClear : Bool) : Int :=
  nextLoop bits bitClear bits.length (fromIndex / 64) fromIndex

/-- BitSet.java:177-179 `nextSetBit`. -/
def nextSetBit (bits : List Word) (fromIndex : Nat) : Int := nextBit bits fromIndex false

/-- BitSet.java:208-210 `nextClearBit`. -/
def nextClearBit (bits : List Word) (fromIndex : Nat) : Int := nextBit bits fromIndex true

/-- BitSet.java:212-219 `cardinality`: the loop; `none` if it does not end within the fuel. -/
def countLoop (bits : List Word) : Nat → Int → Nat → Option Nat
  | 0, _, _ => none
  | fuel + 1, i, n => if i ≥ 0 then countLoop bits fuel (nextSetBit bits (i.toNat + 1)) (n + 1) else some n

/-- BitSet.java:212-219 `cardinality`. -/
def cardinality (bits : List Word) : Option Nat :=
  countLoop bits (64 * bits.length + 1) (nextSetBit bits 0) 0

end Avian.JBitSet
