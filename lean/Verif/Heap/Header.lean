/-
Model of object headers, identity hash codes and cloning at the level of memory words.
Sources: /repo/src/avian/machine.h 138-140, 1691-1697, 1971-2030, 2135-2176;
/repo/src/avian/common.h 286; /repo/src/machine.cpp 3435-3485, 5508-5540;
/repo/src/heap/heap.cpp 90-95 and 1110-1128.

Simplifications: memory is addressed by word (byte address divided by 8), addresses are
natural numbers; the length of an array is at word `fixedSize / 8 - 1`, as for every array
class (`fixedSize` is 16); sizes do not overflow.  What a class says about the size of its
instances is a table indexed by the class pointer.
-/
namespace Avian.Header

abbrev Word := BitVec 64
/-- Memory, by word. -/
abbrev Mem := Nat → Word

/-- Point update. -/
def put (m : Mem) (a : Nat) (v : Word) : Mem := fun x => if x = a then v else m x

/-- `GcClass::fixedSize` and `GcClass::arrayElementSize`. -/
structure Info where
  fixedSize : Nat
  elementSize : Nat
deriving DecidableEq, Repr

/-- common.h 286 `PointerMask` -/
def pointerMask : Word := ~~~7#64

/-- machine.h 138 `HashTakenMark` -/
def hashTakenMark : Word := 1#64
/-- machine.h 139 `ExtendedMark` -/
def extendedMark : Word := 2#64
/-- machine.h 140 `FixedMark` -/
def fixedMark : Word := 3#64

/-- machine.h 1971-1974 `objectFixed` -/
def fixed (m : Mem) (o : Nat) : Bool := m o &&& ~~~pointerMask == fixedMark
/-- machine.h 1976-1979 `objectExtended` -/
def extended (m : Mem) (o : Nat) : Bool := m o &&& ~~~pointerMask == extendedMark
/-- machine.h 1981-1984 `hashTaken` -/
def taken (m : Mem) (o : Nat) : Bool := m o &&& ~~~pointerMask == hashTakenMark

/-- `objectClass`: the header without its marks (`maskAlignedPointer`, common.h 418-422). -/
def classOf (m : Mem) (o : Nat) : Word := m o &&& pointerMask

/-- machine.h 1986-1998 `baseSize`, in words -/
def baseSize (I : Word → Info) (m : Mem) (o : Nat) : Nat :=
  let c := I (classOf m o)
  (c.fixedSize + 7) / 8 +
    (if 0 < c.elementSize then (c.elementSize * (m (o + (c.fixedSize / 8 - 1))).toNat + 7) / 8 else 0)

/-- machine.h 2141-2144 `extendedSize` -/
def extendedSize (I : Word → Info) (m : Mem) (o : Nat) : Nat :=
  baseSize I m o + (if extended m o then 1 else 0)

/-- machine.cpp 3449-3462 `copiedSizeInWords` -/
def copiedSize (I : Word → Info) (m : Mem) (o : Nat) : Nat :=
  baseSize I m o + (if extended m o || taken m o then 1 else 0)

/-- machine.h 2157-2164 `takeHash`: from the byte address `8 * o` -/
def takeHash (o : Nat) : BitVec 32 := (BitVec.ofNat 64 (8 * o) / 8#64 &&& 0x7FFFFFFF#64).setWidth 32

/-- machine.h 2146-2155 `markHashTaken`, without `heap->pad` -/
def markHashTaken (m : Mem) (o : Nat) : Mem := put m o (m o ||| hashTakenMark)

/-- machine.h 2166-2176 `objectHash`: the new memory and the hash code -/
def objectHash (I : Word → Info) (m : Mem) (o : Nat) : Mem × BitVec 32 :=
  if extended m o then (m, (m (o + baseSize I m o)).setWidth 32)
  else (if fixed m o then m else markHashTaken m o, takeHash o)

/-- `memcpy` of `n` words -/
def memcpy (m : Mem) (dst src n : Nat) : Mem :=
  fun x => if dst ≤ x ∧ x < dst + n then m (src + (x - dst)) else m x

/-- machine.cpp 3464-3485 `HeapClient::copy` followed by heap.cpp 1124-1125, which leaves a
pointer to the copy in the original -/
def copy (I : Word → Info) (m : Mem) (src dst : Nat) : Mem :=
  let base := baseSize I m src
  let m1 := memcpy m dst src (extendedSize I m src)
  let m2 := if taken m src then
      put (put m1 dst (m1 dst &&& pointerMask ||| extendedMark)) (dst + base) ((takeHash src).setWidth 64)
    else m1
  put m2 src (BitVec.ofNat 64 (8 * dst))

/-- machine.h 1691-1697 `setObjectClass`, and heap.cpp 90-95 `set` on the header word when the
class itself was moved -/
def setClass (m : Mem) (o : Nat) (c : Word) : Mem := put m o (c ||| (m o &&& ~~~pointerMask))

/-- machine.cpp 5516-5520: cloning an array.  `dst` is the memory handed out by `allocate`. -/
def cloneArray (I : Word → Info) (m : Mem) (o dst : Nat) : Mem :=
  let m := memcpy m dst o (baseSize I m o)
  setClass m o (classOf m o)

/-- machine.h 142-143 `ThreadHeapSizeInWords` -/
def threadHeapSizeInWords : Nat := 8192

/-- The header `allocate` leaves: zero, or `FixedMark` for large objects (machine.h 1650-1665,
machine.cpp 4236-4246, 4341-4343).  The rest of the memory is zero. -/
def allocate (m : Mem) (dst n : Nat) : Mem := fun x =>
  if x = dst then (if threadHeapSizeInWords < n then fixedMark else 0)
  else if dst < x ∧ x < dst + n then 0 else m x

/-- machine.cpp 5521-5525 with `makeNew` (machine.h 2007-2020): cloning an instance. -/
def cloneInstance (I : Word → Info) (m : Mem) (o dst : Nat) : Mem :=
  let n := baseSize I m o
  let m1 := setClass (allocate m dst n) dst (classOf m o)
  memcpy m1 (dst + 1) (o + 1) (n - 1)

/-! ### Histories -/

/-- Memory and, for every object ever made (by number), where it is and how many words it
has been given. -/
structure St where
  mem : Mem
  place : Nat → Option (Nat × Nat)
  made : List Nat

/-- Two blocks share no word. -/
def Apart (a b : Nat × Nat) : Prop := a.1 + a.2 ≤ b.1 ∨ b.1 + b.2 ≤ a.1

/-- What can happen to objects, hash codes and memory. -/
inductive Op where
  /-- a new object `i` at `a` with the given words -/
  | alloc (i a : Nat) (words : List Word)
  /-- ask for the hash code -/
  | hash (i : Nat)
  /-- store into a field or element -/
  | write (i k : Nat) (v : Word)
  /-- the class of `i` was moved to `c` -/
  | redirect (i : Nat) (c : Word)
  /-- the collector moves `i` to `d` -/
  | move (i d : Nat)
  /-- the object is gone -/
  | free (i : Nat)
  /-- memory that belongs to no object changes -/
  | noise (a : Nat) (v : Word)

/-- Writing a list of words at `a`. -/
def blit (m : Mem) (a : Nat) (ws : List Word) : Mem :=
  fun x => if a ≤ x ∧ x < a + ws.length then ws.getD (x - a) 0 else m x

/-- Steps, with the hash code handed out if any. -/
inductive Step (I : Word → Info) : Op → St → Option (BitVec 32) → St → Prop where
  | alloc {s i a words} : i ∉ s.made →
      (∀ j p, s.place j = some p → Apart (a, words.length) p) →
      (let m := blit s.mem a words
       baseSize I m a = words.length ∧ (m a &&& ~~~pointerMask = 0 ∨ fixed m a = true)) →
      Step I (.alloc i a words) s none
        { mem := blit s.mem a words
          place := fun j => if j = i then some (a, words.length) else s.place j
          made := i :: s.made }
  | hash {s i a n} : s.place i = some (a, n) →
      Step I (.hash i) s (some (objectHash I s.mem a).2) { s with mem := (objectHash I s.mem a).1 }
  | write {s i a n k v} : s.place i = some (a, n) → 0 < k → k < baseSize I s.mem a →
      baseSize I (put s.mem (a + k) v) a = baseSize I s.mem a →
      Step I (.write i k v) s none { s with mem := put s.mem (a + k) v }
  | redirect {s i a n c} : s.place i = some (a, n) → c &&& pointerMask = c →
      I c = I (classOf s.mem a) → Step I (.redirect i c) s none { s with mem := setClass s.mem a c }
  | move {s i a n d} : s.place i = some (a, n) → fixed s.mem a = false →
      (∀ j p, s.place j = some p → Apart (d, copiedSize I s.mem a) p) →
      Step I (.move i d) s none
        { s with
          mem := copy I s.mem a d
          place := fun j => if j = i then some (d, copiedSize I s.mem a) else s.place j }
  | free {s i} : Step I (.free i) s none { s with place := fun j => if j = i then none else s.place j }
  | noise {s a v} : (∀ j p, s.place j = some p → Apart (a, 1) p) →
      Step I (.noise a v) s none { s with mem := put s.mem a v }

/-- Runs, with the hash codes handed out, latest first. -/
inductive Run (I : Word → Info) : St → List (Nat × BitVec 32) → Prop where
  | start {m} : Run I { mem := m, place := fun _ => none, made := [] } []
  | step {s out op s'} : Run I s out → Step I op s none s' → Run I s' out
  | hash {s out i h s'} : Run I s out → Step I (.hash i) s (some h) s' → Run I s' ((i, h) :: out)

end Avian.Header
