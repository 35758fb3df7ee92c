import Verif.Lib.Outcome

/-
Array lists (classpath/java/util/ArrayList.java) and their list iterators
(classpath/java/util/Collections.java 462-511).

An element is `none` (null) or an object.  There are fewer than 2^31 - 1 elements and memory does not run out.
A method gives its result or exception together with the state after it.
-/
namespace Avian.ArrayList

inductive Exn where
  | indexOutOfBounds
  | noSuchElement
  | illegalState
  | nullPointer
  | negativeArraySize
  /-- for ArrayDeque.java:302-303 -/
  | concurrentModification
  deriving DecidableEq

/-- ArrayList.java:20-21. -/
structure Lst (V : Type) where
  array : Option (List (Option V))
  size : Int
  deriving DecidableEq

/-- Arithmetic of `int`. -/
def wrap (i : Int) : Int := (i + 2 ^ 31) % 2 ^ 32 - 2 ^ 31

variable {V : Type}

/-- `System.arraycopy` between arrays of objects (src/avian/classpath-common.h 83-111, as in C68). -/
def copy {A : Type} (src dst : List A) (s d n : Int) : Except Exn (List A) :=
  if n > 0 then
    if s ≥ 0 ∧ s + n ≤ src.length ∧ d ≥ 0 ∧ d + n ≤ dst.length then
      .ok (dst.take d.toNat ++ (src.drop s.toNat).take n.toNat ++ dst.drop (d + n).toNat)
    else .error .indexOutOfBounds
  else if n < 0 then .error .indexOutOfBounds
  else .ok dst

/-- `new Object[n]` -/
def newArray (n : Int) : Except Exn (List (Option V)) :=
  if n < 0 then .error .negativeArraySize else .ok (List.replicate n.toNat none)

/-- ArrayList.java:49-62 `resize`. -/
def resize (l : Lst V) (capacity : Int) : Except Exn (Lst V) :=
  if capacity ≠ 0 then
    match l.array with
    | none => (newArray capacity).bind fun a => .ok { l with array := some a }
    | some old =>
      if (old.length : Int) = capacity then .ok l
      else (newArray capacity).bind fun a =>
        (copy old a 0 0 l.size).bind fun a => .ok { l with array := some a }
  else .ok { l with array := none }

/-- ArrayList.java:23-25 `new ArrayList(capacity)`. -/
def new (capacity : Int) : Except Exn (Lst V) := resize ⟨none, 0⟩ capacity

/-- ArrayList.java:36-41 `grow`. -/
def grow (l : Lst V) (newSize : Int) : Except Exn (Lst V) :=
  match l.array with
  | none => resize l (max newSize 16)
  | some a => if newSize > a.length then resize l (max newSize (wrap (a.length * 2))) else .ok l

/-- ArrayList.java:43-47 `shrink`. -/
def shrink (l : Lst V) (newSize : Int) : Except Exn (Lst V) :=
  match l.array with
  | none => .error .nullPointer
  | some a =>
    if a.length / 2 ≥ 16 ∧ newSize ≤ (a.length / 3 : Nat) then resize l (a.length / 2 : Nat) else .ok l

/-- `array[i] = v` -/
def store (a : List (Option V)) (i : Int) (v : Option V) : Except Exn (List (Option V)) :=
  if 0 ≤ i ∧ i < a.length then .ok (a.set i.toNat v) else .error .indexOutOfBounds

/-- `array[i]` -/
def load (a : List (Option V)) (i : Int) : Except Exn (Option V) :=
  if 0 ≤ i then
    match a[i.toNat]? with
    | some v => .ok v
    | none => .error .indexOutOfBounds
  else .error .indexOutOfBounds

/-- ArrayList.java:85-91 `add(int, T)`; what is done before an exception stays done. -/
def addAt (l : Lst V) (index : Int) (v : Option V) : Except Exn Unit × Lst V :=
  match grow l (max (l.size + 1) (index + 1)) with
  | .error e => (.error e, l)
  | .ok l' =>
    match l'.array with
    | none => (.error .nullPointer, { l' with size := max (l.size + 1) (index + 1) })
    | some a =>
      match copy a a index (index + 1) (max (l.size + 1) (index + 1) - index - 1) with
      | .error e => (.error e, { l' with size := max (l.size + 1) (index + 1) })
      | .ok a =>
        match store a index v with
        | .error e => (.error e, ⟨some a, max (l.size + 1) (index + 1)⟩)
        | .ok a => (.ok (), ⟨some a, max (l.size + 1) (index + 1)⟩)

/-- ArrayList.java:93-96 `add(T)`. -/
def add (l : Lst V) (v : Option V) : Except Exn Unit × Lst V := addAt l l.size v

/-- ArrayList.java:98-101 `addAll`: the elements in the order in which the other collection delivers them. -/
def addAll (l : Lst V) : List (Option V) → Except Exn Unit × Lst V
  | [] => (.ok (), l)
  | v :: vs =>
    match add l v with
    | (.error e, l) => (.error e, l)
    | (.ok _, l) => addAll l vs

/-- AbstractList.java:27-42 `addAll(int, Collection)`; the result tells whether there was any element. -/
def addAllAt (l : Lst V) (index : Int) : List (Option V) → Except Exn Bool × Lst V
  | [] => (.ok false, l)
  | v :: vs =>
    match addAt l index v with
    | (.error e, l) => (.error e, l)
    | (.ok _, l) =>
      match addAllAt l (index + 1) vs with
      | (.error e, l) => (.error e, l)
      | (.ok _, l) => (.ok true, l)

/-- ArrayList.java:103-110: the loop of `indexOf` (and of `contains` and `remove(Object)`), from `i` on, for
`fuel` more places; `test` is `equal` with the argument (64-66). -/
def indexFrom (l : Lst V) (test : Option V → Bool) : Nat → Int → Except Exn Int
  | 0, _ => .ok (-1)
  | fuel + 1, i =>
    if i < l.size then
      match l.array with
      | none => .error .nullPointer
      | some a => (load a i).bind fun v => if test v then .ok i else indexFrom l test fuel (i + 1)
    else .ok (-1)

/-- ArrayList.java:103-110 `indexOf`. -/
def indexOf (l : Lst V) (test : Option V → Bool) : Except Exn Int := indexFrom l test l.size.toNat 0

/-- ArrayList.java:76-83 `contains`. -/
def contains (l : Lst V) (test : Option V → Bool) : Except Exn Bool :=
  (indexOf l test).bind fun i => .ok (i ≠ -1)

/-- ArrayList.java:112-119 `lastIndexOf`; the first argument is `i + 1`. -/
def lastIndexFrom (l : Lst V) (test : Option V → Bool) : Nat → Except Exn Int
  | 0 => .ok (-1)
  | i + 1 =>
    match l.array with
    | none => .error .nullPointer
    | some a => (load a i).bind fun v => if test v then .ok i else lastIndexFrom l test i

/-- ArrayList.java:112-119 `lastIndexOf`. -/
def lastIndexOf (l : Lst V) (test : Option V → Bool) : Except Exn Int := lastIndexFrom l test l.size.toNat

/-- ArrayList.java:121-127 `get`. -/
def get (l : Lst V) (index : Int) : Except Exn (Option V) :=
  if index ≥ 0 ∧ index < l.size then
    match l.array with
    | none => .error .nullPointer
    | some a => load a index
  else .error .indexOutOfBounds

/-- ArrayList.java:129-137 `set`. -/
def set (l : Lst V) (index : Int) (v : Option V) : Except Exn (Option V × Lst V) :=
  if index ≥ 0 ∧ index < l.size then
    match l.array with
    | none => .error .nullPointer
    | some a =>
      (load a index).bind fun old => (store a index v).bind fun a => .ok (old, { l with array := some a })
  else .error .indexOutOfBounds

/-- ArrayList.java:139-154 `remove(int)`. -/
def removeAt (l : Lst V) (index : Int) : Except Exn (Option V × Lst V) :=
  (get l index).bind fun v =>
  match l.array with
  | none => .error .nullPointer
  | some a =>
    (if index = l.size - 1 then store a index none else copy a a (index + 1) index (l.size - 1 - index)).bind fun a =>
    (shrink { l with array := some a } (l.size - 1)).bind fun l' => .ok (v, { l' with size := l.size - 1 })

/-- ArrayList.java:156-164 `remove(Object)`. -/
def remove (l : Lst V) (test : Option V → Bool) : Except Exn (Bool × Lst V) :=
  (indexOf l test).bind fun i =>
  if i = -1 then .ok (false, l) else (removeAt l i).bind fun r => .ok (true, r.2)

/-- ArrayList.java:170-173 `clear`. -/
def clear (_ : Lst V) : Lst V := ⟨none, 0⟩

/-- Collections.java:464-465. -/
structure Iter where
  toRemove : Int
  index : Int
  deriving DecidableEq

/-- Collections.java:471-474 with ArrayList.java:179-181: `listIterator(index)`. -/
def listIterator (index : Int) : Iter := ⟨-1, index - 1⟩

/-- Collections.java:476-478 `hasPrevious`. -/
def hasPrevious (it : Iter) : Bool := it.index ≥ 0

/-- Collections.java:498-500 `hasNext`. -/
def hasNext (l : Lst V) (it : Iter) : Bool := it.index + 1 < l.size

/-- Collections.java:480-487 `previous`. -/
def previous (l : Lst V) (it : Iter) : Except Exn (Option V × Iter) :=
  if hasPrevious it then (get l it.index).bind fun v => .ok (v, ⟨it.index, it.index - 1⟩)
  else .error .noSuchElement

/-- Collections.java:489-496 `next`. -/
def next (l : Lst V) (it : Iter) : Except Exn (Option V × Iter) :=
  if hasNext l it then (get l (it.index + 1)).bind fun v => .ok (v, ⟨it.index + 1, it.index + 1⟩)
  else .error .noSuchElement

/-- Collections.java:502-510 `remove`. -/
def itRemove (l : Lst V) (it : Iter) : Except Exn (Lst V × Iter) :=
  if it.toRemove ≠ -1 then
    (removeAt l it.toRemove).bind fun r => .ok (r.2, ⟨-1, it.toRemove - 1⟩)
  else .error .illegalState

end Avian.ArrayList
