import Verif.Lib.ArrayList

/-
Array deques (classpath/java/util/ArrayDeque.java): a ring of places in an array.

An element is `none` (null) or an object.  The array has fewer than 2^30 places and memory does not run out.
-/
namespace Avian.ArrayDeque

open ArrayList (Exn copy newArray load store)

/-- ArrayDeque.java:15-20. -/
structure Dq (V : Type) where
  data : List (Option V)
  start : Int
  fin : Int
  size : Int
  modCount : Nat
  deriving DecidableEq

variable {V : Type}

/-- ArrayDeque.java:220-225 `clear`. -/
def clear (d : Dq V) : Dq V := { d with size := 0, start := 0, fin := 0, modCount := d.modCount + 1 }

/-- ArrayDeque.java:26-30 `new ArrayDeque(initialSize)`. -/
def new (n : Int) : Except Exn (Dq V) := (newArray n).bind fun a => .ok (clear ⟨a, 0, 0, 0, 0⟩)

/-- ArrayDeque.java:38-47 `copyInto`. -/
def copyInto (d : Dq V) (array : List (Option V)) : Except Exn (List (Option V)) :=
  if d.start ≤ d.fin then copy d.data array d.start 0 d.size
  else
    (copy d.data array d.start 0 (d.data.length - d.start)).bind fun array =>
    copy d.data array 0 (d.data.length - d.start) (d.fin + 1)

/-- ArrayDeque.java:49-58 `ensureCapacity`. -/
def ensureCapacity (d : Dq V) (newSize : Int) : Except Exn (Dq V) :=
  if (d.data.length : Int) < newSize then
    (newArray (d.data.length * 2 : Nat)).bind fun a => (copyInto d a).bind fun a =>
    .ok { d with data := a, start := 0, fin := d.size - 1 }
  else .ok d

/-- ArrayDeque.java:60-76 `offerFirst`. -/
def offerFirst (d : Dq V) (v : Option V) : Except Exn (Dq V) :=
  (ensureCapacity d (d.size + 1)).bind fun d =>
  let start := if d.size > 0 then (if d.start - 1 < 0 then (d.data.length : Int) - 1 else d.start - 1) else d.start
  (store d.data start v).bind fun a =>
  .ok { d with data := a, start := start, size := d.size + 1, modCount := d.modCount + 1 }

/-- ArrayDeque.java:78-91 `offerLast`. -/
def offerLast (d : Dq V) (v : Option V) : Except Exn (Dq V) :=
  (ensureCapacity d (d.size + 1)).bind fun d =>
  let fin := if d.size > 0 then (d.fin + 1).tmod d.data.length else d.fin
  (store d.data fin v).bind fun a =>
  .ok { d with data := a, fin := fin, size := d.size + 1, modCount := d.modCount + 1 }

/-- ArrayDeque.java:93-111 `pollFirst`. -/
def pollFirst (d : Dq V) : Except Exn (Option V × Dq V) :=
  if d.size = 0 then .ok (none, { d with modCount := d.modCount + 1 })
  else
    (load d.data d.start).bind fun v =>
    if d.size - 1 = 0 then .ok (v, { d with size := 0, start := 0, fin := 0, modCount := d.modCount + 1 })
    else .ok (v, { d with size := d.size - 1, start := (d.start + 1).tmod d.data.length, modCount := d.modCount + 1 })

/-- ArrayDeque.java:113-134 `pollLast`. -/
def pollLast (d : Dq V) : Except Exn (Option V × Dq V) :=
  if d.size = 0 then .ok (none, { d with modCount := d.modCount + 1 })
  else
    (load d.data d.fin).bind fun v =>
    if d.size - 1 = 0 then .ok (v, { d with size := 0, start := 0, fin := 0, modCount := d.modCount + 1 })
    else .ok (v, { d with size := d.size - 1,
                          fin := if d.fin - 1 < 0 then (d.data.length : Int) - 1 else d.fin - 1,
                          modCount := d.modCount + 1 })

/-- ArrayDeque.java:136-145 `peekFirst`. -/
def peekFirst (d : Dq V) : Except Exn (Option V) := if d.size = 0 then .ok none else load d.data d.start

/-- ArrayDeque.java:147-156 `peekLast`. -/
def peekLast (d : Dq V) : Except Exn (Option V) := if d.size = 0 then .ok none else load d.data d.fin

/-- The loop of `addAll` (ArrayDeque.java:166-169). -/
def addEach (d : Dq V) : List (Option V) → Except Exn (Dq V)
  | [] => .ok d
  | v :: vs => (offerLast d v).bind fun d => addEach d vs

/-- ArrayDeque.java:158-172 `addAll`. -/
def addAll (d : Dq V) (vs : List (Option V)) : Except Exn (Bool × Dq V) :=
  if vs.isEmpty then .ok (false, d)
  else (ensureCapacity d (d.size + vs.length)).bind fun d => (addEach d vs).bind fun d => .ok (true, d)

/-- ArrayDeque.java:261-267 `toArray`. -/
def toArray (d : Dq V) : Except Exn (List (Option V)) := (newArray d.size).bind fun a => copyInto d a

/-- ArrayDeque.java:294-296; `descending` tells which of the two `getArrayIndex` the iterator has. -/
structure Iter where
  descending : Bool
  expected : Nat
  current : Int
  deriving DecidableEq

/-- ArrayDeque.java:274-292 `iterator` and `descendingIterator`. -/
def iterator (descending : Bool) (d : Dq V) : Iter := ⟨descending, d.modCount, 0⟩

/-- ArrayDeque.java:276-280 and 286-290 `getArrayIndex`. -/
def arrayIndex (d : Dq V) (it : Iter) : Int :=
  if it.descending then (d.fin - it.current).tmod d.data.length else (it.current + d.start).tmod d.data.length

/-- ArrayDeque.java:315-318 `hasNext`. -/
def hasNext (d : Dq V) (it : Iter) : Bool := it.current < d.size

/-- ArrayDeque.java:300-313 `next`. -/
def next (d : Dq V) (it : Iter) : Except Exn (Option V × Iter) :=
  if d.modCount ≠ it.expected then .error .concurrentModification
  else if it.current = d.size then .error .noSuchElement
  else (load d.data (arrayIndex d it)).bind fun v => .ok (v, { it with current := it.current + 1 })

/-- ArrayDeque.java:334-356: the array without the element at `r`. -/
def without (d : Dq V) (r : Int) : Except Exn (List (Option V)) :=
  (newArray d.data.length).bind fun a =>
  if d.start ≤ d.fin then
    (copy d.data a d.start 0 (r - d.start)).bind fun a =>
    copy d.data a (r + 1) (r - d.start) (d.size - (r - d.start))
  else if r > d.start then
    (copy d.data a d.start 0 (r - d.start)).bind fun a =>
    (copy d.data a (d.start + (r - d.start) + 1) (r - d.start) (d.data.length - r - 1)).bind fun a =>
    copy d.data a 0 (d.size - r) (d.fin + 1)
  else
    (copy d.data a d.start 0 (d.data.length - d.start)).bind fun a =>
    (copy d.data a 0 (d.data.length - d.start) r).bind fun a =>
    copy d.data a (r + 1) (d.data.length - d.start + r) (d.fin - r)

/-- ArrayDeque.java:320-362 `remove` of an iterator. -/
def itRemove (d : Dq V) (it : Iter) : Except Exn (Dq V × Iter) :=
  let it := { it with current := it.current - 1 }
  if arrayIndex d it = d.start then
    (pollFirst d).bind fun r => .ok (r.2, { it with expected := r.2.modCount })
  else if arrayIndex d it = d.fin then
    (pollLast d).bind fun r => .ok (r.2, { it with expected := r.2.modCount })
  else
    (without d (arrayIndex d it)).bind fun a =>
    .ok ({ d with data := a, start := 0, fin := d.size - 1 - 1, size := d.size - 1 }, it)

/-- An iteration over the whole deque; the fuel is the number of elements. -/
def collect (d : Dq V) : Nat → Iter → Except Exn (List (Option V))
  | 0, it => if hasNext d it then .error .illegalState else .ok []
  | fuel + 1, it =>
    if hasNext d it then (next d it).bind fun r => (collect d fuel r.2).bind fun vs => .ok (r.1 :: vs)
    else .ok []

/-- ArrayDeque.java:185-208 `remove(Object, boolean)`, after `modCount++`: the loop; `test` is the comparison with the
argument. -/
def removeLoop (test : Option V → Bool) : Nat → Dq V → Iter → Except Exn (Bool × Dq V)
  | 0, d, _ => .ok (false, d)
  | fuel + 1, d, it =>
    if hasNext d it then
      (next d it).bind fun r =>
      if test r.1 then (itRemove d r.2).bind fun q => .ok (true, q.1) else removeLoop test fuel d r.2
    else .ok (false, d)

/-- ArrayDeque.java:185-218 `removeFirstOccurrence` and `removeLastOccurrence`. -/
def removeOccurrence (test : Option V → Bool) (first : Bool) (d : Dq V) : Except Exn (Bool × Dq V) :=
  let d := { d with modCount := d.modCount + 1 }
  removeLoop test (d.size.toNat + 1) d (iterator (!first) d)

/-- ArrayDeque.java:232-247 `contains`: the loop. -/
def containsLoop (d : Dq V) (test : Option V → Bool) : Nat → Iter → Except Exn Bool
  | 0, _ => .ok false
  | fuel + 1, it =>
    if hasNext d it then
      (next d it).bind fun r => if test r.1 then .ok true else containsLoop d test fuel r.2
    else .ok false

/-- ArrayDeque.java:232-247 `contains`. -/
def contains (d : Dq V) (test : Option V → Bool) : Except Exn Bool :=
  containsLoop d test (d.size.toNat + 1) (iterator false d)

end Avian.ArrayDeque
