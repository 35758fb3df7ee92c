import Verif.Lib.Outcome

/-
Sorting (classpath/java/util/Arrays.java, and the same code in classpath/java/util/Collections.java for lists that are
read by `get` and written by `set`), searching in sorted arrays, and the reversal of lists.

An array is the list of its elements; `none` is the exception for an index outside of it.  The comparator is a function
without effects.  Arrays have fewer than 2^30 elements, so that sums of indices do not overflow.
-/
namespace Avian.Sort

variable {A : Type}

/-- `array[i]`. -/
def load (a : List A) (i : Int) : Option A := if 0 ≤ i then a[i.toNat]? else none

/-- `array[i] = v`. -/
def store (a : List A) (i : Int) (v : A) : Option (List A) :=
  if 0 ≤ i ∧ i < a.length then some (a.set i.toNat v) else none

/-- Arrays.java:248-251, Collections.java:144-147: the inner loop of `insertionSort`; the number is `i + 1`. -/
def shift (cmp : A → A → Int) (t : A) : Nat → List A → Option (Nat × List A)
  | 0, a => some (0, a)
  | i + 1, a =>
    (load a i).bind fun x =>
      if cmp x t > 0 then (store a (i + 1) x).bind fun a => shift cmp t i a else some (i + 1, a)

/-- Arrays.java:245-253, Collections.java:141-149: the outer loop, with `n` turns left. -/
def insertFrom (cmp : A → A → Int) : Nat → Nat → List A → Option (List A)
  | 0, _, a => some a
  | n + 1, j, a =>
    (load a j).bind fun t => (shift cmp t j a).bind fun r => (store r.2 r.1 t).bind fun a => insertFrom cmp n (j + 1) a

/-- Arrays.java:242-254, Collections.java:137-150 `insertionSort`. -/
def insertionSort (cmp : A → A → Int) (a : List A) : Option (List A) := insertFrom cmp (a.length - 1) 1 a

/-- Arrays.java:229-240, Collections.java:123-136: the loop of `siftDown`; it has at most `count` turns. -/
def siftLoop (cmp : A → A → Int) (value : A) (count offset : Nat) : Nat → Nat → List A → Option (List A)
  | 0, _, _ => none
  | fuel + 1, i, a =>
    if i < count / 2 then
      (if 2 * i + 1 + 1 < count then
          (load a (2 * i + 1 : Nat)).bind fun x => (load a (2 * i + 1 + 1 : Nat)).bind fun y =>
            some (if cmp x y < 0 then 2 * i + 1 + 1 else 2 * i + 1)
        else some (2 * i + 1)).bind fun child =>
      (load a (child : Nat)).bind fun y =>
      if cmp value y ≥ 0 then store a (offset + i : Nat) value
      else
        (load a (offset + child : Nat)).bind fun x => (store a (offset + i : Nat) x).bind fun a =>
          siftLoop cmp value count offset fuel child a
    else store a (offset + i : Nat) value

/-- Arrays.java:225-240, Collections.java:119-136 `siftDown`. -/
def siftDown (cmp : A → A → Int) (a : List A) (i count offset : Nat) : Option (List A) :=
  (load a (offset + i : Nat)).bind fun value => siftLoop cmp value count offset (count + 1) i a

/-- Arrays.java:213-215, Collections.java:106-108: the first loop of `heapSort`; the number is `i + 1`. -/
def heapify (cmp : A → A → Int) (count offset : Nat) : Nat → List A → Option (List A)
  | 0, a => some a
  | i + 1, a => (siftDown cmp a i count offset).bind fun a => heapify cmp count offset i a

/-- Arrays.java:216-223, Collections.java:109-116: the second loop of `heapSort`; the number is `i`. -/
def unheap (cmp : A → A → Int) (offset : Nat) : Nat → List A → Option (List A)
  | 0, a => some a
  | i + 1, a =>
    (load a (offset + (i + 1) : Nat)).bind fun swap => (load a (offset : Nat)).bind fun x =>
    (store a (offset + (i + 1) : Nat) x).bind fun a => (store a (offset : Nat) swap).bind fun a =>
    (siftDown cmp a 0 (i + 1) offset).bind fun a => unheap cmp offset i a

/-- Arrays.java:209-224, Collections.java:102-117 `heapSort`. -/
def heapSort (cmp : A → A → Int) (a : List A) (first fin : Nat) : Option (List A) :=
  (heapify cmp (fin - first) first ((fin - first) / 2) a).bind fun a => unheap cmp first (fin - first - 1) a

/-- Arrays.java:173-183, Collections.java:65-75: the median of three. -/
def median (cmp : A → A → Int) (a b c : A) : A :=
  if cmp a b < 0 then (if cmp b c < 0 then b else if cmp a c < 0 then c else a)
  else (if cmp b c > 0 then b else if cmp a c > 0 then c else a)

/-- Arrays.java:188-190, Collections.java:81-83: the search upwards; the fuel is more than the number of elements. -/
def scanUp (cmp : A → A → Int) (a : List A) (m : A) : Nat → Int → Option Int
  | 0, _ => none
  | fuel + 1, i => (load a i).bind fun x => if cmp x m < 0 then scanUp cmp a m fuel (i + 1) else some i

/-- Arrays.java:192-194, Collections.java:85-87: the search downwards. -/
def scanDown (cmp : A → A → Int) (a : List A) (m : A) : Nat → Int → Option Int
  | 0, _ => none
  | fuel + 1, j => (load a j).bind fun x => if cmp m x < 0 then scanDown cmp a m fuel (j - 1) else some j

/-- Arrays.java:186-203, Collections.java:78-96: the partition, which answers the pivot; the fuel is more than the number
of elements. -/
def partition (cmp : A → A → Int) (m : A) : Nat → Int → Int → List A → Option (Int × List A)
  | 0, _, _, _ => none
  | fuel + 1, i, j, a =>
    (scanUp cmp a m (a.length + 1) i).bind fun i => (scanDown cmp a m (a.length + 1) (j - 1)).bind fun j =>
    if i ≥ j then some (i, a)
    else
      (load a i).bind fun swap => (load a j).bind fun x => (store a i x).bind fun a => (store a j swap).bind fun a =>
      partition cmp m fuel (i + 1) j a

/-- Arrays.java:161-207, Collections.java:54-100 `introSort`; a further turn of the loop is a call with the new `end`.
The fuel is more than the limit, which is halved in each turn. -/
def introSort (cmp : A → A → Int) : Nat → List A → Nat → Nat → Nat → Option (List A)
  | 0, _, _, _, _ => none
  | fuel + 1, a, first, fin, limit =>
    if fin - first > 16 then
      if limit = 0 then heapSort cmp a first fin
      else
        (load a first).bind fun x => (load a (first + (fin - first) / 2 + 1 : Nat)).bind fun y =>
        (load a ((fin : Int) - 1)).bind fun z =>
        (partition cmp (median cmp x y z) (a.length + 1) first fin a).bind fun r =>
        (introSort cmp fuel r.2 r.1.toNat fin (limit / 2)).bind fun a =>
        introSort cmp fuel a first r.1.toNat (limit / 2)
    else some a

/-- Arrays.java:156-159, Collections.java:48-52 `sort`. -/
def sort (cmp : A → A → Int) (a : List A) : Option (List A) :=
  (introSort cmp (a.length + 1) a 0 a.length a.length).bind fun a => insertionSort cmp a

inductive Exn where
  | indexOutOfBounds
  | illegalArgument
  deriving DecidableEq

/-- Arrays.java:486-496 `checkRange`. -/
def checkRange (len start stop : Int) : Except Exn Unit :=
  if start < 0 then .error .indexOutOfBounds
  else if stop > len then .error .indexOutOfBounds
  else if start > stop then .error .illegalArgument
  else .ok ()

/-- Arrays.java:701-710: the loop of `binarySearch`; the fuel is more than the number of elements. -/
def searchLoop (a : List Int) (key : Int) : Nat → Int → Int → Option Int
  | 0, _, _ => none
  | fuel + 1, left, right =>
    if left ≤ right then
      let mid := (left + right).tdiv 2
      (load a mid).bind fun x =>
      if x < key then searchLoop a key fuel (mid + 1) right
      else if x > key then searchLoop a key fuel left (mid - 1)
      else some mid
    else some (-left - 1)

/-- Arrays.java:694-713 `binarySearch(a, fromIndex, toIndex, key)`. -/
def searchRange (a : List Int) (fromIndex toIndex key : Int) : Except Exn (Option Int) :=
  (checkRange a.length fromIndex toIndex).bind fun _ => .ok (searchLoop a key (a.length + 1) fromIndex (toIndex - 1))

/-- Arrays.java:690-692 `binarySearch(a, key)`. -/
def search (a : List Int) (key : Int) : Except Exn (Option Int) := searchRange a 0 ((a.length : Int) - 1) key

/-- Collections.java:155-165: the loop of `binarySearch` in a list; `cmp` compares the sought element with one of the list. -/
def listSearchLoop (cmp : A → Int) (a : List A) : Nat → Int → Int → Option Int
  | 0, _, _ => none
  | fuel + 1, left, right =>
    if left + 1 < right then
      let middle := (left + right) / 2
      (load a middle).bind fun x =>
      if cmp x < 0 then listSearchLoop cmp a fuel left middle
      else if cmp x > 0 then listSearchLoop cmp a fuel middle right
      else some middle
    else some (-1 - right)

/-- Collections.java:153-167 `binarySearch`. -/
def listSearch (cmp : A → Int) (a : List A) : Option Int := listSearchLoop cmp a (a.length + 2) (-1) a.length

/-- Collections.java:171-175: the loop of `reverse`. -/
def reverseLoop : Nat → Int → Int → List A → Option (List A)
  | 0, _, _, _ => none
  | fuel + 1, ascending, descending, a =>
    if ascending < descending then
      (load a ascending).bind fun tmp => (load a descending).bind fun x => (store a ascending x).bind fun a =>
      (store a descending tmp).bind fun a => reverseLoop fuel (ascending + 1) (descending - 1) a
    else some a

/-- Collections.java:169-176 `reverse`. -/
def reverse (a : List A) : Option (List A) := reverseLoop (a.length + 1) 0 ((a.length : Int) - 1) a

/-- Collections.java:21-26: the loop of `shuffle`; the numbers are those `random.nextInt(array.length)` gives. -/
def shuffleLoop : List Int → Nat → List A → Option (List A)
  | [], _, a => some a
  | j :: js, i, a =>
    (load a i).bind fun tmp => (load a j).bind fun x => (store a i x).bind fun a => (store a j tmp).bind fun a =>
    shuffleLoop js (i + 1) a

/-- Collections.java:798-808: the comparator of `reverseOrder`, which negates an int. -/
def reverseCompare (cmp : A → A → Int) (x y : A) : Int := Int.bmod (-cmp x y) (2 ^ 32)

end Avian.Sort
