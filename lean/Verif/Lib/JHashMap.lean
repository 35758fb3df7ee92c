/-
Hash maps of the class library (classpath/java/util/HashMap.java), with hash sets
(classpath/java/util/HashSet.java) and the part of weak hash maps that removes collected keys
(classpath/java/util/WeakHashMap.java).

Cells are numbers; `key`, `value`, `hash` and `next` are the fields of the cells made so far (those below
`fresh`).  A value is `none` (null) or an object.  What `equals` and `hashCode` of the keys do is given by
a `Helper`.  The number of entries is below 2^31; memory does not run out.
-/
namespace Avian.JHashMap

abbrev Cell := Nat

/-- HashMap.java:262-268 `Helper`, without `make`. -/
structure Helper (K : Type) where
  hash : K → BitVec 32
  equal : K → K → Bool

/-- HashMap.java:310-322 `MyHelper`: null is a key. -/
def myHelper {K : Type} (hashCode : K → BitVec 32) (equals : K → K → Bool) : Helper (Option K) where
  hash
    | none => 0
    | some a => hashCode a
  equal
    | none, none => true
    | none, some _ => false
    | some _, none => false
    | some a, some b => equals a b

/-- HashMap.java:18-20 and 270-274. -/
structure Map (K V : Type) where
  size : Int
  array : Option (List (Option Cell))
  key : Cell → K
  value : Cell → Option V
  hash : Cell → BitVec 32
  next : Cell → Option Cell
  fresh : Cell

inductive Exn where
  | indexOutOfBounds
  | noSuchElement
  | illegalState
  | nullPointer
  /-- a loop does not end -/
  | never
  deriving DecidableEq

/-- An assignment to a field of one cell. -/
def set {A : Type} (f : Cell → A) (c : Cell) (a : A) : Cell → A := fun d => if d = c then a else f d

/-- Arithmetic of `int`. -/
def wrap (i : Int) : Int := (i + 2 ^ 31) % 2 ^ 32 - 2 ^ 31

/-- avian/Data.java:23 `while (r < n) r <<= 1;` -/
def doubling (n : Int) : Nat → Int → Option Int
  | 0, _ => none
  | fuel + 1, r => if r < n then doubling n fuel (wrap (2 * r)) else some r

/-- avian/Data.java:21-25 `nextPowerOfTwo`.  The fuel is enough: after 32 doublings `r` is 0 for ever
(`doubling_never`). -/
def nextPowerOfTwo (n : Int) : Option Int := doubling n 34 1

variable {K V : Type}

/-- Access to an element of the array. -/
def load (arr : List (Option Cell)) (i : Nat) : Except Exn (Option Cell) :=
  match arr[i]? with
  | some c => .ok c
  | none => .error .indexOutOfBounds

/-- `hash & (array.length - 1)` -/
def index (hash : BitVec 32) (length : Nat) : Nat := (hash &&& (BitVec.ofNat 32 length - 1)).toNat

/-- HashMap.java:22-35: `new HashMap(capacity)`; `d` stands for the fields of cells not made yet. -/
def new (d : K) (capacity : Int) : Except Exn (Map K V) :=
  if capacity > 0 then
    match nextPowerOfTwo capacity with
    | none => .error .never
    | some n => .ok ⟨0, some (List.replicate n.toNat none), fun _ => d, fun _ => none, fun _ => 0, fun _ => none, 0⟩
  else .ok ⟨0, none, fun _ => d, fun _ => none, fun _ => 0, fun _ => none, 0⟩

/-- HashMap.java:80-85: the cells of one bucket are moved to the new array.  The fuel is the number of
cells: a longer walk would meet a cell twice. -/
def moveBucket (hash : Cell → BitVec 32) (capacity : Nat) :
    Nat → Option Cell → List (Option Cell) → (Cell → Option Cell) →
    Except Exn (List (Option Cell) × (Cell → Option Cell))
  | _, none, arr, next => .ok (arr, next)
  | 0, some _, _, _ => .error .never
  | fuel + 1, some c, arr, next =>
    (load arr (index (hash c) capacity)).bind fun head =>
    moveBucket hash capacity fuel (next c) (arr.set (index (hash c) capacity) (some c)) (set next c head)

/-- HashMap.java:78-86: all buckets. -/
def moveAll (hash : Cell → BitVec 32) (capacity fuel : Nat) :
    List (Option Cell) → List (Option Cell) → (Cell → Option Cell) →
    Except Exn (List (Option Cell) × (Cell → Option Cell))
  | [], arr, next => .ok (arr, next)
  | b :: bs, arr, next =>
    (moveBucket hash capacity fuel b arr next).bind fun r => moveAll hash capacity fuel bs r.1 r.2

/-- HashMap.java:68-90 `resize`. -/
def resize (m : Map K V) (capacity : Int) : Except Exn (Map K V) :=
  if capacity ≠ 0 then
    match nextPowerOfTwo capacity with
    | none => .error .never
    | some n =>
      if m.array.map List.length = some n.toNat then .ok m
      else (moveAll m.hash n.toNat m.fresh (m.array.getD []) (List.replicate n.toNat none) m.next).bind
        fun r => .ok { m with array := some r.1, next := r.2 }
  else .ok { m with array := none }

/-- HashMap.java:56-60 `grow`. -/
def grow (m : Map K V) : Except Exn (Map K V) :=
  match m.array with
  | none => resize m 16
  | some arr => if m.size ≥ wrap (arr.length * 2) then resize m (wrap (arr.length * 2)) else .ok m

/-- HashMap.java:62-66 `shrink`. -/
def shrink (m : Map K V) : Except Exn (Map K V) :=
  match m.array with
  | none => .error .nullPointer
  | some arr =>
    if arr.length / 2 ≥ 16 ∧ m.size ≤ (arr.length / 3 : Nat) then resize m (arr.length / 2 : Nat) else .ok m

/-- The walk along a bucket to the first cell that passes the test, with the cell before it
(HashMap.java:171-183). -/
def seek (next : Cell → Option Cell) (test : Cell → Bool) :
    Nat → Option Cell → Option Cell → Except Exn (Option (Option Cell × Cell))
  | _, _, none => .ok none
  | 0, _, some _ => .error .never
  | fuel + 1, p, some c => if test c then .ok (some (p, c)) else seek next test fuel (some c) (next c)

/-- HashMap.java:92-103 `find`. -/
def find (h : Helper K) (m : Map K V) (k : K) : Except Exn (Option Cell) :=
  match m.array with
  | none => .ok none
  | some arr =>
    (load arr (index (h.hash k) arr.length)).bind fun head =>
    (seek m.next (fun c => h.equal k (m.key c)) m.fresh none head).bind fun r => .ok (r.map Prod.snd)

/-- HashMap.java:105-113 `insert`. -/
def insert (m : Map K V) (c : Cell) : Except Exn (Map K V) :=
  (grow { m with size := m.size + 1 }).bind fun m =>
  match m.array with
  | none => .error .nullPointer
  | some arr =>
    (load arr (index (m.hash c) arr.length)).bind fun head =>
    .ok { m with next := set m.next c head, array := some (arr.set (index (m.hash c) arr.length) (some c)) }

/-- HashMap.java:311-313 `make` with HashMap.java:276-281. -/
def make (h : Helper K) (m : Map K V) (k : K) (v : Option V) : Map K V × Cell :=
  ({ m with key := set m.key m.fresh k, value := set m.value m.fresh v,
            hash := set m.hash m.fresh (h.hash k), next := set m.next m.fresh none,
            fresh := m.fresh + 1 }, m.fresh)

/-- HashMap.java:291-295 `setValue` of a cell. -/
def setValue (m : Map K V) (c : Cell) (v : Option V) : Map K V := { m with value := set m.value c v }

/-- HashMap.java:190-200 `put`. -/
def put (h : Helper K) (m : Map K V) (k : K) (v : Option V) : Except Exn (Option V × Map K V) :=
  (find h m k).bind fun
    | none => (insert (make h m k v).1 (make h m k v).2).bind fun m => .ok (none, m)
    | some c => .ok (m.value c, setValue m c v)

/-- HashMap.java:161-164 `get`. -/
def get (h : Helper K) (m : Map K V) (k : K) : Except Exn (Option V) :=
  (find h m k).bind fun c => .ok (c.bind m.value)

/-- HashMap.java:143-145 `containsKey`. -/
def containsKey (h : Helper K) (m : Map K V) (k : K) : Except Exn Bool :=
  (find h m k).bind fun c => .ok c.isSome

/-- HashMap.java:174-179: `p` is the cell before `c`, or null. -/
def unlink (m : Map K V) (i : Nat) (p : Option Cell) (c : Cell) : Map K V :=
  match p with
  | none => { m with size := m.size - 1, array := m.array.map fun arr => arr.set i (m.next c) }
  | some p => { m with size := m.size - 1, next := set m.next p (m.next c) }

/-- HashMap.java:166-188 `removeCell`. -/
def removeCell (h : Helper K) (m : Map K V) (k : K) : Except Exn (Option Cell × Map K V) :=
  match m.array with
  | none => .ok (none, m)
  | some arr =>
    (load arr (index (h.hash k) arr.length)).bind fun head =>
    (seek m.next (fun c => h.equal k (m.key c)) m.fresh none head).bind fun
      | none => (shrink m).bind fun m => .ok (none, m)
      | some (p, c) => (shrink (unlink m (index (h.hash k) arr.length) p c)).bind fun m => .ok (some c, m)

/-- HashMap.java:208-211 `remove(Object)`. -/
def remove (h : Helper K) (m : Map K V) (k : K) : Except Exn (Option V × Map K V) :=
  (removeCell h m k).bind fun r => .ok (r.1.bind m.value, r.2)

/-- HashMap.java:115-131 `remove(Cell)`: the variable `p` is never assigned. -/
def removeThis (m : Map K V) (cell : Cell) : Except Exn (Map K V) :=
  match m.array with
  | none => .error .nullPointer
  | some arr =>
    (load arr (index (m.hash cell) arr.length)).bind fun head =>
    (seek m.next (fun c => c == cell) m.fresh none head).bind fun
      | none => shrink m
      | some (_, c) => shrink (unlink m (index (m.hash cell) arr.length) none c)

/-- HashMap.java:213-216 `clear`. -/
def clear (m : Map K V) : Map K V := { m with array := none, size := 0 }

/-- HashMap.java:147-159 `containsValue`; `equal` on values. -/
def containsValueFrom (m : Map K V) (test : Option V → Bool) : List (Option Cell) → Except Exn Bool
  | [] => .ok false
  | b :: bs =>
    (seek m.next (fun c => test (m.value c)) m.fresh none b).bind fun r =>
    if r.isSome then .ok true else containsValueFrom m test bs

/-- HashMap.java:147-159 `containsValue`. -/
def containsValue (m : Map K V) (test : Option V → Bool) : Except Exn Bool :=
  match m.array with
  | none => .ok false
  | some arr => containsValueFrom m test arr

/-- HashMap.java:202-206 `putAll`: the entries in the order in which the other map delivers them. -/
def putAll (h : Helper K) (m : Map K V) : List (K × Option V) → Except Exn (Map K V)
  | [] => .ok m
  | (k, v) :: es => (put h m k v).bind fun r => putAll h r.2 es

/-- HashMap.java:325-329. -/
structure Iter where
  currentIndex : Int := -1
  nextIndex : Int := -1
  previousCell : Option Cell := none
  currentCell : Option Cell := none
  nextCell : Option Cell := none
  deriving DecidableEq

/-- HashMap.java:358-363: the loop of `hasNext`.  The fuel is the length of the array, which bounds the
number of rounds. -/
def advance (arr : List (Option Cell)) : Nat → Iter → Iter
  | 0, it => it
  | fuel + 1, it =>
    if it.nextCell = none then
      let it := { it with nextIndex := it.nextIndex + 1 }
      if it.nextIndex < (arr.length : Int) then
        match arr[it.nextIndex.toNat]? with
        | some (some c) => { it with nextCell := some c }
        | _ => advance arr fuel it
      else it
    else it

/-- HashMap.java:356-366 `hasNext`. -/
def hasNext (m : Map K V) (it : Iter) : Bool × Iter :=
  match m.array with
  | none => (it.nextCell.isSome, it)
  | some arr => ((advance arr (arr.length + 1) it).nextCell.isSome, advance arr (arr.length + 1) it)

/-- HashMap.java:331-333 `new MyIterator()`. -/
def iterator (m : Map K V) : Iter := (hasNext m {}).2

/-- HashMap.java:335-354 `next`. -/
def next (m : Map K V) (it : Iter) : Except Exn (Cell × Iter) :=
  match hasNext m it with
  | (true, it) =>
    match it.nextCell with
    | none => .error .nullPointer
    | some n =>
      let previous := match it.currentCell with
        | some c => if m.next c ≠ none then some c else none
        | none => it.previousCell
      .ok (n, { previousCell := previous, currentCell := some n, currentIndex := it.nextIndex,
                nextIndex := it.nextIndex, nextCell := m.next n })
  | (false, _) => .error .noSuchElement

/-- HashMap.java:368-383 `remove`. -/
def itRemove (m : Map K V) (it : Iter) : Except Exn (Map K V × Iter) :=
  match it.currentCell with
  | none => .error .illegalState
  | some c =>
    match it.previousCell with
    | none =>
      match m.array with
      | none => .error .nullPointer
      | some arr =>
        .ok ({ m with size := m.size - 1, array := some (arr.set it.currentIndex.toNat (m.next c)) },
             { it with currentCell := none })
    | some p =>
      .ok ({ m with size := m.size - 1, next := set m.next p (m.next c) },
           { it with currentCell := none,
                     previousCell := if m.next c = none then none else some p })

/-- The loop of avian/Data.java:243-252 `removeAll`, and of every other iteration with removal: while
there is a next entry, take it and remove it if `del` says so.  The result is the entries taken. -/
def sweep (del : K → Option V → Bool) :
    Nat → Map K V → Iter → Except Exn (List (K × Option V) × Map K V)
  | 0, _, _ => .error .never
  | fuel + 1, m, it =>
    match hasNext m it with
    | (false, _) => .ok ([], m)
    | (true, it) =>
      (next m it).bind fun (c, it) =>
      (if del (m.key c) (m.value c) then itRemove m it else .ok (m, it)).bind fun (m', it) =>
      (sweep del fuel m' it).bind fun r => .ok ((m.key c, m.value c) :: r.1, r.2)

/-- HashSet.java:43-45 `add`; the only value in the map is the object `Value`. -/
def setAdd (h : Helper K) (m : Map K Unit) (k : K) : Except Exn (Bool × Map K Unit) :=
  (put h m k (some ())).bind fun r => .ok (r.1 != some (), r.2)

/-- HashSet.java:53-55 `remove`. -/
def setRemove (h : Helper K) (m : Map K Unit) (k : K) : Except Exn (Bool × Map K Unit) :=
  (remove h m k).bind fun r => .ok (r.1 != some (), r.2)

/-- HashSet.java:47-51 `addAll`. -/
def setAddAll (h : Helper K) (m : Map K Unit) : List K → Except Exn (Bool × Map K Unit)
  | [] => .ok (false, m)
  | k :: ks => (setAdd h m k).bind fun r => (setAddAll h r.2 ks).bind fun q => .ok (r.1 || q.1, q.2)

end Avian.JHashMap
