import Verif.Lib.PersistentSet

/-
Sorted sets and maps (classpath/java/util/TreeSet.java, TreeMap.java).

The elements of the `PersistentSet` are cells, of which nothing but `new Cell(value, null)` is ever stored: a cell is
its value, and the branches for longer chains (TreeSet.java:105-106, 191-198) are never taken.
-/
namespace Avian.TreeSet

open Avian.PersistentSet (PSet Path Exn)

variable {α : Type}

/-- TreeSet.java:43-47 `first`. -/
def first (s : PSet α) : Except Exn α :=
  if s.size = 0 then .error .noSuchElement
  else match PersistentSet.first s with
    | none => .error .nullPointer
    | some p => .ok p.v

/-- TreeSet.java:49-53 `last`. -/
def last (s : PSet α) : Except Exn α :=
  if s.size = 0 then .error .noSuchElement
  else match PersistentSet.last s with
    | none => .error .nullPointer
    | some p => .ok p.v

/-- TreeSet.java:67-74 `add`: the new set and the result. -/
def add (cmp : α → α → Int) (s : PSet α) (v : α) : Except Exn (PSet α × Bool) :=
  let p := PersistentSet.find cmp s v
  if p.fresh then p.add.map fun s' => (s', true)
  else .ok (s, false)

/-- TreeSet.java:76-86 `addAndReplace`; `none` is null. -/
def addAndReplace (cmp : α → α → Int) (s : PSet α) (v : α) : Except Exn (PSet α × Option α) :=
  let p := PersistentSet.find cmp s v
  if p.fresh then p.add.map fun s' => (s', none)
  else (p.replaceWith cmp v).map fun s' => (s', some p.v)

/-- TreeSet.java:88-91 `find`. -/
def find (cmp : α → α → Int) (s : PSet α) (v : α) : Option α :=
  let p := PersistentSet.find cmp s v
  if p.fresh then none else some p.v

/-- TreeSet.java:93-113 `removeAndReturn` and `removeCell`. -/
def removeAndReturn (cmp : α → α → Int) (s : PSet α) (v : α) : Except Exn (PSet α × Option α) :=
  let p := PersistentSet.find cmp s v
  if p.fresh then .ok (s, none) else p.remove.map fun s' => (s', some p.v)

/-- TreeSet.java:115-117 `remove`. -/
def remove (cmp : α → α → Int) (s : PSet α) (v : α) : Except Exn (PSet α × Bool) :=
  (removeAndReturn cmp s v).map fun r => (r.1, r.2.isSome)

/-- TreeSet.java:127-129 `contains`. -/
def contains (cmp : α → α → Int) (s : PSet α) (v : α) : Bool := !(PersistentSet.find cmp s v).fresh

/-! ### Iterators -/

/-- TreeSet.java:135-142; `prevCell` and `prevPrevCell` are for chains only. -/
structure It (α : Type) where
  path : Option (Path α)
  nextPath : Option (Path α)
  cell : Option α
  canRemove : Bool
  reversed : Bool

/-- TreeSet.java:184-186 `nextPath()`. -/
def stepPath (reversed : Bool) (p : Path α) : Option (Path α) := if reversed then p.predecessor else p.successor

/-- TreeSet.java:55-61, 144-155: `iterator` and `descendingIterator`. -/
def iterator (s : PSet α) (reversed : Bool) : It α :=
  match if reversed then PersistentSet.last s else PersistentSet.first s with
  | none => ⟨none, none, none, false, reversed⟩
  | some p => ⟨some p, stepPath reversed p, some p.v, false, reversed⟩

/-- TreeSet.java:167-169 `hasNext`. -/
def It.hasNext (it : It α) : Bool := it.cell.isSome || it.nextPath.isSome

/-- TreeSet.java:171-182 `next`. -/
def It.next (it : It α) : Except Exn (α × It α) :=
  match it.cell with
  | some v => .ok (v, { it with cell := none, canRemove := true })
  | none =>
    match it.nextPath with
    | none => .error .nullPointer
    | some p => .ok (p.v, { it with path := some p, nextPath := stepPath it.reversed p, cell := none, canRemove := true })

/-- TreeSet.java:188-213 `remove`. -/
def It.remove (cmp : α → α → Int) (it : It α) : Except Exn (PSet α × It α) :=
  if !it.canRemove then .error .illegalState
  else match it.path with
    | none => .error .nullPointer
    | some p =>
      p.remove.bind fun s =>
      match it.nextPath with
      | none => .ok (s, { it with path := none, canRemove := false })
      | some q =>
        let p' := PersistentSet.find cmp s q.v
        .ok (s, { it with path := some p', nextPath := stepPath it.reversed p', cell := some q.v, canRemove := false })

end Avian.TreeSet

namespace Avian.TreeMap

open Avian.PersistentSet (PSet Exn)

variable {K V : Type}

/-- TreeMap.java:153-176 `MyEntry`; a value is `none` for null. -/
structure Entry (K V : Type) where
  key : K
  value : Option V
  deriving DecidableEq

/-- TreeMap.java:26-38: entries are compared by their keys. -/
def byKey (cmp : K → K → Int) (a b : Entry K V) : Int := cmp a.key b.key

/-- TreeMap.java:91-94 `get`. -/
def get (cmp : K → K → Int) (m : PSet (Entry K V)) (k : K) : Option V :=
  match TreeSet.find (byKey cmp) m ⟨k, none⟩ with
  | none => none
  | some e => e.value

/-- TreeMap.java:96-99 `put`. -/
def put (cmp : K → K → Int) (m : PSet (Entry K V)) (k : K) (v : Option V) : Except Exn (PSet (Entry K V) × Option V) :=
  (TreeSet.addAndReplace (byKey cmp) m ⟨k, v⟩).map fun r => (r.1, r.2.bind (·.value))

/-- TreeMap.java:107-110 `remove`. -/
def remove (cmp : K → K → Int) (m : PSet (Entry K V)) (k : K) : Except Exn (PSet (Entry K V) × Option V) :=
  (TreeSet.removeAndReturn (byKey cmp) m ⟨k, none⟩).map fun r => (r.1, r.2.bind (·.value))

/-- TreeMap.java:124-126 `containsKey`. -/
def containsKey (cmp : K → K → Int) (m : PSet (Entry K V)) (k : K) : Bool := TreeSet.contains (byKey cmp) m ⟨k, none⟩

/-- TreeMap.java:64-66 `firstKey`. -/
def firstKey (m : PSet (Entry K V)) : Except Exn K := (TreeSet.first m).map (·.key)

/-- TreeMap.java:69-71 `lastKey`. -/
def lastKey (m : PSet (Entry K V)) : Except Exn K := (TreeSet.last m).map (·.key)

/-- TreeMap.java:54-56 `firstEntry`. -/
def firstEntry (m : PSet (Entry K V)) : Except Exn (Entry K V) := TreeSet.first m

/-- TreeMap.java:59-61 `lastEntry`. -/
def lastEntry (m : PSet (Entry K V)) : Except Exn (Entry K V) := TreeSet.last m

/-- TreeMap.java:191-193 `keySet().add`. -/
def keyAdd (cmp : K → K → Int) (m : PSet (Entry K V)) (k : K) : Except Exn (PSet (Entry K V) × Bool) :=
  (TreeSet.addAndReplace (byKey cmp) m ⟨k, none⟩).map fun r => (r.1, r.2.isSome)

/-- TreeMap.java:201-203 `keySet().remove`. -/
def keyRemove (cmp : K → K → Int) (m : PSet (Entry K V)) (k : K) : Except Exn (PSet (Entry K V) × Bool) :=
  (TreeSet.removeAndReturn (byKey cmp) m ⟨k, none⟩).map fun r => (r.1, r.2.isSome)

end Avian.TreeMap
