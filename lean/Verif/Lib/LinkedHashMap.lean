/-
Hash maps that keep the order of insertion (classpath/java/util/LinkedHashMap.java).

The two hash maps (the superclass and `lookup`) are maps, as proved of them in `Props/JHashMap`: functions
from keys.  The list of `LinkedKey`s is modelled with its links: nodes are numbers, `key`, `previous` and
`next` are their fields, those below `fresh` exist.  A value is `none` (null) or an object; `equals` of keys is
equality.  There are fewer than 2^31 entries.
-/
namespace Avian.LinkedHashMap

abbrev Node := Nat

/-- LinkedHashMap.java:14-33; `base` and `size` are the superclass. -/
structure Map (K V : Type) where
  base : K → Option (Option V)
  size : Int
  lookup : K → Option Node
  key : Node → K
  previous : Node → Option Node
  next : Node → Option Node
  first : Option Node
  last : Option Node
  fresh : Node

inductive Exn where
  | nullPointer
  | noSuchElement
  /-- the iteration does not end -/
  | never
  deriving DecidableEq

variable {K V : Type}

/-- LinkedHashMap.java:35-42; `d` stands for the keys of nodes not made yet. -/
def empty (d : K) : Map K V :=
  ⟨fun _ => none, 0, fun _ => none, fun _ => d, fun _ => none, fun _ => none, none, none, 0⟩

/-- An assignment to a field of one node. -/
def set {A : Type} (f : Node → A) (c : Node) (a : A) : Node → A := fun d => if d = c then a else f d

variable [DecidableEq K]

/-- An assignment in one of the hash maps. -/
def store {A : Type} (f : K → A) (k : K) (a : A) : K → A := fun x => if x = k then a else f x

/-- LinkedHashMap.java:51-58: a new node behind the last one. -/
def link (m : Map K V) (k : K) : Except Exn (Map K V) :=
  let m := { m with key := set m.key m.fresh k, previous := set m.previous m.fresh none,
                    next := set m.next m.fresh none, fresh := m.fresh + 1 }
  match m.first with
  | none => .ok { m with first := some (m.fresh - 1), last := some (m.fresh - 1) }
  | some _ =>
    match m.last with
    | none => .error .nullPointer
    | some l => .ok { m with next := set m.next l (some (m.fresh - 1)),
                             previous := set m.previous (m.fresh - 1) (some l),
                             last := some (m.fresh - 1) }

/-- LinkedHashMap.java:61: `put` of the superclass. -/
def basePut (m : Map K V) (k : K) (v : Option V) : Map K V :=
  { m with base := store m.base k (some v), size := if m.base k = none then m.size + 1 else m.size }

/-- LinkedHashMap.java:49-62 `put`. -/
def put (m : Map K V) (k : K) (v : Option V) : Except Exn (Option V × Map K V) :=
  if m.base k = none then
    (link m k).bind fun m' => .ok (none, basePut { m' with lookup := store m'.lookup k (some m.fresh) } k v)
  else .ok ((m.base k).bind id, basePut m k v)

/-- LinkedHashMap.java:69-78: a node is taken out of the list. -/
def unlink (m : Map K V) (n : Node) : Map K V :=
  let m := match m.previous n with
    | none => { m with first := m.next n }
    | some p => { m with next := set m.next p (m.next n) }
  match m.next n with
  | none => { m with last := m.previous n }
  | some x => { m with previous := set m.previous x (m.previous n) }

/-- LinkedHashMap.java:64-80 `remove`; `lookup` keeps its entry. -/
def remove (m : Map K V) (k : K) : Option V × Map K V :=
  match m.lookup k with
  | none => (none, m)
  | some n =>
    ((m.base k).bind id,
     { unlink m n with base := store m.base k none,
                       size := if m.base k = none then m.size else m.size - 1 })

/-- LinkedHashMap.java:82-85 `clear`; `lookup` keeps its entries. -/
def clear (m : Map K V) : Map K V := { m with first := none, last := none, base := fun _ => none, size := 0 }

/-- LinkedHashMap.java:248-255 `next` of an iterator at `current`: the entry found for the key (null if there is
none), and the new place. -/
def itNext (m : Map K V) (current : Option Node) : Except Exn (Option (K × Option V) × Option Node) :=
  match current with
  | none => .error .noSuchElement
  | some c => .ok ((m.base (m.key c)).map fun v => (m.key c, v), m.next c)

/-- LinkedHashMap.java:261-264 `remove` of an iterator at `current`. -/
def itRemove (m : Map K V) (current : Option Node) : Except Exn (Map K V) :=
  match current with
  | none =>
    match m.last with
    | none => .error .nullPointer
    | some l => .ok (remove m (m.key l)).2
  | some c =>
    match m.previous c with
    | none => .error .nullPointer
    | some p => .ok (remove m (m.key p)).2

/-- An iteration that removes the entries for which `del` holds; an entry that is null is a null pointer
when its key is asked for (avian/Data.java:278-280, `KeyIterator.next`).  A new iterator is at `first`
(LinkedHashMap.java:246). -/
def sweep (del : K → Option V → Bool) :
    Nat → Map K V → Option Node → Except Exn (List (K × Option V) × Map K V)
  | _, m, none => .ok ([], m)
  | 0, _, some _ => .error .never
  | fuel + 1, m, some c =>
    (itNext m (some c)).bind fun
      | (none, _) => .error .nullPointer
      | (some e, current) =>
        (if del e.1 e.2 then itRemove m current else .ok m).bind fun m =>
        (sweep del fuel m current).bind fun r => .ok (e :: r.1, r.2)

end Avian.LinkedHashMap
