import Verif.Util.Math

/-
Model of the VM hash tables: src/util.cpp 310-509 and src/avian/util.h 25-168.
A chain of `GcTriple`s linked through `third` is a list; the bucket array is a list of chains.
Keys are object identities of an arbitrary type `K`; the hash function, the equality and the
values are arbitrary.  A weak table stores `GcWeakReference`s; `dead k` says that the collector
has cleared the reference to `k`.

Every allocation inside a table operation may run a collection.  A collection can clear weak
references (`Gc.die`) and run finalizers that remove an object from the table by identity while
`t->m->collecting` is set (`Gc.drop`, machine.cpp 854-857 `removeByteArray`, 3118-3136
`removeMonitor`, `removeString`).  The operations below take the list of those actions for each
allocation they perform.
-/
namespace Avian.HashMap
open Avian.Math

variable {K V : Type}

/-- The parts of a table that never change: the class of the map object
(src/util.cpp:316 `weak`) and the hash function passed by all callers of that table. -/
structure Cfg (K : Type) where
  weak : Bool
  hash : K → U32

/-- `GcHashMap`: the array of chains (or null) and the recorded size (types.def `hashMap`). -/
structure HMap (K V : Type) where
  array : Option (List (List (K × V)))
  size : U32

/-- A table together with the set of keys whose weak references were cleared. -/
structure St (K V : Type) where
  map : HMap K V
  dead : K → Bool

/-- A freshly made table: `makeHashMap(t, 0, 0)`. -/
def empty : HMap K V := { array := none, size := 0#32 }

/-- src/util.cpp:320, 381, 442, 480 `hash & (length - 1)`. -/
def index (h : U32) (len : Nat) : Nat := (h &&& (BitVec.ofNat 32 len - 1#32)).toNat

/-- src/util.cpp:321-334 the search along one chain. -/
def findChain (c : Cfg K) (dead : K → Bool) (eq : K → K → Bool) (key : K) :
    List (K × V) → Option (K × V)
  | [] => none
  | e :: rest =>
    if c.weak && dead e.1 then findChain c dead eq key rest
    else if eq key e.1 then some e
    else findChain c dead eq key rest

/-- src/util.cpp:310-337 `hashMapFindNode`; the node is represented by its key and value. -/
def findNode (c : Cfg K) (eq : K → K → Bool) (s : St K V) (key : K) : Option (K × V) :=
  match s.map.array with
  | none => none
  | some a => findChain c s.dead eq key (a.getD (index (c.hash key) a.length) [])

/-- src/util.cpp:383-384 and 444-445: link a node at the head of its chain. -/
def push (c : Cfg K) (a : List (List (K × V))) (e : K × V) : List (List (K × V)) :=
  a.modify (index (c.hash e.1) a.length) (e :: ·)

/-- src/util.cpp:367-386: relink every node of one old chain, dropping cleared references. -/
def relinkChain (c : Cfg K) (dead : K → Bool) :
    List (K × V) → List (List (K × V)) → List (List (K × V))
  | [], new => new
  | e :: rest, new =>
    if c.weak && dead e.1 then relinkChain c dead rest new
    else relinkChain c dead rest (push c new e)

/-- src/util.cpp:367-387: the loop over the old array. -/
def relink (c : Cfg K) (dead : K → Bool) :
    List (List (K × V)) → List (List (K × V)) → List (List (K × V))
  | [], new => new
  | ch :: rest, new => relink c dead rest (relinkChain c dead ch new)

/-- src/util.cpp:482-500: the removal walk along one chain.  Returns the new chain, the number of
nodes taken out (each one decrements the size, line 465) and the value of the removed entry. -/
def removeChain (c : Cfg K) (dead : K → Bool) (eq : K → K → Bool) (key : K) :
    List (K × V) → List (K × V) × Nat × Option V
  | [] => ([], 0, none)
  | e :: rest =>
    if c.weak && dead e.1 then
      let r := removeChain c dead eq key rest
      (r.1, r.2.1 + 1, r.2.2)
    else if eq key e.1 then (rest, 1, some e.2)
    else
      let r := removeChain c dead eq key rest
      (e :: r.1, r.2.1, r.2.2)

/-- src/util.cpp:469-500 `hashMapRemove` without the final resize. -/
def removeNoResize (c : Cfg K) (eq : K → K → Bool) (s : St K V) (key : K) :
    St K V × Option V :=
  match s.map.array with
  | none => (s, none)
  | some a =>
    let i := index (c.hash key) a.length
    let r := removeChain c s.dead eq key (a.getD i [])
    ({ s with map := { array := some (a.set i r.1),
                       size := s.map.size - BitVec.ofNat 32 r.2.1 } }, r.2.2)

/-- What one collection does to a table. -/
inductive Gc (K : Type) where
  /-- a weak reference to the key is cleared -/
  | die (k : K)
  /-- a finalizer removes the object from the table, by identity -/
  | drop (k : K)

variable [DecidableEq K]

/-- machine.cpp 3112-3136 / 854-857: finalizers call `hashMapRemove` with `objectEqual` while
`collecting` is set, so without the resize of src/util.cpp:502-505. -/
def gcStep (c : Cfg K) (s : St K V) : Gc K → St K V
  | .die k => { s with dead := fun x => x == k || s.dead x }
  | .drop k => (removeNoResize c (fun a b => a == b) s k).1

/-- One collection: a list of actions. -/
def gc (c : Cfg K) : St K V → List (Gc K) → St K V
  | s, [] => s
  | s, g :: gs => gc c (gcStep c s g) gs

/-- src/util.cpp:339-391 `hashMapResize`.  `g` is the collection caused by `makeArray` (357).
The test of line 359 is always false in this model because a collection never replaces the
array (removals during a collection do not resize, line 502).  `none`: `nextPowerOfTwo` does not
return. -/
def resize (c : Cfg K) (g : List (Gc K)) (s : St K V) (size : U32) : Option (St K V) :=
  if size = 0#32 then some { s with map := { s.map with array := none } }
  else
    match nextPowerOfTwo 32 size with
    | none => none
    | some nl =>
      match s.map.array with
      | none =>
        let s := gc c s g
        some { s with map := { s.map with array := some (List.replicate nl.toNat []) } }
      | some a =>
        if a.length = nl.toNat then some s
        else
          let s := gc c s g
          some { s with map := { s.map with
            array := some (relink c s.dead (s.map.array.getD []) (List.replicate nl.toNat [])) } }

/-- `array->length()` of the current array (only used when it is not null). -/
def len (s : St K V) : Nat := match s.map.array with | none => 0 | some a => a.length

/-- src/util.cpp:409-420: the size increment and the growing resize. -/
def insertGrow (c : Cfg K) (g1 : List (Gc K)) (s : St K V) : Option (St K V) :=
  let s := { s with map := { s.map with size := s.map.size + 1#32 } }
  match s.map.array with
  | none => resize c g1 s 16#32
  | some a =>
    if a.length * 2 ≤ s.map.size.toNat then resize c g1 s (BitVec.ofNat 32 (a.length * 2))
    else some s

/-- src/util.cpp:442-445: link the new node.  `none`: a null array would be dereferenced. -/
def insertLink (c : Cfg K) (s : St K V) (key : K) (value : V) : Option (St K V) :=
  match s.map.array with
  | none => none
  | some a => some { s with map := { s.map with array := some (push c a (key, value)) } }

/-- src/util.cpp:447-451 and 502-505: shrink when at most a third full. -/
def shrink (c : Cfg K) (g3 : List (Gc K)) (s : St K V) : Option (St K V) :=
  match s.map.array with
  | none => none
  | some a =>
    if s.map.size.toNat ≤ a.length / 3 then resize c g3 s (BitVec.ofNat 32 (a.length / 2))
    else some s

/-- src/util.cpp:393-452 `hashMapInsert`.  `g1`, `g2`, `g3` are the collections caused by the
growing resize, by `makeWeakReference`/`makeTriple`, and by the shrinking resize. -/
def insert (c : Cfg K) (g1 g2 g3 : List (Gc K)) (s : St K V) (key : K) (value : V) :
    Option (St K V) := do
  let s ← insertGrow c g1 s
  let s := gc c s g2
  let s ← insertLink c s key value
  shrink c g3 s

/-- src/util.cpp:469-509 `hashMapRemove` when no collection is running; `g` is the collection
caused by the shrinking resize. -/
def remove (c : Cfg K) (eq : K → K → Bool) (g : List (Gc K)) (s : St K V) (key : K) :
    Option (St K V × Option V) :=
  match s.map.array with
  | none => some (s, none)
  | some _ =>
    let r := removeNoResize c eq s key
    match shrink c g r.1 with
    | none => none
    | some s' => some (s', r.2)

/-- src/avian/util.h:58 `n->setSecond(t, value)` on the node found by the search. -/
def setChain (c : Cfg K) (dead : K → Bool) (eq : K → K → Bool) (key : K) (value : V) :
    List (K × V) → List (K × V)
  | [] => []
  | e :: rest =>
    if c.weak && dead e.1 then e :: setChain c dead eq key value rest
    else if eq key e.1 then (e.1, value) :: rest
    else e :: setChain c dead eq key value rest

/-- src/avian/util.h:58 applied to the table. -/
def setNode (c : Cfg K) (eq : K → K → Bool) (s : St K V) (key : K) (value : V) : St K V :=
  match s.map.array with
  | none => s
  | some a =>
    let i := index (c.hash key) a.length
    { s with map := { s.map with
      array := some (a.set i (setChain c s.dead eq key value (a.getD i []))) } }

/-- src/avian/util.h:46-61 `hashMapInsertOrReplace`. -/
def insertOrReplace (c : Cfg K) (eq : K → K → Bool) (g1 g2 g3 : List (Gc K)) (s : St K V)
    (key : K) (value : V) : Option (St K V × Bool) :=
  match findNode c eq s key with
  | none => (insert c g1 g2 g3 s key value).map (·, true)
  | some _ => some (setNode c eq s key value, false)

/-- src/avian/util.h:63-77 `hashMapInsertMaybe`. -/
def insertMaybe (c : Cfg K) (eq : K → K → Bool) (g1 g2 g3 : List (Gc K)) (s : St K V)
    (key : K) (value : V) : Option (St K V × Bool) :=
  match findNode c eq s key with
  | none => (insert c g1 g2 g3 s key value).map (·, true)
  | some _ => some (s, false)

/-- src/avian/util.h:116-168 the state of `HashMapIterator`: the rest of the current chain
(`node` is its head; empty is null) and `index`. -/
structure Iter (K V : Type) where
  node : List (K × V)
  index : Nat

/-- src/avian/util.h:124-137 `find`, with `fuel` bounding the loop on `i`. -/
def iterFind (a : List (List (K × V))) : Nat → Nat → Iter K V
  | 0, i => ⟨[], i⟩
  | fuel + 1, i =>
    if i < a.length then
      match a.getD i [] with
      | [] => iterFind a fuel (i + 1)
      | e :: rest => ⟨e :: rest, i + 1⟩
    else ⟨[], i⟩

/-- src/avian/util.h:118-122 the constructor. -/
def iterStart (m : HMap K V) : Iter K V :=
  match m.array with
  | none => ⟨[], 0⟩
  | some a => iterFind a (a.length + 1) 0

/-- src/avian/util.h:144-157 `next`. -/
def iterNext (m : HMap K V) (it : Iter K V) : Option (K × V × Iter K V) :=
  match it.node with
  | [] => none
  | [e] => some (e.1, e.2, match m.array with
      | none => ⟨[], it.index⟩
      | some a => iterFind a (a.length + 1) it.index)
  | e :: e' :: rest => some (e.1, e.2, ⟨e' :: rest, it.index⟩)

/-- The loop `for (HashMapIterator it(t, map); it.hasMore();) it.next()` (for example
machine.cpp:1290), bounded by `fuel` steps. -/
def iterAll (m : HMap K V) : Nat → Iter K V → List (K × V)
  | 0, _ => []
  | fuel + 1, it =>
    match iterNext m it with
    | none => []
    | some (k, v, it') => (k, v) :: iterAll m fuel it'

end Avian.HashMap
