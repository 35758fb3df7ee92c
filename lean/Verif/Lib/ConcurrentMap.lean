import Verif.Lib.PersistentSet

/-
Concurrent hash maps (classpath/java/util/concurrent/ConcurrentHashMap.java): a sorted set of nodes, one for each hash code,
with lists of cells, in a reference that is replaced by compare and swap.

Sets are values here (`Lib/PersistentSet`; that their nodes are never written again is C84), and so are lists of cells: the code only writes to cells
that it has just copied.  Keys and values are not null.  `size` is an integer without limits.
-/
namespace Avian.ConcurrentMap

open Avian.PersistentSet (PSet Path Exn)

variable {K V : Type} [DecidableEq K] [DecidableEq V]

/-- ConcurrentHashMap.java:359-370 `Node` and 339-357 `Cell`. -/
structure Node (K V : Type) where
  key : BitVec 32
  cells : List (K × V)
deriving DecidableEq

/-- ConcurrentHashMap.java:367-369 `compareTo`: the difference of two `int`. -/
def compareTo (a b : Node K V) : Int := (a.key - b.key).toInt

/-- ConcurrentHashMap.java:327-337 `Content`. -/
structure Content (K V : Type) where
  set : PSet (Node K V)
  size : Int
deriving DecidableEq

/-- ConcurrentHashMap.java:31: `Empty`. -/
def empty : Content K V := ⟨PersistentSet.empty, 0⟩

/-- The loop over cells of ConcurrentHashMap.java:90-97, and the same in `put` and `remove`: the value of the first cell with the key. -/
def cellOf (k : K) : List (K × V) → Option V
  | [] => none
  | (k', v) :: r => if k = k' then some v else cellOf k r

/-- ConcurrentHashMap.java:86-99 `find`; with it 68-70 `containsKey` and 81-84 `get`. -/
def find (hash : K → BitVec 32) (c : Content K V) (k : K) : Option V :=
  cellOf k (PersistentSet.find compareTo c.set ⟨hash k, []⟩).v.cells

/-- ConcurrentHashMap.java:131-148 `PutCondition`. -/
inductive PutCondition (V : Type) where
  | always
  | ifAbsent
  | ifPresent
  | ifEqual (old : V)
deriving DecidableEq

/-- ConcurrentHashMap.java:133, 136, 139, 142 -/
def PutCondition.addIfAbsent : PutCondition V → Bool
  | .always => true
  | .ifAbsent => true
  | .ifPresent => false
  | .ifEqual _ => false

/-- ConcurrentHashMap.java:134, 137, 140, 143 -/
def PutCondition.addIfPresent (a : V) : PutCondition V → Bool
  | .always => true
  | .ifAbsent => false
  | .ifPresent => true
  | .ifEqual b => a = b

/-- ConcurrentHashMap.java:150-158 `RemoveCondition`. -/
inductive RemoveCondition (V : Type) where
  | always
  | ifEqual (old : V)
deriving DecidableEq

/-- ConcurrentHashMap.java:152, 154 -/
def RemoveCondition.remove (a : V) : RemoveCondition V → Bool
  | .always => true
  | .ifEqual b => a = b

/-- ConcurrentHashMap.java:176-198: the cells up to the one with the key are copied, that one with the new value; the rest is shared. -/
def replaceCell (k : K) (v : V) : List (K × V) → List (K × V)
  | [] => []
  | (k', v') :: r => if k = k' then (k', v) :: r else (k', v') :: replaceCell k v r

/-- ConcurrentHashMap.java:250-271: the cells in front of the one with the key are copied, the rest behind it is shared. -/
def removeCell (k : K) : List (K × V) → List (K × V)
  | [] => []
  | (k', v') :: r => if k = k' then r else (k', v') :: removeCell k r

/-- One round of the loops of `put` and `remove`: it returns a cell (its value), or wants to put another content in the place of
the one that it read, and returns a cell if this succeeds, or there is an exception. -/
inductive Attempt (K V : Type) where
  | ret (cell : Option V)
  | swap (new : Content K V) (cell : Option V)
  | exn (e : Exn)
deriving DecidableEq

/-- The new content if there is one. -/
def attempt (s : Except Exn (PSet (Node K V))) (size : Int) (cell : Option V) : Attempt K V :=
  match s with
  | .error e => .exn e
  | .ok s => .swap ⟨s, size⟩ cell

/-- ConcurrentHashMap.java:160-224 `put`, one round.  `path.add()` is called after the cells of the node were set. -/
def putOnce (hash : K → BitVec 32) (c : Content K V) (k : K) (v : V) (cond : PutCondition V) : Attempt K V :=
  let p := PersistentSet.find compareTo c.set ⟨hash k, []⟩
  match cellOf k p.v.cells with
  | some old =>
    if cond.addIfPresent old then
      attempt (p.replaceWith compareTo ⟨hash k, replaceCell k v p.v.cells⟩) c.size (some old)
    else .ret (some old)
  | none =>
    if cond.addIfAbsent then
      attempt (if p.fresh then ({ p with v := ⟨hash k, [(k, v)]⟩ } : Path (Node K V)).add
        else p.replaceWith compareTo ⟨hash k, [(k, v)]⟩) (c.size + 1) none
    else .ret none

/-- ConcurrentHashMap.java:232-286 `remove`, one round. -/
def removeOnce (hash : K → BitVec 32) (c : Content K V) (k : K) (cond : RemoveCondition V) : Attempt K V :=
  let p := PersistentSet.find compareTo c.set ⟨hash k, []⟩
  match cellOf k p.v.cells with
  | some old =>
    if cond.remove old then
      attempt (if removeCell k p.v.cells = [] then p.remove
        else p.replaceWith compareTo ⟨hash k, removeCell k p.v.cells⟩) (c.size - 1) (some old)
    else .ret (some old)
  | none => .ret none

/-- ConcurrentHashMap.java:397-436: what an iterator gives, `next` called while `hasNext`; `path` is that of the iterator over the set,
`cells` start at `nextCell`. -/
def iterate : Nat → Option (Path (Node K V)) → List (K × V) → List (K × V)
  | 0, _, _ => []
  | n + 1, path, e :: r => e :: iterate n path r
  | n + 1, some p, [] =>
    match p.v.cells with
    | [] => []
    | e :: r => e :: iterate n p.successor r
  | _ + 1, none, [] => []

/-- ConcurrentHashMap.java:309-311, 372-379: `entrySet().contains` and `keySet().contains` (classpath/avian/Data.java), which make an entry of
the cell that was found, or of null. -/
def keySetContains (hash : K → BitVec 32) (c : Content K V) (k : K) : Except Exn Bool :=
  match find hash c k with
  | some _ => .ok true
  | none => .error .nullPointer

/-- How many cells there are (only for the length of the loop in `entries`). -/
def cellCount : PersistentSet.T (Node K V) → Nat
  | .leaf => 0
  | .node _ l x r => cellCount l + x.cells.length + cellCount r

/-- ConcurrentHashMap.java:397-426: a new iterator, and `next` called while `hasNext`. -/
def entries (c : Content K V) : List (K × V) :=
  iterate (cellCount c.set.root + 1) (PersistentSet.first c.set) []

/-! ### Several threads -/

/-- The operations; the iteration over the entries uses the content that was there when it began (321-323). -/
inductive Op (K V : Type) where
  | get (k : K)
  | size
  | iterate
  | put (k : K) (v : V) (cond : PutCondition V)
  | remove (k : K) (cond : RemoveCondition V)
  | clear

inductive Res (K V : Type) where
  | val (v : Option V)
  | num (n : Int)
  | seq (l : List (K × V))
  | unit
  | exn (e : Exn)

/-- Operations that only look at the content. -/
def look1 (hash : K → BitVec 32) (c : Content K V) : Op K V → Option (Res K V)
  | .get k => some (.val (find hash c k))
  | .size => some (.num c.size)
  | .iterate => some (.seq (entries c))
  | _ => none

/-- One round of operations with a loop. -/
def round (hash : K → BitVec 32) (c : Content K V) : Op K V → Option (Attempt K V)
  | .put k v cond => some (putOnce hash c k v cond)
  | .remove k cond => some (removeOnce hash c k cond)
  | _ => none

abbrev Tid := Nat

/-- Where a thread is. -/
inductive Pc (K V : Type) where
  | out
  | called (op : Op K V)
  | swapping (op : Op K V) (expected : Nat) (new : Content K V) (cell : Option V)
  | done (op : Op K V) (r : Res K V)

/-- Contents are objects with references, written once; reference 0 is `Empty` (31).  `cur` is the field `content` (42), which is volatile. -/
structure Sys (K V : Type) where
  heap : Nat → Content K V
  used : Nat
  cur : Nat
  pc : Tid → Pc K V

/-- What a step of a thread is to an observer; `point` is where the operation takes effect. -/
inductive Ev (K V : Type) where
  | call (op : Op K V)
  | point (op : Op K V) (r : Res K V)
  | back (op : Op K V) (r : Res K V)

def upd {α : Type} (f : Nat → α) (t : Nat) (p : α) : Nat → α := fun u => if u = t then p else f u

/-- A step of thread `t`: ConcurrentHashMap.java:60-99 (reads), 160-224, 232-286 (loops with `compareAndSwapObject`), 288-290 (`clear`). -/
inductive Step (hash : K → BitVec 32) (t : Tid) (s : Sys K V) : Option (Ev K V) → Sys K V → Prop where
  | call (op : Op K V) : s.pc t = .out → Step hash t s (some (.call op)) { s with pc := upd s.pc t (.called op) }
  | look (op : Op K V) (r : Res K V) : s.pc t = .called op → look1 hash (s.heap s.cur) op = some r →
      Step hash t s (some (.point op r)) { s with pc := upd s.pc t (.done op r) }
  | clear : s.pc t = .called .clear →
      Step hash t s (some (.point .clear .unit)) { s with cur := 0, pc := upd s.pc t (.done .clear .unit) }
  | give (op : Op K V) (x : Option V) : s.pc t = .called op → round hash (s.heap s.cur) op = some (.ret x) →
      Step hash t s (some (.point op (.val x))) { s with pc := upd s.pc t (.done op (.val x)) }
  | fail (op : Op K V) (e : Exn) : s.pc t = .called op → round hash (s.heap s.cur) op = some (.exn e) →
      Step hash t s (some (.point op (.exn e))) { s with pc := upd s.pc t (.done op (.exn e)) }
  | begin (op : Op K V) (c : Content K V) (x : Option V) : s.pc t = .called op → round hash (s.heap s.cur) op = some (.swap c x) →
      Step hash t s none { s with pc := upd s.pc t (.swapping op s.cur c x) }
  | swap (op : Op K V) (r : Nat) (c : Content K V) (x : Option V) : s.pc t = .swapping op r c x → s.cur = r →
      Step hash t s (some (.point op (.val x)))
        { heap := upd s.heap s.used c, used := s.used + 1, cur := s.used, pc := upd s.pc t (.done op (.val x)) }
  | again (op : Op K V) (r : Nat) (c : Content K V) (x : Option V) : s.pc t = .swapping op r c x → s.cur ≠ r →
      Step hash t s none { s with pc := upd s.pc t (.called op) }
  | back (op : Op K V) (r : Res K V) : s.pc t = .done op r → Step hash t s (some (.back op r)) { s with pc := upd s.pc t .out }

/-- A new map (44-46). -/
def init : Sys K V := ⟨fun _ => empty, 1, 0, fun _ => .out⟩

def emit (t : Tid) : Option (Ev K V) → List (Tid × Ev K V)
  | none => []
  | some e => [(t, e)]

/-- Executions, with what can be observed. -/
inductive Exec (hash : K → BitVec 32) : List (Tid × Ev K V) → Sys K V → Prop where
  | init : Exec hash [] init
  | step {tr : List (Tid × Ev K V)} {s s' : Sys K V} (t : Tid) (e : Option (Ev K V)) : Exec hash tr s → Step hash t s e s' →
      Exec hash (tr ++ emit t e) s'

end Avian.ConcurrentMap
