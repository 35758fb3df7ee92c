import Verif.Heap.CollectGraph

/-!
A heap in use: allocation, stores with their write barrier, and collections (src/heap/heap.cpp:993-1051,
1781-1830, 2029-2106, src/avian/machine.h:1667-1697).
-/

namespace Avian.Collect

/-- A heap with the list of the objects in it. The list is not in the program: it says which addresses
hold objects. -/
structure Heap where
  st : St
  U : List Addr

/-- heap.cpp:2029-2038 `needsMark` -/
def needsMark (s : St) (p : Addr) : Bool :=
  if s.region p = .fixed then decide (fixieTenureThreshold ≤ s.age p)
  else decide (s.region p = .gen2) || decide (s.region p = .next2)

/-- heap.cpp:2040-2047 `targetNeedsMark` -/
def targetNeedsMark (s : St) (v : Addr) : Bool :=
  decide (v ≠ 0) && !decide (s.region v = .gen2) && !decide (s.region v = .next2) && !decide (s.region v = .immortal)
    && !(decide (s.region v = .fixed) && decide (fixieTenureThreshold ≤ s.age v))

/-- heap.cpp:2052-2106 `mark` -/
def mark (s : St) (p : Addr) (offset count : Nat) : St :=
  if needsMark s p then
    (List.range count).foldl (fun (s : St) i =>
      if targetNeedsMark s ((s.mem p).ref (offset + i)) then remember s p (offset + i) true else s) s
  else s

/-- machine.h:1677-1681 `setField` and the copying of a range of references followed by `mark` (as in
`System.arraycopy`): store `vs` from offset `k` on -/
def store (s : St) (a : Addr) (k : Nat) (vs : List Addr) : St :=
  let s : St := { s with mem := upd s.mem a { s.mem a with
    ref := fun j => if k ≤ j ∧ j < k + vs.length then vs.getD (j - k) 0 else (s.mem a).ref j } }
  mark s a k vs.length

/-- a new object: cleared memory, and a class stored without barrier (machine.h:1690-1697
`setObjectClass`); `fixed` is heap.cpp:541-556 `Fixie` -/
def newObject (s : St) (a : Addr) (info : Nat) (slots : List Nat) (cls : Addr) (fixed : Bool) : St :=
  { s with
    mem := upd s.mem a ⟨info, slots, fun k => if k = 0 then cls else 0⟩
    region := upd s.region a (if fixed then .fixed else .young)
    age := upd s.age a 0 }

def setRoot (s : St) (i : Nat) (v : Addr) : St := { s with roots := fun j => if j = i then v else s.roots j }

/-- heap.cpp:1020-1027: the age of a non-moving object that survived -/
def sweepAge (n : Nat) : Nat :=
  if n = fixieTenureThreshold + 1 then n
  else if fixieTenureThreshold < n + 1 then fixieTenureThreshold else n + 1

/-- what exists after a collection: copies, marked non-moving objects and what the collection left alone -/
def survivor (e : Env) (s : St) (a : Addr) : Option Addr :=
  match s.fwd a with
  | some d => some d
  | none => if kind e s a = .still ∨ s.marked a = true then some a else none

def survivors (e : Env) (s : St) (U : List Addr) : List Addr := U.filterMap (survivor e s)

/-- heap.cpp:1822-1829: the new segments take the place of the old ones, and `sweepFixies` (993-1051). The
maps of remembered slots of memory that is given up disappear with it. -/
def finish (e : Env) (s : St) (U : List Addr) : St :=
  { s with
    region := fun a => match s.region a with | .next1 => .gen1 | .next2 => .gen2 | r => r
    age := fun a => if s.region a = .fixed ∧ s.marked a = true then sweepAge (s.age a) else s.age a
    fwd := fun _ => none
    marked := fun _ => false
    visitedList := []
    count := 0
    remembered := fun a k => decide (a ∈ survivors e s U) && s.remembered a k }

/-- a slot of the second generation is remembered -/
def OldSlot (s : St) (p : Addr × Nat) : Prop := s.region p.1 = .gen2 ∧ s.remembered p.1 p.2 = true

/-- a slot of a tenured non-moving object is dirty -/
def DirtySlot (s : St) (p : Addr × Nat) : Prop :=
  s.region p.1 = .fixed ∧ fixieTenureThreshold ≤ s.age p.1 ∧ s.remembered p.1 p.2 = true

/-- What a program can do, in terms of the `n` roots. -/
inductive Op
  /-- root `i` := a new object whose class is in root `c` -/
  | new (i info : Nat) (slots : List Nat) (c : Nat) (fixed : Bool)
  | move (i j : Nat)
  | null (i : Nat)
  /-- root `i` := field `k` of the object in root `j` -/
  | load (i j k : Nat)
  /-- fields `k`, `k`+1, … of the object in root `i` := roots `js` -/
  | store (i k : Nat) (js : List Nat)
  | gc (mode : Mode)

/-- One step of the heap with `n` roots. New addresses are any that are not in use; the remembered slots are
visited in any order. -/
inductive Step (n : Nat) : Op → Heap → Heap → Prop
  | new {h : Heap} (i info : Nat) (slots : List Nat) (c : Nat) (fixed : Bool) (a : Addr) : i < n → c < n → a ∉ h.U → a ≠ 0 →
      slots.Pairwise (· < ·) → (∀ k ∈ slots, k < 2 ^ 31) →
      Step n (.new i info slots c fixed) h
        ⟨setRoot (newObject h.st a info slots (h.st.roots c) fixed) i a, a :: h.U⟩
  | move {h : Heap} (i j : Nat) : i < n → j < n → Step n (.move i j) h ⟨setRoot h.st i (h.st.roots j), h.U⟩
  | null {h : Heap} (i : Nat) : i < n → Step n (.null i) h ⟨setRoot h.st i 0, h.U⟩
  | load {h : Heap} (i j k : Nat) : i < n → j < n → h.st.roots j ≠ 0 → k ∈ (h.st.mem (h.st.roots j)).slots →
      Step n (.load i j k) h ⟨setRoot h.st i ((h.st.mem (h.st.roots j)).ref k), h.U⟩
  | store {h : Heap} (i k : Nat) (js : List Nat) : i < n → (∀ j ∈ js, j < n) → h.st.roots i ≠ 0 →
      h.st.region (h.st.roots i) ≠ .immortal →
      (∀ x, x < js.length → k + x ∈ (h.st.mem (h.st.roots i)).slots) →
      Step n (.store i k js) h ⟨store h.st (h.st.roots i) k (js.map h.st.roots), h.U⟩
  | gc {h : Heap} {s' : St} (mode : Mode) (alloc : Nat → Addr) (old dirty : List (Addr × Nat)) (fuel : Nat) : 0 < n →
      (∀ i j, alloc i = alloc j → i = j) → (∀ i, alloc i ∉ h.U) → (∀ i, alloc i ≠ 0) →
      old.Nodup → dirty.Nodup → (∀ p, p ∈ old ↔ OldSlot h.st p) → (∀ p, p ∈ dirty ↔ DirtySlot h.st p) →
      h.U.length ≤ fuel →
      collect2 ⟨mode, alloc⟩ fuel h.st old dirty n = some s' →
      Step n (.gc mode) h ⟨finish ⟨mode, alloc⟩ s' h.U, survivors ⟨mode, alloc⟩ s' h.U⟩

end Avian.Collect
