import Verif.Util.Bits

/-
The remembered words of the old generation: src/heap/heap.cpp 100-370 (the maps of a segment), 1195-1245 (`updateHeapMap`),
1675-1735 (`collect` of a map) and 2052-2106 (`mark`).

The old generation has maps of several levels; a record of level `k` stands for `scale k` words.  Level 0 is `pointerMap`, level
1 `pageMap` and level 2 `heapMap`; `n` is the highest level.  A word is given by its number in the segment.
-/
namespace Avian.Remember

open Avian.Bits

/-- heap.cpp:710-716, 882-891: the words a record stands for (`LikelyPageSizeInBytes` is 4096, `BytesPerWord` 8). -/
def gen2Scale : Nat → Nat
  | 0 => 1
  | 1 => 4 * 1024 / 8
  | _ => 4 * 1024 / 8 * 1024

/-- What happens to the mark of a word; only for the statements. -/
inductive Ev where
  /-- the collector takes the word up: its mark is cleared -/
  | visit (w : Nat)
  /-- the collector marks the word again -/
  | keep (w : Nat)
  /-- `set` -/
  | set (w : Nat)
  deriving DecidableEq

/-- The maps of a segment, `position()` and everything else; `log` is not in the program. -/
structure St (W : Type) where
  data : Nat → Map
  position : Nat
  world : W
  log : List Ev

/-- What the collector does at a marked word. -/
structure Client (W : Type) where
  /-- `c->nextGen1.contains(*p)` (heap.cpp:1702) -/
  young : W → Nat → Bool
  /-- `collect(c, p)` (heap.cpp:1706): the world and `position()` after it, and the words for which it calls `map->set`
      (heap.cpp:1241) -/
  visit : W → Nat → Nat → W × Nat × List Nat
  /-- `c->gen2.contains(*p)` (heap.cpp:1708) -/
  inside : W → Nat → Nat → Bool

variable {W : Type}

/-- The map of a level. -/
def level (scale : Nat → Nat) (s : St W) (k : Nat) : SegMap := ⟨s.data k, 1, scale k⟩

def put (s : St W) (k : Nat) (m : SegMap) : St W := { s with data := fun j => if j = k then m.data else s.data j }

/-- heap.cpp:323-336 `setOnly`. -/
def setOnly (scale : Nat → Nat) (s : St W) (k w : Nat) : St W := put s k ((level scale s k).setOnly w 1#32)

/-- heap.cpp:301-314 `clearOnly`. -/
def clearOnly (scale : Nat → Nat) (s : St W) (k w : Nat) : St W := put s k ((level scale s k).clearOnly w)

/-- heap.cpp:338-344 `set` of the map of level `k`. -/
def setFrom (scale : Nat → Nat) : Nat → St W → Nat → St W
  | 0, s, w => setOnly scale s 0 w
  | k + 1, s, w => setFrom scale k (setOnly scale s (k + 1) w) w

def note (s : St W) (e : Ev) : St W := { s with log := s.log ++ [e] }

/-- `map->set(p)` of the highest map. -/
def mark (scale : Nat → Nat) (n : Nat) (s : St W) (w : Nat) : St W := note (setFrom scale n s w) (.set w)

/-- heap.cpp:1683-1716: the loop of `collect`; the fuel is the number of records. -/
def loop (scale : Nat → Nat) (k : Nat) (body : St W → Nat → St W × Bool) : Nat → Iter → St W → Bool → St W × Bool
  | 0, _, s, dirty => (s, dirty)
  | fuel + 1, it, s, dirty =>
    match hasMore (level scale s k) it with
    | (false, _) => (s, dirty)
    | (true, it) =>
      let r := body s (next (level scale s k) it).1
      loop scale k body fuel (next (level scale s k) it).2 r.1 (dirty || r.2)

/-- heap.cpp:1706-1712: a word that does not refer to the young generation is collected. -/
def leafVisit (scale : Nat → Nat) (c : Client W) (n : Nat) (s : St W) (w : Nat) : St W :=
  let r := c.visit s.world s.position w
  r.2.2.foldl (mark scale n) { s with world := r.1, position := r.2.1 }

/-- heap.cpp:1698-1715: a marked word. -/
def leafBody (scale : Nat → Nat) (c : Client W) (n : Nat) (s : St W) (w : Nat) : St W × Bool :=
  let s := note (clearOnly scale s 0 w) (.visit w)
  if c.young s.world w then (note (setOnly scale s 0 w) (.keep w), true)
  else
    let s := leafVisit scale c n s w
    if c.inside s.world s.position w then (s, false)
    else (note (setOnly scale s 0 w) (.keep w), true)

/-- heap.cpp:1685-1696: a marked record of a higher level. -/
def nodeBody (scale : Nat → Nat) (k : Nat) (child : St W → Nat → Nat → St W × Bool) (s : St W) (start : Nat) : St W × Bool :=
  let r := child (clearOnly scale s (k + 1) start) start (start + scale (k + 1))
  if r.2 then (setOnly scale r.1 (k + 1) start, true) else (r.1, false)

/-- heap.cpp:1675-1719 `collect` of the map of level `k` for the words from `start` to `stop`; the result tells whether `*dirty`
    was set. -/
def collect (scale : Nat → Nat) (c : Client W) (n : Nat) : Nat → St W → Nat → Nat → St W × Bool
  | 0, s, start, stop =>
    let it := (level scale s 0).iterInit s.position start stop
    loop scale 0 (leafBody scale c n) (it.limit - it.index) it s false
  | k + 1, s, start, stop =>
    let it := (level scale s (k + 1)).iterInit s.position start stop
    loop scale (k + 1) (nodeBody scale k (collect scale c n k)) (it.limit - it.index) it s false

/-- heap.cpp:1730-1736: the remembered words of the old generation in a minor collection. -/
def collectGen2 (scale : Nat → Nat) (c : Client W) (n : Nat) (s : St W) : St W :=
  if s.position ≠ 0 then (collect scale c n n s 0 s.position).1 else s

/-! ### Layout -/

/-- heap.cpp:232-241 `calculateSize`, in words; `ceilingDivide` of common.h. -/
def calculateSize (capacity scale bitsPerRecord : Nat) : Nat := ((capacity + scale - 1) / scale * bitsPerRecord + 64 - 1) / 64

/-- heap.cpp:253-259 `calculateFootprint` of level `k`. -/
def footprint (scale : Nat → Nat) (capacity : Nat) : Nat → Nat
  | 0 => calculateSize capacity (scale 0) 1
  | k + 1 => calculateSize capacity (scale (k + 1)) 1 + footprint scale capacity k

/-- heap.cpp:224-230 `calculateOffset`: where the data of level `k` begin, counted from the end of the segment (line 211). -/
def offset (scale : Nat → Nat) (capacity : Nat) : Nat → Nat
  | 0 => 0
  | k + 1 => footprint scale capacity k

/-! ### The write barrier -/

/-- What a thread in `markAtomic` (heap.cpp:347-355) still has to do: the bits `todo`, and the word it has read for the first of
    them (`old` in `markBitAtomic`, heap.cpp:69-76). -/
structure Thread where
  todo : List (Nat × Nat)
  old : Option (BitVec 64)

/-- heap.cpp:347-355 `markAtomic` of the map of level `k`: the bits it marks, as level and index, in order. -/
def atomicBits (scale : Nat → Nat) (w : Nat) : Nat → List (Nat × Nat)
  | 0 => [(0, w / scale 0)]
  | k + 1 => (k + 1, w / scale (k + 1)) :: atomicBits scale w k

/-- The maps and the threads. -/
structure Conc where
  data : Nat → Map
  threads : Nat → Thread

/-- One step of a thread: reading the word, or the compare-and-swap, after which the next bit is begun or the word is read
    again. -/
inductive Step : Conc → Conc → Prop where
  | read (c : Conc) (t : Nat) (k i : Nat) (l : List (Nat × Nat)) :
      (c.threads t).todo = (k, i) :: l → (c.threads t).old = none →
      Step c { c with threads := fun u => if u = t then ⟨(k, i) :: l, some (c.data k (wordOf i))⟩ else c.threads u }
  | swap (c : Conc) (t : Nat) (k i : Nat) (l : List (Nat × Nat)) (old : BitVec 64) :
      (c.threads t).todo = (k, i) :: l → (c.threads t).old = some old → c.data k (wordOf i) = old →
      Step c ⟨fun j => if j = k then store (c.data k) (wordOf i) (old ||| (1#64 <<< bitOf i)) else c.data j,
        fun u => if u = t then ⟨l, none⟩ else c.threads u⟩
  | retry (c : Conc) (t : Nat) (k i : Nat) (l : List (Nat × Nat)) (old : BitVec 64) :
      (c.threads t).todo = (k, i) :: l → (c.threads t).old = some old → c.data k (wordOf i) ≠ old →
      Step c { c with threads := fun u => if u = t then ⟨(k, i) :: l, none⟩ else c.threads u }

end Avian.Remember
