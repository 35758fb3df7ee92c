import Verif.Props.Bits

/-!
The set of pending fields that the collector keeps inside an object it has already copied
(src/heap/heap.cpp:1266-1364), and the part of the scan of an object that fills it
(src/heap/heap.cpp:1399-1480).

The memory behind the pointer is a function from word number to word, as in `Verif.Util.Bits`; it holds
arbitrary values at the beginning, since it is the body of the copied object. Offsets are natural
numbers; the theorems assume that they are small enough for `unsigned`.
-/

namespace Avian.Bitset

open Avian.Bits

/-- heap.cpp:1266-1267 `BitsetExtensionBit`. -/
def extensionBit : BitVec 64 := 1#64 <<< 63

/-- heap.cpp:1269-1272 `bitsetInit`. -/
def init (p : Map) : Map := store p 0 0#64

/-- heap.cpp:1274-1287 `bitsetClear`. -/
def clear (p : Map) (start stop : Nat) : Map :=
  if stop < 63 then p
  else if start < 63 then
    fun j => if 1 ≤ j ∧ j ≤ wordOf (stop + 129) then 0#64 else p j
  else
    fun j => if wordOf (start + 129) + 1 ≤ j ∧ j ≤ wordOf (stop + 129) then 0#64 else p j

/-- heap.cpp:1289-1305 `bitsetSet`. -/
def set (p : Map) (i : Nat) (v : Bool) : Map :=
  if 63 ≤ i then
    let i := i + 129
    if v then
      let p := store p 0 (p 0 ||| extensionBit)
      let p := if (p 2).toNat ≤ wordOf i - 3 then store p 2 (BitVec.ofNat 64 (wordOf i - 2)) else p
      markBit p i
    else clearBit p i
  else if v then markBit p i else clearBit p i

/-- heap.cpp:1314-1321: the loop of `bitsetHasMore`, `n` words before the end. -/
def scan (p : Map) (word : Nat) : Nat → Nat × Bool
  | 0 => (word, false)
  | n + 1 => if p (word + 3) ≠ 0#64 then (word, true) else scan p (word + 1) n

/-- heap.cpp:1307-1328 `bitsetHasMore`. -/
def hasMore (p : Map) : Bool × Map :=
  if p 0 = 0#64 then (false, p)
  else if p 0 = extensionBit then
    let r := scan p (wordOf (p 1).toNat) ((p 2).toNat - wordOf (p 1).toNat)
    (r.2, store p 1 (BitVec.ofNat 64 (indexOf r.1 0)))
  else (true, p)

/-- heap.cpp:1330-1364 `bitsetNext`; `none` is `abort`. -/
def next (p : Map) : Option (Nat × Map) :=
  let p := (hasMore p).2
  if p 0 = 0#64 then none
  else if p 0 = extensionBit then
    let i := (p 1).toNat
    let word := wordOf i
    match (List.range' (bitOf i) (64 - bitOf i)).find? (fun bit => p (word + 3) &&& (1#64 <<< bit) ≠ 0#64) with
    | some bit =>
      let p := store p 1 (BitVec.ofNat 64 (indexOf word bit + 1))
      some ((p 1).toNat + 62, set p ((p 1).toNat + 62) false)
    | none => none
  else
    match (List.range 63).find? (fun i => p 0 &&& (1#64 <<< i) ≠ 0#64) with
    | some i => some (i, set p i false)
    | none => none

/-- heap.cpp:1399-1476: the state of the walker of `collect`. -/
structure Walker where
  bits : Map
  first : Nat
  second : Nat
  last : Nat
  visits : Nat
  total : Nat

/-- heap.cpp:1433-1465: the bookkeeping of `visit` for one field; `v` is `needsVisit`. -/
def Walker.visit (s : Walker) (o : Nat × Bool) : Walker :=
  let offset := o.1
  let v := o.2
  let s : Walker := { s with total := s.total + 1 }
  let s : Walker := if s.total = 3 then { s with bits := init s.bits } else s
  let s : Walker := if v then
      let s : Walker := { s with visits := s.visits + 1 }
      if s.visits = 1 then { s with first := offset }
      else if s.visits = 2 then { s with second := offset }
      else s
    else s
  if s.visits > 1 ∧ s.total > 2 ∧ (s.second ≠ 0 ∨ v = true) then
    let s : Walker := { s with bits := clear s.bits s.last offset, last := offset }
    let s : Walker := if s.second ≠ 0 then { s with bits := set s.bits s.second true, second := 0 } else s
    if v then { s with bits := set s.bits offset true } else s
  else s

/-- the whole scan over memory `p` -/
def scanObject (p : Map) (fields : List (Nat × Bool)) : Walker :=
  fields.foldl Walker.visit ⟨p, 0, 0, 0, 0, 0⟩

/-- heap.cpp:1495-1548: take pending fields as `collect` does, first one without asking, the rest as long
as there are more. The fuel bounds the number of fields; `none` is `abort`. -/
def take (p : Map) : Nat → Option (List Nat)
  | 0 => none
  | n + 1 =>
    match next p with
    | none => none
    | some (i, p) =>
      let r := hasMore p
      if r.1 then (take r.2 n).map (i :: ·) else some [i]

end Avian.Bitset
