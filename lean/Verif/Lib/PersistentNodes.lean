import Verif.Lib.PersistentSet

/-
The nodes of persistent sets (classpath/avian/PersistentSet.java): which of them are copied and which are written.

`Lib/PersistentSet` has trees as values; here a tree is a node in a store, and the methods write to nodes.  Node 0 is
`NullNode`; nodes are numbered in the order of their creation.  Code that is written twice in the program, for left and right,
is here written once, for a side (`true` is left).  The loops that go down have a limit of steps, which the theorems only want
to be not less than the height of the tree.
-/
namespace Avian.PersistentNodes

open Avian.PersistentSet (Exn)

variable {α : Type}

/-- PersistentSet.java:496-510 `Node`; `NullNode` has no value. -/
structure Node (α : Type) where
  red : Bool
  left : Nat
  right : Nat
  value : Option α

/-- All nodes; those from `next` on are not there yet. -/
structure H (α : Type) where
  mem : Nat → Node α
  next : Nat

/-- PersistentSet.java:16-21: only `NullNode`. -/
def start : H α := ⟨fun _ => ⟨false, 0, 0, none⟩, 1⟩

/-- One node is written; the fields of PersistentSet.java:496-500. -/
def upd (m : Nat → Node α) (i : Nat) (n : Node α) : Nat → Node α := fun j => if j = i then n else m j

/-- PersistentSet.java:497-498: `n.left` or `n.right` -/
def Node.kid (n : Node α) (side : Bool) : Nat := if side then n.left else n.right

/-- PersistentSet.java:497-498 with another child. -/
def Node.withKid (n : Node α) (side : Bool) (k : Nat) : Node α := if side then { n with left := k } else { n with right := k }

/-- `i.red = c` -/
def setRed (h : H α) (i : Nat) (c : Bool) : H α := { h with mem := upd h.mem i { h.mem i with red := c } }

/-- `i.left = k` or `i.right = k` -/
def setKid (h : H α) (i : Nat) (side : Bool) (k : Nat) : H α := { h with mem := upd h.mem i ((h.mem i).withKid side k) }

/-- `i.value = v` -/
def setValue (h : H α) (i : Nat) (v : Option α) : H α := { h with mem := upd h.mem i { h.mem i with value := v } }

/-- PersistentSet.java:504-509 `new Node(i)`. -/
def copy (h : H α) (i : Nat) : Nat × H α := (h.next, ⟨upd h.mem h.next (h.mem i), h.next + 1⟩)

/-- `i.left = new Node(i.left)`, likewise on the right. -/
def copyKid (h : H α) (i : Nat) (side : Bool) : Nat × H α :=
  let c := copy h ((h.mem i).kid side)
  (c.1, setKid c.2 i side c.1)

/-- PersistentSet.java:169-181 `leftRotate` (the child is on the right) and `rightRotate` (on the left). -/
def rot (h : H α) (n : Nat) (side : Bool) : Nat × H α :=
  let c := copy h ((h.mem n).kid side)
  let h := setKid c.2 n side ((c.2.mem c.1).kid (!side))
  (c.1, setKid h c.1 (!side) n)

/-- PersistentSet.java:106-110 and elsewhere: `n` in the place of `old` below `a`; `first` is the side that is looked at. -/
def replaceKid (h : H α) (a : Nat) (first : Bool) (old n : Nat) : H α :=
  if (h.mem a).kid first = old then setKid h a first n else setKid h a (!first) n

/-- PersistentSet.java:116-123 and elsewhere: likewise below the first of the ancestors, or as the new root. -/
def replaceTop (h : H α) (root : Nat) (as : List Nat) (first : Bool) (old n : Nat) : H α × Nat :=
  match as with
  | [] => (h, n)
  | a :: _ => (replaceKid h a first old n, root)

/-- PersistentSet.java:23-25 -/
structure Set where
  root : Nat
  size : Int

/-- PersistentSet.java:512-525 `Path`; `root` and `size` are those of its set. -/
structure Path where
  fresh : Bool
  node : Nat
  root : Nat
  size : Int
  ancestors : List Nat

/-- PersistentSet.java:411-431: the loop of `find`. -/
def findLoop (cmp : α → α → Int) (v : α) : Nat → H α → Nat → Nat → List Nat → Option (H α × Bool × Nat × List Nat)
  | 0, _, _, _, _ => none
  | fuel + 1, h, old, new, as =>
    if old = 0 then some (setValue h new (some v), true, new, as)
    else
      match (h.mem old).value with
      | none => none
      | some x =>
        if cmp v x < 0 then
          let c := copy h (h.mem old).left
          findLoop cmp v fuel (setKid c.2 new true c.1) (h.mem old).left c.1 (new :: as)
        else if cmp v x > 0 then
          let c := copy h (h.mem old).right
          findLoop cmp v fuel (setKid c.2 new false c.1) (h.mem old).right c.1 (new :: as)
        else some (h, false, new, as)

/-- PersistentSet.java:405-432 `find`. -/
def find (cmp : α → α → Int) (fuel : Nat) (h : H α) (s : Set) (v : α) : Option (H α × Path) :=
  let c := copy h s.root
  match findLoop cmp v fuel c.2 s.root c.1 [] with
  | none => none
  | some (h, fresh, node, as) => some (h, ⟨fresh, node, c.1, s.size, as⟩)

/-- PersistentSet.java:102-113 and 134-145: an inner grandchild is rotated above its parent `p`, below `g`; `s` is the side of
    `p`. -/
def straighten (h : H α) (x p g : Nat) (s : Bool) : Nat × H α :=
  if x = (h.mem p).kid (!s) then
    let r := rot h p (!s)
    (r.1, replaceKid r.2 g false p r.1)
  else (p, h)

/-- PersistentSet.java:90-161: the loop of `add`. -/
def fixLoop : H α → Nat → Nat → List Nat → Except Exn (H α × Nat)
  | h, root, _, [] => .ok (h, root)
  | h, root, x, p :: rest =>
    if (h.mem p).red then
      match rest with
      | [] => .error .nullPointer
      | g :: rest' =>
        let s : Bool := p = (h.mem g).left
        if (h.mem ((h.mem g).kid (!s))).red then
          let h := setRed h p false
          let u := copyKid h g (!s)
          let h := setRed u.2 u.1 false
          fixLoop (setRed h g true) root g rest'
        else
          let t := straighten h x p g s
          let h := setRed (setRed t.2 t.1 false) g true
          let r := rot h g s
          .ok (replaceTop r.2 root rest' false g r.1)
    else .ok (h, root)

/-- PersistentSet.java:83-167 `add(Path)`. -/
def addPath (h : H α) (p : Path) : Except Exn (H α × Set) :=
  if p.fresh then
    match fixLoop (setRed h p.node true) p.root p.node p.ancestors with
    | .error e => .error e
    | .ok (h, root) => .ok (setRed h root false, ⟨root, p.size + 1⟩)
  else .error .illegalArgument

/-- PersistentSet.java:559-566 `replaceWith`, where the values are equal. -/
def replaceWith (h : H α) (p : Path) (v : α) : H α × Set := (setValue h p.node (some v), ⟨p.root, p.size⟩)

/-- PersistentSet.java:70-81 `add(T, boolean)`; `none`: the limit of steps. -/
def add (cmp : α → α → Int) (fuel : Nat) (h : H α) (s : Set) (v : α) (replaceExisting : Bool) :
    Option (Except Exn (H α × Set)) :=
  match find cmp fuel h s v with
  | none => none
  | some (h, p) =>
    if !p.fresh then some (.ok (if replaceExisting then replaceWith h p v else (h, s)))
    else some (addPath h p)

/-- PersistentSet.java:349-359 `minimum`: the node and its ancestors. -/
def minimum : Nat → H α → Nat → List Nat → Option (H α × Nat × List Nat)
  | 0, _, _, _ => none
  | fuel + 1, h, n, as =>
    if (h.mem n).left ≠ 0 then
      let c := copyKid h n true
      minimum fuel c.2 c.1 (n :: as)
    else some (h, n, as)

/-- PersistentSet.java:266-270 and 315-319: the subtree of the sibling on the side of the child is rotated above it. -/
def turnSibling (h : H α) (a sib : Nat) (s : Bool) : Nat × H α :=
  if (h.mem ((h.mem sib).kid (!s))).red then (sib, h)
  else
    let c := copyKid h sib s
    let h := setRed (setRed c.2 c.1 false) sib true
    let r := rot h sib s
    (r.1, setKid r.2 a (!s) r.1)

/-- PersistentSet.java:259-288 and 308-337: a round with a black sibling; `some` node to go on with, or the new root. -/
def blackSibling (h : H α) (root a : Nat) (as : List Nat) (sib : Nat) (s : Bool) : H α × Nat × Bool :=
  if (h.mem (h.mem sib).left).red || (h.mem (h.mem sib).right).red then
    let t := turnSibling h a sib s
    let h := setRed (setRed t.2 t.1 (t.2.mem a).red) a false
    let c := copyKid h t.1 (!s)
    let h := setRed c.2 c.1 false
    let r := rot h a (!s)
    let h := replaceTop r.2 root as (!s) a r.1
    (h.1, h.2, false)
  else (setRed h sib true, root, true)

/-- PersistentSet.java:236-341: the loop of `remove`: the nodes, the new root, and the node at which the loop ends. -/
def delLoop : Nat → H α → Nat → Nat → List Nat → Option (H α × Nat × Nat)
  | 0, _, _, _, _ => none
  | _ + 1, h, root, child, [] => some (h, root, child)
  | fuel + 1, h, root, child, a :: as =>
    if (h.mem child).red then some (h, root, child)
    else
      let s : Bool := child = (h.mem a).left
      let c := copyKid h a (!s)
      if (c.2.mem c.1).red then
        let h := setRed (setRed c.2 c.1 false) a true
        let r := rot h a (!s)
        let t := replaceTop r.2 root as (!s) a r.1
        let c := copyKid t.1 a (!s)
        match blackSibling c.2 t.2 a (r.1 :: as) c.1 s with
        | (h, root, true) => delLoop fuel h root a (r.1 :: as)
        | (h, root, false) => some (h, root, root)
      else
        match blackSibling c.2 root a as c.1 s with
        | (h, root, true) => delLoop fuel h root a as
        | (h, root, false) => some (h, root, root)

/-- PersistentSet.java:204-213: the node to take out and its ancestors. -/
def dead (fuel : Nat) (h : H α) (p : Path) : Option (H α × Nat × List Nat) :=
  if (h.mem p.node).left = 0 ∨ (h.mem p.node).right = 0 then some (h, p.node, p.ancestors)
  else
    let c := copyKid h p.node false
    minimum fuel c.2 c.1 (p.node :: p.ancestors)

/-- PersistentSet.java:215-222: the child that takes its place. -/
def childOf (h : H α) (d : Nat) : Nat × H α :=
  if (h.mem d).left ≠ 0 then copy h (h.mem d).left
  else if (h.mem d).right ≠ 0 then copy h (h.mem d).right
  else (0, h)

/-- PersistentSet.java:192-347 `remove(Path)` of the set `s`. -/
def removePath (fuel : Nat) (h : H α) (s : Set) (p : Path) : Option (Except Exn (H α × Set)) :=
  if s.size = 1 then
    if p.node ≠ s.root then some (.error .illegalArgument) else some (.ok (h, ⟨0, 0⟩))
  else
    match dead fuel h p with
    | none => none
    | some (h, d, as) =>
      let c := childOf h d
      match as with
      | [] => some (.ok (setRed c.2 c.1 false, ⟨c.1, 1⟩))
      | a :: as =>
        let h := if d = (c.2.mem a).left then setKid c.2 a true c.1 else setKid c.2 a false c.1
        let h := if d ≠ p.node then setValue h p.node (h.mem d).value else h
        if (h.mem d).red then some (.ok (h, ⟨p.root, s.size - 1⟩))
        else
          match delLoop ((a :: as).length + 2) h p.root c.1 (a :: as) with
          | none => none
          | some (h, root, child) => some (.ok (setRed h child false, ⟨root, s.size - 1⟩))

/-- PersistentSet.java:183-190 `remove(T)`. -/
def remove (cmp : α → α → Int) (fuel : Nat) (h : H α) (s : Set) (v : α) : Option (Except Exn (H α × Set)) :=
  match find cmp fuel h s v with
  | none => none
  | some (h, p) => if !p.fresh then removePath fuel h s p else some (.ok (h, s))

end Avian.PersistentNodes
