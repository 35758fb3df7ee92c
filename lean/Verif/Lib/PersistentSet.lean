/-
Persistent sorted sets (classpath/avian/PersistentSet.java).

Trees are values: the nodes that `find`, `first`, `successor` and the rotations copy (`new Node(n)`) belong to one
path only, and what is not copied is never written (`Lib/PersistentNodes`).  A `Path` is the node it stands
at and the nodes above it, nearest first; for each of them the side the path took, the colour, the value and the
subtree on the other side.  Comparisons of nodes (`n == ancestors.value.right`) are about that side.  `NullNode` is
`leaf`.  Sets have fewer than 2^31 elements.
-/
namespace Avian.PersistentSet

inductive Exn where
  | illegalArgument
  | illegalState
  | nullPointer
  | noSuchElement
  /-- The loop of `remove` treats `NullNode` as a sibling; what follows is not modelled. -/
  | broken
  deriving DecidableEq

/-- PersistentSet.java:496-510 `Node`. -/
inductive T (α : Type) where
  | leaf
  | node (red : Bool) (l : T α) (v : α) (r : T α)
  deriving DecidableEq

variable {α : Type}

namespace T

/-- `n.red`; `NullNode` is not red (PersistentSet.java:16-21). -/
def isRed : T α → Bool
  | leaf => false
  | node red _ _ _ => red

/-- `n == NullNode` -/
def isLeaf : T α → Bool
  | leaf => true
  | node _ _ _ _ => false

/-- `n.red = c` -/
def paint (c : Bool) : T α → T α
  | leaf => leaf
  | node _ l v r => node c l v r

/-- The left subtree. -/
def left : T α → T α
  | leaf => leaf
  | node _ l _ _ => l

/-- The right subtree. -/
def right : T α → T α
  | leaf => leaf
  | node _ _ _ r => r

end T

/-- A node above a path: `left` if the path goes on in its left subtree; the other subtree is `sib`. -/
structure Frame (α : Type) where
  left : Bool
  red : Bool
  v : α
  sib : T α
  deriving DecidableEq

/-- A node with `t` on the left and `s` on the right, or the other way round. -/
def mk (left red : Bool) (t : T α) (v : α) (s : T α) : T α :=
  if left then .node red t v s else .node red s v t

/-- The node above a subtree. -/
def plug1 (t : T α) (f : Frame α) : T α := mk f.left f.red t f.v f.sib

/-- The tree of a path. -/
def plug (t : T α) : List (Frame α) → T α
  | [] => t
  | f :: fs => plug (plug1 t f) fs

/-- PersistentSet.java:23-25; the comparator is a parameter of the methods. -/
structure PSet (α : Type) where
  root : T α
  size : Int
  deriving DecidableEq

/-- PersistentSet.java:27-37: a new set. -/
def empty : PSet α := ⟨.leaf, 0⟩

/-- PersistentSet.java:512-525 `Path`; `size` is that of its set `root`. -/
structure Path (α : Type) where
  fresh : Bool
  red : Bool
  l : T α
  v : α
  r : T α
  above : List (Frame α)
  size : Int
  deriving DecidableEq

/-- The node a path stands at. -/
def Path.node (p : Path α) : T α := .node p.red p.l p.v p.r

/-- PersistentSet.java:535-537 `Path.root`. -/
def Path.root (p : Path α) : PSet α := ⟨plug p.node p.above, p.size⟩

/-- PersistentSet.java:409-431: the loop of `find`.  Where there is no node, a copy of `NullNode` with the value is
put. -/
def findLoop (cmp : α → α → Int) (v : α) (size : Int) : T α → List (Frame α) → Path α
  | .leaf, fs => ⟨true, false, .leaf, v, .leaf, fs, size⟩
  | .node red l x r, fs =>
    if cmp v x < 0 then findLoop cmp v size l (⟨true, red, x, r⟩ :: fs)
    else if cmp v x > 0 then findLoop cmp v size r (⟨false, red, x, l⟩ :: fs)
    else ⟨false, red, l, x, r, fs, size⟩

/-- PersistentSet.java:405-432 `find`. -/
def find (cmp : α → α → Int) (s : PSet α) (v : α) : Path α := findLoop cmp v s.size s.root []

/-- PersistentSet.java:95-100 and 127-132: parent and its sibling get black, the grandparent red. -/
def recolor (t : T α) (p g : Frame α) : T α :=
  plug1 (plug1 t { p with red := false }) { g with red := true, sib := g.sib.paint false }

/-- PersistentSet.java:102-113 and 134-145: an inner grandchild is rotated above its parent. -/
def straighten (t : T α) (p g : Frame α) : T α × Frame α :=
  if p.left = g.left then (t, p)
  else match t with
    | .leaf => (t, p)
    | .node tred tl tv tr =>
      if g.left then (.node p.red p.sib p.v tl, ⟨true, tred, tv, tr⟩)
      else (.node p.red tr p.v p.sib, ⟨false, tred, tv, tl⟩)

/-- PersistentSet.java:114-118 with 176-181, and 146-150 with 169-174: the parent black, the grandparent red, and the
grandparent rotated below the parent. -/
def rotate (t : T α) (p g : Frame α) : T α :=
  mk g.left false t p.v (mk g.left true p.sib g.v g.sib)

/-- PersistentSet.java:90-161: the loop of `add`; `nullPointer` if a red node has no parent. -/
def fix : T α → List (Frame α) → Except Exn (T α)
  | t, [] => .ok t
  | t, p :: rest =>
    if p.red then
      match rest with
      | [] => .error .nullPointer
      | g :: rest' =>
        if g.sib.isRed then fix (recolor t p g) rest'
        else
          let s := straighten t p g
          .ok (plug (rotate s.1 s.2 g) rest')
    else .ok (plug t (p :: rest))

/-- PersistentSet.java:83-167 `add(Path)`. -/
def addPath (p : Path α) : Except Exn (PSet α) :=
  if p.fresh then
    match fix (.node true p.l p.v p.r) p.above with
    | .error e => .error e
    | .ok t => .ok ⟨t.paint false, p.size + 1⟩
  else .error .illegalArgument

/-- PersistentSet.java:553-557 `Path.add`. -/
def Path.add (p : Path α) : Except Exn (PSet α) :=
  if p.fresh then addPath p else .error .illegalState

/-- PersistentSet.java:559-566 `Path.replaceWith`. -/
def Path.replaceWith (cmp : α → α → Int) (p : Path α) (v : α) : Except Exn (PSet α) :=
  if p.fresh then .error .illegalState
  else if cmp p.v v ≠ 0 then .error .illegalArgument
  else .ok ({ p with v := v } : Path α).root

/-- PersistentSet.java:70-81 `add(T, boolean)`. -/
def add (cmp : α → α → Int) (s : PSet α) (v : α) (replaceExisting : Bool) : Except Exn (PSet α) :=
  let p := find cmp s v
  if !p.fresh then
    if replaceExisting then p.replaceWith cmp v else .ok s
  else addPath p

/-- PersistentSet.java:349-359 `minimum`, and the loop of `first` (440-448), from the node given by its parts. -/
def minLoop (fresh : Bool) (size : Int) : Bool → T α → α → T α → List (Frame α) → Path α
  | red, .leaf, v, r, fs => ⟨fresh, red, .leaf, v, r, fs, size⟩
  | red, .node lred ll lv lr, v, r, fs => minLoop fresh size lred ll lv lr (⟨true, red, v, r⟩ :: fs)

/-- PersistentSet.java:361-371 `maximum`, and the loop of `last` (460-468). -/
def maxLoop (fresh : Bool) (size : Int) : Bool → T α → α → T α → List (Frame α) → Path α
  | red, l, v, .leaf, fs => ⟨fresh, red, l, v, .leaf, fs, size⟩
  | red, l, v, .node rred rl rv rr, fs => maxLoop fresh size rred rl rv rr (⟨false, red, v, l⟩ :: fs)

/-- PersistentSet.java:434-452 `first`: the path says it is fresh. -/
def first (s : PSet α) : Option (Path α) :=
  match s.root with
  | .leaf => none
  | .node red l v r => some (minLoop true s.size red l v r [])

/-- PersistentSet.java:454-472 `last`. -/
def last (s : PSet α) : Option (Path α) :=
  match s.root with
  | .leaf => none
  | .node red l v r => some (maxLoop true s.size red l v r [])

/-- PersistentSet.java:381-386 (`side` false) and 397-402 (`side` true): up, as long as the node is on the given
side (left for true) of its parent. -/
def up (side : Bool) (size : Int) : T α → List (Frame α) → Option (Path α)
  | _, [] => none
  | t, f :: fs =>
    if f.left = side then up side size (plug1 t f) fs
    else some (if f.left then ⟨false, f.red, t, f.v, f.sib, fs, size⟩ else ⟨false, f.red, f.sib, f.v, t, fs, size⟩)

/-- PersistentSet.java:373-387, 478-485 `successor`. -/
def Path.successor (p : Path α) : Option (Path α) :=
  match p.r with
  | .node rred rl rv rr => some (minLoop false p.size rred rl rv rr (⟨false, p.red, p.v, p.l⟩ :: p.above))
  | .leaf => up false p.size p.node p.above

/-- PersistentSet.java:389-403, 487-494 `predecessor`. -/
def Path.predecessor (p : Path α) : Option (Path α) :=
  match p.l with
  | .node lred ll lv lr => some (maxLoop false p.size lred ll lv lr (⟨true, p.red, p.v, p.r⟩ :: p.above))
  | .leaf => up true p.size p.node p.above

/-- How a round of the loop of `remove` ends: on with the parent, or done with this in place of the parent. -/
inductive Round (α : Type) where
  | goOn (t : T α)
  | done (t : T α)

/-- PersistentSet.java:259-288 (the child is on the left) and 308-337: a round with a black sibling
`mk f.left red near sv far`; `near` is its subtree on the side of the child. -/
def blackSibling (t : T α) (f : Frame α) (near : T α) (sv : α) (far : T α) : Round α :=
  if !(near.isRed || far.isRed) then .goOn (mk f.left f.red t f.v (mk f.left true near sv far))
  else if !far.isRed then
    match near with
    | .leaf => .goOn t
    | .node _ nl nv nr =>
      -- 266-270 and 315-319, then as below with the new sibling
      let inner := if f.left then nl else nr
      let outer := if f.left then nr else nl
      .done (mk f.left f.red (mk f.left false t f.v inner) nv ((mk f.left true outer sv far).paint false))
  else .done (mk f.left f.red (mk f.left false t f.v near) sv (far.paint false))

/-- PersistentSet.java:236-343: the loop of `remove`, and `child.red = false` behind it.  With a red sibling
(241-257, 290-306) the sibling is rotated above the parent, which gets red; if the round goes on, the loop sees this
red node and ends. -/
def delLoop : T α → List (Frame α) → Except Exn (T α)
  | t, [] => .ok (t.paint false)
  | t, f :: fs =>
    if t.isRed then .ok (plug (t.paint false) (f :: fs))
    else
      match f.sib with
      | .leaf => .error .broken
      | .node sred sl sv sr =>
        let near := if f.left then sl else sr
        let far := if f.left then sr else sl
        if sred then
          match near with
          | .leaf => .error .broken
          | .node _ nl nv nr =>
            let above := { f with red := false, v := sv, sib := far } :: fs
            match blackSibling t { f with red := true } (if f.left then nl else nr) nv (if f.left then nr else nl) with
            | .goOn t' => .ok (plug (t'.paint false) above)
            | .done t' => .ok ((plug t' above).paint false)
        else
          match blackSibling t f near sv far with
          | .goOn t' => delLoop t' fs
          | .done t' => .ok ((plug t' fs).paint false)

/-- PersistentSet.java:204-213, 228-230: the node taken out, its parents; in the place of a node with two subtrees its
successor is taken out, whose value it gets. -/
def dead (p : Path α) : Path α :=
  if p.l.isLeaf || p.r.isLeaf then p
  else
    match p.r with
    | .leaf => p
    | .node rred rl rv rr =>
      let d := minLoop false p.size rred rl rv rr []
      { d with above := d.above ++ ⟨false, p.red, d.v, p.l⟩ :: p.above }

/-- PersistentSet.java:192-347 `remove(Path)`; `own` if the set is the one of the path. -/
def removePath (own : Bool) (p : Path α) : Except Exn (PSet α) :=
  if p.size = 1 then
    if own && p.above.isEmpty then .ok empty else .error .illegalArgument
  else
    let d := dead p
    let child := if d.l.isLeaf then d.r else d.l
    match d.above with
    | [] => .ok ⟨child.paint false, 1⟩
    | f :: fs =>
      if d.red then .ok ⟨plug child (f :: fs), p.size - 1⟩
      else
        match delLoop child (f :: fs) with
        | .error e => .error e
        | .ok t => .ok ⟨t, p.size - 1⟩

/-- PersistentSet.java:547-551 `Path.remove`. -/
def Path.remove (p : Path α) : Except Exn (PSet α) :=
  if p.fresh then .error .illegalState else removePath true p

/-- PersistentSet.java:183-190 `remove(T)`: the path's nodes are copies, so the set is not the path's. -/
def remove (cmp : α → α → Int) (s : PSet α) (v : α) : Except Exn (PSet α) :=
  let p := find cmp s v
  if !p.fresh then removePath false p else .ok s

end Avian.PersistentSet
