/-
Model of the persistent red-black tree of src/util.cpp (used as the index from instruction
addresses to compiled methods), at the level of heap nodes and pointer stores.

A heap is a total map from addresses to nodes together with the next unused address; nodes are
never freed (collection is out of scope here, see the collector model).  Values are method
records; `compareIpToMethodBounds` is the comparison the VM passes in.  `abort`, a failed
`expect` and a null dereference are `none`.
-/
namespace Avian.Tree

/-- What the index needs of a method: start address and size of its compiled code
(src/compile.cpp:368-377), and an identity. -/
structure Method where
  start : Int
  size : Nat
  id : Nat
  deriving DecidableEq, Repr, Inhabited

/-- src/compile.cpp:380-404 `compareIpToMethodBounds`. -/
def compare (ip : Int) (m : Method) : Int :=
  if ip < m.start then -1
  else if ip < m.start + m.size then 0
  else 1

/-- A `GcTreeNode` (src/avian/types.def `treeNode`): value with the red bit kept in its low bit
(util.cpp:65-91), left and right child. -/
structure Node where
  value : Method
  red : Bool
  left : Nat
  right : Nat
  deriving DecidableEq, Repr, Inhabited

/-- The heap: contents of every address, the allocation frontier, and (ghost) the addresses of
all stores to existing nodes so far, latest first. -/
structure Heap where
  mem : Nat → Node
  next : Nat
  log : List Nat

/-- Overwrite one node. -/
def Heap.set (h : Heap) (a : Nat) (n : Node) : Heap :=
  { mem := fun b => if b = a then n else h.mem b, next := h.next, log := a :: h.log }

/-- `makeTreeNode`: allocate at the frontier. -/
def Heap.alloc (h : Heap) (n : Node) : Nat × Heap :=
  (h.next,
   { mem := fun b => if b = h.next then n else h.mem b, next := h.next + 1, log := h.log })

/-- `n->setLeft` -/
def Heap.setLeft (h : Heap) (a l : Nat) : Heap := h.set a { h.mem a with left := l }
/-- `n->setRight` -/
def Heap.setRight (h : Heap) (a r : Nat) : Heap := h.set a { h.mem a with right := r }
/-- src/util.cpp:84-91 `setTreeNodeRed` -/
def Heap.setRed (h : Heap) (a : Nat) (red : Bool) : Heap := h.set a { h.mem a with red := red }
/-- src/util.cpp:70-77 `setTreeNodeValue` (keeps the colour) -/
def Heap.setValue (h : Heap) (a : Nat) (v : Method) : Heap := h.set a { h.mem a with value := v }

/-- src/util.cpp:93-101 `cloneTreeNode` -/
def Heap.clone (h : Heap) (a : Nat) : Nat × Heap := h.alloc (h.mem a)

/-- src/util.cpp:103-122 `treeFind` (the search used by queries); the loop has a fuel argument
because a cyclic heap would make it run forever (outer `none`). -/
def find (h : Heap) (sentinel : Nat) (key : Int) : Nat → Nat → Option (Option Nat)
  | 0, _ => none
  | fuel + 1, node =>
    if node = sentinel then some none
    else
      let d := compare key (h.mem node).value
      if d < 0 then find h sentinel key fuel (h.mem node).left
      else if d > 0 then find h sentinel key fuel (h.mem node).right
      else some (some node)

/-- src/util.cpp:564-572 `treeQuery` -/
def query (h : Heap) (sentinel : Nat) (key : Int) (fuel root : Nat) : Option (Option Method) :=
  (find h sentinel key fuel root).map fun r => r.map fun a => (h.mem a).value

/-- The part of `TreeContext` that insertion uses (src/util.cpp:50-55). -/
structure Ctx where
  fresh : Bool
  node : Nat
  ancestors : List Nat

/-- src/util.cpp:142-179: the path-copying loop of `treeFind`.  The first argument is
`100 - count`; `none` is the abort at util.cpp:170. -/
def findPath (sentinel : Nat) (key : Int) (value : Method) :
    Nat → Heap → Nat → Nat → List Nat → Option (Heap × Ctx)
  | budget, h, old, new, ancestors =>
    if old ≠ sentinel then
      let ancestors' := new :: ancestors
      let d := compare key (h.mem old).value
      if d < 0 then
        let old := (h.mem old).left
        let (n, h) := h.clone old
        let h := h.setLeft new n
        match budget with
        | 0 => none
        | budget + 1 => findPath sentinel key value budget h old n ancestors'
      else if d > 0 then
        let old := (h.mem old).right
        let (n, h) := h.clone old
        let h := h.setRight new n
        match budget with
        | 0 => none
        | budget + 1 => findPath sentinel key value budget h old n ancestors'
      else some (h, { fresh := false, node := new, ancestors := ancestors })
    else some (h.setValue new value, { fresh := true, node := new, ancestors := ancestors })

/-- src/util.cpp:182-190 `leftRotate` -/
def leftRotate (h : Heap) (n : Nat) : Nat × Heap :=
  let (child, h) := h.clone (h.mem n).right
  let h := h.setRight n (h.mem child).left
  let h := h.setLeft child n
  (child, h)

/-- src/util.cpp:192-200 `rightRotate` -/
def rightRotate (h : Heap) (n : Nat) : Nat × Heap :=
  let (child, h) := h.clone (h.mem n).left
  let h := h.setLeft n (h.mem child).right
  let h := h.setRight child n
  (child, h)

/-- src/util.cpp:212-299: the rebalancing loop of `treeAdd`.  `none`: fuel exhausted or null
dereference of `ancestors->next`. -/
def addLoop : Nat → Heap → Nat → Nat → List Nat → Option (Nat × Heap)
  | 0, _, _, _, _ => none
  | fuel + 1, h, new, root, ancestors =>
    match ancestors with
    | [] => some (root, h)
    | parent :: rest =>
      if (h.mem parent).red then
        match rest with
        | [] => none
        | grand :: rest' =>
          if parent = (h.mem grand).left then
            if (h.mem (h.mem grand).right).red then
              -- util.cpp:215-226
              let h := h.setRed parent false
              let (n, h) := h.clone (h.mem grand).right
              let h := h.setRight grand n
              let h := h.setRed (h.mem grand).right false
              let h := h.setRed grand true
              addLoop fuel h grand root rest'
            else
              -- util.cpp:228-240
              let (h, new, parent) :=
                if new = (h.mem parent).right then
                  let new := parent
                  let (n, h) := leftRotate h new
                  let h := if new = (h.mem grand).right then h.setRight grand n
                    else h.setLeft grand n
                  (h, new, n)
                else (h, new, parent)
              -- util.cpp:241-253
              let h := h.setRed parent false
              let h := h.setRed grand true
              let (n, h) := rightRotate h grand
              match rest' with
              | [] => addLoop fuel h new n (parent :: grand :: rest')
              | great :: _ =>
                let h := if (h.mem great).right = grand then h.setRight great n
                  else h.setLeft great n
                addLoop fuel h new root (parent :: grand :: rest')
          else
            if (h.mem (h.mem grand).left).red then
              -- util.cpp:258-269
              let h := h.setRed parent false
              let (n, h) := h.clone (h.mem grand).left
              let h := h.setLeft grand n
              let h := h.setRed (h.mem grand).left false
              let h := h.setRed grand true
              addLoop fuel h grand root rest'
            else
              -- util.cpp:271-283
              let (h, new, parent) :=
                if new = (h.mem parent).left then
                  let new := parent
                  let (n, h) := rightRotate h new
                  let h := if new = (h.mem grand).left then h.setLeft grand n
                    else h.setRight grand n
                  (h, new, n)
                else (h, new, parent)
              -- util.cpp:284-296
              let h := h.setRed parent false
              let h := h.setRed grand true
              let (n, h) := leftRotate h grand
              match rest' with
              | [] => addLoop fuel h new n (parent :: grand :: rest')
              | great :: _ =>
                let h := if (h.mem great).left = grand then h.setLeft great n
                  else h.setRight great n
                addLoop fuel h new root (parent :: grand :: rest')
      else some (root, h)

/-- src/util.cpp:202-304 `treeAdd`; 102 iterations are more than the at most 101 ancestors. -/
def treeAdd (h : Heap) (root : Nat) (c : Ctx) : Option (Nat × Heap) := do
  let h := h.setRed c.node true
  let (root, h) ← addLoop 102 h c.node root c.ancestors
  return (root, h.setRed root false)

/-- src/util.cpp:574-592 `treeInsert`; the node made at 585 only carries the value. -/
def insert (h : Heap) (sentinel root : Nat) (key : Int) (value : Method) :
    Option (Nat × Heap) := do
  let (_, h) := h.alloc { value := value, red := false, left := sentinel, right := sentinel }
  let (newRoot, h) := h.clone root
  let (h, c) ← findPath sentinel key value 100 h root newRoot []
  if c.fresh then treeAdd h newRoot c else none

/-- src/util.cpp:594-602 `treeUpdate`: overwrites the value found (null dereference if none). -/
def update (h : Heap) (sentinel root fuel : Nat) (key : Int) (value : Method) : Option Heap := do
  let r ← find h sentinel key fuel root
  let a ← r
  return h.setValue a value

end Avian.Tree
