/-
Doubly linked lists (classpath/java/util/LinkedList.java).

Cells are numbers; `value`, `prev` and `next` are the fields of the cells made so far (those below
`fresh`).  An element is `none` (null) or an object; `equals` is equality.
-/
namespace Avian.LinkedList

abbrev Cell := Nat

/-- LinkedList.java:14-16 and 400-404. -/
structure LL (E : Type) where
  value : Cell → Option E
  prev : Cell → Option Cell
  next : Cell → Option Cell
  fresh : Cell
  front : Option Cell
  rear : Option Cell
  size : Int

inductive Exn where
  | indexOutOfBounds
  | noSuchElement
  | illegalState
  | nullPointer
  /-- the cells form a circle and the loop does not end -/
  | never
  deriving DecidableEq

variable {E : Type}

/-- An assignment to a field of one cell. -/
def set {A : Type} (f : Cell → A) (c : Cell) (a : A) : Cell → A := fun d => if d = c then a else f d

/-- LinkedList.java:22 `LinkedList()`. -/
def empty : LL E := ⟨fun _ => none, fun _ => none, fun _ => none, 0, none, none, 0⟩

/-- LinkedList.java:405-409: `new Cell(value, prev, next)`. -/
def newCell (l : LL E) (v : Option E) (p n : Option Cell) : LL E × Cell :=
  ({ l with value := set l.value l.fresh v, prev := set l.prev l.fresh p, next := set l.next l.fresh n,
            fresh := l.fresh + 1 }, l.fresh)

/-- LinkedList.java:25-31: the loop of `find(int)`.  The fuel is the number of cells: a longer walk
would meet a cell twice. -/
def findAt (l : LL E) (index : Int) : Nat → Option Cell → Int → Except Exn Cell
  | _, none, _ => .error .indexOutOfBounds
  | 0, some _, _ => .error .never
  | fuel + 1, some c, i => if i = index then .ok c else findAt l index fuel (l.next c) (i + 1)

/-- LinkedList.java:24-33 `find(int)`. -/
def find (l : LL E) (index : Int) : Except Exn Cell := findAt l index l.fresh l.front 0

/-- LinkedList.java:39-49 `addFirst(Cell)`. -/
def addFirstCell (l : LL E) (c : Cell) : LL E :=
  match l.front with
  | none => { l with size := l.size + 1, front := some c, rear := some c }
  | some f => { l with size := l.size + 1, next := set l.next c (some f), prev := set l.prev f (some c),
                       front := some c }

/-- LinkedList.java:51-61 `addLast(Cell)`; line 58 `rear.next` is a null pointer if `rear` is null. -/
def addLastCell (l : LL E) (c : Cell) : Except Exn (LL E) :=
  match l.front with
  | none => .ok { l with size := l.size + 1, front := some c, rear := some c }
  | some _ =>
    match l.rear with
    | some r => .ok { l with size := l.size + 1, prev := set l.prev c (some r),
                             next := set l.next r (some c), rear := some c }
    | none => .error .nullPointer

variable [DecidableEq E]

/-- LinkedList.java:63-70 `find(Object)`. -/
def findObject (l : LL E) (e : Option E) : Nat → Option Cell → Except Exn (Option Cell)
  | _, none => .ok none
  | 0, some _ => .error .never
  | fuel + 1, some c => if l.value c = e then .ok (some c) else findObject l e fuel (l.next c)

omit [DecidableEq E] in
/-- LinkedList.java:72-86 `remove(Cell)`. -/
def removeCell (l : LL E) (c : Cell) : LL E :=
  let l := { l with size := l.size - 1 }
  let l := match l.prev c with
    | none => { l with front := l.next c }
    | some p => { l with next := set l.next p (l.next c) }
  match l.next c with
  | none => { l with rear := l.prev c }
  | some n => { l with prev := set l.prev n (l.prev c) }

/-- LinkedList.java:94-96 `contains`. -/
def contains (l : LL E) (e : Option E) : Except Exn Bool :=
  (findObject l e l.fresh l.front).map Option.isSome

/-- LinkedList.java:100-107: the loop of `indexOf`. -/
def indexLoop (l : LL E) (e : Option E) : Nat → Option Cell → Int → Except Exn Int
  | _, none, _ => .ok (-1)
  | 0, some _, _ => .error .never
  | fuel + 1, some c, i => if l.value c = e then .ok i else indexLoop l e fuel (l.next c) (i + 1)

/-- LinkedList.java:98-108 `indexOf`. -/
def indexOf (l : LL E) (e : Option E) : Except Exn Int := indexLoop l e l.fresh l.front 0

/-- LinkedList.java:112-119: the loop of `lastIndexOf`. -/
def lastLoop (l : LL E) (e : Option E) : Nat → Option Cell → Int → Except Exn Int
  | _, none, _ => .ok (-1)
  | 0, some _, _ => .error .never
  | fuel + 1, some c, i =>
    if l.value c = e then .ok (i - 1) else lastLoop l e fuel (l.prev c) (i - 1)

/-- LinkedList.java:110-120 `lastIndexOf`. -/
def lastIndexOf (l : LL E) (e : Option E) : Except Exn Int := lastLoop l e l.fresh l.rear l.size

omit [DecidableEq E]

/-- LinkedList.java:184-186 `addLast`, 127-131 `add`, 122-125 `offer`, 176-181 `offerLast`. -/
def addLast (l : LL E) (e : Option E) : Except Exn (LL E) :=
  let r := newCell l e none none
  addLastCell r.1 r.2

/-- LinkedList.java:171-174 `addFirst`, 160-164 `offerFirst`, 166-169 `push`. -/
def addFirst (l : LL E) (e : Option E) : LL E :=
  let r := newCell l e none none
  addFirstCell r.1 r.2

/-- LinkedList.java:133-137 `addAll`. -/
def addAll (l : LL E) : List (Option E) → Except Exn (LL E)
  | [] => .ok l
  | e :: es => (addLast l e).bind fun l => addAll l es

/-- LinkedList.java:139-148 `add(int, T)`. -/
def addAt (l : LL E) (index : Int) (e : Option E) : Except Exn (LL E) :=
  if index = 0 then .ok (addFirst l e)
  else
    (find l index).bind fun c =>
      let r := newCell l e (l.prev c) (some c)
      match r.1.prev c with
      | none => .error .nullPointer
      | some p => .ok { r.1 with next := set r.1.next p (some r.2) }

/-- LinkedList.java:188-190 `get`. -/
def get (l : LL E) (index : Int) : Except Exn (Option E) := (find l index).map l.value

/-- LinkedList.java:192-198 `set`. -/
def setAt (l : LL E) (index : Int) (e : Option E) : Except Exn (Option E × LL E) :=
  (find l index).map fun c => (l.value c, { l with value := set l.value c e })

/-- LinkedList.java:205-212 `peekFirst`, 200-203 `peek`. -/
def peekFirst (l : LL E) : Option E := l.front.bind l.value

/-- LinkedList.java:214-221 `getFirst`. -/
def getFirst (l : LL E) : Except Exn (Option E) :=
  match l.front with
  | some c => .ok (l.value c)
  | none => .error .noSuchElement

/-- LinkedList.java:223-230 `peekLast`. -/
def peekLast (l : LL E) : Option E := l.rear.bind l.value

/-- LinkedList.java:232-239 `getLast`. -/
def getLast (l : LL E) : Except Exn (Option E) :=
  match l.rear with
  | some c => .ok (l.value c)
  | none => .error .noSuchElement

/-- LinkedList.java:241-246 `remove(int)`. -/
def removeAt (l : LL E) (index : Int) : Except Exn (Option E × LL E) :=
  (find l index).map fun c => (l.value c, removeCell l c)

/-- LinkedList.java:88-91 `size`. -/
def isEmpty (l : LL E) : Bool := l.size == 0

/-- LinkedList.java:258-267 `pollFirst`, 253-256 `poll`. -/
def pollFirst (l : LL E) : Option E × LL E :=
  match l.front with
  | some c => (l.value c, removeCell l c)
  | none => (none, l)

/-- LinkedList.java:269-278 `removeFirst`, 280-283 `pop`, 285-288 `remove()`. -/
def removeFirst (l : LL E) : Except Exn E × LL E :=
  match pollFirst l with
  | (none, l) => (.error .noSuchElement, l)
  | (some e, l) => (.ok e, l)

/-- LinkedList.java:290-299 `pollLast`. -/
def pollLast (l : LL E) : Except Exn (Option E) × LL E :=
  match l.rear with
  | some c => (.ok (l.value c), removeCell l c)
  | none => (.error .noSuchElement, l)

/-- LinkedList.java:301-310 `removeLast`. -/
def removeLast (l : LL E) : Except Exn E × LL E :=
  match pollLast l with
  | (.error x, l) => (.error x, l)
  | (.ok none, l) => (.error .noSuchElement, l)
  | (.ok (some e), l) => (.ok e, l)

variable [DecidableEq E]

/-- LinkedList.java:312-321 `remove(Object)`. -/
def removeObject (l : LL E) (e : Option E) : Except Exn (Bool × LL E) :=
  (findObject l e l.fresh l.front).map fun
    | none => (false, l)
    | some c => (true, removeCell l c)

/-- LinkedList.java:375-385 `removeFirstOccurrence`. -/
def removeFirstOccurrence (l : LL E) (e : Option E) : Except Exn (Bool × LL E) :=
  (indexOf l e).bind fun i =>
    if i > 0 then (removeAt l i).map fun r => (true, r.2) else .ok (false, l)

/-- LinkedList.java:387-397 `removeLastOccurrence`. -/
def removeLastOccurrence (l : LL E) (e : Option E) : Except Exn (Bool × LL E) :=
  (lastIndexOf l e).bind fun i =>
    if i > 0 then (removeAt l i).map fun r => (true, r.2) else .ok (false, l)

omit [DecidableEq E]

/-- LinkedList.java:323-327 `clear`. -/
def clear (l : LL E) : LL E := { l with front := none, rear := none, size := 0 }

/-- LinkedList.java:412-414: the fields of an iterator. -/
structure It where
  toRemove : Option Cell
  current : Option Cell

/-- LinkedList.java:441-447 `hasNext`. -/
def hasNext (l : LL E) (it : It) : Bool :=
  match it.current with
  | none => l.front.isSome
  | some c => (l.next c).isSome

/-- LinkedList.java:449-451 `hasPrevious`. -/
def hasPrevious (it : It) : Bool := it.current.isSome

/-- LinkedList.java:429-433: the cell behind the cursor. -/
def following (l : LL E) (it : It) : Option Cell :=
  match it.current with
  | none => l.front
  | some c => l.next c

/-- LinkedList.java:427-439 `next`. -/
def itNext (l : LL E) (it : It) : Except Exn (Option E × It) :=
  if hasNext l it then
    match following l it with
    | some c => .ok (l.value c, ⟨some c, some c⟩)
    | none => .error .nullPointer
  else .error .noSuchElement

/-- LinkedList.java:416-425 `previous`. -/
def itPrevious (l : LL E) (it : It) : Except Exn (Option E × It) :=
  match it.current with
  | some c => .ok (l.value c, ⟨some c, l.prev c⟩)
  | none => .error .noSuchElement

/-- LinkedList.java:453-461 `remove`. -/
def itRemove (l : LL E) (it : It) : Except Exn (LL E × It) :=
  match it.toRemove with
  | some c => .ok (removeCell l c, ⟨none, l.prev c⟩)
  | none => .error .illegalState

/-- LinkedList.java:340-347 `listIterator(int)`: so many calls of `next`. -/
def listIterator (l : LL E) : Nat → Except Exn It
  | 0 => .ok ⟨none, none⟩
  | n + 1 => (listIterator l n).bind fun it => (itNext l it).map Prod.snd

end Avian.LinkedList
