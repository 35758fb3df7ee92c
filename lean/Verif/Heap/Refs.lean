/-
Model of what happens to references and finalizers at the end of a collection.
Sources: /repo/src/machine.cpp 380-401 (finalizerTargetUnreachable), 402-440
(referenceTargetUnreachable), 442-456 (referenceUnreachable), 458-473
(referenceTargetReachable), 475-487 (isFinalizable, clearTargetIfFinalizable), 489-663
(postVisit), 3546-3553 (running native finalizers), 4396-4401 and 5427-5440 (registration);
/repo/src/types.def 100-105, 288-301; /repo/src/heap/heap.cpp 2142-2170 (status).

Simplifications: objects are numbers that do not change when the object is moved, 0 is the null
pointer; the lists linked through `vmNext`, `next` and `queueNext` are lists; visiting an object
marks everything reachable from it at once (the collector's own loop is in `Heap/Collect`).
-/
namespace Avian.Refs

/-- The parts of the machine that `postVisit` works on. -/
structure St where
  /-- all objects -/
  objs : List Nat
  /-- the pointers in an object that the collector follows, but for the two below -/
  fields : Nat → List Nat
  /-- types.def 295 `jNext`, followed -/
  jNext : Nat → Nat
  /-- types.def 289 `front`, followed -/
  front : Nat → Nat
  /-- types.def 299 `target`, not followed -/
  target : Nat → Nat
  /-- types.def 300 `queue`, not followed -/
  queue : Nat → Nat
  /-- the class has `HasFinalizerFlag` -/
  hasFinalizer : Nat → Bool
  /-- the class is `sun/misc/Cleaner` -/
  isCleaner : Nat → Bool
  /-- types.def 101 the object a finalizer is for, not followed -/
  ftarget : Nat → Nat
  /-- types.def 102 `finalize` is not null -/
  native : Nat → Bool
  /-- objects whose status is not `Unreachable` -/
  live : List Nat
  weak : List Nat
  tenuredWeak : List Nat
  finalizers : List Nat
  tenuredFinalizers : List Nat
  finalizeQueue : List Nat
  toFinalize : List Nat
  toClean : List Nat
  /-- targets of the weak references made by native code -/
  jni : List Nat

/-- Point update. -/
def upd {α : Type} (f : Nat → α) (i : Nat) (v : α) : Nat → α := fun j => if j = i then v else f j

/-- The pointers in `o` that are followed. -/
def succ (s : St) (o : Nat) : List Nat := s.jNext o :: s.front o :: s.fields o

/-- Mark everything reachable from the work list. -/
def close (g : Nat → List Nat) : Nat → List Nat → List Nat → List Nat
  | 0, _, seen => seen
  | _ + 1, [], seen => seen
  | n + 1, o :: w, seen =>
    if o = 0 ∨ o ∈ seen then close g n w seen else close g n (g o ++ w) (o :: seen)

/-- Number of pointers in the objects of a list. -/
def weight (g : Nat → List Nat) : List Nat → Nat
  | [] => 0
  | o :: l => (g o).length + weight g l

/-- `Heap::Visitor::visit` -/
def visit (s : St) (o : Nat) : St :=
  { s with live := close (succ s) (1 + weight (succ s) s.objs) [o] s.live }

/-- heap.cpp 2142-2170 `status(o) == Unreachable`; the status of null is `Null` -/
def dead (s : St) (o : Nat) : Bool := o ≠ 0 && !s.live.contains o

/-- machine.cpp 475-480 `isFinalizable` -/
def isFinalizable (s : St) (o : Nat) : Bool := dead s o && s.hasFinalizer o

/-- machine.cpp 482-487 `clearTargetIfFinalizable` -/
def clearTarget (s : St) (r : Nat) : St :=
  if isFinalizable s (s.target r) then { s with target := upd s.target r 0 } else s

/-- machine.cpp 380-401 `finalizerTargetUnreachable` -/
def finalizerTargetUnreachable (s : St) (f : Nat) : St :=
  let s := visit s (s.ftarget f)
  if s.native f then { s with finalizeQueue := f :: s.finalizeQueue }
  else { s with toFinalize := f :: s.toFinalize }

/-- machine.cpp 402-440 `referenceTargetUnreachable` -/
def referenceTargetUnreachable (s : St) (r : Nat) : St :=
  let s := visit s r
  let s := { s with target := upd s.target r 0 }
  if s.isCleaner r then { s with toClean := r :: s.toClean }
  else if s.queue r ≠ 0 ∧ dead s (s.queue r) = false then
    let q := s.queue r
    let s := visit s q
    { s with
      jNext := upd s.jNext r (if s.front q ≠ 0 then s.front q else r)
      front := upd s.front q r
      queue := upd s.queue r 0 }
  else s

/-- machine.cpp 442-456 `referenceUnreachable` -/
def referenceUnreachable (s : St) (r : Nat) : St :=
  if s.queue r ≠ 0 ∧ dead s (s.queue r) = false then referenceTargetUnreachable s r else s

/-- machine.cpp 458-473 `referenceTargetReachable` -/
def referenceTargetReachable (s : St) (r : Nat) : St :=
  let s := visit s r
  let s := visit s (s.target r)
  if dead s (s.queue r) = true then { s with queue := upd s.queue r 0 } else visit s (s.queue r)

/-- machine.cpp 521-534 and 611-622: the first pass over a list of finalizers.  Result: those whose
target is reachable, and the others, last one first. -/
def splitFinalizers : List Nat → List Nat → St → St × List Nat × List Nat
  | [], un, s => (s, [], un)
  | f :: l, un, s =>
    let s := visit s f
    if dead s (s.ftarget f) = true then splitFinalizers l (f :: un) s
    else
      let (s, kept, un) := splitFinalizers l un s
      (s, f :: kept, un)

/-- machine.cpp 536-556 and 624-628: the second pass.  `ten` says which finalizers are now tenured;
result: those that stay and those that move, last one first. -/
def keepFinalizers (ten : Nat → Bool) : List Nat → List Nat → St → St × List Nat × List Nat
  | [], moved, s => (s, [], moved)
  | f :: l, moved, s =>
    let s := visit s (s.ftarget f)
    if ten f then keepFinalizers ten l (f :: moved) s
    else
      let (s, kept, moved) := keepFinalizers ten l moved s
      (s, f :: kept, moved)

/-- machine.cpp 558-561 and 630-633 -/
def scheduleAll (l : List Nat) (s : St) : St := l.foldl finalizerTargetUnreachable s

/-- machine.cpp 567-598 and 636-648: one pass over a list of references.  Result: those that stay
and those that move to the other list, last one first. -/
def refLoop (ten : Nat → Bool) : List Nat → List Nat → St → St × List Nat × List Nat
  | [], moved, s => (s, [], moved)
  | r :: l, moved, s =>
    if dead s r = true then refLoop ten l moved (referenceUnreachable s r)
    else if dead s (s.target r) = true then refLoop ten l moved (referenceTargetUnreachable s r)
    else
      let s := referenceTargetReachable s r
      if ten r then refLoop ten l (r :: moved) s
      else
        let (s, kept, moved) := refLoop ten l moved s
        (s, r :: kept, moved)

/-- machine.cpp 511-516 -/
def clearJni (s : St) : St := { s with jni := s.jni.map fun o => if isFinalizable s o then 0 else o }

/-- machine.cpp 653-661 -/
def jniLoop : List Nat → St → St × List Nat
  | [], s => (s, [])
  | o :: l, s =>
    if dead s o = true then
      let (s, js) := jniLoop l s
      (s, 0 :: js)
    else
      let (s, js) := jniLoop l (visit s o)
      (s, o :: js)

/-- machine.cpp 498-516: the weak references to unreachable objects with a finalizer -/
def phaseClear (major : Bool) (s : St) : St :=
  let s := s.weak.foldl clearTarget s
  let s := if major then s.tenuredWeak.foldl clearTarget s else s
  clearJni s

/-- machine.cpp 521-561: the finalizers.  Result also the newly tenured ones. -/
def phaseFinalizers (ten : Nat → Bool) (s : St) : St × List Nat :=
  let (s, kept, un) := splitFinalizers s.finalizers [] s
  let (s, kept, moved) := keepFinalizers ten kept [] s
  let s := { s with finalizers := kept }
  (scheduleAll un s, moved)

/-- machine.cpp 609-634: the finalizers of the old generation -/
def phaseTenuredFinalizers (s : St) : St :=
  let (s, kept, un) := splitFinalizers s.tenuredFinalizers [] s
  let (s, kept, _) := keepFinalizers (fun _ => false) kept [] s
  let s := { s with tenuredFinalizers := kept }
  scheduleAll un s

/-- machine.cpp 567-598: the references.  Result also the newly tenured ones. -/
def phaseRefs (ten : Nat → Bool) (s : St) : St × List Nat :=
  let (s, kept, moved) := refLoop ten s.weak [] s
  ({ s with weak := kept }, moved)

/-- machine.cpp 636-648: the references of the old generation -/
def phaseTenuredRefs (s : St) : St :=
  let (s, kept, _) := refLoop (fun _ => false) s.tenuredWeak [] s
  { s with tenuredWeak := kept }

/-- machine.cpp 649-661: joining the lists and the references made by native code -/
def joinLists (movedF movedR : List Nat) (s : St) : St :=
  let s := { s with
    tenuredFinalizers := movedF ++ s.tenuredFinalizers
    tenuredWeak := movedR ++ s.tenuredWeak }
  let p := jniLoop s.jni s
  { p.1 with jni := p.2 }

/-- machine.cpp 489-663 `postVisit` -/
def postVisit (major : Bool) (ten : Nat → Bool) (s : St) : St :=
  let s := phaseClear major s
  let p := phaseFinalizers ten s
  let q := phaseRefs ten p.1
  let s := if major then phaseTenuredRefs (phaseTenuredFinalizers q.1) else q.1
  joinLists p.2 q.2 s

end Avian.Refs
