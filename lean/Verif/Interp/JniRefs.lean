import Verif.Lib.Outcome

/-
References given to native code (src/avian/machine.h, src/compile.cpp, src/interpret.cpp, src/jnienv.cpp).

An object is a number that stays the same when the collector moves the object; addresses of `Reference`s are numbers not 0.  The doubly linked list
of references is the list of its nodes, the newest first.  `none` as the outcome is a use of memory that is no `Reference`, or of the null pointer.
-/
namespace Avian.JniRefs

/-- machine.h:962-978 `Reference`: where it lies, and its fields without the links.  `target` is `none` for null. -/
structure Ref where
  addr : Nat
  target : Option Nat
  count : Nat
  weak : Bool
  deriving DecidableEq

/-- machine.h:1516-1519 `acquire`. -/
def acquire (a : Nat) (refs : List Ref) : List Ref := refs.map fun r => if r.addr = a then { r with count := r.count + 1 } else r

/-- machine.h:1507-1514 `dispose` and 1521-1526 `release`: the reference is unlinked and freed with its last count. -/
def release (a : Nat) : List Ref → Option (List Ref)
  | [] => none
  | r :: refs =>
    if r.addr = a then
      if r.count = 1 then some refs else some ({ r with count := r.count - 1 } :: refs)
    else (release a refs).map (r :: ·)

/-- jnienv.cpp everywhere: `*o`. -/
def deref (a : Nat) (refs : List Ref) : Option (Option Nat) := (refs.find? fun r => r.addr = a).map (·.target)

/-- compile.cpp:9022-9044 `makeLocalReference`, where `fresh` is the address the allocator gives. -/
def makeLocalReference (fresh : Nat) (o : Option Nat) (refs : List Ref) : List Ref × Option Nat :=
  match o with
  | none => (refs, none)
  | some x =>
    match refs.find? fun r => r.target = some x with
    | some r => (acquire r.addr refs, some r.addr)
    | none => (acquire fresh (⟨fresh, some x, 0, false⟩ :: refs), some fresh)

/-- compile.cpp:9069-9071 and 7742-7744: references are disposed of until the given one is the first. -/
def popTo (m : Option Nat) : List Ref → Option (List Ref)
  | [] => if m = none then some [] else none
  | r :: refs => if some r.addr = m then some (r :: refs) else popTo m refs

/-- compile.cpp: `MyThread::reference`, `MyThread::referenceFrame`, and what the calls of native methods in progress keep in `reference` (7580). -/
structure State where
  refs : List Ref
  frames : List (Option Nat)
  calls : List (Option Nat)
  deriving DecidableEq

/-- The value of the pointer `t->reference`. -/
def State.head (s : State) : Option Nat := s.refs.head?.map (·.addr)

/-- What native code does with local references; `fresh` is the address the allocator gives. -/
inductive Op where
  /-- Any function of JNI that gives a reference to an object (or null). -/
  | make (fresh : Nat) (o : Option Nat)
  | delete (a : Option Nat)
  | push
  | pop (fresh : Nat) (result : Option Nat)
  | call
  | ret (result : Option Nat)
  deriving DecidableEq

/-- What the native code or its caller gets. -/
inductive Res where
  | unit
  | handle (a : Option Nat)
  | object (o : Option Nat)
  deriving DecidableEq

/-- compile.cpp:9022-9074, 7576-7580, 7732-7746; jnienv.cpp:415-427, 3184-3224. -/
def step (s : State) : Op → Option (State × Res)
  -- compile.cpp:9022-9044
  | .make fresh o =>
    let (refs, a) := makeLocalReference fresh o s.refs
    some ({ s with refs := refs }, .handle a)
  -- compile.cpp:9046-9051, jnienv.cpp:422-427
  | .delete none => some (s, .unit)
  | .delete (some a) => (release a s.refs).map fun refs => ({ s with refs := refs }, .unit)
  -- compile.cpp:9053-9061
  | .push => some ({ s with frames := s.head :: s.frames }, .unit)
  -- jnienv.cpp:3202-3217 and compile.cpp:9063-9074
  | .pop fresh result =>
    match s.frames with
    | [] => none
    | m :: frames =>
      match result with
      | none => (popTo m s.refs).map fun refs => ({ s with refs := refs, frames := frames }, .handle none)
      | some a =>
        (deref a s.refs).bind fun o =>
          (popTo m s.refs).map fun refs =>
            let (refs, b) := makeLocalReference fresh o refs
            ({ s with refs := refs, frames := frames }, .handle b)
  -- compile.cpp:7580
  | .call => some ({ s with calls := s.head :: s.calls }, .unit)
  -- compile.cpp:7732-7746
  | .ret result =>
    match s.calls with
    | [] => none
    | m :: calls =>
      match result with
      | none => (popTo m s.refs).map fun refs => ({ s with refs := refs, calls := calls }, .object none)
      | some a =>
        (deref a s.refs).bind fun o => (popTo m s.refs).map fun refs => ({ s with refs := refs, calls := calls }, .object o)

/-- jnienv.cpp:2258-2282 `newGlobalRef`: the argument is the address of a word, or null; `o` is what is in that word. -/
def newGlobalRef (fresh : Nat) (weak : Bool) (o : Option (Option Nat)) (refs : List Ref) : List Ref × Option Nat :=
  match o with
  | none => (refs, none)
  | some x =>
    match refs.find? fun r => r.target = x ∧ r.weak = weak with
    | some r => (acquire r.addr refs, some r.addr)
    | none => (acquire fresh (⟨fresh, x, 0, weak⟩ :: refs), some fresh)

/-- jnienv.cpp:2289-2298 `DeleteGlobalRef`. -/
def deleteGlobalRef (a : Option Nat) (refs : List Ref) : Option (List Ref) :=
  match a with
  | none => some refs
  | some a => release a refs

/-- machine.cpp:512-518, 655-663: weak references to objects that are gone are cleared. -/
def clearWeak (gone : Nat → Bool) (refs : List Ref) : List Ref :=
  refs.map fun r =>
    match r.target with
    | none => r
    | some x => if r.weak ∧ gone x then { r with target := none } else r

/-- jnienv.cpp:3171-3180 `IsSameObject`; the outer `none` is the null pointer. -/
def isSameObject (a b : Option (Option Nat)) : Bool :=
  match a, b with
  | some x, some y => x = y
  | none, none => true
  | _, _ => false

/-- interpret.cpp:223-232, 3352-3388: the interpreter keeps local references in the slots of the stack; `slots` are those below `sp`. -/
structure IState where
  slots : List (Option Nat)
  frames : List Nat
  deriving DecidableEq

/-- The outcomes of the interpreter's operations. -/
inductive IExn where
  /-- interpret.cpp:226 `expect`. -/
  | abort
  /-- A slot at or above `sp`, or no frame. -/
  | wild
  deriving DecidableEq

/-- interpret.cpp:223-232 `pushReference`; `limit` is `stackSizeInWords(t) / 2`. -/
def iMake (limit : Nat) (o : Option Nat) (s : IState) : Except IExn (IState × Option Nat) :=
  match o with
  | none => .ok (s, none)
  | some x => if s.slots.length + 1 < limit then .ok ({ s with slots := s.slots ++ [some x] }, some s.slots.length) else .error .abort

/-- interpret.cpp:3359-3364 `disposeLocalReference`. -/
def iDelete (a : Option Nat) (s : IState) : Except IExn IState :=
  match a with
  | none => .ok s
  | some i => if i < s.slots.length then .ok { s with slots := s.slots.set i none } else .error .wild

/-- interpret.cpp:3366-3378 `pushLocalFrame`. -/
def iPush (limit capacity : Nat) (s : IState) : IState × Bool :=
  if s.slots.length + capacity < limit then ({ s with frames := s.slots.length :: s.frames }, true) else (s, false)

/-- interpret.cpp:3380-3388 `popLocalFrame`. -/
def iPop (s : IState) : Except IExn IState :=
  match s.frames with
  | [] => .error .wild
  | n :: frames => .ok { slots := s.slots.take n, frames := frames }

/-- jnienv.cpp:3202-3217 with the functions of the interpreter. -/
def iPopLocalFrame (limit : Nat) (result : Option Nat) (s : IState) : Except IExn (IState × Option Nat) :=
  match result with
  | none => (iPop s).map fun s => (s, none)
  | some i => if i < s.slots.length then (iPop s).bind (iMake limit (s.slots.getD i none)) else .error .wild

end Avian.JniRefs
