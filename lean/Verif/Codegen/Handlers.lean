import Verif.Lib.Outcome
import Verif.Interp.Lines

/-
The exception handler table and the line number table of a compiled method (src/compile.cpp): made from those of the bytecode by
`translateExceptionHandlerTable` and `translateLineNumberTable`, and searched by `findExceptionHandler` and `findLineNumber`.

`visited ip` says that the instruction at `ip` was translated (`visitTable[ip] != 0`), `off ip` is where its code starts
(`machineIp(ip)->value() - start`), `size` is the size of the code (`end - start`), `len` the length of the bytecode, `subs` the number of
copies made for subroutines (`subroutineCount`).  Simplifications: positions are naturals (they fit 32 bits); resolving the class of a
catch type does not throw.
-/
namespace Avian.Handlers

/-- An entry of the table of the bytecode (src/avian/machine.h:3790-3820); `type` is 0 for any exception. -/
structure Entry where
  start : Nat
  stop : Nat
  ip : Nat
  type : Nat
  deriving DecidableEq

/-- src/compile.cpp:6568-6583 `resolveIpForwards`; `none` is -1. -/
def forwards (visited : Nat → Bool) (start stop : Nat) : Option Nat := (List.range' start (stop - start)).find? visited

/-- src/compile.cpp:6585-6603 `resolveIpBackwards`; `none` is -1. -/
def backwards (visited : Nat → Bool) (len subs : Nat) (start stop : Nat) : Option Nat :=
  if len * (subs + 1) ≤ start then if len < stop then none else some len
  else (List.range' stop (start + 1 - stop)).reverse.find? visited

/-- An entry of the table of the compiled method: three words of the index (`newIndex`) and the type. -/
structure Range where
  start : Nat
  stop : Nat
  target : Nat
  type : Nat
  deriving DecidableEq

/-- What is known of the code of a method. -/
structure Code where
  visited : Nat → Bool
  off : Nat → Nat
  size : Nat
  len : Nat
  subs : Nat

/-- src/compile.cpp:6682-6727: one entry; `some none` leaves it out, `none` fails an assertion (6702). -/
def translateOne (c : Code) (base : Nat) (e : Entry) : Option (Option Range) :=
  match forwards c.visited (base + e.start) (base + e.stop) with
  | none => some none
  | some s =>
    match backwards c.visited c.len c.subs (base + e.stop) (base + e.start) with
    | none => none
    | some s' => some (some ⟨c.off s, if s' = c.len then c.size else c.off s', c.off e.ip, e.type⟩)

/-- src/compile.cpp:6679-6728: the inner loop. -/
def translateCopy (c : Code) (base : Nat) : List Entry → Option (List Range)
  | [] => some []
  | e :: es =>
    match translateOne c base e with
    | none => none
    | some r =>
      match translateCopy c base es with
      | none => none
      | some rs => some (r.toList ++ rs)

/-- src/compile.cpp:6676-6729: the outer loop, from copy number `k`; the first argument is how many there are still. -/
def translateFrom (c : Code) (es : List Entry) : Nat → Nat → Option (List Range)
  | 0, _ => some []
  | n + 1, k =>
    match translateCopy c (k * c.len) es with
    | none => none
    | some rs =>
      match translateFrom c es n (k + 1) with
      | none => none
      | some rs' => some (rs ++ rs')

/-- src/compile.cpp:6651-6741 `translateExceptionHandlerTable`. -/
def translate (c : Code) (es : List Entry) : Option (List Range) := translateFrom c es (c.subs + 1) 0

/-- src/avian/machine.h:3221-3225 `exceptionMatch`; `shutdown` for the exception that ends threads, `inst` for `instanceOf`. -/
def exceptionMatch (shutdown : Bool) (inst : Nat → Bool) (type : Nat) : Bool := type == 0 || (!shutdown && inst type)

/-- src/compile.cpp:2116-2142 `findExceptionHandler`: `ip` counted from the start of the code. -/
def find (shutdown : Bool) (inst : Nat → Bool) (rs : List Range) (ip : Nat) : Option Nat :=
  let key := (ip + 2 ^ 32 - 1) % 2 ^ 32
  (rs.find? fun r => decide (r.start ≤ key ∧ key < r.stop) && exceptionMatch shutdown inst r.type).map (·.target)

/-- src/compile.cpp:6755-6769: the loop over the entries `(ip, line)`. -/
def translateLines (c : Code) : List (Nat × Nat) → List (BitVec 64)
  | [] => []
  | (ip, line) :: es =>
    let stop := match es with
      | [] => ip + 1
      | (ip', _) :: _ => ip' - 1
    match forwards c.visited ip stop with
    | none => translateLines c es
    | some i => Lines.lineNumber (BitVec.ofNat 64 (c.off i)) (BitVec.ofNat 64 line) :: translateLines c es

end Avian.Handlers
