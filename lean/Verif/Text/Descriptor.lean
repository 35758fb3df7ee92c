/-
Model of the method descriptor scanner of src/avian/machine.h and src/machine.cpp.

A `const char*` into a zero terminated string is the suffix of the string (with its zero) that it
points to; reading through an exhausted suffix is undefined (`none`).
-/
namespace Avian.Descriptor

/-- Byte code of an ASCII character. -/
def ch (c : Char) : BitVec 8 := BitVec.ofNat 8 c.toNat

/-- A pointer into a string. -/
abbrev Ptr := List (BitVec 8)

/-- src/avian/machine.h:158-169 `FieldCode`. -/
inductive FieldCode where
  | void | byte | char | double | float | int | long | short | boolean | object
  deriving DecidableEq

/-- src/avian/machine.h:2275-2277 and 2285-2287: `while (*s and *s != ';') ++s`. -/
def skipClass : Ptr → Option Ptr
  | [] => none
  | c :: r => if c ≠ 0#8 ∧ c ≠ ch ';' then skipClass r else some (c :: r)

/-- src/avian/machine.h:2281-2282: `while (*s == '[') ++s`. -/
def skipBrackets : Ptr → Option Ptr
  | [] => none
  | c :: r => if c = ch '[' then skipBrackets r else some (c :: r)

/-- src/avian/machine.h:2267-2303 `next`: the pointer returned and the new position.  The assertion
at 2269 is left out: callers check `hasNext` first. -/
def next (s : Ptr) : Option (Ptr × Ptr) :=
  match s with
  | [] => none
  | c :: r =>
    if c = ch 'L' then (skipClass (c :: r)).map fun s' => (s, s'.tail)
    else if c = ch '[' then
      (skipBrackets (c :: r)).bind fun s' =>
      match s' with
      | [] => none
      | c' :: r' =>
        if c' = ch 'L' then (skipClass (c' :: r')).map fun s'' => (s, s''.tail)
        else some (s, r')
    else some (s, r)

/-- src/avian/machine.h:2305-2308 `hasNext`. -/
def hasNext (s : Ptr) : Option Bool :=
  match s with
  | [] => none
  | c :: _ => some (c ≠ ch ')')

/-- src/machine.cpp:4658-4686 `fieldCode`; `none` is the abort. -/
def fieldCode (c : BitVec 8) : Option FieldCode :=
  if c = ch 'B' then some .byte
  else if c = ch 'C' then some .char
  else if c = ch 'D' then some .double
  else if c = ch 'F' then some .float
  else if c = ch 'I' then some .int
  else if c = ch 'J' then some .long
  else if c = ch 'S' then some .short
  else if c = ch 'V' then some .void
  else if c = ch 'Z' then some .boolean
  else if c = ch 'L' ∨ c = ch '[' then some .object
  else none

/-- src/machine.cpp:4715-4736 `primitiveSize`; `none` is the abort. -/
def primitiveSize : FieldCode → Option Nat
  | .void => some 0
  | .byte | .boolean => some 1
  | .char | .short => some 2
  | .float | .int => some 4
  | .double | .long => some 8
  | .object => none

/-- src/avian/machine.h:2322-2329 `fieldSize` (64-bit platform). -/
def fieldSize (c : FieldCode) : Option Nat := if c = .object then some 8 else primitiveSize c

/-- The loop of `scanMethodSpec` (src/avian/machine.h:2348-2361) and of `parameterFootprint`
(src/machine.cpp:5408-5418): the start of each parameter, the count, the footprint and the final
position.  The fuel bounds the iterations; `none` when it runs out. -/
def scanLoop : Nat → Ptr → List Ptr → Nat → Nat → Option (List Ptr × Nat × Nat × Ptr)
  | 0, _, _, _, _ => none
  | fuel + 1, s, starts, count, footprint =>
    (hasNext s).bind fun more =>
    if more then
      (next s).bind fun (p, s') =>
      match p with
      | [] => none
      | c :: _ =>
        scanLoop fuel s' (starts ++ [p]) (count + 1)
          (if c = ch 'J' ∨ c = ch 'D' then footprint + 2 else footprint + 1)
    else some (starts, count, footprint, s)

/-- src/avian/machine.h:2338-2370 `scanMethodSpec` on a zero terminated string: parameter count,
footprint, return code. -/
def scanMethodSpec (s : Ptr) (static_ : Bool) : Option (Nat × Nat × FieldCode) :=
  (scanLoop (s.length + 1) s.tail [] 0 0).bind fun (_, count, footprint, it) =>
  let footprint := if static_ then footprint else footprint + 1
  match it.tail with
  | [] => none
  | c :: _ => (fieldCode c).map fun code => (count, footprint, code)

/-- src/machine.cpp:5405-5425 `parameterFootprint`. -/
def parameterFootprint (s : Ptr) (static_ : Bool) : Option Nat :=
  (scanLoop (s.length + 1) s.tail [] 0 0).map fun (_, _, footprint, _) =>
    if static_ then footprint else footprint + 1

/-- The parameter start pointers an iteration with `MethodSpecIterator` visits, as used by
src/interpret.cpp:480-510 and 3060-3150. -/
def parameterStarts (s : Ptr) : Option (List Ptr) :=
  (scanLoop (s.length + 1) s.tail [] 0 0).map fun (starts, _, _, _) => starts

end Avian.Descriptor
