/-
Model of the native method symbol names in src/process.cpp.

Names are byte lists without the terminating zero of the `GcByteArray`.  The destination is a buffer
of a given capacity; writing outside it is `none`.  Sizes are natural numbers (the code uses
`unsigned`; a name of 2^32 bytes cannot exist).
-/
namespace Avian.JniName

/-- Byte code of an ASCII character. -/
def ch (c : Char) : BitVec 8 := BitVec.ofNat 8 c.toNat

/-- src/process.cpp:19-33 `mangledSize`. -/
def mangledSize (c : BitVec 8) : Nat :=
  if c = ch '_' ∨ c = ch ';' ∨ c = ch '[' then 2
  else if c = ch '$' then 6
  else 1

/-- src/process.cpp:35-64 `mangle`: the bytes written. -/
def mangle (c : BitVec 8) : List (BitVec 8) :=
  if c = ch '/' then [ch '_']
  else if c = ch '_' then [ch '_', ch '1']
  else if c = ch ';' then [ch '_', ch '2']
  else if c = ch '[' then [ch '_', ch '3']
  else if c = ch '$' then [ch '_', ch '0', ch '0', ch '0', ch '2', ch '4']
  else [c]

/-- A method as far as the naming needs it. -/
structure Method where
  className : List (BitVec 8)
  name : List (BitVec 8)
  spec : List (BitVec 8)

/-- The loops `size += mangledSize(...)`, src/process.cpp:71-73, 78-80. -/
def sizeLoop : List (BitVec 8) → Nat → Nat
  | [], size => size
  | c :: rest, size => sizeLoop rest (size + mangledSize c)

/-- The loop over the descriptor from index 1 to `)` or the end, src/process.cpp:86-90. -/
def specSizeLoop : List (BitVec 8) → Nat → Nat
  | [], size => size
  | c :: rest, size => if c = ch ')' then size else specSizeLoop rest (size + mangledSize c)

/-- src/process.cpp:66-94 `jniNameLength`. -/
def jniNameLength (m : Method) (decorate : Bool) : Nat :=
  let size := sizeLoop m.className 0
  let size := size + 1
  let size := sizeLoop m.name size
  if decorate then
    let size := size + 2
    specSizeLoop (m.spec.drop 1) size
  else size

/-- Append bytes to a buffer of capacity `cap`; `none` is a write past its end. -/
def put (cap : Nat) (out bytes : List (BitVec 8)) : Option (List (BitVec 8)) :=
  if out.length + bytes.length ≤ cap then some (out ++ bytes) else none

/-- The loops `name += mangle(...)`, src/process.cpp:107-109, 114-116. -/
def mangleLoop (cap : Nat) : List (BitVec 8) → List (BitVec 8) → Option (List (BitVec 8))
  | [], out => some out
  | c :: rest, out => (put cap out (mangle c)).bind (mangleLoop cap rest)

/-- The loop over the descriptor, src/process.cpp:123-127. -/
def specMangleLoop (cap : Nat) : List (BitVec 8) → List (BitVec 8) → Option (List (BitVec 8))
  | [], out => some out
  | c :: rest, out =>
    if c = ch ')' then some out else (put cap out (mangle c)).bind (specMangleLoop cap rest)

/-- src/process.cpp:96-131 `makeJNIName` into a buffer of `cap` bytes. -/
def makeJNIName (cap : Nat) (pre : List (BitVec 8)) (m : Method) (decorate : Bool) :
    Option (List (BitVec 8)) :=
  (put cap [] pre).bind fun out =>
  (mangleLoop cap m.className out).bind fun out =>
  (put cap out [ch '_']).bind fun out =>
  (mangleLoop cap m.name out).bind fun out =>
  (if decorate then
    (put cap out [ch '_']).bind fun out =>
    (put cap out [ch '_']).bind fun out =>
    specMangleLoop cap (m.spec.drop 1) out
   else some out).bind fun out =>
  put cap out [0#8]

/-- src/process.cpp:158-175: the capacity available behind `RUNTIME_ARRAY_BODY(...) + 1`: the array
has `size + 1 + 6` bytes and the name starts at its second byte. -/
def bufferCapacity (pre : List (BitVec 8)) (m : Method) (decorate : Bool) : Nat :=
  (pre.length + jniNameLength m decorate + 1 + 6) - 1

/-- src/process.cpp:133-151: a library is a partial map from names to addresses; the first library
in the list that knows the short name or else the long name answers. -/
def resolveIn (libs : List (List (BitVec 8) → Option Nat)) (undecorated decorated : List (BitVec 8)) :
    Option Nat :=
  match libs with
  | [] => none
  | lib :: rest =>
    match lib undecorated with
    | some p => some p
    | none => match lib decorated with
      | some p => some p
      | none => resolveIn rest undecorated decorated

end Avian.JniName
