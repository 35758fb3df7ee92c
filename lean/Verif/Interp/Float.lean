/-
Floating-point values as the interpreter sees them: comparison and conversion to integers are
modelled exactly; the rounding operations (add, multiply, ...) are parameters of the model.

A finite IEEE number is represented by the integer `v` such that its value is `v / 2^scale`,
where `scale` is 149 for `float` and 1074 for `double`: every finite number of the format is a
multiple of `2^-scale`.
-/
namespace Avian.Interp

/-- The value of a bit pattern.  `fin v` stands for `v / 2^scale`. -/
inductive FVal where
  | nan
  | inf (neg : Bool)
  | fin (v : Int)
  deriving DecidableEq, Repr

/-- 2^-149 is the unit of `float`. -/
def fscale : Nat := 149
/-- 2^-1074 is the unit of `double`. -/
def dscale : Nat := 1074

/-- IEEE 754 decoding of sign, biased exponent `e` (maximum `emax`) and fraction `m`
(of `mbits` bits); a normal number is `(2^mbits + m) * 2^(e-1)` units and a subnormal one
`m` units. -/
def decodeFP (neg : Bool) (e emax m mbits : Nat) : FVal :=
  if e = emax then (if m = 0 then .inf neg else .nan)
  else
    let mag : Nat := if e = 0 then m else (2 ^ mbits + m) * 2 ^ (e - 1)
    .fin (if neg then -(mag : Int) else (mag : Int))

/-- `bitsToFloat` (src/avian/common.h:450-455): the value of a 32-bit pattern. -/
def fval (b : BitVec 32) : FVal :=
  decodeFP b.msb (b.toNat / 2 ^ 23 % 2 ^ 8) 255 (b.toNat % 2 ^ 23) 23

/-- `bitsToDouble` (src/avian/common.h:443-448): the value of a 64-bit pattern. -/
def dval (b : BitVec 64) : FVal :=
  decodeFP b.msb (b.toNat / 2 ^ 52 % 2 ^ 11) 2047 (b.toNat % 2 ^ 52) 52

/-- src/interpret.cpp:670-678 `isNaN`: `fpclassify(v) == FP_NAN`. -/
def FVal.isNaN : FVal → Bool
  | .nan => true
  | _ => false

/-- C++ `a < b` on floating-point values: false when either is not a number. -/
def FVal.lt : FVal → FVal → Bool
  | .nan, _ => false
  | _, .nan => false
  | .inf true, .inf true => false
  | .inf true, _ => true
  | .inf false, _ => false
  | .fin _, .inf neg => !neg
  | .fin a, .fin b => decide (a < b)

/-- C++ `a > b`. -/
def FVal.gt (a b : FVal) : Bool := b.lt a

/-- C++ `a == b`. -/
def FVal.eq : FVal → FVal → Bool
  | .inf a, .inf b => a == b
  | .fin a, .fin b => decide (a = b)
  | _, _ => false

/-- C++ conversion of an infinite or finite value to a signed integer type of `w` bits: the
fraction is discarded; undefined (`none`) when the result does not fit. -/
def castInt (w scale : Nat) (v : Int) : Option (BitVec w) :=
  let q := v.tdiv (2 ^ scale)
  if -(2 ^ (w - 1) : Int) ≤ q ∧ q < 2 ^ (w - 1) then some (BitVec.ofInt w q) else none

/-- src/interpret.cpp:1118-1135 `d2i`.  `f >= INT32_MAX` converts the bound to `double`,
which is exact. -/
def d2iC (f : FVal) : Option (BitVec 32) :=
  match f with
  | .nan => some 0
  | .inf neg => some (if neg then BitVec.intMin 32 else BitVec.intMax 32)
  | .fin v =>
    if v ≥ (2 ^ 31 - 1) * 2 ^ dscale then some (BitVec.intMax 32)
    else if v ≤ -(2 ^ 31) * 2 ^ dscale then some (BitVec.intMin 32)
    else castInt 32 dscale v

/-- src/interpret.cpp:1137-1154 `d2l`.  `INT64_MAX` converted to `double` is `2^63`. -/
def d2lC (f : FVal) : Option (BitVec 64) :=
  match f with
  | .nan => some 0
  | .inf neg => some (if neg then BitVec.intMin 64 else BitVec.intMax 64)
  | .fin v =>
    if v ≥ 2 ^ 63 * 2 ^ dscale then some (BitVec.intMax 64)
    else if v ≤ -(2 ^ 63) * 2 ^ dscale then some (BitVec.intMin 64)
    else castInt 64 dscale v

/-- src/interpret.cpp:1375-1392 `f2i`.  `INT32_MAX` converted to `float` is `2^31`. -/
def f2iC (f : FVal) : Option (BitVec 32) :=
  match f with
  | .nan => some 0
  | .inf neg => some (if neg then BitVec.intMin 32 else BitVec.intMax 32)
  | .fin v =>
    if v ≥ 2 ^ 31 * 2 ^ fscale then some (BitVec.intMax 32)
    else if v ≤ -(2 ^ 31) * 2 ^ fscale then some (BitVec.intMin 32)
    else castInt 32 fscale v

/-- src/interpret.cpp:1394-1408 `f2l`: no range check on finite values. -/
def f2lC (f : FVal) : Option (BitVec 64) :=
  match f with
  | .nan => some 0
  | .inf neg => some (if neg then BitVec.intMin 64 else BitVec.intMax 64)
  | .fin v => castInt 64 fscale v

/-- The result of `dcmpg`/`fcmpg` and `dcmpl`/`fcmpl` as the list of integers pushed, first
pushed first (src/interpret.cpp:1211-1247 and 1465-1501).  `nanResult` is 1 for the `g` forms
and -1 for the `l` forms.  The test for not-a-number has no `else`, so the second chain of
tests runs as well. -/
def cmpPushes (nanResult : BitVec 32) (a b : FVal) : List (BitVec 32) :=
  (if a.isNaN || b.isNaN then [nanResult] else []) ++
  [if a.lt b then BitVec.ofInt 32 (-1) else if a.gt b then 1#32 else if a.eq b then 0#32
   else nanResult]

end Avian.Interp
