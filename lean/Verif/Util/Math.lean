/-
Model of the arithmetic helpers in include/avian/util/math.h and src/avian/common.h.
C++ `unsigned` is `BitVec 32`, `uintptr_t` is `BitVec 64`, `int64_t` is `BitVec 64`
read as a signed number.  Loops take a fuel argument; `none` means that the loop has
not finished after that many iterations (so a loop that never ends is `none` for all fuel).
-/
namespace Avian.Math

/-- C++ `unsigned`. -/
abbrev U32 := BitVec 32
/-- C++ `uintptr_t` on the assumed 64-bit platform. -/
abbrev U64 := BitVec 64

/-- include/avian/util/math.h:20-23 `max`. -/
def max (a b : U32) : U32 := if a > b then a else b

/-- include/avian/util/math.h:25-28 `min`. -/
def min (a b : U32) : U32 := if a < b then a else b

/-- include/avian/util/math.h:30-33 `avg` (the sum wraps). -/
def avg (a b : U32) : U32 := (a + b) / 2#32

/-- include/avian/util/math.h:35-38 `ceilingDivide` (division by zero is undefined behaviour). -/
def ceilingDivide (n d : U32) : Option U32 :=
  if d = 0#32 then none else some ((n + d - 1#32) / d)

/-- include/avian/util/math.h:40-46 `powerOfTwo`, the loop on `n` with fuel. -/
def powerOfTwoLoop : Nat → U32 → Option Bool
  | 0, _ => none
  | fuel + 1, n =>
    if n > 2#32 then
      if n &&& 1#32 ≠ 0#32 then some false
      else powerOfTwoLoop fuel (n >>> (1 : Nat))
    else some true

/-- include/avian/util/math.h:48-54 `nextPowerOfTwo`, the `while (r < n) r <<= 1` loop. -/
def nextPowerOfTwoLoop : Nat → U32 → U32 → Option U32
  | 0, _, _ => none
  | fuel + 1, n, r =>
    if r < n then nextPowerOfTwoLoop fuel n (r <<< (1 : Nat)) else some r

/-- include/avian/util/math.h:48-54 `nextPowerOfTwo`. -/
def nextPowerOfTwo (fuel : Nat) (n : U32) : Option U32 := nextPowerOfTwoLoop fuel n 1#32

/-- include/avian/util/math.h:56-62 `log`, the loop on `i` with counter `r`. -/
def logLoop : Nat → U32 → U32 → U32 → Option U32
  | 0, _, _, _ => none
  | fuel + 1, n, i, r =>
    if i < n then logLoop fuel n (i <<< (1 : Nat)) (r + 1#32) else some r

/-- include/avian/util/math.h:56-62 `log`. -/
def log (fuel : Nat) (n : U32) : Option U32 := logLoop fuel n 1#32 0#32

/-- src/avian/common.h:291-294 `pad(n, alignment)` (32-bit) and 301-304 `padWord` (64-bit):
the same expression at two widths. -/
def pad {w : Nat} (n alignment : BitVec w) : BitVec w :=
  (n + (alignment - 1#w)) &&& ~~~(alignment - 1#w)

/-- src/avian/common.h:296-299 `pad(n)`. -/
def padDefault (n : U32) : U32 := pad n 8#32

/-- src/avian/common.h:306-309 `padWord(n)`. -/
def padWordDefault (n : U64) : U64 := pad n 8#64

/-- src/avian/common.h:311-324 `fitsInInt8/16/32`: narrow to `k` bits, widen by sign
extension, compare. -/
def fitsInInt (k : Nat) (v : BitVec 64) : Bool :=
  v == ((v.setWidth k).signExtend 64)

end Avian.Math
