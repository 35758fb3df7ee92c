import Verif.Lib.Outcome

/-
Random numbers (classpath/java/util/Random.java).
-/
namespace Avian.JRandom

/-- Arithmetic of `int`. -/
def wrap (i : Int) : Int := (i + 2147483648) % 4294967296 - 2147483648

/-- Random.java:14 `Mask`. -/
def mask : BitVec 64 := 0x5DEECE66D#64

/-- `(1L << 48) - 1`. -/
def low48 : BitVec 64 := (1#64 <<< 48) - 1#64

/-- Random.java:36-38 `setSeed`: the seed. -/
def setSeed (seed : BitVec 64) : BitVec 64 := (seed ^^^ mask) &&& low48

/-- Random.java:41: the next seed. -/
def step (seed : BitVec 64) : BitVec 64 := (seed * mask + 0xB#64) &&& low48

/-- Random.java:40-43 `next`: the number and the seed. -/
def next (seed : BitVec 64) (bits : Nat) : BitVec 32 × BitVec 64 := (((step seed) >>> (48 - bits)).setWidth 32, step seed)

inductive Result where
  | illegalArgument
  | value (v : Int) (seed : BitVec 64)
  /-- The given number of rounds was too small. -/
  | fuel
  deriving DecidableEq

/-- Random.java:57-62: the loop of `nextInt`, with `bits % limit` of Java; `next31` is `next(31)`. -/
def nextIntLoop (next31 : BitVec 64 → BitVec 32 × BitVec 64) (limit : Int) : Nat → BitVec 64 → Result
  | 0, _ => .fuel
  | n + 1, seed =>
    let bits := (next31 seed).1.toInt
    let value := bits.tmod limit
    if wrap (wrap (bits - value) + (limit - 1)) < 0 then nextIntLoop next31 limit n (next31 seed).2 else .value value (next31 seed).2

/-- Random.java:45-63 `nextInt(int)`. -/
def nextInt (fuel : Nat) (limit : BitVec 32) (seed : BitVec 64) : Result :=
  if limit.toInt ≤ 0 then .illegalArgument
  else if limit &&& -limit = limit then
    .value ((limit.signExtend 64 * (next seed 31).1.signExtend 64).sshiftRight 31 |>.setWidth 32).toInt (next seed 31).2
  else nextIntLoop (fun seed => next seed 31) limit.toInt fuel seed

/-- Random.java:80-82 `nextLong`. -/
def nextLong (seed : BitVec 64) : BitVec 64 × BitVec 64 :=
  let (a, seed) := next seed 32
  let (b, seed) := next seed 32
  ((a.signExtend 64 <<< 32) + b.signExtend 64, seed)

/-- Random.java:84-86 `nextDouble`: what is divided by 2^53, as a `long`. -/
def nextDouble (seed : BitVec 64) : BitVec 64 × BitVec 64 :=
  let (a, seed) := next seed 26
  let (b, seed) := next seed 27
  ((a.signExtend 64 <<< 27) + b.signExtend 64, seed)

/-- Random.java:73-76: the bytes of one number. -/
def fill : Nat → BitVec 32 → List (BitVec 8)
  | 0, _ => []
  | j + 1, r => r.setWidth 8 :: fill j (r.sshiftRight 8)

/-- Random.java:69-78 `nextBytes` for an array of the given length, in at most `n` rounds; `next32` is `nextInt()`. -/
def bytesLoop (next32 : BitVec 64 → BitVec 32 × BitVec 64) : Nat → Nat → BitVec 64 → List (BitVec 8) × BitVec 64
  | 0, _, seed => ([], seed)
  | n + 1, left, seed =>
    if left = 0 then ([], seed)
    else
      let j := min left 4
      (fill j (next32 seed).1 ++ (bytesLoop next32 n (left - j) (next32 seed).2).1, (bytesLoop next32 n (left - j) (next32 seed).2).2)

/-- Random.java:69-78 `nextBytes`; no round fills nothing. -/
def nextBytes (length : Nat) (seed : BitVec 64) : List (BitVec 8) × BitVec 64 := bytesLoop (fun seed => next seed 32) length length seed

end Avian.JRandom
