import Verif.Lib.Outcome

/-
Checksums (classpath/java/util/zip/CRC32.java).
-/
namespace Avian.Crc32

abbrev Word := BitVec 32

/-- CRC32.java:14 `Polynomial`. -/
def polynomial : Word := 0x04C11DB7#32

/-- CRC32.java:17 `InitialRemainder`, and :36-38 `reset`. -/
def initialRemainder : Word := 0xFFFFFFFF#32

/-- CRC32.java:18 `ResultXor`. -/
def resultXor : BitVec 64 := 0xFFFFFFFF#64

/-- CRC32.java:16, 26-28: one round for an entry of the table. -/
def round (remainder : Word) : Word :=
  if remainder &&& (1#32 <<< 31) ≠ 0 then (remainder <<< 1) ^^^ polynomial else remainder <<< 1

/-- CRC32.java:25-29: the rounds. -/
def rounds : Nat → Word → Word
  | 0, r => r
  | n + 1, r => rounds n (round r)

/-- CRC32.java:22-32: `table`, with 256 entries. -/
def table (dividend : Word) : Word := rounds 8 (dividend <<< 24)

/-- CRC32.java:61-66: the loop of `reflect`, with `n` rounds to go. -/
def reflectLoop : Nat → Word → Word → Word
  | 0, _, reflection => reflection
  | n + 1, x, reflection => reflectLoop n (x >>> 1) (if x &&& 1#32 ≠ 0 then reflection ||| (1#32 <<< n) else reflection)

/-- CRC32.java:59-68 `reflect`. -/
def reflect (x : Word) (n : Nat) : Word := reflectLoop n x 0

/-- CRC32.java:40-43 `update(int)`; `none` for an index outside of the table. -/
def update (remainder : Word) (b : Word) : Option Word :=
  let i := reflect b 8 ^^^ (remainder >>> 24)
  if i.toInt < 0 ∨ 256 ≤ i.toInt then none else some (table i ^^^ (remainder <<< 8))

/-- CRC32.java:45-53: `update` for the bytes of an array, `array[offset + i] & 0xFF`. -/
def updateAll (remainder : Word) : List (BitVec 8) → Option Word
  | [] => some remainder
  | b :: bs => (update remainder (b.signExtend 32 &&& 0xFF#32)).bind fun r => updateAll r bs

/-- CRC32.java:55-57 `getValue`. -/
def getValue (remainder : Word) : BitVec 64 := ((reflect remainder 32).signExtend 64 ^^^ resultXor) &&& 0xFFFFFFFF#64

end Avian.Crc32
