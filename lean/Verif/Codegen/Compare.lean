import Verif.Codegen.X86

/-
How the compiler turns comparisons followed by a branch into operations, and the functions that compiled code calls for
comparisons.

A floating point value enters only through how two of them compare: less, equal, greater, or (`none`) not ordered.
-/
namespace Avian.X86

/-- The instructions `ifeq` to `ifle` of the Java virtual machine. -/
inductive If where
  | eq | ne | gt | ge | lt | le
deriving DecidableEq

/-- src/compile.cpp:3557-3584 `toCompilerJumpOp`. -/
def toCompilerJumpOp : If → Jump
  | .eq => .equal
  | .ne => .notEqual
  | .gt => .greater
  | .ge => .greaterOrEqual
  | .lt => .less
  | .le => .lessOrEqual

/-- src/compile.cpp:3625-3663 `toCompilerFloatJumpOp`. -/
def toCompilerFloatJumpOp (i : If) (lessIfUnordered : Bool) : FloatJump :=
  match i with
  | .eq => .equal
  | .ne => .notEqual
  | .gt => if lessIfUnordered then .greater else .greaterOrUnordered
  | .ge => if lessIfUnordered then .greaterOrEqual else .greaterOrEqualOrUnordered
  | .lt => if lessIfUnordered then .lessOrUnordered else .less
  | .le => if lessIfUnordered then .lessOrEqualOrUnordered else .lessOrEqual

/-- src/codegen/compiler/event.cpp:1594-1616 `shouldJump`, of two integer constants. -/
def shouldJump (op : Jump) (b a : BitVec 64) : Bool :=
  match op with
  | .equal => a = b
  | .notEqual => a ≠ b
  | .less => a.toInt < b.toInt
  | .greater => b.toInt < a.toInt
  | .lessOrEqual => a.toInt ≤ b.toInt
  | .greaterOrEqual => b.toInt ≤ a.toInt

/-- event.cpp:1619-1652 `shouldJump`, of two floating point constants; `o` is how `a` compares with `b`. -/
def shouldJumpFloat (op : FloatJump) (o : Option Ordering) : Bool :=
  let less := o = some .lt
  let greater := o = some .gt
  let equal := o = some .eq
  -- event.cpp:1588-1591
  let unordered := ¬ ((greater ∨ equal) ∨ less)
  match op with
  | .equal => equal
  | .notEqual => ¬ equal
  | .less => less
  | .greater => greater
  | .lessOrEqual => less ∨ equal
  | .greaterOrEqual => greater ∨ equal
  | .lessOrUnordered => less ∨ unordered
  | .greaterOrUnordered => greater ∨ unordered
  | .lessOrEqualOrUnordered => (less ∨ equal) ∨ unordered
  | .greaterOrEqualOrUnordered => (greater ∨ equal) ∨ unordered

/-- src/codegen/runtime.cpp:27-43 `compareDoublesG`, 63-80 `compareFloatsG`; `nan`: one of the values is not a number, `o` is
how `a` compares with `b`. -/
def compareG (nan : Bool) (o : Option Ordering) : Int :=
  if nan then 1
  else if o = some .lt then -1
  else if o = some .gt then 1
  else if o = some .eq then 0
  else 1

/-- runtime.cpp:45-61 `compareDoublesL`, 82-99 `compareFloatsL`. -/
def compareL (nan : Bool) (o : Option Ordering) : Int :=
  if nan then -1
  else if o = some .lt then -1
  else if o = some .gt then 1
  else if o = some .eq then 0
  else -1

/-- runtime.cpp:101-110 `compareLongs`, whose parameters are `uint64_t`. -/
def compareLongs (b a : BitVec 64) : Int :=
  if a.toNat < b.toNat then -1 else if b.toNat < a.toNat then 1 else 0

/-- event.cpp:1657-1684 `thunkBranch`. -/
def thunkBranch : FloatJump → Jump
  | .equal => .equal
  | .notEqual => .notEqual
  | .less => .less
  | .lessOrUnordered => .less
  | .greater => .greater
  | .greaterOrUnordered => .greater
  | .lessOrEqual => .lessOrEqual
  | .lessOrEqualOrUnordered => .lessOrEqual
  | .greaterOrEqual => .greaterOrEqual
  | .greaterOrEqualOrUnordered => .greaterOrEqual

/-- src/compile.cpp:1100-1112, 1143-1155 `getThunk`: whether it is `compareDoublesG` (`compareFloatsG`). -/
def thunkIsG : FloatJump → Bool
  | .equal => true
  | .notEqual => true
  | .less => true
  | .greater => true
  | .lessOrEqual => true
  | .greaterOrUnordered => true
  | .greaterOrEqualOrUnordered => true
  | .greaterOrEqual => false
  | .lessOrUnordered => false
  | .lessOrEqualOrUnordered => false

/-- event.cpp:1813-1848 `appendBranch` where the processor cannot compare floats: the function is called, and its result
compared with zero. -/
def thunkJumps (op : FloatJump) (nan : Bool) (o : Option Ordering) : Bool :=
  let result := if thunkIsG op then compareG nan o else compareL nan o
  shouldJump (thunkBranch op) 0 (BitVec.ofInt 64 result)

end Avian.X86
