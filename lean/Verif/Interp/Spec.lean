import Verif.Interp.Base
/-
Specification of the Java instruction set, written from the Java Virtual Machine Specification
and independent of the interpreter model: instructions are decoded to an abstract syntax, a thread
is a list of frames with a position, local variables and an operand stack, and arithmetic is
written with integers.

Operand stacks are lists with the top first.  A `long` or `double` occupies two slots, the low
word on top.  `none` means that the specification gives no meaning: ill-typed or malformed code,
code that does not stay within its declared stack size, or a constant that does not resolve.
-/
namespace Avian.Interp.Spec

open Avian.Interp

/-! ### Instructions -/

/-- Comparison conditions. -/
inductive Cond where
  | eq | ne | lt | ge | gt | le
  deriving DecidableEq, Repr

/-- Meaning of a condition on two integers. -/
def Cond.holds : Cond → Int → Int → Prop
  | .eq, a, b => a = b
  | .ne, a, b => a ≠ b
  | .lt, a, b => a < b
  | .ge, a, b => b ≤ a
  | .gt, a, b => b < a
  | .le, a, b => a ≤ b

instance (c : Cond) (a b : Int) : Decidable (c.holds a b) := by
  cases c <;> unfold Cond.holds <;> infer_instance

/-- Instructions that only use the operand stack. -/
inductive SOp where
  | nop | const (l : List Slot)
  | pop | pop2 | dup | dup_x1 | dup_x2 | dup2 | dup2_x1 | dup2_x2 | swap
  | iadd | isub | imul | idiv | irem | ineg | ishl | ishr | iushr | iand | ior | ixor
  | ladd | lsub | lmul | ldiv | lrem | lneg | lshl | lshr | lushr | land | lor | lxor
  | fadd | fsub | fmul | fdiv | frem | fneg
  | dadd | dsub | dmul | ddiv | drem | dneg
  | i2l | i2f | i2d | l2i | l2f | l2d | f2i | f2l | f2d | d2i | d2l | d2f | i2b | i2c | i2s
  | lcmp | fcmpl | fcmpg | dcmpl | dcmpg
  deriving DecidableEq, Repr

/-- The kind of a local variable access. -/
inductive LKind where
  | int | long | ref
  deriving DecidableEq, Repr

/-- The element kind of an array access. -/
inductive EKind where
  | int | long | float | double | ref | byte | char | short
  deriving DecidableEq, Repr

/-- The kind of a returned value. -/
inductive RKind where
  | void | int | long | ref
  deriving DecidableEq, Repr

/-- How a method is selected. -/
inductive IKind where
  | virtual | special | static | interface | dynamic
  deriving DecidableEq, Repr

/-- Decoded instructions. -/
inductive Instr where
  | op (o : SOp)
  | ldc (idx : BitVec 16)
  | ldc2 (idx : BitVec 16)
  | load (k : LKind) (n : Nat)
  | store (k : LKind) (n : Nat)
  | iinc (n : Nat) (c : Int)
  | ifz (c : Cond) (off : Int)
  | ificmp (c : Cond) (off : Int)
  | ifacmp (equal : Bool) (off : Int)
  | ifnull (null : Bool) (off : Int)
  | goto (off : Int)
  | jsr (off : Int)
  | ret (n : Nat)
  | tableswitch (dflt low high : Int) (targets : List Int)
  | lookupswitch (dflt : Int) (pairs : List (Int × Int))
  | aload (k : EKind)
  | astore (k : EKind)
  | arraylength
  | newarray (type : BitVec 8)
  | anewarray (idx : BitVec 16)
  | new (idx : BitVec 16)
  | getfield (idx : BitVec 16)
  | putfield (idx : BitVec 16)
  | getstatic (idx : BitVec 16)
  | putstatic (idx : BitVec 16)
  | invoke (k : IKind) (idx : BitVec 16)
  | return (k : RKind)
  | athrow
  | checkcast (idx : BitVec 16)
  | instanceof (idx : BitVec 16)
  | monitorenter
  | monitorexit
  deriving DecidableEq, Repr

/-! ### Decoding -/

/-- Unsigned byte of the code. -/
def u1 (c : List (BitVec 8)) (i : Nat) : Option Nat := (c[i]?).map BitVec.toNat
/-- Unsigned 16-bit big-endian number. -/
def u2 (c : List (BitVec 8)) (i : Nat) : Option Nat := do
  let a ← u1 c i
  let b ← u1 c (i + 1)
  pure (a * 256 + b)
/-- Unsigned 32-bit big-endian number. -/
def u4 (c : List (BitVec 8)) (i : Nat) : Option Nat := do
  let a ← u2 c i
  let b ← u2 c (i + 2)
  pure (a * 65536 + b)
/-- Signed reading of an unsigned number below `2 * half`. -/
def signed (half : Nat) (v : Nat) : Int := if v < half then v else (v : Int) - 2 * half
/-- Signed 8-bit number. -/
def s1 (c : List (BitVec 8)) (i : Nat) : Option Int := (u1 c i).map (signed 128)
/-- Signed 16-bit number. -/
def s2 (c : List (BitVec 8)) (i : Nat) : Option Int := (u2 c i).map (signed 32768)
/-- Signed 32-bit number. -/
def s4 (c : List (BitVec 8)) (i : Nat) : Option Int := (u4 c i).map (signed 2147483648)
/-- A constant pool index. -/
def cp (c : List (BitVec 8)) (i : Nat) : Option (BitVec 16) := (u2 c i).map (BitVec.ofNat 16)

/-- `n` signed 32-bit numbers from position `i`. -/
def s4s (c : List (BitVec 8)) (i : Nat) : Nat → Option (List Int)
  | 0 => some []
  | n + 1 => do
    let v ← s4 c i
    let r ← s4s c (i + 4) n
    pure (v :: r)

/-- `n` pairs of signed 32-bit numbers from position `i`. -/
def pairs4 (c : List (BitVec 8)) (i : Nat) : Nat → Option (List (Int × Int))
  | 0 => some []
  | n + 1 => do
    let k ← s4 c i
    let v ← s4 c (i + 4)
    let r ← pairs4 c (i + 8) n
    pure ((k, v) :: r)

/-- The position of the first operand of a switch: the first multiple of four behind the
opcode. -/
def switchPos (pc : Nat) : Nat := (pc + 4) / 4 * 4

/-- The keys of a `lookupswitch` must be in increasing order. -/
def keysSorted : List (Int × Int) → Bool
  | [] => true
  | [_] => true
  | (a, _) :: (b, y) :: r => decide (a < b) && keysSorted ((b, y) :: r)

/-- An `int` constant. -/
def kI (v : Int) : Instr := .op (.const [.int (BitVec.ofInt 32 v)])
/-- A two-slot constant. -/
def kL (v : BitVec 64) : Instr :=
  .op (.const [.int (v.extractLsb' 0 32), .int (v.extractLsb' 32 32)])

/-- Instructions without operands in the code. -/
def simple : Nat → Option Instr
  | 0 => some (.op .nop)
  | 1 => some (.op (.const [.obj 0#64]))
  | 2 => some (kI (-1))
  | 3 => some (kI 0)
  | 4 => some (kI 1)
  | 5 => some (kI 2)
  | 6 => some (kI 3)
  | 7 => some (kI 4)
  | 8 => some (kI 5)
  | 9 => some (kL 0#64)
  | 10 => some (kL 1#64)
  | 11 => some (.op (.const [.int 0#32]))
  | 12 => some (.op (.const [.int 0x3f800000#32]))
  | 13 => some (.op (.const [.int 0x40000000#32]))
  | 14 => some (kL 0#64)
  | 15 => some (kL 0x3ff0000000000000#64)
  | 26 => some (.load .int 0) | 27 => some (.load .int 1)
  | 28 => some (.load .int 2) | 29 => some (.load .int 3)
  | 30 => some (.load .long 0) | 31 => some (.load .long 1)
  | 32 => some (.load .long 2) | 33 => some (.load .long 3)
  | 34 => some (.load .int 0) | 35 => some (.load .int 1)
  | 36 => some (.load .int 2) | 37 => some (.load .int 3)
  | 38 => some (.load .long 0) | 39 => some (.load .long 1)
  | 40 => some (.load .long 2) | 41 => some (.load .long 3)
  | 42 => some (.load .ref 0) | 43 => some (.load .ref 1)
  | 44 => some (.load .ref 2) | 45 => some (.load .ref 3)
  | 46 => some (.aload .int) | 47 => some (.aload .long)
  | 48 => some (.aload .float) | 49 => some (.aload .double)
  | 50 => some (.aload .ref) | 51 => some (.aload .byte)
  | 52 => some (.aload .char) | 53 => some (.aload .short)
  | 59 => some (.store .int 0) | 60 => some (.store .int 1)
  | 61 => some (.store .int 2) | 62 => some (.store .int 3)
  | 63 => some (.store .long 0) | 64 => some (.store .long 1)
  | 65 => some (.store .long 2) | 66 => some (.store .long 3)
  | 67 => some (.store .int 0) | 68 => some (.store .int 1)
  | 69 => some (.store .int 2) | 70 => some (.store .int 3)
  | 71 => some (.store .long 0) | 72 => some (.store .long 1)
  | 73 => some (.store .long 2) | 74 => some (.store .long 3)
  | 75 => some (.store .ref 0) | 76 => some (.store .ref 1)
  | 77 => some (.store .ref 2) | 78 => some (.store .ref 3)
  | 79 => some (.astore .int) | 80 => some (.astore .long)
  | 81 => some (.astore .float) | 82 => some (.astore .double)
  | 83 => some (.astore .ref) | 84 => some (.astore .byte)
  | 85 => some (.astore .char) | 86 => some (.astore .short)
  | 87 => some (.op .pop) | 88 => some (.op .pop2)
  | 89 => some (.op .dup) | 90 => some (.op .dup_x1) | 91 => some (.op .dup_x2)
  | 92 => some (.op .dup2) | 93 => some (.op .dup2_x1) | 94 => some (.op .dup2_x2)
  | 95 => some (.op .swap)
  | 96 => some (.op .iadd) | 97 => some (.op .ladd) | 98 => some (.op .fadd) | 99 => some (.op .dadd)
  | 100 => some (.op .isub) | 101 => some (.op .lsub)
  | 102 => some (.op .fsub) | 103 => some (.op .dsub)
  | 104 => some (.op .imul) | 105 => some (.op .lmul)
  | 106 => some (.op .fmul) | 107 => some (.op .dmul)
  | 108 => some (.op .idiv) | 109 => some (.op .ldiv)
  | 110 => some (.op .fdiv) | 111 => some (.op .ddiv)
  | 112 => some (.op .irem) | 113 => some (.op .lrem)
  | 114 => some (.op .frem) | 115 => some (.op .drem)
  | 116 => some (.op .ineg) | 117 => some (.op .lneg)
  | 118 => some (.op .fneg) | 119 => some (.op .dneg)
  | 120 => some (.op .ishl) | 121 => some (.op .lshl)
  | 122 => some (.op .ishr) | 123 => some (.op .lshr)
  | 124 => some (.op .iushr) | 125 => some (.op .lushr)
  | 126 => some (.op .iand) | 127 => some (.op .land)
  | 128 => some (.op .ior) | 129 => some (.op .lor)
  | 130 => some (.op .ixor) | 131 => some (.op .lxor)
  | 133 => some (.op .i2l) | 134 => some (.op .i2f) | 135 => some (.op .i2d)
  | 136 => some (.op .l2i) | 137 => some (.op .l2f) | 138 => some (.op .l2d)
  | 139 => some (.op .f2i) | 140 => some (.op .f2l) | 141 => some (.op .f2d)
  | 142 => some (.op .d2i) | 143 => some (.op .d2l) | 144 => some (.op .d2f)
  | 145 => some (.op .i2b) | 146 => some (.op .i2c) | 147 => some (.op .i2s)
  | 148 => some (.op .lcmp)
  | 149 => some (.op .fcmpl) | 150 => some (.op .fcmpg)
  | 151 => some (.op .dcmpl) | 152 => some (.op .dcmpg)
  | 172 => some (.return .int) | 173 => some (.return .long)
  | 174 => some (.return .int) | 175 => some (.return .long)
  | 176 => some (.return .ref) | 177 => some (.return .void)
  | 190 => some .arraylength | 191 => some .athrow
  | 194 => some .monitorenter | 195 => some .monitorexit
  | _ => none

/-- Instructions with operands: the instruction and its length. -/
def withOperands (c : List (BitVec 8)) (pc : Nat) : Nat → Option (Instr × Nat)
  | 16 => do pure (kI (← s1 c (pc + 1)), 2)
  | 17 => do pure (kI (← s2 c (pc + 1)), 3)
  | 18 => do pure (.ldc (BitVec.ofNat 16 (← u1 c (pc + 1))), 2)
  | 19 => do pure (.ldc (← cp c (pc + 1)), 3)
  | 20 => do pure (.ldc2 (← cp c (pc + 1)), 3)
  | 21 => do pure (.load .int (← u1 c (pc + 1)), 2)
  | 22 => do pure (.load .long (← u1 c (pc + 1)), 2)
  | 23 => do pure (.load .int (← u1 c (pc + 1)), 2)
  | 24 => do pure (.load .long (← u1 c (pc + 1)), 2)
  | 25 => do pure (.load .ref (← u1 c (pc + 1)), 2)
  | 54 => do pure (.store .int (← u1 c (pc + 1)), 2)
  | 55 => do pure (.store .long (← u1 c (pc + 1)), 2)
  | 56 => do pure (.store .int (← u1 c (pc + 1)), 2)
  | 57 => do pure (.store .long (← u1 c (pc + 1)), 2)
  | 58 => do pure (.store .ref (← u1 c (pc + 1)), 2)
  | 132 => do pure (.iinc (← u1 c (pc + 1)) (← s1 c (pc + 2)), 3)
  | 153 => do pure (.ifz .eq (← s2 c (pc + 1)), 3)
  | 154 => do pure (.ifz .ne (← s2 c (pc + 1)), 3)
  | 155 => do pure (.ifz .lt (← s2 c (pc + 1)), 3)
  | 156 => do pure (.ifz .ge (← s2 c (pc + 1)), 3)
  | 157 => do pure (.ifz .gt (← s2 c (pc + 1)), 3)
  | 158 => do pure (.ifz .le (← s2 c (pc + 1)), 3)
  | 159 => do pure (.ificmp .eq (← s2 c (pc + 1)), 3)
  | 160 => do pure (.ificmp .ne (← s2 c (pc + 1)), 3)
  | 161 => do pure (.ificmp .lt (← s2 c (pc + 1)), 3)
  | 162 => do pure (.ificmp .ge (← s2 c (pc + 1)), 3)
  | 163 => do pure (.ificmp .gt (← s2 c (pc + 1)), 3)
  | 164 => do pure (.ificmp .le (← s2 c (pc + 1)), 3)
  | 165 => do pure (.ifacmp true (← s2 c (pc + 1)), 3)
  | 166 => do pure (.ifacmp false (← s2 c (pc + 1)), 3)
  | 167 => do pure (.goto (← s2 c (pc + 1)), 3)
  | 168 => do pure (.jsr (← s2 c (pc + 1)), 3)
  | 169 => do pure (.ret (← u1 c (pc + 1)), 2)
  | 170 => do
    let p := switchPos pc
    let d ← s4 c p
    let lo ← s4 c (p + 4)
    let hi ← s4 c (p + 8)
    if lo ≤ hi then
      let ts ← s4s c (p + 12) (hi - lo + 1).toNat
      pure (.tableswitch d lo hi ts, p + 12 + 4 * (hi - lo + 1).toNat - pc)
    else none
  | 171 => do
    let p := switchPos pc
    let d ← s4 c p
    let n ← s4 c (p + 4)
    if 0 ≤ n then
      let ps ← pairs4 c (p + 8) n.toNat
      if keysSorted ps then pure (.lookupswitch d ps, p + 8 + 8 * n.toNat - pc) else none
    else none
  | 178 => do pure (.getstatic (← cp c (pc + 1)), 3)
  | 179 => do pure (.putstatic (← cp c (pc + 1)), 3)
  | 180 => do pure (.getfield (← cp c (pc + 1)), 3)
  | 181 => do pure (.putfield (← cp c (pc + 1)), 3)
  | 182 => do pure (.invoke .virtual (← cp c (pc + 1)), 3)
  | 183 => do pure (.invoke .special (← cp c (pc + 1)), 3)
  | 184 => do pure (.invoke .static (← cp c (pc + 1)), 3)
  | 185 => do pure (.invoke .interface (← cp c (pc + 1)), 5)
  | 186 => do pure (.invoke .dynamic (← cp c (pc + 1)), 5)
  | 187 => do pure (.new (← cp c (pc + 1)), 3)
  | 188 => do pure (.newarray (BitVec.ofNat 8 (← u1 c (pc + 1))), 2)
  | 189 => do pure (.anewarray (← cp c (pc + 1)), 3)
  | 192 => do pure (.checkcast (← cp c (pc + 1)), 3)
  | 193 => do pure (.instanceof (← cp c (pc + 1)), 3)
  | 196 => do
    match ← u1 c (pc + 1) with
    | 21 => do pure (.load .int (← u2 c (pc + 2)), 4)
    | 22 => do pure (.load .long (← u2 c (pc + 2)), 4)
    | 23 => do pure (.load .int (← u2 c (pc + 2)), 4)
    | 24 => do pure (.load .long (← u2 c (pc + 2)), 4)
    | 25 => do pure (.load .ref (← u2 c (pc + 2)), 4)
    | 54 => do pure (.store .int (← u2 c (pc + 2)), 4)
    | 55 => do pure (.store .long (← u2 c (pc + 2)), 4)
    | 56 => do pure (.store .int (← u2 c (pc + 2)), 4)
    | 57 => do pure (.store .long (← u2 c (pc + 2)), 4)
    | 58 => do pure (.store .ref (← u2 c (pc + 2)), 4)
    | 132 => do pure (.iinc (← u2 c (pc + 2)) (← s2 c (pc + 4)), 6)
    | 169 => do pure (.ret (← u2 c (pc + 2)), 4)
    | _ => none
  | 198 => do pure (.ifnull true (← s2 c (pc + 1)), 3)
  | 199 => do pure (.ifnull false (← s2 c (pc + 1)), 3)
  | 200 => do pure (.goto (← s4 c (pc + 1)), 5)
  | 201 => do pure (.jsr (← s4 c (pc + 1)), 5)
  | _ => none

/-- The instruction at a position and its length; it must lie inside the code. -/
def decode (c : List (BitVec 8)) (pc : Nat) : Option (Instr × Nat) := do
  let op ← u1 c pc
  let r ← match simple op with
    | some i => some (i, 1)
    | none => withOperands c pc op
  if pc + r.2 ≤ c.length then some r else none

/-! ### Operand stack instructions -/

/-- `int` value of an integer, wrapping. -/
def i32 (v : Int) : Slot := .int (BitVec.ofInt 32 v)

/-- Put a two-slot value on a stack. -/
def pushL (v : BitVec 64) (s : List Slot) : List Slot :=
  .int (v.extractLsb' 0 32) :: .int (v.extractLsb' 32 32) :: s

/-- The two-slot value with low word `lo` and high word `hi`. -/
def asLong (hi lo : BitVec 32) : BitVec 64 := hi ++ lo

/-- Conversion of a floating-point value to an integer type of `w` bits: not-a-number gives 0,
otherwise truncate and saturate. -/
def toInteger (w scale : Nat) : FVal → BitVec w
  | .nan => 0#w
  | .inf true => BitVec.intMin w
  | .inf false => BitVec.intMax w
  | .fin v =>
    BitVec.ofInt w (max (-(2 ^ (w - 1))) (min (2 ^ (w - 1) - 1) (v.tdiv (2 ^ scale))))

/-- Floating-point comparison: -1, 0 or 1, with `unordered` when either operand is not a
number. -/
def compareFP (unordered : Int) (a b : FVal) : Int :=
  if a = .nan ∨ b = .nan then unordered
  else if a.lt b then -1 else if a = b then 0 else 1

/-- Result of an operand stack instruction. -/
abbrev SRes := Except ExKind (List Slot)

/-- The operand stack after an operand stack instruction. -/
def SOp.eval (fp : FPOps) : SOp → List Slot → Option SRes
  | .nop, s => some (.ok s)
  | .const l, s => some (.ok (l ++ s))
  | .pop, _ :: s => some (.ok s)
  | .pop2, _ :: _ :: s => some (.ok s)
  | .dup, x :: s => some (.ok (x :: x :: s))
  | .dup_x1, x :: y :: s => some (.ok (x :: y :: x :: s))
  | .dup_x2, x :: y :: z :: s => some (.ok (x :: y :: z :: x :: s))
  | .dup2, x :: y :: s => some (.ok (x :: y :: x :: y :: s))
  | .dup2_x1, x :: y :: z :: s => some (.ok (x :: y :: z :: x :: y :: s))
  | .dup2_x2, x :: y :: z :: w :: s => some (.ok (x :: y :: z :: w :: x :: y :: s))
  | .swap, x :: y :: s => some (.ok (y :: x :: s))
  | .iadd, .int b :: .int a :: s => some (.ok (i32 (a.toInt + b.toInt) :: s))
  | .isub, .int b :: .int a :: s => some (.ok (i32 (a.toInt - b.toInt) :: s))
  | .imul, .int b :: .int a :: s => some (.ok (i32 (a.toInt * b.toInt) :: s))
  | .idiv, .int b :: .int a :: s =>
    if b.toInt = 0 then some (.error .arithmetic)
    else some (.ok (i32 (a.toInt.tdiv b.toInt) :: s))
  | .irem, .int b :: .int a :: s =>
    if b.toInt = 0 then some (.error .arithmetic)
    else some (.ok (i32 (a.toInt.tmod b.toInt) :: s))
  | .ineg, .int a :: s => some (.ok (i32 (-a.toInt) :: s))
  | .ishl, .int b :: .int a :: s => some (.ok (i32 (a.toInt * 2 ^ (b.toNat % 32)) :: s))
  | .ishr, .int b :: .int a :: s => some (.ok (i32 (a.toInt / 2 ^ (b.toNat % 32)) :: s))
  | .iushr, .int b :: .int a :: s =>
    some (.ok (.int (BitVec.ofNat 32 (a.toNat / 2 ^ (b.toNat % 32))) :: s))
  | .iand, .int b :: .int a :: s => some (.ok (.int (a &&& b) :: s))
  | .ior, .int b :: .int a :: s => some (.ok (.int (a ||| b) :: s))
  | .ixor, .int b :: .int a :: s => some (.ok (.int (a ^^^ b) :: s))
  | .ladd, .int bl :: .int bh :: .int al :: .int ah :: s =>
    some (.ok (pushL (BitVec.ofInt 64 ((asLong ah al).toInt + (asLong bh bl).toInt)) s))
  | .lsub, .int bl :: .int bh :: .int al :: .int ah :: s =>
    some (.ok (pushL (BitVec.ofInt 64 ((asLong ah al).toInt - (asLong bh bl).toInt)) s))
  | .lmul, .int bl :: .int bh :: .int al :: .int ah :: s =>
    some (.ok (pushL (BitVec.ofInt 64 ((asLong ah al).toInt * (asLong bh bl).toInt)) s))
  | .ldiv, .int bl :: .int bh :: .int al :: .int ah :: s =>
    if (asLong bh bl).toInt = 0 then some (.error .arithmetic)
    else some (.ok (pushL (BitVec.ofInt 64 ((asLong ah al).toInt.tdiv (asLong bh bl).toInt)) s))
  | .lrem, .int bl :: .int bh :: .int al :: .int ah :: s =>
    if (asLong bh bl).toInt = 0 then some (.error .arithmetic)
    else some (.ok (pushL (BitVec.ofInt 64 ((asLong ah al).toInt.tmod (asLong bh bl).toInt)) s))
  | .lneg, .int al :: .int ah :: s => some (.ok (pushL (BitVec.ofInt 64 (-(asLong ah al).toInt)) s))
  | .lshl, .int b :: .int al :: .int ah :: s =>
    some (.ok (pushL (BitVec.ofInt 64 ((asLong ah al).toInt * 2 ^ (b.toNat % 64))) s))
  | .lshr, .int b :: .int al :: .int ah :: s =>
    some (.ok (pushL (BitVec.ofInt 64 ((asLong ah al).toInt / 2 ^ (b.toNat % 64))) s))
  | .lushr, .int b :: .int al :: .int ah :: s =>
    some (.ok (pushL (BitVec.ofNat 64 ((asLong ah al).toNat / 2 ^ (b.toNat % 64))) s))
  | .land, .int bl :: .int bh :: .int al :: .int ah :: s =>
    some (.ok (.int (al &&& bl) :: .int (ah &&& bh) :: s))
  | .lor, .int bl :: .int bh :: .int al :: .int ah :: s =>
    some (.ok (.int (al ||| bl) :: .int (ah ||| bh) :: s))
  | .lxor, .int bl :: .int bh :: .int al :: .int ah :: s =>
    some (.ok (.int (al ^^^ bl) :: .int (ah ^^^ bh) :: s))
  | .fadd, .int b :: .int a :: s => some (.ok (.int (fp.fadd a b) :: s))
  | .fsub, .int b :: .int a :: s => some (.ok (.int (fp.fsub a b) :: s))
  | .fmul, .int b :: .int a :: s => some (.ok (.int (fp.fmul a b) :: s))
  | .fdiv, .int b :: .int a :: s => some (.ok (.int (fp.fdiv a b) :: s))
  | .frem, .int b :: .int a :: s => some (.ok (.int (fp.frem a b) :: s))
  | .fneg, .int a :: s => some (.ok (.int (BitVec.ofNat 32 (a.toNat + 2 ^ 31)) :: s))
  | .dadd, .int bl :: .int bh :: .int al :: .int ah :: s =>
    some (.ok (pushL (fp.dadd (asLong ah al) (asLong bh bl)) s))
  | .dsub, .int bl :: .int bh :: .int al :: .int ah :: s =>
    some (.ok (pushL (fp.dsub (asLong ah al) (asLong bh bl)) s))
  | .dmul, .int bl :: .int bh :: .int al :: .int ah :: s =>
    some (.ok (pushL (fp.dmul (asLong ah al) (asLong bh bl)) s))
  | .ddiv, .int bl :: .int bh :: .int al :: .int ah :: s =>
    some (.ok (pushL (fp.ddiv (asLong ah al) (asLong bh bl)) s))
  | .drem, .int bl :: .int bh :: .int al :: .int ah :: s =>
    some (.ok (pushL (fp.drem (asLong ah al) (asLong bh bl)) s))
  | .dneg, .int al :: .int ah :: s =>
    some (.ok (pushL (BitVec.ofNat 64 ((asLong ah al).toNat + 2 ^ 63)) s))
  | .i2l, .int a :: s => some (.ok (pushL (BitVec.ofInt 64 a.toInt) s))
  | .i2f, .int a :: s => some (.ok (.int (fp.i2f a) :: s))
  | .i2d, .int a :: s => some (.ok (pushL (fp.i2d a) s))
  | .l2i, .int al :: .int _ :: s => some (.ok (.int al :: s))
  | .l2f, .int al :: .int ah :: s => some (.ok (.int (fp.l2f (asLong ah al)) :: s))
  | .l2d, .int al :: .int ah :: s => some (.ok (pushL (fp.l2d (asLong ah al)) s))
  | .f2i, .int a :: s => some (.ok (.int (toInteger 32 fscale (fval a)) :: s))
  | .f2l, .int a :: s => some (.ok (pushL (toInteger 64 fscale (fval a)) s))
  | .f2d, .int a :: s => some (.ok (pushL (fp.f2d a) s))
  | .d2i, .int al :: .int ah :: s =>
    some (.ok (.int (toInteger 32 dscale (dval (asLong ah al))) :: s))
  | .d2l, .int al :: .int ah :: s =>
    some (.ok (pushL (toInteger 64 dscale (dval (asLong ah al))) s))
  | .d2f, .int al :: .int ah :: s => some (.ok (.int (fp.d2f (asLong ah al)) :: s))
  | .i2b, .int a :: s => some (.ok (i32 (a.toInt.bmod 256) :: s))
  | .i2c, .int a :: s => some (.ok (i32 (a.toInt % 65536) :: s))
  | .i2s, .int a :: s => some (.ok (i32 (a.toInt.bmod 65536) :: s))
  | .lcmp, .int bl :: .int bh :: .int al :: .int ah :: s =>
    some (.ok (i32 (if (asLong ah al).toInt < (asLong bh bl).toInt then -1
      else if (asLong ah al).toInt = (asLong bh bl).toInt then 0 else 1) :: s))
  | .fcmpl, .int b :: .int a :: s => some (.ok (i32 (compareFP (-1) (fval a) (fval b)) :: s))
  | .fcmpg, .int b :: .int a :: s => some (.ok (i32 (compareFP 1 (fval a) (fval b)) :: s))
  | .dcmpl, .int bl :: .int bh :: .int al :: .int ah :: s =>
    some (.ok (i32 (compareFP (-1) (dval (asLong ah al)) (dval (asLong bh bl))) :: s))
  | .dcmpg, .int bl :: .int bh :: .int al :: .int ah :: s =>
    some (.ok (i32 (compareFP 1 (dval (asLong ah al)) (dval (asLong bh bl))) :: s))
  | _, _ => none

/-! ### Threads -/

/-- An activation of a method.  `pc` is the position of the instruction being executed (for a
frame that has called another method, of the invoke instruction); `lock` is the monitor to be
released when the frame ends. -/
structure Frame where
  m : Ref
  pc : Nat
  locals : List Slot
  stack : List Slot
  lock : Option Ref

/-- State of a thread: frames (innermost first), the heap and the monitor operations so far
(latest first). -/
structure SS where
  frames : List Frame
  heap : Heap
  log : List Ev

/-- Outcome of a step. -/
inductive SOut where
  | next (s : SS)
  /-- the outermost frame returns these slots (first word first) -/
  | done (r : List Slot) (s : SS)
  /-- no frame handles the exception -/
  | uncaught (exc : Ref) (heap : Heap) (log : List Ev)

/-- An entry of an exception table. -/
structure Handler where
  start : Nat
  stop : Nat
  target : Nat
  catchType : Nat

/-- The entry in its packed form. -/
def handlerOf (eh : BitVec 64) : Handler :=
  ⟨eh.toNat / 2 ^ 48, eh.toNat / 2 ^ 32 % 2 ^ 16, eh.toNat / 2 ^ 16 % 2 ^ 16, eh.toNat % 2 ^ 16⟩

/-- Search an exception table for an exception raised at `pc`: the first entry whose range contains
`pc` and whose type (if any) the exception has.  `none` when a type does not resolve. -/
def findHandler (env : Env) (m : Ref) (pc : Nat) (cls : Ref) : List Handler → Option (Option Nat)
  | [] => some none
  | h :: rest =>
    if h.start ≤ pc ∧ pc < h.stop then
      if h.catchType = 0 then some (some h.target)
      else do
        let c ← env.resolveClass m (BitVec.ofNat 16 h.catchType)
        if env.subclass cls c then pure (some h.target) else findHandler env m pc cls rest
    else findHandler env m pc cls rest

/-- The monitor operation at the end of a frame. -/
def unlock (f : Frame) (log : List Ev) : List Ev :=
  match f.lock with
  | some o => .release o :: log
  | none => log

/-- Raise an exception of class `cls`: the first frame with a handler continues there with only
the exception on its stack; frames without one are removed. -/
def raise (env : Env) (exc cls : Ref) (heap : Heap) : List Ev → List Frame → Option SOut
  | log, [] => some (.uncaught exc heap log)
  | log, f :: rest => do
    let code := (env.meth f.m).code
    match ← findHandler env f.m f.pc cls (code.handlers.map handlerOf) with
    | some target =>
      if 1 ≤ code.maxStack then
        pure (.next ⟨{ f with pc := target, stack := [.obj exc] } :: rest, heap, log⟩)
      else none
    | none => raise env exc cls heap (unlock f log) rest

/-- Raise a new exception of a built-in kind. -/
def raiseNew (env : Env) (k : ExKind) (s : SS) : Option SOut :=
  let r := env.newThrowable s.heap k
  raise env r.2 (env.exClass k) r.1 s.log s.frames

/-- Continue in the current frame at `pc` with the given stack and local variables. -/
def continueAt (env : Env) (f : Frame) (rest : List Frame) (heap : Heap) (log : List Ev)
    (pc : Int) (locals stack : List Slot) : Option SOut :=
  if stack.length ≤ (env.meth f.m).code.maxStack ∧ 0 ≤ pc ∧
      pc < (env.meth f.m).code.body.length then
    some (.next ⟨{ f with pc := pc.toNat, locals := locals, stack := stack } :: rest, heap, log⟩)
  else none

/-- Enter a method with the arguments on the caller's stack.  The caller's `pc` stays at the
invoke instruction. -/
def enter (env : Env) (f : Frame) (rest : List Frame) (heap : Heap) (log : List Ev) (m : Ref) :
    Option SOut :=
  let meth := env.meth m
  let n := meth.paramFootprint
  if meth.isNative = false ∧ n ≤ f.stack.length ∧ n ≤ meth.code.maxLocals ∧
      0 < meth.code.body.length then
    let args := (f.stack.take n).reverse
    let locals := args ++ List.replicate (meth.code.maxLocals - n) Slot.zero
    let caller := { f with stack := f.stack.drop n }
    if meth.isSync then
      if meth.isStatic then
        some (.next ⟨⟨m, 0, locals, [], some meth.jclass⟩ :: caller :: rest, heap,
          .acquire meth.jclass :: log⟩)
      else
        match args with
        | .obj o :: _ =>
          some (.next ⟨⟨m, 0, locals, [], some o⟩ :: caller :: rest, heap, .acquire o :: log⟩)
        | _ => none
    else some (.next ⟨⟨m, 0, locals, [], none⟩ :: caller :: rest, heap, log⟩)
  else none

/-- Leave the current frame with a result (top of stack first). -/
def leave (env : Env) (f : Frame) (rest : List Frame) (heap : Heap) (log : List Ev)
    (stack r : List Slot) : Option SOut :=
  match rest with
  | [] => some (.done r.reverse ⟨[{ f with stack := stack }], heap, log⟩)
  | c :: rest => do
    let (_, len) ← decode (env.meth c.m).code.body c.pc
    continueAt env c rest heap (unlock f log) (c.pc + len) c.locals (r ++ c.stack)

/-- Value of an array element as stack slots. -/
def elemSlots : EKind → Arr → Nat → Option (List Slot)
  | .ref, .ref l, i => (l[i]?).map fun v => [.obj v]
  | .byte, .bool l, i => (l[i]?).map fun v => [i32 v.toNat]
  | .byte, .byte l, i => (l[i]?).map fun v => [i32 v.toInt]
  | .char, .char l, i => (l[i]?).map fun v => [i32 v.toNat]
  | .short, .short l, i => (l[i]?).map fun v => [i32 v.toInt]
  | .int, .int l, i => (l[i]?).map fun v => [.int v]
  | .float, .float l, i => (l[i]?).map fun v => [.int v]
  | .long, .long l, i => (l[i]?).map fun v => pushL v []
  | .double, .double l, i => (l[i]?).map fun v => pushL v []
  | _, _, _ => none

/-- Store into an array element: the new contents and the rest of the stack. -/
def storeElem : EKind → Arr → Nat → List Slot → Option Arr
  | .ref, .ref l, i, [.obj v] => some (.ref (l.set i v))
  | .byte, .bool l, i, [.int v] => some (.bool (l.set i (BitVec.ofInt 8 v.toInt)))
  | .byte, .byte l, i, [.int v] => some (.byte (l.set i (BitVec.ofInt 8 v.toInt)))
  | .char, .char l, i, [.int v] => some (.char (l.set i (BitVec.ofInt 16 v.toInt)))
  | .short, .short l, i, [.int v] => some (.short (l.set i (BitVec.ofInt 16 v.toInt)))
  | .int, .int l, i, [.int v] => some (.int (l.set i v))
  | .float, .float l, i, [.int v] => some (.float (l.set i v))
  | .long, .long l, i, [.int lo, .int hi] => some (.long (l.set i (asLong hi lo)))
  | .double, .double l, i, [.int lo, .int hi] => some (.double (l.set i (asLong hi lo)))
  | _, _, _, _ => none

/-- Number of slots of an element. -/
def EKind.slots : EKind → Nat
  | .long | .double => 2
  | _ => 1

/-- The slots are a value of the element kind. -/
def elemTyped : EKind → List Slot → Bool
  | .long, [.int _, .int _] => true
  | .double, [.int _, .int _] => true
  | .ref, [.obj _] => true
  | .int, [.int _] => true
  | .float, [.int _] => true
  | .byte, [.int _] => true
  | .char, [.int _] => true
  | .short, [.int _] => true
  | _, _ => false

/-- A reference may only be stored in an array whose element class its class is assignable to. -/
def storeAllowed (env : Env) (heap : Heap) (arrCls : Ref) : List Slot → Bool
  | [.obj v] =>
    v == 0#64 ||
      match heap v with
      | some x => env.subclass x.cls (env.elemClass arrCls)
      | none => false
  | _ => true

/-- Number of slots of a field. -/
def fslots : FKind → Nat
  | .double | .long => 2
  | _ => 1

/-- Value of a field as stack slots: sub-word types are widened to `int`, `char` without sign. -/
def fieldSlots (bytes : Nat → BitVec 8) (f : Field) : List Slot :=
  match f.kind with
  | .byte | .boolean => [i32 (signed 128 (leNat bytes f.offset 1))]
  | .char => [i32 (leNat bytes f.offset 2)]
  | .short => [i32 (signed 32768 (leNat bytes f.offset 2))]
  | .float | .int => [i32 (leNat bytes f.offset 4)]
  | .double | .long => pushL (BitVec.ofNat 64 (leNat bytes f.offset 8)) []
  | .object => [.obj (BitVec.ofNat 64 (leNat bytes f.offset 8))]

/-- The bytes of an object after a store to a field; `char` and the other sub-word types keep the
low bits. -/
def fieldStore (bytes : Nat → BitVec 8) (f : Field) (v : List Slot) : Option (Nat → BitVec 8) :=
  match f.kind, v with
  | .byte, [.int v] | .boolean, [.int v] => some (leStore bytes f.offset 1 (v.toNat % 2 ^ 8))
  | .char, [.int v] | .short, [.int v] => some (leStore bytes f.offset 2 (v.toNat % 2 ^ 16))
  | .float, [.int v] | .int, [.int v] => some (leStore bytes f.offset 4 v.toNat)
  | .double, [.int lo, .int hi] | .long, [.int lo, .int hi] =>
    some (leStore bytes f.offset 8 (hi.toNat * 2 ^ 32 + lo.toNat))
  | .object, [.obj v] => some (leStore bytes f.offset 8 v.toNat)
  | _, _ => none

/-- A new primitive array. -/
def primArray (type : BitVec 8) (n : Nat) : Option Arr :=
  match type.toNat with
  | 4 => some (.bool (List.replicate n 0))
  | 5 => some (.char (List.replicate n 0))
  | 6 => some (.float (List.replicate n 0))
  | 7 => some (.double (List.replicate n 0))
  | 8 => some (.byte (List.replicate n 0))
  | 9 => some (.short (List.replicate n 0))
  | 10 => some (.int (List.replicate n 0))
  | 11 => some (.long (List.replicate n 0))
  | _ => none

/-- The target of a jump table. -/
def tableTarget (dflt low high : Int) (targets : List Int) (key : Int) : Int :=
  if low ≤ key ∧ key ≤ high then (targets[(key - low).toNat]?).getD dflt else dflt

/-- The target of a key table. -/
def lookupTarget (dflt : Int) (pairs : List (Int × Int)) (key : Int) : Int :=
  ((pairs.find? fun p => p.1 == key).map (·.2)).getD dflt

/-- The method run by an invoke instruction on a receiver of class `cls`. -/
def targetOf (env : Env) (k : IKind) (caller m cls : Ref) : Ref :=
  match k with
  | .virtual => env.findVirtual m cls
  | .interface => env.findInterface m cls
  | .special => env.specialTarget caller m
  | _ => m

/-- Execute one instruction of length `len` in frame `f`. -/
def exec (env : Env) (f : Frame) (rest : List Frame) (heap : Heap) (log : List Ev) (len : Nat)
    (i : Instr) : Option SOut :=
  let s : SS := ⟨f :: rest, heap, log⟩
  let goto (off : Int) (st : List Slot) := continueAt env f rest heap log (f.pc + off) f.locals st
  let next (st : List Slot) := goto len st
  match i, f.stack with
  | .op o, st =>
    match o.eval env.fp st with
    | some (.ok st') => next st'
    | some (.error k) => raiseNew env k s
    | none => none
  | .ldc idx, st =>
    match env.constant f.m idx with
    | some (.int v) => next (.int v :: st)
    | some (.obj o) => next (.obj o :: st)
    | none => none
  | .ldc2 idx, st => do next (pushL (← env.constant2 f.m idx) st)
  | .load .int n, st =>
    match f.locals[n]? with
    | some (.int v) => next (.int v :: st)
    | _ => none
  | .load .ref n, st =>
    match f.locals[n]? with
    | some (.obj v) => next (.obj v :: st)
    | _ => none
  | .load .long n, st =>
    match f.locals[n]?, f.locals[n + 1]? with
    | some (.int hi), some (.int lo) => next (.int lo :: .int hi :: st)
    | _, _ => none
  | .store .int n, .int v :: st =>
    if n < f.locals.length then
      continueAt env f rest heap log (f.pc + len) (f.locals.set n (.int v)) st
    else none
  | .store .ref n, x :: st =>
    if n < f.locals.length then
      continueAt env f rest heap log (f.pc + len) (f.locals.set n x) st
    else none
  | .store .long n, .int lo :: .int hi :: st =>
    if n + 1 < f.locals.length then
      continueAt env f rest heap log (f.pc + len)
        ((f.locals.set n (.int hi)).set (n + 1) (.int lo)) st
    else none
  | .iinc n c, st =>
    match f.locals[n]? with
    | some (.int v) =>
      continueAt env f rest heap log (f.pc + len) (f.locals.set n (i32 (v.toInt + c))) st
    | _ => none
  | .ifz c off, .int a :: st => if c.holds a.toInt 0 then goto off st else next st
  | .ificmp c off, .int b :: .int a :: st =>
    if c.holds a.toInt b.toInt then goto off st else next st
  | .ifacmp e off, .obj b :: .obj a :: st =>
    if (a = b) ↔ (e = true) then goto off st else next st
  | .ifnull e off, .obj a :: st => if (a = 0#64) ↔ (e = true) then goto off st else next st
  | .goto off, st => goto off st
  | .jsr off, st => goto off (i32 (f.pc + len) :: st)
  | .ret n, st =>
    match f.locals[n]? with
    | some (.int v) => continueAt env f rest heap log v.toNat f.locals st
    | _ => none
  | .tableswitch d lo hi ts, .int key :: st => goto (tableTarget d lo hi ts key.toInt) st
  | .lookupswitch d ps, .int key :: st => goto (lookupTarget d ps key.toInt) st
  | .aload k, .int i :: .obj a :: st =>
    if a = 0#64 then raiseNew env .nullPointer s
    else do
      let x ← heap a
      let arr ← x.arr
      if 0 ≤ i.toInt ∧ i.toInt < arr.length then next ((← elemSlots k arr i.toInt.toNat) ++ st)
      else raiseNew env .arrayIndex s
  | .astore k, st =>
    match st.drop k.slots with
    | .int i :: .obj a :: st' =>
      if elemTyped k (st.take k.slots) = false then none
      else if a = 0#64 then raiseNew env .nullPointer s
      else do
        let x ← heap a
        let arr ← x.arr
        let arr' ← storeElem k arr i.toInt.toNat (st.take k.slots)
        if 0 ≤ i.toInt ∧ i.toInt < arr.length then
          if storeAllowed env heap x.cls (st.take k.slots) then
            continueAt env f rest (heap.set a { x with arr := some arr' }) log (f.pc + len)
              f.locals st'
          else raiseNew env .arrayStore s
        else raiseNew env .arrayIndex s
    | _ => none
  | .arraylength, .obj a :: st =>
    if a = 0#64 then raiseNew env .nullPointer s
    else do
      let x ← heap a
      let arr ← x.arr
      next (i32 arr.length :: st)
  | .newarray t, .int n :: st =>
    if n.toInt < 0 then raiseNew env .negativeSize s
    else do
      let arr ← primArray t n.toInt.toNat
      let r := env.alloc heap ⟨env.arrayClass (BitVec.ofNat 64 t.toNat), some arr, zeroBytes⟩
      continueAt env f rest r.1 log (f.pc + len) f.locals (.obj r.2 :: st)
  | .anewarray idx, .int n :: st =>
    if n.toInt < 0 then raiseNew env .negativeSize s
    else do
      let c ← env.resolveClass f.m idx
      let r := env.alloc heap
        ⟨env.arrayClass c, some (.ref (List.replicate n.toInt.toNat 0#64)), zeroBytes⟩
      continueAt env f rest r.1 log (f.pc + len) f.locals (.obj r.2 :: st)
  | .new idx, st => do
    let c ← env.resolveClass f.m idx
    let r := env.alloc heap ⟨c, none, zeroBytes⟩
    continueAt env f rest r.1 log (f.pc + len) f.locals (.obj r.2 :: st)
  | .getfield idx, .obj o :: st =>
    if o = 0#64 then raiseNew env .nullPointer s
    else do
      let fd ← env.resolveField f.m idx
      let x ← heap o
      next (fieldSlots x.bytes fd ++ st)
  | .getstatic idx, st => do
    let fd ← env.resolveField f.m idx
    let x ← heap fd.table
    next (fieldSlots x.bytes fd ++ st)
  | .putfield idx, st => do
    let fd ← env.resolveField f.m idx
    match st.drop (fslots fd.kind) with
    | .obj o :: st' =>
      let _ ← fieldStore zeroBytes fd (st.take (fslots fd.kind))
      if o = 0#64 then raiseNew env .nullPointer s
      else do
        let x ← heap o
        let b ← fieldStore x.bytes fd (st.take (fslots fd.kind))
        continueAt env f rest (heap.set o { x with bytes := b }) log (f.pc + len) f.locals st'
    | _ => none
  | .putstatic idx, st => do
    let fd ← env.resolveField f.m idx
    let x ← heap fd.table
    let b ← fieldStore x.bytes fd (st.take (fslots fd.kind))
    continueAt env f rest (heap.set fd.table { x with bytes := b }) log (f.pc + len) f.locals
      (st.drop (fslots fd.kind))
  | .invoke .static idx, _ => do enter env f rest heap log (← env.resolveMethod f.m idx)
  | .invoke .dynamic idx, _ => do enter env f rest heap log (← env.dynamicTarget f.m idx)
  | .invoke k idx, st => do
    let m ← env.resolveMethod f.m idx
    let n := (env.meth m).paramFootprint
    if n = 0 then none
    else
      match st[n - 1]? with
      | some (.obj o) =>
        if o = 0#64 then raiseNew env .nullPointer s
        else do
          let x ← heap o
          let m' := targetOf env k f.m m x.cls
          if (env.meth m').paramFootprint = n ∧ (env.meth m').isStatic = false then
            enter env f rest heap log m'
          else none
      | _ => none
  | .return .void, st => leave env f rest heap log st []
  | .return .int, .int v :: st => leave env f rest heap log st [.int v]
  | .return .ref, .obj v :: st => leave env f rest heap log st [.obj v]
  | .return .long, .int lo :: .int hi :: st => leave env f rest heap log st [.int lo, .int hi]
  | .athrow, .obj e :: _ =>
    if e = 0#64 then raiseNew env .nullPointer s
    else do
      let x ← heap e
      raise env e x.cls heap log (f :: rest)
  | .checkcast idx, .obj o :: st =>
    if o = 0#64 then next (.obj o :: st)
    else do
      let c ← env.resolveClass f.m idx
      let x ← heap o
      if env.subclass x.cls c then next (.obj o :: st) else raiseNew env .classCast s
  | .instanceof idx, .obj o :: st =>
    if o = 0#64 then next (i32 0 :: st)
    else do
      let c ← env.resolveClass f.m idx
      let x ← heap o
      next (i32 (if env.subclass x.cls c then 1 else 0) :: st)
  | .monitorenter, .obj o :: st =>
    if o = 0#64 then raiseNew env .nullPointer s
    else continueAt env f rest heap (.acquire o :: log) (f.pc + len) f.locals st
  | .monitorexit, .obj o :: st =>
    if o = 0#64 then raiseNew env .nullPointer s
    else continueAt env f rest heap (.release o :: log) (f.pc + len) f.locals st
  | _, _ => none

/-- One step of a thread. -/
def step (env : Env) (s : SS) : Option SOut :=
  match s.frames with
  | [] => none
  | f :: rest => do
    let (i, len) ← decode (env.meth f.m).code.body f.pc
    exec env f rest s.heap s.log len i

/-- An invoke instruction may also fail because the thread's stack is exhausted. -/
def overflow (env : Env) (s : SS) : Option SOut :=
  match s.frames with
  | [] => none
  | f :: _ => do
    let (i, _) ← decode (env.meth f.m).code.body f.pc
    match i with
    | .invoke _ _ => raiseNew env .stackOverflow s
    | _ => none

/-- The bounds of the exception handlers of the methods being executed do not lie strictly inside
the instruction each frame is at (required of class files). -/
def handlersAligned (env : Env) (s : SS) : Prop :=
  ∀ f ∈ s.frames, ∀ i len, decode (env.meth f.m).code.body f.pc = some (i, len) →
    ∀ eh ∈ (env.meth f.m).code.handlers,
      ¬ (f.pc < (handlerOf eh).start ∧ (handlerOf eh).start < f.pc + len) ∧
      ¬ (f.pc < (handlerOf eh).stop ∧ (handlerOf eh).stop < f.pc + len)

/-- Slots of stack area taken by the frames: local variables, operands and four words each. -/
def slotsUsed : List Frame → Nat
  | [] => 0
  | f :: rest => f.locals.length + 4 + f.stack.length + slotsUsed rest

/-! ### Where the interpreter departs from the specification -/

/-- The operand stack instruction has operands on which the interpreter departs from the
specification: comparison with not-a-number (two values are pushed), division of the minimum by -1
(undefined in C++), `f2l` of a finite number outside the range of `long` (undefined in C++). -/
def SOp.departs : SOp → List Slot → Prop
  | .fcmpl, .int b :: .int a :: _ | .fcmpg, .int b :: .int a :: _ =>
    fval a = .nan ∨ fval b = .nan
  | .dcmpl, .int bl :: .int bh :: .int al :: .int ah :: _
  | .dcmpg, .int bl :: .int bh :: .int al :: .int ah :: _ =>
    dval (asLong ah al) = .nan ∨ dval (asLong bh bl) = .nan
  | .idiv, .int b :: .int a :: _ | .irem, .int b :: .int a :: _ =>
    a = BitVec.intMin 32 ∧ b = BitVec.allOnes 32
  | .ldiv, .int bl :: .int bh :: .int al :: .int ah :: _
  | .lrem, .int bl :: .int bh :: .int al :: .int ah :: _ =>
    asLong ah al = BitVec.intMin 64 ∧ asLong bh bl = BitVec.allOnes 64
  | .f2l, .int a :: _ =>
    ∃ v, fval a = .fin v ∧ ¬ (-(2 ^ 63) ≤ v.tdiv (2 ^ fscale) ∧ v.tdiv (2 ^ fscale) < 2 ^ 63)
  | _, _ => False

/-- The instruction is a wide form that the interpreter does not have, or one whose operand it
misreads: `wide fload/dload/fstore/dstore`; an index of 32768 or more; a return address stored by
`wide astore`. -/
def wideDeparts (c : List (BitVec 8)) (pc : Nat) (stack : List Slot) : Prop :=
  u1 c pc = some 196 ∧
    (u1 c (pc + 1) ∈ [some 23, some 24, some 56, some 57] ∨
      ((∃ n, u2 c (pc + 2) = some n ∧ 32768 ≤ n) ∧ u1 c (pc + 1) ≠ some 132) ∨
      (u1 c (pc + 1) = some 58 ∧ ∃ v st, stack = .int v :: st))

/-- A field read that departs: a `char` of 32768 or more is sign-extended. -/
def charDeparts (fd : Field) (bytes : Nat → BitVec 8) : Prop :=
  fd.kind = .char ∧ 32768 ≤ leNat bytes fd.offset 2

/-- The frame of a synchronized instance method whose local variable 0 no longer holds the locked
object: the interpreter releases whatever local variable 0 holds. -/
def lockDeparts (env : Env) (f : Frame) : Prop :=
  (env.meth f.m).isSync = true ∧ (env.meth f.m).isStatic = false ∧
    ∃ o, f.lock = some o ∧ f.locals[0]? ≠ some (.obj o)

/-- The step about to be made is one where the interpreter departs from the specification. -/
def departs (env : Env) (s : SS) : Prop :=
  (∃ f ∈ s.frames, lockDeparts env f) ∨
  match s.frames with
  | [] => False
  | f :: _ =>
    wideDeparts (env.meth f.m).code.body f.pc f.stack ∨
    match decode (env.meth f.m).code.body f.pc, f.stack with
    | some (.op o, _), st => o.departs st
    | some (.getfield idx, _), .obj o :: _ =>
      ∃ fd x, env.resolveField f.m idx = some fd ∧ s.heap o = some x ∧ charDeparts fd x.bytes
    | some (.getstatic idx, _), _ =>
      ∃ fd x, env.resolveField f.m idx = some fd ∧ s.heap fd.table = some x ∧
        charDeparts fd x.bytes
    | some (.astore .ref, _), v :: .int i :: .obj a :: _ =>
      ∃ x arr, s.heap a = some x ∧ x.arr = some arr ∧ 0 ≤ i.toInt ∧ i.toInt < arr.length ∧
        storeAllowed env s.heap x.cls [v] = false
    | _, _ => False

end Avian.Interp.Spec
