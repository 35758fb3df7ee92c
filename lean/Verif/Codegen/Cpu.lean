/-
A part of the x86-64 processor, in 64-bit mode: decoding and executing the instructions that the compiler's assembler
emits.

This is not a model of code in /repo: it is the specification against which the assembler (`Codegen/X86`) is proved.  It
follows the Intel 64 manual, volume 2 (instruction format, ModRM and SIB bytes, REX prefixes, the pages of the
instructions).  Of an xmm register only the low 64 bits are there.  Flags that an instruction leaves undefined keep their
values here, and so do the flags of shifts, multiplications and negations, of which nothing below makes use.
-/
namespace Avian.X86.Cpu

abbrev Byte := BitVec 8

/-- Number of a register, 0 to 15. -/
abbrev R := BitVec 4

structure Flags where
  cf : Bool
  pf : Bool
  zf : Bool
  sf : Bool
  ovf : Bool
deriving DecidableEq

structure State where
  gpr : R → BitVec 64
  xmm : R → BitVec 64
  mem : BitVec 64 → Byte
  flags : Flags

/-- Operand sizes. -/
inductive Width where
  | b | w | d | q
deriving DecidableEq

def Width.bits : Width → Nat
  | .b => 8 | .w => 16 | .d => 32 | .q => 64

def Width.bytes : Width → Nat
  | .b => 1 | .w => 2 | .d => 4 | .q => 8

/-- Operand given by a ModRM byte.  `reg8h` is the second byte of one of the first four registers (ah, ch, dh, bh). -/
inductive Rm where
  | reg (r : R)
  | reg8h (r : R)
  | mem (base : Option R) (index : Option (R × BitVec 2)) (disp : BitVec 64)
  | rip (disp : BitVec 64)
deriving DecidableEq

inductive Alu where
  | add | or | adc | sbb | and | sub | xor | cmp
deriving DecidableEq

inductive Shift where
  | shl | shr | sar
deriving DecidableEq

/-- Conditions of jumps, by their number. -/
abbrev Cond := BitVec 4

/-- Scalar floating point instructions, by the second byte of the opcode. -/
abbrev Sse := Byte

inductive Instr where
  /-- `op r/m, r` -/
  | alu (o : Alu) (w : Width) (dst : Rm) (src : R)
  | aluI (o : Alu) (w : Width) (dst : Rm) (imm : BitVec 64)
  | store (w : Width) (dst src : Rm)
  | load (w : Width) (dst : R) (src : Rm)
  | storeI (w : Width) (dst : Rm) (imm : BitVec 64)
  | movI (w : Width) (dst : R) (imm : BitVec 64)
  | movsx (to frm : Width) (dst : R) (src : Rm)
  | movzx (to frm : Width) (dst : R) (src : Rm)
  | xchg (w : Width) (a : Rm) (b : R)
  | imul (w : Width) (dst : R) (src : Rm)
  | imulI (w : Width) (dst : R) (src : Rm) (imm : BitVec 64)
  | neg (w : Width) (dst : Rm)
  | idiv (w : Width) (src : Rm)
  /-- cdq, cqo -/
  | cwd (w : Width)
  /-- by a constant, or by cl -/
  | shift (o : Shift) (w : Width) (dst : Rm) (count : Option Byte)
  | push (r : R)
  | pop (r : R)
  | ret
  | call (rel : BitVec 64)
  | callM (target : Rm)
  | jmp (rel : BitVec 64)
  | jmpM (target : Rm)
  | jcc (c : Cond) (rel : BitVec 64)
  /-- movss, movsd from the second operand; `w` is `.d` or `.q` -/
  | movs (w : Width) (dst : R) (src : Rm)
  /-- movd, movq to and from an xmm register -/
  | toXmm (w : Width) (dst : R) (src : Rm)
  | fromXmm (w : Width) (dst : Rm) (src : R)
  | ucomis (w : Width) (a : R) (b : Rm)
  | xorps (dst : R) (src : Rm)
  | andps (dst : R) (src : Rm)
  /-- a scalar operation on floats (`.d`) or doubles (`.q`) -/
  | sse (o : Sse) (w : Width) (dst : R) (src : Rm)
  /-- a float or double (`w`) from a signed integer of size `g` -/
  | cvtsi (w g : Width) (dst : R) (src : Rm)
  | mfence
  | int3
  | nop
deriving DecidableEq

/-! ### Decoding -/

/-- The REX prefix: whether there is one, and its bits, which are zero without it. -/
structure Rex where
  present : Bool
  w : Bool
  r : Bool
  x : Bool
  b : Bool
deriving DecidableEq

/-- A REX prefix is a byte 0100wrxb. -/
def takeRex : List Byte → Rex × List Byte
  | [] => (⟨false, false, false, false, false⟩, [])
  | v :: rest =>
    if v.extractLsb' 4 4 = 4#4 then (⟨true, v.getLsbD 3, v.getLsbD 2, v.getLsbD 1, v.getLsbD 0⟩, rest)
    else (⟨false, false, false, false, false⟩, v :: rest)

/-- A register number: a bit of the REX prefix above three bits. -/
def num (high : Bool) (low : BitVec 3) : R := (BitVec.ofBool high) ++ low

def le2 : List Byte → Option (BitVec 16 × List Byte)
  | a :: b :: rest => some (b ++ a, rest)
  | _ => none

def le4 : List Byte → Option (BitVec 32 × List Byte)
  | a :: b :: c :: d :: rest => some (d ++ (c ++ (b ++ a : BitVec 16) : BitVec 24), rest)
  | _ => none

def le8 (l : List Byte) : Option (BitVec 64 × List Byte) :=
  match le4 l with
  | none => none
  | some (lo, rest) =>
    match le4 rest with
    | none => none
    | some (hi, rest) => some (hi ++ lo, rest)

/-- The displacement behind a ModRM byte (and SIB byte) with this `mod`. -/
def disp (mod : BitVec 2) (rest : List Byte) : Option (BitVec 64 × List Byte) :=
  match mod with
  | 0#2 => some (0, rest)
  | 1#2 => match rest with
    | [] => none
    | v :: rest => some (v.signExtend 64, rest)
  | _ => (le4 rest).map fun p => (p.1.signExtend 64, p.2)

/-- Operand with a SIB byte: index 100 without REX.X is no index; base 101 with `mod` 00 is no base, but 32 bits of
displacement. -/
def sibOperand (x b : Bool) (mod : BitVec 2) : List Byte → Option (Rm × List Byte)
  | [] => none
  | v :: rest =>
    let index := num x (v.extractLsb' 3 3)
    let i := if index = 4#4 then none else some (index, v.extractLsb' 6 2)
    if v.extractLsb' 0 3 = 5#3 ∧ mod = 0#2 then
      (disp 2#2 rest).map fun p => (.mem none i p.1, p.2)
    else (disp mod rest).map fun p => (.mem (some (num b (v.extractLsb' 0 3))) i p.1, p.2)

/-- A ModRM byte and what belongs to it: the `reg` field and the operand. -/
def modrm (rex : Rex) : List Byte → Option (BitVec 3 × R × Rm × List Byte)
  | [] => none
  | v :: rest =>
    let field := v.extractLsb' 3 3
    let reg := num rex.r field
    let rm := v.extractLsb' 0 3
    let mod := v.extractLsb' 6 2
    if mod = 3#2 then some (field, reg, .reg (num rex.b rm), rest)
    else if rm = 4#3 then (sibOperand rex.x rex.b mod rest).map fun p => (field, reg, p.1, p.2)
    else if rm = 5#3 ∧ mod = 0#2 then (disp 2#2 rest).map fun p => (field, reg, .rip p.1, p.2)
    else (disp mod rest).map fun p => (field, reg, .mem (some (num rex.b rm)) none p.1, p.2)

/-- Without REX prefix the byte registers 4 to 7 are ah, ch, dh, bh. -/
def byteReg (rex : Rex) (r : R) : Rm :=
  if !rex.present && r.getLsbD 2 then .reg8h (r - 4#4) else .reg r

def byteRm (rex : Rex) : Rm → Rm
  | .reg r => byteReg rex r
  | m => m

def aluOf : BitVec 3 → Alu
  | 0#3 => .add | 1#3 => .or | 2#3 => .adc | 3#3 => .sbb | 4#3 => .and | 5#3 => .sub | 6#3 => .xor | _ => .cmp

def shiftOf : BitVec 3 → Option Shift
  | 4#3 => some .shl | 5#3 => some .shr | 7#3 => some .sar | _ => none

/-- Prefixes that select between the instructions of an opcode. -/
inductive Pfx where
  | no | p66 | pF2 | pF3
deriving DecidableEq

def takePfx : List Byte → Pfx × List Byte
  | [] => (.no, [])
  | v :: rest =>
    if v = 0x66#8 then (.p66, rest)
    else if v = 0xf2#8 then (.pF2, rest)
    else if v = 0xf3#8 then (.pF3, rest)
    else (.no, v :: rest)

/-- The size of an operand that is not a byte. -/
def osize (p : Pfx) (rex : Rex) : Width :=
  if rex.w then .q else if p = .p66 then .w else .d

def gsize (rex : Rex) : Width :=
  if rex.w then .q else .d

/-- An immediate operand of the full size: 16 or 32 bits. -/
def immOf (w : Width) (l : List Byte) : Option (BitVec 64 × List Byte) :=
  match w with
  | .b => match l with | [] => none | v :: rest => some (v.signExtend 64, rest)
  | .w => (le2 l).map fun p => (p.1.signExtend 64, p.2)
  | _ => (le4 l).map fun p => (p.1.signExtend 64, p.2)

/-- Opcodes f3 0f xx (floats) and f2 0f xx (doubles): moves, conversions, square root, sum, product, change of precision,
difference, quotient. -/
def decodeS (w : Width) (rex : Rex) (op : Byte) (r : R) (m : Rm) (rest : List Byte) : Option (Instr × List Byte) :=
  if op = 0x10#8 then some (.movs w r m, rest)
  else if op = 0x2a#8 then some (.cvtsi w (gsize rex) r m, rest)
  else if op = 0x51#8 ∨ op = 0x58#8 ∨ op = 0x59#8 ∨ op = 0x5a#8 ∨ op = 0x5c#8 ∨ op = 0x5e#8 then some (.sse op w r m, rest)
  else none

/-- Opcodes 0f xx. -/
def decode2 (p : Pfx) (rex : Rex) (op : Byte) (rest : List Byte) : Option (Instr × List Byte) :=
  if op.extractLsb' 4 4 = 8#4 then
    (le4 rest).map fun q => (.jcc (op.extractLsb' 0 4) (q.1.signExtend 64), q.2)
  else if op = 0xae#8 then
    match rest with
    | v :: rest => if v = 0xf0#8 then some (.mfence, rest) else none
    | [] => none
  else
    match modrm rex rest with
    | none => none
    | some (_, r, m, rest) =>
      if op = 0xbe#8 then some (.movsx (osize p rex) .b r (byteRm rex m), rest)
      else if op = 0xbf#8 then some (.movsx (osize p rex) .w r m, rest)
      else if op = 0xb6#8 then some (.movzx (osize p rex) .b r (byteRm rex m), rest)
      else if op = 0xb7#8 then some (.movzx (osize p rex) .w r m, rest)
      else if op = 0xaf#8 then some (.imul (osize p rex) r m, rest)
      else
        match p with
        | .p66 =>
          if op = 0x6e#8 then some (.toXmm (gsize rex) r m, rest)
          else if op = 0x7e#8 then some (.fromXmm (gsize rex) m r, rest)
          else if op = 0x2e#8 then some (.ucomis .q r m, rest)
          else none
        | .no =>
          if op = 0x2e#8 then some (.ucomis .d r m, rest)
          else if op = 0x57#8 then some (.xorps r m, rest)
          else if op = 0x54#8 then some (.andps r m, rest)
          else none
        | .pF3 => decodeS .d rex op r m rest
        | .pF2 => decodeS .q rex op r m rest

/-- One-byte opcodes with a ModRM byte. -/
def decodeM (p : Pfx) (rex : Rex) (op : Byte) (rest : List Byte) : Option (Instr × List Byte) :=
  match modrm rex rest with
  | none => none
  | some (field, r, m, rest) =>
    let w := osize p rex
    if op.extractLsb' 6 2 = 0#2 ∧ op.extractLsb' 0 3 = 1#3 then some (.alu (aluOf (op.extractLsb' 3 3)) w m r, rest)
    else if op = 0x63#8 then some (.movsx w .d r m, rest)
    else if op = 0x69#8 then (immOf w rest).map fun q => (.imulI w r m q.1, q.2)
    else if op = 0x6b#8 then (immOf .b rest).map fun q => (.imulI w r m q.1, q.2)
    else if op = 0x81#8 then (immOf w rest).map fun q => (.aluI (aluOf field) w m q.1, q.2)
    else if op = 0x83#8 then (immOf .b rest).map fun q => (.aluI (aluOf field) w m q.1, q.2)
    else if op = 0x87#8 then some (.xchg w m r, rest)
    else if op = 0x88#8 then some (.store .b (byteRm rex m) (byteReg rex r), rest)
    else if op = 0x89#8 then some (.store w m (.reg r), rest)
    else if op = 0x8b#8 then some (.load w r m, rest)
    else if op = 0xc1#8 ∨ op = 0xd1#8 ∨ op = 0xd3#8 then
      match shiftOf field with
      | none => none
      | some o =>
        if op = 0xd1#8 then some (.shift o w m (some 1), rest)
        else if op = 0xd3#8 then some (.shift o w m none, rest)
        else match rest with
          | [] => none
          | v :: rest => some (.shift o w m (some v), rest)
    else if op = 0xc6#8 ∧ field = 0#3 then (immOf .b rest).map fun q => (.storeI .b (byteRm rex m) q.1, q.2)
    else if op = 0xc7#8 ∧ field = 0#3 then (immOf w rest).map fun q => (.storeI w m q.1, q.2)
    else if op = 0xf7#8 ∧ field = 3#3 then some (.neg w m, rest)
    else if op = 0xf7#8 ∧ field = 7#3 then some (.idiv w m, rest)
    else if op = 0xff#8 ∧ field = 2#3 then some (.callM m, rest)
    else if op = 0xff#8 ∧ field = 4#3 then some (.jmpM m, rest)
    else none

/-- One-byte opcodes. -/
def decode1 (p : Pfx) (rex : Rex) (op : Byte) (rest : List Byte) : Option (Instr × List Byte) :=
  let low := num rex.b (op.extractLsb' 0 3)
  if op.extractLsb' 3 5 = 0x0a#5 then some (.push low, rest)
  else if op.extractLsb' 3 5 = 0x0b#5 then some (.pop low, rest)
  else if op.extractLsb' 3 5 = 0x17#5 then
    if rex.w then (le8 rest).map fun q => (.movI .q low q.1, q.2)
    else (le4 rest).map fun q => (.movI .d low (q.1.setWidth 64), q.2)
  else if op.extractLsb' 4 4 = 7#4 then (immOf .b rest).map fun q => (.jcc (op.extractLsb' 0 4) q.1, q.2)
  else if op = 0x99#8 then some (.cwd (osize p rex), rest)
  else if op = 0xc3#8 then some (.ret, rest)
  else if op = 0xcc#8 then some (.int3, rest)
  else if op = 0x90#8 then if rex.b then none else some (.nop, rest)
  else if op = 0xe8#8 then (le4 rest).map fun q => (.call (q.1.signExtend 64), q.2)
  else if op = 0xe9#8 then (le4 rest).map fun q => (.jmp (q.1.signExtend 64), q.2)
  else decodeM p rex op rest

/-- The first instruction, and the bytes behind it. -/
def decode (l : List Byte) : Option (Instr × List Byte) :=
  let (p, l) := takePfx l
  let (rex, l) := takeRex l
  match l with
  | [] => none
  | v :: rest =>
    if v = 0x0f#8 then
      match rest with
      | [] => none
      | op :: rest => decode2 p rex op rest
    else decode1 p rex v rest

/-! ### Executing -/

/-- `n` bytes from an address, the first one lowest. -/
def readMem (m : BitVec 64 → Byte) (a : BitVec 64) : Width → BitVec 64
  | .b => (m a).setWidth 64
  | .w => (m (a + 1) ++ m a : BitVec 16).setWidth 64
  | .d => (m (a + 3) ++ (m (a + 2) ++ (m (a + 1) ++ m a : BitVec 16) : BitVec 24) : BitVec 32).setWidth 64
  | .q => ((m (a + 7) ++ (m (a + 6) ++ (m (a + 5) ++ m (a + 4) : BitVec 16) : BitVec 24) : BitVec 32) ++
      (m (a + 3) ++ (m (a + 2) ++ (m (a + 1) ++ m a : BitVec 16) : BitVec 24) : BitVec 32))

def writeMem (m : BitVec 64 → Byte) (a : BitVec 64) (w : Width) (v : BitVec 64) : BitVec 64 → Byte := fun x =>
  if (x - a).toNat < w.bytes then v.extractLsb' (8 * (x - a).toNat) 8 else m x

def setReg (f : R → BitVec 64) (r : R) (v : BitVec 64) : R → BitVec 64 := fun x => if x = r then v else f x

/-- A register is written: 32 bits clear the upper half, 8 and 16 bits leave the rest. -/
def merge (w : Width) (old v : BitVec 64) : BitVec 64 :=
  match w with
  | .b => (old.extractLsb' 8 56 ++ v.setWidth 8 : BitVec 64)
  | .w => (old.extractLsb' 16 48 ++ v.setWidth 16 : BitVec 64)
  | .d => (v.setWidth 32).setWidth 64
  | .q => v

def address (s : State) (next : BitVec 64) : Rm → BitVec 64
  | .mem base index disp =>
    (match base with | some r => s.gpr r | none => 0) +
    (match index with | some (r, k) => s.gpr r <<< k.toNat | none => 0) + disp
  | .rip disp => next + disp
  | _ => 0

/-- The lowest bits of an operand, the others are zero. -/
def get (s : State) (next : BitVec 64) (w : Width) : Rm → BitVec 64
  | .reg r => (s.gpr r).setWidth w.bits |>.setWidth 64
  | .reg8h r => ((s.gpr r).extractLsb' 8 8).setWidth 64
  | m => readMem s.mem (address s next m) w

def put (s : State) (next : BitVec 64) (w : Width) (v : BitVec 64) : Rm → State
  | .reg r => { s with gpr := setReg s.gpr r (merge w (s.gpr r) v) }
  | .reg8h r => { s with gpr := setReg s.gpr r ((s.gpr r).extractLsb' 16 48 ++ (v.setWidth 8 ++ (s.gpr r).setWidth 8 : BitVec 16)) }
  | m => { s with mem := writeMem s.mem (address s next m) w v }

def sext (w : Width) (v : BitVec 64) : BitVec 64 := (v.setWidth w.bits).signExtend 64

def parity (v : BitVec 64) : Bool :=
  !((List.range 8).foldl (fun p i => p != v.getLsbD i) false)

/-- The result of an operation on operands of a size, and the flags. -/
def aluRes (o : Alu) (w : Width) (f : Flags) (a b : BitVec 64) : BitVec 64 :=
  let c : BitVec 64 := if f.cf then 1 else 0
  ((match o with
    | .add => a + b | .adc => a + b + c
    | .sub => a - b | .cmp => a - b | .sbb => a - b - c
    | .and => a &&& b | .or => a ||| b | .xor => a ^^^ b).setWidth w.bits).setWidth 64

def msbOf (w : Width) (v : BitVec 64) : Bool := v.getLsbD (w.bits - 1)

def aluFlags (o : Alu) (w : Width) (f : Flags) (a b : BitVec 64) : Flags :=
  let r := aluRes o w f a b
  let au := (a.setWidth w.bits).toNat
  let bu := (b.setWidth w.bits).toNat
  let c := if f.cf then 1 else 0
  let cf := match o with
    | .add => 2 ^ w.bits ≤ au + bu | .adc => 2 ^ w.bits ≤ au + bu + c
    | .sub => au < bu | .cmp => au < bu | .sbb => au < bu + c
    | _ => false
  let ovf := match o with
    | .add => msbOf w a == msbOf w b && msbOf w r != msbOf w a
    | .adc => msbOf w a == msbOf w b && msbOf w r != msbOf w a
    | .sub => msbOf w a != msbOf w b && msbOf w r != msbOf w a
    | .cmp => msbOf w a != msbOf w b && msbOf w r != msbOf w a
    | .sbb => msbOf w a != msbOf w b && msbOf w r != msbOf w a
    | _ => false
  ⟨cf, parity r, r == 0, msbOf w r, ovf⟩

def exAlu (o : Alu) (w : Width) (s : State) (next : BitVec 64) (dst : Rm) (b : BitVec 64) : State :=
  let a := get s next w dst
  let s' := { s with flags := aluFlags o w s.flags a b }
  if o = .cmp then s' else put s' next w (aluRes o w s.flags a b) dst

def holds (f : Flags) (c : Cond) : Bool :=
  let base := match c.extractLsb' 1 3 with
    | 0#3 => f.ovf
    | 1#3 => f.cf
    | 2#3 => f.zf
    | 3#3 => f.cf || f.zf
    | 4#3 => f.sf
    | 5#3 => f.pf
    | 6#3 => f.sf != f.ovf
    | _ => f.zf || (f.sf != f.ovf)
  base != c.getLsbD 0

/-- The number of places of a shift: six bits for 64-bit operands, five for others. -/
def places (w : Width) (v : Byte) : Nat := if w = .q then v.toNat % 64 else v.toNat % 32

def exShift (o : Shift) (w : Width) (v : BitVec 64) (n : Nat) : BitVec 64 :=
  match o with
  | .shl => v <<< n
  | .shr => v >>> n
  | .sar => (sext w v).sshiftRight n

/-- Floating point: how two operands compare, and what the other instructions give.  All that is said about it is in the
theorems' hypotheses. -/
structure Fpu where
  /-- the first is less, they are equal, the first is greater; `none`: they are not ordered -/
  compare : Width → BitVec 64 → BitVec 64 → Option Ordering
  /-- the operation of an opcode, on the old value of the destination and the source -/
  op : Sse → Width → BitVec 64 → BitVec 64 → BitVec 64
  /-- the float or double next to an integer -/
  cvt : Width → Int → BitVec 64

/-- The low part of an xmm register or of memory. -/
def getX (s : State) (next : BitVec 64) (w : Width) : Rm → BitVec 64
  | .reg r => (s.xmm r).setWidth w.bits |>.setWidth 64
  | m => get s next w m

def mergeX (w : Width) (old v : BitVec 64) : BitVec 64 :=
  match w with
  | .q => v
  | _ => (old.extractLsb' 32 32 ++ v.setWidth 32 : BitVec 64)

/-- Only the change of precision (5a) has a result of the other size. -/
def resultWidth (o : Sse) (w : Width) : Width :=
  if o = 0x5a#8 then (if w = .d then .q else .d) else w

/-- What comes after an instruction: the next one, another address, or an exception of the processor. -/
inductive Next where
  | next (s : State)
  | jump (a : BitVec 64) (s : State)
  | fault

/-- Signed division of rdx:rax. -/
def exDiv (w : Width) (s : State) (b : BitVec 64) : Option State :=
  let d : Int := ((sext w b).toInt)
  let n : Int := (sext w (s.gpr 2)).toInt * 2 ^ w.bits + ((s.gpr 0).setWidth w.bits).toNat
  if d = 0 then none
  else
    let q := n.tdiv d
    if q < -(2 ^ (w.bits - 1)) ∨ 2 ^ (w.bits - 1) ≤ q then none
    else
      let g := setReg s.gpr 0 (merge w (s.gpr 0) (BitVec.ofInt 64 q))
      some { s with gpr := setReg g 2 (merge w (s.gpr 2) (BitVec.ofInt 64 (n.tmod d))) }

/-- Execute an instruction; `next` is the address behind it. -/
def exec (fpu : Fpu) (i : Instr) (next : BitVec 64) (s : State) : Next :=
  match i with
  | .alu o w dst src => .next (exAlu o w s next dst (get s next w (.reg src)))
  | .aluI o w dst imm => .next (exAlu o w s next dst imm)
  | .store w dst src => .next (put s next w (get s next w src) dst)
  | .load w dst src => .next (put s next w (get s next w src) (.reg dst))
  | .storeI w dst imm => .next (put s next w imm dst)
  | .movI w dst imm => .next (put s next w imm (.reg dst))
  | .movsx to frm dst src => .next (put s next to (sext frm (get s next frm src)) (.reg dst))
  | .movzx to frm dst src => .next (put s next to (get s next frm src) (.reg dst))
  | .xchg w a b =>
    let x := get s next w a
    let y := get s next w (.reg b)
    .next (put (put s next w y a) next w x (.reg b))
  | .imul w dst src => .next (put s next w (get s next w (.reg dst) * get s next w src) (.reg dst))
  | .imulI w dst src imm => .next (put s next w (get s next w src * imm) (.reg dst))
  | .neg w dst => .next (put s next w (- get s next w dst) dst)
  | .idiv w src => match exDiv w s (get s next w src) with
    | none => .fault
    | some s => .next s
  | .cwd w => .next (put s next w (if msbOf w (s.gpr 0) then -1 else 0) (.reg 2))
  | .shift o w dst count =>
    let n := places w (match count with | some v => v | none => (s.gpr 1).setWidth 8)
    .next (put s next w (exShift o w (get s next w dst) n) dst)
  | .push r =>
    let sp := s.gpr 4 - 8
    .next { s with gpr := setReg s.gpr 4 sp, mem := writeMem s.mem sp .q (s.gpr r) }
  | .pop r =>
    .next { s with gpr := setReg (setReg s.gpr 4 (s.gpr 4 + 8)) r (readMem s.mem (s.gpr 4) .q) }
  | .ret => .jump (readMem s.mem (s.gpr 4) .q) { s with gpr := setReg s.gpr 4 (s.gpr 4 + 8) }
  | .call rel =>
    let sp := s.gpr 4 - 8
    .jump (next + rel) { s with gpr := setReg s.gpr 4 sp, mem := writeMem s.mem sp .q next }
  | .callM m =>
    let sp := s.gpr 4 - 8
    .jump (get s next .q m) { s with gpr := setReg s.gpr 4 sp, mem := writeMem s.mem sp .q next }
  | .jmp rel => .jump (next + rel) s
  | .jmpM m => .jump (get s next .q m) s
  | .jcc c rel => if holds s.flags c then .jump (next + rel) s else .next s
  | .movs w dst src =>
    let v := getX s next w src
    let old := match src with | .reg _ => s.xmm dst | _ => 0
    .next { s with xmm := setReg s.xmm dst (mergeX w old v) }
  | .toXmm w dst src => .next { s with xmm := setReg s.xmm dst (get s next w src) }
  | .fromXmm w dst src => .next (put s next w ((s.xmm src).setWidth w.bits |>.setWidth 64) dst)
  | .ucomis w a b =>
    let f := match fpu.compare w (getX s next w (.reg a)) (getX s next w b) with
      | none => ⟨true, true, true, false, false⟩
      | some .lt => ⟨true, false, false, false, false⟩
      | some .eq => ⟨false, false, true, false, false⟩
      | some .gt => ⟨false, false, false, false, false⟩
    .next { s with flags := f }
  | .xorps dst src => .next { s with xmm := setReg s.xmm dst (s.xmm dst ^^^ getX s next .q src) }
  | .andps dst src => .next { s with xmm := setReg s.xmm dst (s.xmm dst &&& getX s next .q src) }
  | .sse o w dst src =>
    let v := fpu.op o w (getX s next w (.reg dst)) (getX s next w src)
    .next { s with xmm := setReg s.xmm dst (mergeX (resultWidth o w) (s.xmm dst) v) }
  | .cvtsi w g dst src =>
    .next { s with xmm := setReg s.xmm dst (mergeX w (s.xmm dst) (fpu.cvt w (sext g (get s next g src)).toInt)) }
  | .mfence => .next s
  | .int3 => .fault
  | .nop => .next s

/-- Where a piece of code ends: at an address, with a state; or with an exception, or at bytes that are no instruction. -/
inductive Out where
  | at (pc : BitVec 64) (s : State)
  | fault
  | undefined

/-- A piece of code at address `pc` is executed until control leaves it. -/
def run (fpu : Fpu) : Nat → List Byte → BitVec 64 → State → Out
  | _, [], pc, s => .at pc s
  | 0, _, _, _ => .undefined
  | n + 1, l, pc, s =>
    match decode l with
    | none => .undefined
    | some (i, rest) =>
      let next := pc + BitVec.ofNat 64 (l.length - rest.length)
      match exec fpu i next s with
      | .next s => run fpu n rest next s
      | .jump a s => .at a s
      | .fault => .fault

end Avian.X86.Cpu
