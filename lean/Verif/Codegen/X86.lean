import Verif.Codegen.Cpu

/-
The assembler of the compiler for x86-64: src/codegen/target/x86/encode.cpp, operations.cpp, and the patching of offsets in
fixup.cpp.

Simplifications: only the branches for `TargetBytesPerWord == 8` are modelled; of a register pair only the low register is
there, which is all that these use.  Sizes 1, 2, 4, 8 are the widths of `Cpu`.  A temporary register, which the client of the
assembler provides (`acquireTemporary`), is a parameter.  Values of constants are known (`resolved`), except for the targets
of jumps and calls, which are filled in by tasks.  The code is one block without padding.
-/
namespace Avian.X86

open Cpu (Byte Width)

/-- src/codegen/target/x86/registers.h:18-49: 0 to 15 are general registers, 16 to 31 are xmm registers. -/
abbrev Register := BitVec 5

def rax : Register := 0#5
def rcx : Register := 1#5
def rdx : Register := 2#5
def rsp : Register := 4#5
def rbp : Register := 5#5
def rdi : Register := 7#5
def r10 : Register := 10#5
def xmm0 : Register := 16#5

/-- include/avian/codegen/lir.h:167-178 `Memory`: `none` is `NoRegister`. -/
structure Memory where
  base : Register
  offset : BitVec 32
  index : Option Register
  scale : Nat
deriving DecidableEq

/-- encode.h:45-48 `regCode`. -/
def regCode (a : Register) : Byte := (a &&& 7#5).setWidth 8

/-- encode.h:55-58 `isFloatReg`. -/
def isFloatReg (a : Register) : Bool := xmm0.toNat ≤ a.toNat

/-- src/avian/common.h:311-314 `fitsInInt8`. -/
def fitsInInt8 (v : BitVec 64) : Bool := v == (v.setWidth 8).signExtend 64

/-- src/avian/common.h:321-324 `fitsInInt32`. -/
def fitsInInt32 (v : BitVec 64) : Bool := v == (v.setWidth 32).signExtend 64

/-- encode.cpp:29-40 `signExtend`. -/
def signExtend (size : Width) (v : BitVec 64) : BitVec 64 :=
  match size with
  | .d => (v.setWidth 32).signExtend 64
  | .w => (v.setWidth 16).signExtend 64
  | .b => (v.setWidth 8).signExtend 64
  | .q => v

/-- include/avian/util/math.h:56-62 `log`; the fuel is enough for 32-bit numbers up to 2^31. -/
def logLoop : Nat → Nat → Nat → Nat → Nat
  | 0, _, _, r => r
  | fuel + 1, n, i, r => if i < n then logLoop fuel n (2 * i) (r + 1) else r

def log (n : Nat) : Nat := logLoop 32 n 1 0

/-- `code.append2`, `append4`, `appendTargetAddress`: little-endian. -/
def append2 (v : BitVec 64) : List Byte := [v.extractLsb' 0 8, v.extractLsb' 8 8]

def append4 (v : BitVec 64) : List Byte := [v.extractLsb' 0 8, v.extractLsb' 8 8, v.extractLsb' 16 8, v.extractLsb' 24 8]

def append8 (v : BitVec 64) : List Byte :=
  append4 v ++ [v.extractLsb' 32 8, v.extractLsb' 40 8, v.extractLsb' 48 8, v.extractLsb' 56 8]

/-- `code.append` of an integer. -/
def append (v : BitVec 64) : List Byte := [v.setWidth 8]

/-- `r != NoRegister and (r.index() & 8)`. -/
def bit8 (r : Option Register) : Bool :=
  match r with
  | none => false
  | some r => r &&& 8#5 != 0#5

/-- encode.cpp:54-77 `maybeRex`. -/
def maybeRex (size : Width) (a index base : Option Register) (always : Bool) : List Byte :=
  let byte : Byte := if size = .q then 0x48#8 else 0x40#8
  let byte := if bit8 a then byte ||| 0x44#8 else byte
  let byte := if bit8 index then byte ||| 0x42#8 else byte
  let byte := if bit8 base then byte ||| 0x41#8 else byte
  if always || byte != 0x40#8 then [byte] else []

/-- encode.cpp:79-82 `maybeRex` for two registers. -/
def maybeRexRR (size : Width) (a b : Register) : List Byte := maybeRex size (some a) none (some b) false

/-- encode.cpp:84-87 `alwaysRex`. -/
def alwaysRex (size : Width) (a b : Register) : List Byte := maybeRex size (some a) none (some b) true

/-- encode.cpp:89-92 `maybeRex` for one register. -/
def maybeRexR (size : Width) (a : Register) : List Byte := maybeRex size none none (some a) false

/-- encode.cpp:94-97 `maybeRex` for a register and memory. -/
def maybeRexRM (size : Width) (a : Register) (b : Memory) : List Byte :=
  maybeRex size (some a) b.index (some b.base) (size == .b && a &&& 4#5 != 0#5)

/-- encode.cpp:99-102 `maybeRex` for memory. -/
def maybeRexM (size : Width) (a : Memory) : List Byte := maybeRex size none a.index (some a.base) false

/-- encode.cpp:104-107 `modrm`. -/
def modrm (mod : Byte) (a b : Register) : List Byte := [mod ||| (regCode b <<< 3) ||| regCode a]

/-- encode.cpp:114-118 `sib`. -/
def sib (scale : Nat) (index base : Register) : List Byte :=
  [BitVec.ofNat 8 (log scale <<< 6) ||| (regCode index <<< 3) ||| regCode base]

/-- encode.cpp:120-131 `modrmSib`. -/
def modrmSib (width : Byte) (a : Register) (scale : Nat) (index : Option Register) (base : Register) : List Byte :=
  match index with
  | none => modrm width base a ++ (if regCode base = 4#8 then sib 0 rsp rsp else [])
  | some i => modrm width rsp a ++ sib scale i base

/-- encode.cpp:133-144 `modrmSibImm`. -/
def modrmSibImm (a : Register) (b : Memory) : List Byte :=
  let offset := b.offset.signExtend 64
  if b.offset = 0 ∧ regCode b.base ≠ 5#8 then modrmSib 0x00#8 a b.scale b.index b.base
  else if fitsInInt8 offset then modrmSib 0x40#8 a b.scale b.index b.base ++ append offset
  else modrmSib 0x80#8 a b.scale b.index b.base ++ append4 offset

/-! ### Moves -/

/-- encode.cpp:178-210 `sseMoveRR`. -/
def sseMoveRR (size : Width) (a b : Register) : List Byte :=
  if isFloatReg a && isFloatReg b then
    if size = .d then [0xf3#8] ++ maybeRexRR .d a b ++ [0x0f#8, 0x10#8] ++ modrm 0xc0#8 a b
    else [0xf2#8] ++ maybeRexRR .d b a ++ [0x0f#8, 0x10#8] ++ modrm 0xc0#8 a b
  else if isFloatReg a then [0x66#8] ++ maybeRexRR size a b ++ [0x0f#8, 0x7e#8] ++ modrm 0xc0#8 b a
  else [0x66#8] ++ maybeRexRR size b a ++ [0x0f#8, 0x6e#8] ++ modrm 0xc0#8 a b

/-- encode.cpp:395-428 `moveCR2`. -/
def moveCR2 (aSize : Width) (v : BitVec 64) (b : Register) : List Byte :=
  maybeRexR .q b ++ [0xb8#8 + regCode b] ++ append8 (signExtend aSize v)

/-- encode.cpp:212-223 `sseMoveCR`. -/
def sseMoveCR (aSize : Width) (v : BitVec 64) (b tmp : Register) : List Byte :=
  moveCR2 aSize v tmp ++ sseMoveRR aSize tmp b

/-- encode.cpp:225-243 `sseMoveMR`. -/
def sseMoveMR (aSize : Width) (a : Memory) (b : Register) : List Byte :=
  [0x66#8] ++ maybeRexRM aSize b a ++ [0x0f#8, 0x6e#8] ++ modrmSibImm b a

/-- encode.cpp:245-264 `sseMoveRM`. -/
def sseMoveRM (aSize : Width) (a : Register) (b : Memory) : List Byte :=
  [0x66#8] ++ maybeRexRM aSize a b ++ [0x0f#8, 0x7e#8] ++ modrmSibImm a b

/-- operations.cpp:239-250 `moveCR`. -/
def moveCR (aSize : Width) (v : BitVec 64) (b tmp : Register) : List Byte :=
  if isFloatReg b then sseMoveCR aSize v b tmp else moveCR2 aSize v b

/-- operations.cpp:252-266 `moveZCR`. -/
def moveZCR (v : BitVec 64) (b : Register) : List Byte :=
  maybeRexR .q b ++ [0xb8#8 + regCode b] ++ append8 ((v.setWidth 16).setWidth 64)

/-- operations.cpp:268-280 `swapRR`. -/
def swapRR (a b : Register) : List Byte := alwaysRex .q a b ++ [0x87#8] ++ modrm 0xc0#8 b a

/-- operations.cpp:282-363 `moveRR`. -/
def moveRR (aSize : Width) (a : Register) (bSize : Width) (b : Register) : List Byte :=
  if isFloatReg a || isFloatReg b then sseMoveRR aSize a b
  else
    match aSize with
    | .b => alwaysRex aSize b a ++ [0x0f#8, 0xbe#8] ++ modrm 0xc0#8 a b
    | .w => alwaysRex aSize b a ++ [0x0f#8, 0xbf#8] ++ modrm 0xc0#8 a b
    | .d =>
      if bSize = .q then alwaysRex bSize b a ++ [0x63#8] ++ modrm 0xc0#8 a b
      else if a ≠ b then alwaysRex aSize a b ++ [0x89#8] ++ modrm 0xc0#8 b a
      else []
    | .q => if a ≠ b then maybeRexRR aSize a b ++ [0x89#8] ++ modrm 0xc0#8 b a else []

/-- operations.cpp:365-425 `moveMR`. -/
def moveMR (aSize : Width) (a : Memory) (bSize : Width) (b : Register) : List Byte :=
  if isFloatReg b then sseMoveMR aSize a b
  else
    match aSize with
    | .b => maybeRexRM bSize b a ++ [0x0f#8, 0xbe#8] ++ modrmSibImm b a
    | .w => maybeRexRM bSize b a ++ [0x0f#8, 0xbf#8] ++ modrmSibImm b a
    | .d => maybeRexRM bSize b a ++ [0x63#8] ++ modrmSibImm b a
    | .q => maybeRexRM bSize b a ++ [0x8b#8] ++ modrmSibImm b a

/-- operations.cpp:427-483 `moveRM`. -/
def moveRM (size : Width) (a : Register) (b : Memory) : List Byte :=
  if isFloatReg a then sseMoveRM size a b
  else
    match size with
    | .b => maybeRexRM size a b ++ [0x88#8] ++ modrmSibImm a b
    | .w => [0x66#8] ++ maybeRexRM size a b ++ [0x89#8] ++ modrmSibImm a b
    | .d => maybeRexRM size a b ++ [0x89#8] ++ modrmSibImm a b
    | .q => maybeRexRM size a b ++ [0x89#8] ++ modrmSibImm a b

/-- operations.cpp:485-498 `moveAR`. -/
def moveAR (aSize : Width) (v : BitVec 64) (bSize : Width) (b tmp : Register) : List Byte :=
  moveCR aSize v b tmp ++ moveMR bSize ⟨b, 0, none, 0⟩ bSize b

/-- operations.cpp:500-561 `moveCM`. -/
def moveCM (v : BitVec 64) (bSize : Width) (b : Memory) (tmp : Register) : List Byte :=
  match bSize with
  | .b => maybeRexM bSize b ++ [0xc6#8] ++ modrmSibImm rax b ++ append v
  | .w => [0x66#8] ++ maybeRexM bSize b ++ [0xc7#8] ++ modrmSibImm rax b ++ append2 v
  | .d => maybeRexM bSize b ++ [0xc7#8] ++ modrmSibImm rax b ++ append4 v
  | .q =>
    if fitsInInt32 v then maybeRexM bSize b ++ [0xc7#8] ++ modrmSibImm rax b ++ append4 v
    else moveCR .q v tmp tmp ++ moveRM .q tmp b

/-- operations.cpp:563-579 `moveZRR`, of 2 bytes. -/
def moveZRR (a b : Register) : List Byte := alwaysRex .w b a ++ [0x0f#8, 0xb7#8] ++ modrm 0xc0#8 a b

/-- operations.cpp:581-593 `moveZMR`, of 2 bytes. -/
def moveZMR (a : Memory) (b : Register) : List Byte := maybeRexRM .q b a ++ [0x0f#8, 0xb7#8] ++ modrmSibImm b a

/-- operations.cpp:180-191 `pushR`. -/
def pushR (a : Register) : List Byte := maybeRexR .d a ++ [0x50#8 + regCode a]

/-- operations.cpp:193-207 `popR`. -/
def popR (size : Width) (a : Register) : List Byte :=
  maybeRexR .d a ++ [0x58#8 + regCode a] ++ (if size = .d then moveRR .d a .q a else [])

/-! ### Integer operations -/

/-- operations.cpp:209-226 `negateR`, and `negateRR` (228-237). -/
def negateRR (size : Width) (a : Register) : List Byte := maybeRexR size a ++ [0xf7#8, 0xd8#8 + regCode a]

/-- operations.cpp:604-623 `addRR`. -/
def addRR (size : Width) (a b : Register) : List Byte := maybeRexRR size a b ++ [0x01#8] ++ modrm 0xc0#8 b a

/-- operations.cpp:749-768 `subtractRR`. -/
def subtractRR (size : Width) (a b : Register) : List Byte := maybeRexRR size a b ++ [0x29#8] ++ modrm 0xc0#8 b a

/-- operations.cpp:770-789 `andRR`. -/
def andRR (size : Width) (a b : Register) : List Byte := maybeRexRR size a b ++ [0x21#8] ++ modrm 0xc0#8 b a

/-- operations.cpp:831-850 `orRR`. -/
def orRR (size : Width) (a b : Register) : List Byte := maybeRexRR size a b ++ [0x09#8] ++ modrm 0xc0#8 b a

/-- operations.cpp:893-910 `xorRR`. -/
def xorRR (size : Width) (a b : Register) : List Byte := maybeRexRR size a b ++ [0x31#8] ++ modrm 0xc0#8 b a

/-- The common part of `addCR`, `subtractCR`, `andCR`, `orCR`, `xorCR` and `compareCR` for constants of 32 bits
(e.g. operations.cpp:660-668). -/
def immediateR (size : Width) (op : Byte) (v : BitVec 64) (b : Register) : List Byte :=
  maybeRexR size b ++
    (if fitsInInt8 v then [0x83#8, op + regCode b] ++ append v else [0x81#8, op + regCode b] ++ append4 v)

/-- operations.cpp:638-677 `addCR`. -/
def addCR (size : Width) (v : BitVec 64) (b tmp : Register) : List Byte :=
  if v = 0 then []
  else if fitsInInt32 v then immediateR size 0xc0#8 v b
  else moveCR size v tmp tmp ++ addRR size tmp b

/-- operations.cpp:696-735 `subtractCR`. -/
def subtractCR (size : Width) (v : BitVec 64) (b tmp : Register) : List Byte :=
  if v = 0 then []
  else if fitsInInt32 v then immediateR size 0xe8#8 v b
  else moveCR size v tmp tmp ++ subtractRR size tmp b

/-- operations.cpp:791-829 `andCR`. -/
def andCR (size : Width) (v : BitVec 64) (b tmp : Register) : List Byte :=
  if fitsInInt32 v then immediateR size 0xe0#8 v b
  else moveCR size v tmp tmp ++ andRR size tmp b

/-- operations.cpp:852-891 `orCR`. -/
def orCR (size : Width) (v : BitVec 64) (b tmp : Register) : List Byte :=
  if v = 0 then []
  else if fitsInInt32 v then immediateR size 0xc8#8 v b
  else moveCR size v tmp tmp ++ orRR size tmp b

/-- operations.cpp:912-951 `xorCR`. -/
def xorCR (size : Width) (v : BitVec 64) (b tmp : Register) : List Byte :=
  if v = 0 then []
  else if fitsInInt32 v then immediateR size 0xf0#8 v b
  else moveCR size v tmp tmp ++ xorRR size tmp b

/-- operations.cpp:953-1002 `multiplyRR`. -/
def multiplyRR (size : Width) (a b : Register) : List Byte := maybeRexRR size b a ++ [0x0f#8, 0xaf#8] ++ modrm 0xc0#8 a b

/-- operations.cpp:1268-1307 `multiplyCR`. -/
def multiplyCR (size : Width) (v : BitVec 64) (b tmp : Register) : List Byte :=
  if v = 1 then []
  else if fitsInInt32 v then
    maybeRexRR size b b ++
      (if fitsInInt8 v then [0x6b#8] ++ modrm 0xc0#8 b b ++ append v else [0x69#8] ++ modrm 0xc0#8 b b ++ append4 v)
  else moveCR size v tmp tmp ++ multiplyRR size tmp b

/-- operations.cpp:1309-1326 `divideRR`; b is rax. -/
def divideRR (size : Width) (a b : Register) : List Byte :=
  maybeRexRR size a b ++ [0x99#8] ++ maybeRexRR size b a ++ [0xf7#8, 0xf8#8 + regCode a]

/-- operations.cpp:1328-1348 `remainderRR`; b is rax. -/
def remainderRR (size : Width) (a b : Register) : List Byte :=
  maybeRexRR size a b ++ [0x99#8] ++ maybeRexRR size b a ++ [0xf7#8, 0xf8#8 + regCode a] ++ moveRR .q rdx .q b

/-- operations.cpp:1350-1383 `doShift`; `none`: it aborts. -/
def doShift (type : Byte) (v : BitVec 64) (size : Width) (b : Register) : Option (List Byte) :=
  if v = 1 then some (maybeRexR size b ++ [0xd1#8, type + regCode b])
  else if fitsInInt8 v then some (maybeRexR size b ++ [0xc1#8, type + regCode b] ++ append v)
  else none

/-- operations.cpp:1420-1423, 1474-1477, 1525-1528: the shifts by rcx. -/
def shiftRR (type : Byte) (size : Width) (a b : Register) : List Byte :=
  maybeRexRR size a b ++ [0xd3#8, type + regCode b]

/-- operations.cpp:1385-1425 `shiftLeftRR`, 1436-1479 `shiftRightRR`, 1490-1530 `unsignedShiftRightRR`. -/
def shiftLeftRR := shiftRR 0xe0#8
def shiftRightRR := shiftRR 0xf8#8
def unsignedShiftRightRR := shiftRR 0xe8#8

/-- operations.cpp:1427-1434 `shiftLeftCR`, 1481-1488 `shiftRightCR`, 1532-1539 `unsignedShiftRightCR`. -/
def shiftLeftCR := doShift 0xe0#8
def shiftRightCR := doShift 0xf8#8
def unsignedShiftRightCR := doShift 0xe8#8

/-- operations.cpp:1742-1755 `absoluteRR`; a and b are rax. -/
def absoluteRR (size : Width) (a b : Register) : List Byte :=
  maybeRexRR size a b ++ [0x99#8] ++ xorRR size rdx a ++ subtractRR size rdx a

/-! ### Comparisons and branches -/

/-- operations.cpp:1004-1016 `compareRR`. -/
def compareRR (size : Width) (a b : Register) : List Byte := maybeRexRR size a b ++ [0x39#8] ++ modrm 0xc0#8 b a

/-- operations.cpp:1018-1043 `compareCR`. -/
def compareCR (size : Width) (v : BitVec 64) (b tmp : Register) : List Byte :=
  if fitsInInt32 v then immediateR size 0xf8#8 v b
  else moveCR size v tmp tmp ++ compareRR size tmp b

/-- operations.cpp:1045-1060 `compareRM`. -/
def compareRM (size : Width) (a : Register) (b : Memory) : List Byte :=
  (if size = .d then moveRR .d a .q a else []) ++ maybeRexRM size a b ++ [0x39#8] ++ modrmSibImm a b

/-- operations.cpp:1062-1090 `compareCM`; `none`: it aborts. -/
def compareCM (size : Width) (v : BitVec 64) (b : Memory) : Option (List Byte) :=
  let start := maybeRexM size b ++ [if fitsInInt8 v then 0x83#8 else 0x81#8] ++ modrmSibImm rdi b
  if fitsInInt8 v then some (start ++ append v)
  else if fitsInInt32 v then some (start ++ append4 v)
  else none

/-- operations.cpp:1092-1106 `compareFloatRR`. -/
def compareFloatRR (size : Width) (a b : Register) : List Byte :=
  (if size = .q then [0x66#8] else []) ++ maybeRexRR .d a b ++ [0x0f#8, 0x2e#8] ++ modrm 0xc0#8 a b

/-- fixup.h `OffsetTask`: where the instruction begins, how long it is, and where it goes to. -/
structure Task where
  offset : Nat
  size : Nat
  target : BitVec 64

/-- context.h `Context`: the code and the tasks, the last one first. -/
structure Asm where
  code : List Byte
  tasks : List Task

/-- encode.cpp:162-168 `unconditional`. -/
def unconditional (c : Asm) (jump : Byte) (target : BitVec 64) : Asm :=
  ⟨c.code ++ [jump] ++ append4 0, ⟨c.code.length, 5, target⟩ :: c.tasks⟩

/-- encode.cpp:170-176 `conditional`. -/
def conditional (c : Asm) (condition : Byte) (target : BitVec 64) : Asm :=
  ⟨c.code ++ [0x0f#8, condition] ++ append4 0, ⟨c.code.length, 6, target⟩ :: c.tasks⟩

/-- fixup.cpp:67-80 `resolveOffset` for the instruction at `result + offset`; `none`: the target is too far. -/
def resolveOffset (result : BitVec 64) (t : Task) (code : List Byte) : Option (List Byte) :=
  let v := t.target - (result + BitVec.ofNat 64 t.offset) - BitVec.ofNat 64 t.size
  if fitsInInt32 v then
    let at' := t.offset + t.size - 4
    some (code.take at' ++ append4 v ++ code.drop (at' + 4))
  else none

/-- src/codegen/target/x86/assembler.cpp:1203-1205: `for (Task* t = c.tasks; t; t = t->next) t->run(&c)`. -/
def resolve (result : BitVec 64) : List Task → List Byte → Option (List Byte)
  | [], code => some code
  | t :: ts, code =>
    match resolveOffset result t code with
    | none => none
    | some code => resolve result ts code

/-- include/avian/codegen/lir.h: the operations that jump. -/
inductive Jump where
  | equal | notEqual | less | greater | lessOrEqual | greaterOrEqual
deriving DecidableEq

inductive FloatJump where
  | equal | notEqual | less | greater | lessOrEqual | greaterOrEqual
  | lessOrUnordered | greaterOrUnordered | lessOrEqualOrUnordered | greaterOrEqualOrUnordered
deriving DecidableEq

/-- encode.cpp:266-296 `branch`. -/
def branch (c : Asm) (op : Jump) (target : BitVec 64) : Asm :=
  match op with
  | .equal => conditional c 0x84#8 target
  | .notEqual => conditional c 0x85#8 target
  | .less => conditional c 0x8c#8 target
  | .greater => conditional c 0x8f#8 target
  | .lessOrEqual => conditional c 0x8e#8 target
  | .greaterOrEqual => conditional c 0x8d#8 target

/-- encode.cpp:298-352 `branchFloat`. -/
def branchFloat (c : Asm) (op : FloatJump) (target : BitVec 64) : Asm :=
  match op with
  | .equal => conditional ⟨c.code ++ [0x7a#8, 0x06#8], c.tasks⟩ 0x84#8 target
  | .notEqual => conditional (conditional c 0x85#8 target) 0x8a#8 target
  | .less => conditional c 0x82#8 target
  | .greater => conditional c 0x87#8 target
  | .lessOrEqual => conditional c 0x86#8 target
  | .greaterOrEqual => conditional c 0x83#8 target
  | .lessOrUnordered => conditional (conditional c 0x82#8 target) 0x8a#8 target
  | .greaterOrUnordered => conditional (conditional c 0x87#8 target) 0x8a#8 target
  | .lessOrEqualOrUnordered => conditional (conditional c 0x86#8 target) 0x8a#8 target
  | .greaterOrEqualOrUnordered => conditional (conditional c 0x83#8 target) 0x8a#8 target

/-- operations.cpp:1192-1211 `branchRR`. -/
def branchRR (op : Jump) (size : Width) (a b : Register) (target : BitVec 64) : Asm :=
  branch ⟨compareRR size a b, []⟩ op target

def branchFloatRR (op : FloatJump) (size : Width) (a b : Register) (target : BitVec 64) : Asm :=
  branchFloat ⟨compareFloatRR size a b, []⟩ op target

/-- operations.cpp:1213-1238 `branchCR`. -/
def branchCR (op : Jump) (size : Width) (v : BitVec 64) (b tmp : Register) (target : BitVec 64) : Asm :=
  branch ⟨compareCR size v b tmp, []⟩ op target

/-- operations.cpp:1240-1252 `branchRM`. -/
def branchRM (op : Jump) (size : Width) (a : Register) (b : Memory) (target : BitVec 64) : Asm :=
  branch ⟨compareRM size a b, []⟩ op target

/-- operations.cpp:1254-1266 `branchCM`. -/
def branchCM (op : Jump) (size : Width) (v : BitVec 64) (b : Memory) (target : BitVec 64) : Option Asm :=
  (compareCM size v b).map fun code => branch ⟨code, []⟩ op target

/-! ### Jumps and calls -/

/-- operations.cpp:35-38 `return_`. -/
def return_ : List Byte := [0xc3#8]

/-- operations.cpp:40-43 `trap`. -/
def trap : List Byte := [0xcc#8]

/-- operations.cpp:69-74 `callC`, 97-102 `jumpC`. -/
def callC (target : BitVec 64) : Asm := unconditional ⟨[], []⟩ 0xe8#8 target
def jumpC (target : BitVec 64) : Asm := unconditional ⟨[], []⟩ 0xe9#8 target

/-- operations.cpp:126-133 `callR`, 89-95 `jumpR`. -/
def callR (a : Register) : List Byte := maybeRexR .d a ++ [0xff#8, 0xd0#8 + regCode a]
def jumpR (a : Register) : List Byte := maybeRexR .d a ++ [0xff#8, 0xe0#8 + regCode a]

/-- operations.cpp:135-142 `callM`, 104-111 `jumpM`. -/
def callM (a : Memory) : List Byte := maybeRexM .d a ++ [0xff#8] ++ modrmSibImm rdx a
def jumpM (a : Memory) : List Byte := maybeRexM .d a ++ [0xff#8] ++ modrmSibImm rsp a

/-- operations.cpp:76-87 `longCallC`, 113-124 `longJumpC`. -/
def longCallC (v : BitVec 64) : List Byte := moveCR2 .q v r10 ++ callR r10
def longJumpC (v : BitVec 64) : List Byte := moveCR2 .q v r10 ++ jumpR r10

/-! ### Floating point -/

/-- encode.cpp:354-370 `floatRegOp`. -/
def floatRegOp (aSize : Width) (a : Register) (bSize : Width) (b : Register) (op : Byte) : List Byte :=
  [if aSize = .d then 0xf3#8 else 0xf2#8] ++ maybeRexRR bSize b a ++ [0x0f#8, op] ++ modrm 0xc0#8 a b

/-- encode.cpp:372-387 `floatMemOp`. -/
def floatMemOp (aSize : Width) (a : Memory) (bSize : Width) (b : Register) (op : Byte) : List Byte :=
  [if aSize = .d then 0xf3#8 else 0xf2#8] ++ maybeRexRM bSize b a ++ [0x0f#8, op] ++ modrmSibImm b a

/-- operations.cpp:1541-1557 `floatSqrtRR`, `floatSqrtMR`: the size of the destination is not looked at. -/
def floatSqrtRR (w : Width) (a b : Register) : List Byte := floatRegOp w a .d b 0x51#8
def floatSqrtMR (w : Width) (a : Memory) (b : Register) : List Byte := floatMemOp w a .d b 0x51#8

/-- operations.cpp:1559-1575 `floatAddRR`, `floatAddMR`. -/
def floatAddRR (w : Width) (a b : Register) : List Byte := floatRegOp w a .d b 0x58#8
def floatAddMR (w : Width) (a : Memory) (b : Register) : List Byte := floatMemOp w a .d b 0x58#8

/-- operations.cpp:1577-1593 `floatSubtractRR`, `floatSubtractMR`. -/
def floatSubtractRR (w : Width) (a b : Register) : List Byte := floatRegOp w a .d b 0x5c#8
def floatSubtractMR (w : Width) (a : Memory) (b : Register) : List Byte := floatMemOp w a .d b 0x5c#8

/-- operations.cpp:1595-1611 `floatMultiplyRR`, `floatMultiplyMR`. -/
def floatMultiplyRR (w : Width) (a b : Register) : List Byte := floatRegOp w a .d b 0x59#8
def floatMultiplyMR (w : Width) (a : Memory) (b : Register) : List Byte := floatMemOp w a .d b 0x59#8

/-- operations.cpp:1613-1629 `floatDivideRR`, `floatDivideMR`. -/
def floatDivideRR (w : Width) (a b : Register) : List Byte := floatRegOp w a .d b 0x5e#8
def floatDivideMR (w : Width) (a : Memory) (b : Register) : List Byte := floatMemOp w a .d b 0x5e#8

/-- operations.cpp:1631-1647 `float2FloatRR`, `float2FloatMR`; `w` is the size before the conversion. -/
def float2FloatRR (w : Width) (a b : Register) : List Byte := floatRegOp w a .d b 0x5a#8
def float2FloatMR (w : Width) (a : Memory) (b : Register) : List Byte := floatMemOp w a .d b 0x5a#8

/-- operations.cpp:1668-1684 `int2FloatRR`, `int2FloatMR`: an integer of size `aSize` to a float of size `bSize`. -/
def int2FloatRR (aSize : Width) (a : Register) (bSize : Width) (b : Register) : List Byte := floatRegOp bSize a aSize b 0x2a#8
def int2FloatMR (aSize : Width) (a : Memory) (bSize : Width) (b : Register) : List Byte := floatMemOp bSize a aSize b 0x2a#8

/-- operations.cpp:1686-1713 `floatNegateRR`, for floats; `tmp` and `tmp2` are the temporaries. -/
def floatNegateRR (a b tmp tmp2 : Register) : List Byte :=
  if a = b then moveCR .d 0x80000000 tmp tmp2 ++ maybeRexRR .d a tmp ++ [0x0f#8, 0x57#8] ++ modrm 0xc0#8 tmp a
  else moveCR .d 0x80000000 b tmp2 ++ maybeRexRR .d a b ++ [0x0f#8, 0x57#8] ++ modrm 0xc0#8 a b

/-- operations.cpp:1715-1740 `floatAbsoluteRR`, for floats. -/
def floatAbsoluteRR (a b tmp tmp2 : Register) : List Byte :=
  if a = b then moveCR .d 0x7fffffff tmp tmp2 ++ maybeRexRR .d a tmp ++ [0x0f#8, 0x54#8] ++ modrm 0xc0#8 tmp a
  else moveCR .d 0x7fffffff b tmp2 ++ maybeRexRR .d a b ++ [0x0f#8, 0x54#8] ++ modrm 0xc0#8 a b

end Avian.X86
