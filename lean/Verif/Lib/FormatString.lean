import Verif.Lib.Outcome

/-
`String.format` (classpath/avian/FormatString.java). Strings are lists of characters. Numbers in formats are unbounded here (in the code an `int`); capitals are those of ASCII; the texts of hash codes, characters and floating-point numbers are a parameter.
-/
namespace Avian.FormatString

/-- What is thrown: IllegalFormatException, IllegalStateException, IllegalArgumentException, NumberFormatException, an index outside of a string or an array, and NullPointerException. -/
inductive Err where
  | format | state | argument | number | bounds | null
  deriving DecidableEq, Repr

/-- FormatString.java:120-134: the conversions, in the order of their numbers. -/
inductive Conv where
  | nline | prcnt | booln | dtime | strng | hcode | chrct | decml | octal | hxdec | cpsci | gnsci | float | hxexp
  deriving DecidableEq, Repr

/-- FormatString.java:120-134: the number of a conversion. -/
def Conv.code : Conv → Nat
  | .nline => 1 | .prcnt => 2 | .booln => 3 | .dtime => 4 | .strng => 5 | .hcode => 6 | .chrct => 7
  | .decml => 8 | .octal => 9 | .hxdec => 10 | .cpsci => 11 | .gnsci => 12 | .float => 13 | .hxexp => 14

/-- FormatString.java:224-226 `acceptsArgument`. -/
def acceptsArgument (k : Conv) : Bool := Conv.booln.code ≤ k.code
/-- FormatString.java:231-233 `precisionSupported`. -/
def precisionSupported (k : Conv) : Bool := Conv.strng.code ≤ k.code
/-- FormatString.java:238-240 `widthSupported`. -/
def widthSupported (k : Conv) : Bool := Conv.prcnt.code ≤ k.code
/-- FormatString.java:245-247 `isNumeric`. -/
def isNumeric (k : Conv) : Bool := Conv.decml.code ≤ k.code

/-- FormatString.java:137-144: the flags that have an effect. -/
structure Flags where
  upper : Bool := false
  zero : Bool := false
  left : Bool := false
  deriving DecidableEq, Repr

/-- FormatString.java:504-545 `FmtCmpnt`. -/
inductive Cmp where
  | literal (s : List Char)
  | spec (k : Conv) (index : Int) (width precision : Int) (flags : Flags)
  deriving DecidableEq, Repr

/-- Long.java:155-166: the digits of a number. -/
def digitsOf : Nat → List Char → Except Err Nat
  | n, [] => .ok n
  | n, c :: r => if c.isDigit then digitsOf (n * 10 + (c.toNat - 48)) r else .error .number

/-- Long.java:145-173 and Integer.java:33-35 `valueOf`. -/
def valueOf : List Char → Except Err Int
  | '-' :: r => (digitsOf 0 r).map fun n => -(n : Int)
  | s => (digitsOf 0 s).map fun n => (n : Int)

/-- FormatString.java:918-969: flags and width. -/
def flagLoop (k : Conv) : Flags → List Char → Except Err (Flags × Int)
  | _, [] => .error .state
  | f, c :: r =>
    if c = '-' then (if widthSupported k then flagLoop k { f with left := true } r else .error .format)
    else if c = '0' then (if isNumeric k then flagLoop k { f with zero := true } r else .error .format)
    else if c ∈ ['#', '+', ' ', ',', '('] then (if isNumeric k then flagLoop k f r else .error .format)
    else if c.isDigit then (valueOf (c :: r)).map fun w => (f, w)
    else flagLoop k f r

/-- FormatString.java:885-899: the index of an argument. -/
def indexOf (k : Conv) (spec : List Char) : Except Err Int :=
  if '$' ∈ spec then
    if acceptsArgument k then
      match (spec.takeWhile (· != '$')).getLast? with
      | none => .error .bounds
      | some c => if c = '<' then .ok (-1) else valueOf (spec.takeWhile (· != '$'))
    else .error .format
  else .ok 0

/-- FormatString.java:905-916: the precision. -/
def precisionOf (k : Conv) (spec : List Char) : Except Err Int :=
  if '.' ∈ spec then
    if precisionSupported k then valueOf ((spec.dropWhile (· != '.')).drop 1) else .error .format
  else .ok 0

/-- FormatString.java:920-922: what is left for flags and width. -/
def remaining (spec : List Char) : List Char :=
  (spec.takeWhile (· != '.')).drop (if '$' ∈ spec then (spec.takeWhile (· != '$')).length else 0)

/-- FormatString.java:858-970 `seal`; `spec` is without the letter of the conversion. -/
def sealSpec (k : Conv) (up : Bool) (spec : List Char) : Except Err Cmp :=
  if spec = [] then .ok (.spec k 0 0 0 { upper := up })
  else
    (indexOf k spec).bind fun index =>
    if '$' ∈ spec ∧ (spec.takeWhile (· != '$')).length + 1 = spec.length then .ok (.spec k index 0 0 { upper := up })
    else
      (precisionOf k spec).bind fun precision =>
      (flagLoop k { upper := up } (remaining spec)).map fun p => .spec k index p.2 precision p.1

/-- What a character in a specifier is. -/
inductive Kind where
  | buffer
  | conv (k : Conv) (up : Bool)
  | time (up : Bool)
  | bad
  deriving DecidableEq, Repr

/-- FormatString.java:733-841: the characters of specifiers. -/
def kind (c : Char) : Kind :=
  if c ∈ ['$', '<', '0', '1', '2', '3', '4', '5', '6', '7', '8', '9', '-', '+', '\'', ' ', '#', ',', '.', '('] then .buffer
  else if c = 'S' then .conv .strng true else if c = 's' then .conv .strng false
  else if c = 'n' then .conv .nline false else if c = '%' then .conv .prcnt false
  else if c = 'd' then .conv .decml false
  else if c = 'X' then .conv .hxdec true else if c = 'x' then .conv .hxdec false
  else if c = 'T' then .time true else if c = 't' then .time false
  else if c = 'B' then .conv .booln true else if c = 'b' then .conv .booln false
  else if c = 'H' then .conv .hcode true else if c = 'h' then .conv .hcode false
  else if c = 'C' then .conv .chrct true else if c = 'c' then .conv .chrct false
  else if c = 'o' then .conv .octal false
  else if c = 'E' then .conv .cpsci true else if c = 'e' then .conv .cpsci false
  else if c = 'f' then .conv .float false
  else if c = 'G' then .conv .gnsci true else if c = 'g' then .conv .gnsci false
  else if c = 'A' then .conv .hxexp true else if c = 'a' then .conv .hxexp false
  else .bad

/-- FormatString.java:594-724: the letters after `t`. -/
def isTime (c : Char) : Bool := c ∈ "HIklMSLNpzZsQBbhAaCYyjmdeRTrDFc".toList

/-- Where the reading of a format is: before a component, in a literal, in a specifier, after the `t` of a specifier. -/
inductive Mode where
  | start
  | literal (acc : List Char)
  | spec (acc : List Char)
  | time (acc : List Char) (up : Bool)

/-- FormatString.java:169, 174-212 `next` in its loop, and 583-842 `append`. -/
def parse : Mode → List Char → Except Err (List Cmp)
  | .start, [] => .ok []
  | .start, c :: r => if c = '%' then parse (.spec []) r else parse (.literal [c]) r
  | .literal acc, [] => .ok [.literal acc]
  | .literal acc, c :: r =>
    if c = '%' then (parse (.spec []) r).map (.literal acc :: ·) else parse (.literal (acc ++ [c])) r
  | .spec _, [] => .error .format
  | .spec acc, c :: r =>
    match kind c with
    | .buffer => parse (.spec (acc ++ [c])) r
    | .conv k up => (sealSpec k up acc).bind fun x => (parse .start r).map (x :: ·)
    | .time up => parse (.time (acc ++ [c]) up) r
    | .bad => .error .format
  | .time _ _, [] => .error .format
  | .time acc up, c :: r =>
    if isTime c then (sealSpec .dtime up acc).bind fun x => (parse .start r).map (x :: ·) else .error .format

/-- Arguments: `null`, a Boolean, an Integer, a Long, and other objects with their `toString`. -/
inductive Arg where
  | null
  | bool (b : Bool)
  | int (v : Int)
  | long (v : Int)
  | obj (s : List Char)
  deriving DecidableEq, Repr

/-- Long.java: `toString` with a radix. -/
def numText (radix : Nat) (v : Int) : List Char :=
  if v < 0 then '-' :: Nat.toDigits radix v.natAbs else Nat.toDigits radix v.natAbs

/-- FormatString.java:324-332 `convertString`: the text. -/
def Arg.text : Arg → List Char
  | .null => "null".toList
  | .bool b => if b then "true".toList else "false".toList
  | .int v => numText 10 v
  | .long v => numText 10 v
  | .obj s => s

/-- FormatString.java:346-361 `convertBoolean`: the text. -/
def boolText : Arg → List Char
  | .null => "false".toList
  | .bool b => if b then "true".toList else "false".toList
  | _ => "true".toList

/-- FormatString.java:388-406 `convertLong`: the text. -/
def longText (radix : Nat) (v : Int) : List Char :=
  if radix = 10 ∨ v > -1 then numText radix v
  else numText radix ((v / 2 ^ 31) % 2 ^ 32) ++ numText radix (v % 2 ^ 32)

/-- FormatString.java:408-431 `convertInteger`: the text. -/
def intText (radix : Nat) (v : Int) : List Char :=
  if radix ≠ 10 ∧ v < 0 then numText radix (v + 2 ^ 32) else numText radix v

/-- FormatString.java:494-499 `fill`. -/
def fill (n : Int) (c : Char) : List Char := List.replicate n.toNat c

/-- FormatString.java:455-492 `appendify`. -/
def appendify (val : List Char) (f : Flags) (width precision : Int) : List Char :=
  let result := if f.upper then val.map Char.toUpper else val
  if precision > 0 ∧ (result.length : Int) - precision > 0 then result.take precision.toNat
  else if width > 0 then
    let difference := width - result.length
    (if f.left = false ∧ difference > 0 then fill difference (if f.zero then '0' else ' ') else [])
      ++ result ++ (if f.left = true ∧ difference > 0 then fill difference ' ' else [])
  else result

/-- FormatString.java:253-302 `convert`: numbers. -/
def number (radix : Nat) : Arg → Except Err (List Char)
  | .long v => .ok (longText radix v)
  | .int v => .ok (intText radix v)
  | .null => .error .null
  | _ => .error .format

/-- FormatString.java:253-302 `convert`. -/
def convert (other : Conv → Arg → Except Err (List Char)) (arg : Arg) (k : Conv) (f : Flags) (width precision : Int) :
    Except Err (List Char) :=
  match k with
  | .nline => .ok ['\n']
  | .prcnt => .ok (appendify ['%'] f width precision)
  | .booln => .ok (appendify (boolText arg) f width precision)
  | .dtime | .strng => .ok (appendify arg.text f width precision)
  | .decml => (number 10 arg).map fun s => appendify s f width precision
  | .octal => (number 8 arg).map fun s => appendify s f width precision
  | .hxdec => (number 16 arg).map fun s => appendify s f width precision
  | k => (other k arg).map fun s => appendify s f width precision

/-- FormatString.java:82-117: the loop of `format`. -/
def formatLoop (other : Conv → Arg → Except Err (List Char)) (args : List Arg) : Nat → List Cmp → Except Err (List Char)
  | _, [] => .ok []
  | n, .literal s :: r => (formatLoop other args n r).map (s ++ ·)
  | n, .spec k index width precision f :: r =>
    let next (arg : Arg) (n : Nat) :=
      (convert other arg k f width precision).bind fun s => (formatLoop other args n r).map (s ++ ·)
    if acceptsArgument k = false then next .null n
    else if index = 0 then
      match args[n]? with
      | none => .error .format
      | some a => next a (n + 1)
    else if index = -1 then
      match args[n]? with
      | none => .error .bounds
      | some a => next a n
    else if index < 1 then .error .argument
    else
      match args[(index - 1).toNat]? with
      | none => .error .argument
      | some a => next a n

/-- FormatString.java:64-74 `format`, with 53-55 `compile`. -/
def format (other : Conv → Arg → Except Err (List Char)) (fmt : List Char) (args : List Arg) : Except Err (List Char) :=
  (parse .start fmt).bind fun cs => formatLoop other args 0 cs

end Avian.FormatString
