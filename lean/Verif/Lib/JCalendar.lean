import Verif.Lib.Outcome
import Verif.Lib.Numbers

/-
Dates (classpath/java/util/Calendar.java, classpath/java/text/SimpleDateFormat.java).  Numbers are unbounded: no
result of the arithmetic leaves the range of `long` for any `long` time, nor that of `int` for fields of at most four digits.
-/
namespace Avian.JCalendar

/-- Calendar.java:30 `fields`: those that are used, with the month counted from 0. -/
structure Fields where
  year : Int
  month : Int
  day : Int
  hour : Int
  minute : Int
  second : Int
  deriving DecidableEq

/-- Calendar.java:93-96 `DAYS_IN_MONTH`. -/
def daysInMonth (leap : Bool) : List Int :=
  if leap then [31, 29, 31, 30, 31, 30, 31, 31, 30, 31, 30, 31] else [31, 28, 31, 30, 31, 30, 31, 31, 30, 31, 30, 31]

/-- Calendar.java:126-128 `isLeapYear`. -/
def isLeapYear (year : Int) : Bool := (year.tmod 4 == 0 && year.tmod 100 != 0) || year.tmod 400 == 0

/-- Calendar.java:141-143: the loop over the months; `none` is ArrayIndexOutOfBoundsException. -/
def monthLoop : List Int → Int → Int → Option (Int × Int)
  | [], _, _ => none
  | l :: ls, days, month => if days ≥ l then monthLoop ls (days - l) (month + 1) else some (month, days)

/-- Calendar.java:130-158 `parseIntoFields`. -/
def parseIntoFields (timeInMillis : Int) : Option Fields :=
  let days := timeInMillis.tdiv 86400000 + 731
  let years := (4 * days).tdiv 1461
  let year := 1968 + years
  let days := days - (365 * years + years.tdiv 4)
  let days := if isLeapYear year then days else days - 1
  (monthLoop (daysInMonth (isLeapYear year)) days 0).map fun r =>
    let remainder := timeInMillis.tmod 86400000
    let hour := remainder.tdiv 3600000
    let remainder := remainder.tmod 3600000
    let minute := remainder.tdiv 60000
    let remainder := remainder.tmod 60000
    ⟨year, r.1, r.2 + 1, hour, minute, remainder.tdiv 1000⟩

/-- Calendar.java:113-115: the loop over the months before; `none` is ArrayIndexOutOfBoundsException. -/
def addMonths : List Int → Nat → Int → Option Int
  | _, 0, days => some days
  | [], _ + 1, _ => none
  | l :: ls, n + 1, days => addMonths ls n (days + l)

/-- Calendar.java:109-124 `getTime`. -/
def getTime (f : Fields) : Option Int :=
  let years := f.year - 1968
  let days := f.day - 1 + (years * 365 + years.tdiv 4 + 1 - 731)
  (addMonths (daysInMonth false) f.month.toNat days).map fun days =>
    let days := if f.month < 2 ∧ isLeapYear f.year then days - 1 else days
    86400000 * days + 3600000 * f.hour + 60000 * f.minute + 1000 * f.second

/-- SimpleDateFormat.java:78-82: the loop that counts digits. -/
def padLoop : Nat → Int → Int → Int
  | 0, _, digits => digits
  | n + 1, i, digits => if i > 0 then padLoop n (i.tdiv 10) (digits - 1) else digits

/-- SimpleDateFormat.java:77-87 `pad`: what is appended; ten rounds are enough for an `int`. -/
def pad (value digits : Int) : List Nat :=
  List.replicate (padLoop 10 (if value = 0 then 1 else value) digits).toNat 48 ++
    (match Numbers.toString 11 value 10 with
     | some (.ok s) => s
     | _ => [])

/-- SimpleDateFormat.java:33-48 `format` of the fields. -/
def formatFields (f : Fields) : List Nat :=
  pad f.year 4 ++ 45 :: (pad (f.month + 1) 2 ++ 45 :: (pad f.day 2 ++ 84 :: (pad f.hour 2 ++ 58 :: (pad f.minute 2 ++ 58 :: pad f.second 2))))

/-- SimpleDateFormat.java:33-48 `format` with a new buffer. -/
def format (time : Int) : Option (List Nat) := (parseIntoFields time).map formatFields

/-- SimpleDateFormat.java:89-98 `parseField`: the value and the new index; `none` is ParseException. -/
def parseField (text : List Nat) (offset length : Nat) : Option (Int × Nat) :=
  if text.length < offset + length then none
  else
    match Numbers.parseInt ((text.drop offset).take length) 10 with
    | .ok v => some (v, offset + length)
    | .error _ => none

/-- SimpleDateFormat.java:100-104 `expectPrefix` of one character. -/
def expectPrefix (text : List Nat) (offset : Nat) (c : Nat) : Option Nat := if text[offset]? = some c then some (offset + 1) else none

inductive Parsed where
  /-- The date and the new position. -/
  | date (time : Int) (index : Nat)
  /-- `null`, with the error position. -/
  | null (errorIndex : Nat)
  /-- ArrayIndexOutOfBoundsException. -/
  | arrayIndex
  deriving DecidableEq

/-- The handler of ParseException, SimpleDateFormat.java:71-74: `index` is the one of the last assignment. -/
def orError {α : Type} (index : Nat) (o : Option α) (k : α → Parsed) : Parsed :=
  match o with
  | some a => k a
  | none => .null index

/-- SimpleDateFormat.java:54-75 `parse`. -/
def parse (text : List Nat) (index : Nat) : Parsed :=
  orError index (parseField text index 4) fun (year, index) =>
  orError index (expectPrefix text index 45) fun index =>
  orError index (parseField text index 2) fun (month, index) =>
  orError index (expectPrefix text index 45) fun index =>
  orError index (parseField text index 2) fun (day, index) =>
  orError index (expectPrefix text index 84) fun index =>
  orError index (parseField text index 2) fun (hour, index) =>
  orError index (expectPrefix text index 58) fun index =>
  orError index (parseField text index 2) fun (minute, index) =>
  orError index (expectPrefix text index 58) fun index =>
  orError index (parseField text index 2) fun (second, index) =>
  match getTime ⟨year, month + -1, day, hour, minute, second⟩ with
  | some t => .date t index
  | none => .arrayIndex

end Avian.JCalendar
