import Verif.Lib.Outcome
import Verif.Lib.RegexCompiler

/-
Splitting and replacing by patterns (classpath/java/util/regex: TrivialPattern.java, TrivialMatcher.java, Matcher.java, RegexMatcher.java,
Pattern.java, and PikeVM.java:471-494).

Texts are lists of UTF-16 code units.  Positions given by the caller are not negative here.  `-1` as a position found is `none`.
-/
namespace Avian.PlainPattern

inductive Exn where
  | indexOutOfBounds
  | nullPointer
  | negativeArraySize
  /-- No exception: the loop is still running after the given number of rounds. -/
  | fuel
  deriving DecidableEq

abbrev R (A : Type) := Except Exn A

/-- java/lang/CharSequence `charAt` (String.java:503-513, of which only positions inside the text are used here). -/
def charAt (s : List Nat) (i : Nat) : R Nat :=
  match s[i]? with
  | some c => .ok c
  | none => .error .indexOutOfBounds

/-- java/lang/CharSequence `subSequence` (String.java:378-388 `substring`). -/
def subSequence (s : List Nat) (a b : Nat) : R (List Nat) :=
  if b < a ∨ s.length < b then .error .indexOutOfBounds else .ok ((s.drop a).take (b - a))

/-! ### Plain patterns -/

/-- TrivialPattern.java:99-107: the inner loop, with `n` characters to compare, and the test behind it. -/
def same (haystack needle : List Nat) (i : Nat) : Nat → Nat → R Bool
  | 0, _ => .ok true
  | n + 1, j =>
    (charAt haystack (i + j)).bind fun a => (charAt needle j).bind fun b =>
    if a ≠ b then .ok false else same haystack needle i n (j + 1)

/-- TrivialPattern.java:98-110: the outer loop, with `n` rounds to go. -/
def indexLoop (haystack needle : List Nat) : Nat → Nat → R (Option Nat)
  | 0, _ => .ok none
  | n + 1, i =>
    (same haystack needle i needle.length 0).bind fun b =>
    if b then .ok (some i) else indexLoop haystack needle n (i + 1)

/-- TrivialPattern.java:95-112 `indexOf`. -/
def indexOf (haystack needle : List Nat) (start : Nat) : R (Option Nat) :=
  if needle.length = 0 then .ok (some start)
  else indexLoop haystack needle (haystack.length + 1 - needle.length - start) start

/-- TrivialPattern.java:52-76: the loop of `split`; `list`, `index` and `trailing` are the variables of these names. -/
def splitLoop (w input : List Nat) (limit : Nat) : Nat → List (List Nat) → Nat → Nat → R (List (List Nat) × Nat × Nat)
  | 0, _, _, _ => .error .fuel
  | fuel + 1, list, index, trailing =>
    if index < input.length ∧ list.length < limit - 1 then
      (if w.length = 0 then .ok (some (if list.length = 0 then 0 else index + 1)) else indexOf input w index).bind fun found =>
      match found with
      | some i =>
        (subSequence input index i).bind fun piece =>
        splitLoop w input limit fuel (list ++ [piece]) (i + w.length) (if w.length ≠ 0 ∧ i = index then trailing + 1 else 0)
      | none => .ok (list, index, trailing)
    else .ok (list, index, trailing)

/-- java.lang.Integer.MAX_VALUE (Integer.java:17). -/
def maxInt : Nat := 2147483647

/-- TrivialPattern.java:36-93 `split`. -/
def split (w input : List Nat) (limit : Int) : R (List (List Nat)) :=
  (splitLoop w input (if limit ≤ 0 then maxInt else limit.toNat) (input.length + 2) [] 0 0).bind fun (list, index, trailing) =>
  let trailing := if limit = 0 ∧ 0 < index ∧ index = input.length then trailing + 1 else 0
  (subSequence input index input.length).bind fun piece =>
  let list := list ++ [piece]
  if list.length < trailing then .error .negativeArraySize else .ok (list.take (list.length - trailing))

/-- TrivialMatcher.java:26-34 `matches`, and the bounds it sets. -/
def plainMatches (w input : List Nat) : Option (Nat × Nat) := if w = input then some (0, input.length) else none

/-- TrivialMatcher.java:36-46 `find(int)`, and the bounds it sets. -/
def plainFind (w input : List Nat) (start : Nat) : R (Option (Nat × Nat)) :=
  (indexOf input w start).bind fun found =>
  match found with
  | some i => .ok (some (i, i + w.length))
  | none => .ok none

/-- Matcher.java:29-31 `find()`: from the end of the last match. -/
def plainFindNext (w input : List Nat) (last : Nat × Nat) : R (Option (Nat × Nat)) := plainFind w input last.2

/-! ### Replacing -/

/-- Matcher.java:60-81: the loop and what follows. -/
def replaceLoop (find : Nat → R (Option (Nat × Nat))) (input r : List Nat) (limit : Nat) : Nat → Nat → Nat → Option (List Nat) → R (List Nat)
  | 0, _, _, _ => .error .fuel
  | fuel + 1, index, count, sb =>
    if count < limit ∧ index < input.length then
      (find index).bind fun found =>
      match found with
      | some (start, end_) =>
        (if index < start then subSequence input index start else .ok []).bind fun piece =>
        replaceLoop find input r limit fuel end_ (count + 1) (some (sb.getD [] ++ piece ++ r))
      | none =>
        if index = 0 then .ok input
        else finish index sb
    else finish index sb
where
  /-- Matcher.java:77-80 -/
  finish (index : Nat) (sb : Option (List Nat)) : R (List Nat) :=
    if index < input.length then
      match sb with
      | none => .error .nullPointer
      | some b => (subSequence input index input.length).bind fun piece => .ok (b ++ piece)
    else
      match sb with
      | none => .error .nullPointer
      | some b => .ok b

/-- Matcher.java:54-81 `replace`; at most `fuel` rounds. -/
def replace (find : Nat → R (Option (Nat × Nat))) (input r : List Nat) (limit fuel : Nat) : R (List Nat) :=
  replaceLoop find input r limit fuel 0 0 none

/-- Matcher.java:46-48 `replaceAll`. -/
def replaceAll (find : Nat → R (Option (Nat × Nat))) (input r : List Nat) (fuel : Nat) : R (List Nat) := replace find input r maxInt fuel

/-- Matcher.java:50-52 `replaceFirst`. -/
def replaceFirst (find : Nat → R (Option (Nat × Nat))) (input r : List Nat) (fuel : Nat) : R (List Nat) := replace find input r 1 fuel

/-! ### Other patterns -/

/-- RegexMatcher.java:56-58 `find(int)`, and the bounds it sets (27-32, PikeVM.java:203-209); `d` limits the depth of lookarounds. -/
def regexFind (d : Nat) (vm : PikeVM.VM) (input : List Nat) (offset : Nat) : R (Option (Nat × Nat)) :=
  match PikeVM.find d vm input offset with
  | none => .error .fuel
  | some .fail => .error .indexOutOfBounds
  | some (.done false _) => .ok none
  | some (.done true none) => .ok none
  | some (.done true (some o)) => .ok (some (o.getD 0 0 - 1, o.getD 1 0 - 1))

/-- RegexMatcher.java:52-54 `find()`: from the end of the last match, or from one further if that was empty; `none` is `-1` and `-1`. -/
def findNext (find : Nat → R (Option (Nat × Nat))) : Option (Nat × Nat) → R (Option (Nat × Nat))
  | none => find 0
  | some (a, b) => find (b + if a = b then 1 else 0)

/-- Pattern.java:76-83: the loop of `split`; `last` is the last match. -/
def regexSplitLoop (find : Nat → R (Option (Nat × Nat))) (input : List Nat) (limit : Nat) :
    Nat → Option (Nat × Nat) → List (List Nat) → Nat → R (List (List Nat) × Nat)
  | 0, _, _, _ => .error .fuel
  | fuel + 1, last, result, offset =>
    if limit ≤ result.length then .ok (result, offset)
    else
      (findNext find last).bind fun found =>
      match found with
      | none => .ok (result, offset)
      | some (start, end_) =>
        (subSequence input offset start).bind fun piece =>
        regexSplitLoop find input limit fuel (some (start, end_)) (result ++ [piece]) end_

/-- Pattern.java:70-88 `split`; at most `fuel` rounds. -/
def regexSplit (find : Nat → R (Option (Nat × Nat))) (input : List Nat) (limit : Int) (fuel : Nat) : R (List (List Nat)) :=
  (regexSplitLoop find input (if limit ≤ 0 then maxInt else limit.toNat) fuel none [] 0).bind fun (result, offset) =>
  if offset = 0 ∨ offset < input.length then
    (subSequence input offset input.length).bind fun piece => .ok (result ++ [piece])
  else .ok result

/-! ### Which patterns are plain -/

/-- PikeVM.java:474-478: where the characters begin. -/
def plainStart (vm : PikeVM.VM) : Nat :=
  if vm.findPrefixLength + 1 < vm.program.length ∧ vm.program[vm.findPrefixLength]? = some PikeVM.SAVE_OFFSET ∧
      vm.program[vm.findPrefixLength + 1]? = some 0 then vm.findPrefixLength + 2
  else vm.findPrefixLength

/-- PikeVM.java:479-483: where they end. -/
def plainEnd (vm : PikeVM.VM) : Nat :=
  if plainStart vm + 1 < vm.program.length ∧ vm.program[vm.program.length - 2]? = some PikeVM.SAVE_OFFSET ∧
      vm.program[vm.program.length - 1]? = some 1 then vm.program.length - 2
  else vm.program.length

/-- PikeVM.java:471-494 `isPlainString`. -/
def isPlainString (vm : PikeVM.VM) : Option (List Nat) :=
  let l := (vm.program.drop (plainStart vm)).take (plainEnd vm - plainStart vm)
  if l.any (fun x => decide (x < 0)) then none else some (l.map fun x => (x % 65536).toNat)

end Avian.PlainPattern
