import Verif.Lib.Outcome

/-
Shuffling and reversing lists (classpath/java/util/Collections.java). A list is a list of its elements; `none` is an index outside of it.
-/
namespace Avian.Shuffle

variable {A : Type}

/-- Collections.java:23-25 and 172-174: two elements are exchanged. -/
def swap (a : List A) (i j : Nat) : Option (List A) :=
  (a[i]?).bind fun tmp => (a[j]?).bind fun other => some ((a.set i other).set j tmp)

/-- Collections.java:21-26: the loop of `shuffle`, with the turns that are left; `choice i` is what `random.nextInt` gives in the turn `i`. -/
def shuffleLoop (choice : Nat → Nat) : Nat → Nat → List A → Option (List A)
  | 0, _, a => some a
  | turns + 1, i, a => (swap a i (choice i)).bind fun a => shuffleLoop choice turns (i + 1) a

/-- Collections.java:19-32 `shuffle`. -/
def shuffle (choice : Nat → Nat) (l : List A) : Option (List A) := shuffleLoop choice l.length 0 l

/-- Collections.java:171-175: the loop of `reverse`; the second number is `descending + 1`, the fuel is more than the turns. -/
def reverseLoop : Nat → Nat → Nat → List A → Option (List A)
  | 0, _, _, _ => none
  | fuel + 1, ascending, bound, a =>
    if ascending + 1 < bound then (swap a ascending (bound - 1)).bind fun a => reverseLoop fuel (ascending + 1) (bound - 1) a
    else some a

/-- Collections.java:169-176 `reverse`. -/
def reverse (l : List A) : Option (List A) := reverseLoop (l.length + 1) 0 l.length l

end Avian.Shuffle
