import Verif.Lib.PikeVM

/-
From expressions to machines (classpath/java/util/regex/Compiler.java): `writeCode` of the expressions.

An expression here is what the parser of the source makes of a pattern, with lists as pairs: a group with the expressions e1 … en is
`seq e1 (… (seq en nil))`, and with the alternatives g1 … gn before it `alt g1 (… (alt gn …))`, which has the same code, since the jumps of all
alternatives go to the end of the group.  Each expression is written twice in the source, first to know the size of the program; here
the sizes are those of the lists.
-/
namespace Avian.PikeVM

/-- Expressions (Compiler.java:93-372): nothing, a character, `.`, a class, `\b` and `\B`, `^`, `$`, one after the other, `|`, `{min,max}`,
`(…)`, `(?=…)` and `(?!…)`. -/
inductive Re where
  | nil
  | chr (c : Nat)
  | dot
  | cls (m : Nat → Bool)
  | boundary (word : Bool)
  | lineStart
  | lineEnd
  | seq (a b : Re)
  | alt (a b : Re)
  | rep (e : Re) (min : Nat) (max : Option Nat) (greedy : Bool)
  | cap (e : Re)
  | look (negative : Bool) (e : Re)

/-- Compiler.java:27-33 what `Output` collects besides the program; `groups` is `groupCount + 1`. -/
structure Tables where
  groups : Nat
  classes : List (Nat → Bool)
  lookarounds : List VM

/-- Compiler.java:145-147: an expression `n` times. -/
def copies (f : Nat → Tables → List Int × Tables) : Nat → Nat → Tables → List Int × Tables
  | 0, _, t => ([], t)
  | n + 1, o, t =>
    let a := f o t
    let b := copies f n (o + a.1.length) a.2
    (a.1 ++ b.1, b.2)

/-- Compiler.java:168-175: an expression up to `n` times, with jumps to `stop`. -/
def options (f : Nat → Tables → List Int × Tables) (split : Int) (stop : Nat) : Nat → Nat → Tables → List Int × Tables
  | 0, _, t => ([], t)
  | n + 1, o, t =>
    let a := f (o + 2) t
    let b := options f split stop n (o + 2 + a.1.length) a.2
    (split :: (stop : Int) :: a.1 ++ b.1, b.2)

/-- Compiler.java:141-182: `{min,}` and `{min,max}` behind the first copies, at `o`. -/
def repeatTail (f : Nat → Tables → List Int × Tables) (min : Nat) (max : Option Nat) (greedy : Bool) (o : Nat) (t : Tables) : List Int × Tables :=
  let splitJmp := if greedy then SPLIT_JMP else SPLIT
  let split := if greedy then SPLIT else SPLIT_JMP
  match max with
  | none =>
    if 0 < min then
      let a := f o t
      (a.1 ++ [splitJmp, (o : Int)], a.2)
    else
      let a := f (o + 2) t
      (split :: ((o + 2 + a.1.length + 2 : Nat) : Int) :: a.1 ++ [splitJmp, ((o + 2 : Nat) : Int)], a.2)
  | some m =>
    let a := if 0 < min then f o t else ([], t)
    let o' := o + a.1.length
    let b := options f split (o' + (options f split 0 (m - min) o' a.2).1.length) (m - min) o' a.2
    (a.1 ++ b.1, b.2)

/-- Compiler.java:93-371 `writeCode` at the offset `o`. -/
def write : Re → Nat → Tables → List Int × Tables
  | .nil, _, t => ([], t)
  | .chr c, _, t => ([(c : Int)], t)
  | .dot, _, t => ([DOT], t)
  | .cls m, _, t => ([CHARACTER_CLASS, (t.classes.length : Int)], { t with classes := t.classes ++ [m] })
  | .boundary w, _, t => ([if w then WORD_BOUNDARY else NON_WORD_BOUNDARY], t)
  | .lineStart, _, t => ([LINE_START], t)
  | .lineEnd, _, t => ([LINE_END], t)
  | .seq a b, o, t =>
    let x := write a o t
    let y := write b (o + x.1.length) x.2
    (x.1 ++ y.1, y.2)
  | .alt a b, o, t =>
    let x := write a (o + 2) t
    let o' := o + 2 + x.1.length + 2
    let y := write b o' x.2
    (SPLIT :: (o' : Int) :: x.1 ++ JMP :: ((o' + y.1.length : Nat) : Int) :: y.1, y.2)
  | .rep e min max greedy, o, t =>
    let x := copies (write e) (min - 1) o t
    let y := repeatTail (write e) min max greedy (o + x.1.length) x.2
    (x.1 ++ y.1, y.2)
  | .cap e, o, t =>
    let x := write e (o + 2) { t with groups := t.groups + 1 }
    (SAVE_OFFSET :: ((2 * t.groups : Nat) : Int) :: x.1 ++ [SAVE_OFFSET, ((2 * t.groups + 1 : Nat) : Int)], x.2)
  | .look negative e, _, t =>
    let x := write e 0 ⟨0, [], []⟩
    ([if negative then NEGATIVE_LOOKAHEAD else LOOKAHEAD, (t.lookarounds.length : Int)],
      { t with lookarounds := t.lookarounds ++ [.mk x.1 0 x.2.groups x.2.classes x.2.lookarounds] })

/-- Compiler.java:347-371 `Group0` and 66-73 `toVM`. -/
def compile (e : Re) : VM :=
  let x := write (.cap e) 5 ⟨0, [], []⟩
  .mk ([SPLIT_JMP, 5, DOTALL, SPLIT, 2] ++ x.1) 5 x.2.groups x.2.classes x.2.lookarounds

end Avian.PikeVM
