import Verif.Lib.Outcome

/-
The machine behind `java.util.regex` (classpath/java/util/regex/PikeVM.java), running forwards.

The queue of threads is modelled with its arrays, since the machine leaves entries of them behind in some cases.  The arrays `offsets[pc]`
are values here: a thread hands its array to the next one, and copies it where it goes on twice (lines 101-103), so no array is shared by
two threads that still run.

Not modelled: running backwards (look-behind), which fails here.  `multiLine` is never set.  Positions and program counters are naturals.
-/
namespace Avian.PikeVM

def upd {α : Type} (f : Nat → α) (n : Nat) (x : α) : Nat → α := fun m => if m = n then x else f m

/-- PikeVMOpcodes.java:20-45 -/
def DOT : Int := -1
def DOTALL : Int := -2
def WORD_BOUNDARY : Int := -10
def NON_WORD_BOUNDARY : Int := -11
def LINE_START : Int := -12
def LINE_END : Int := -13
def CHARACTER_CLASS : Int := -20
def LOOKAHEAD : Int := -30
def LOOKBEHIND : Int := -31
def NEGATIVE_LOOKAHEAD : Int := -32
def NEGATIVE_LOOKBEHIND : Int := -33
def SAVE_OFFSET : Int := -40
def SPLIT : Int := -50
def SPLIT_JMP : Int := -51
def JMP : Int := -52

/-- PikeVM.java:18-52: a machine.  A class of characters is a predicate (`CharacterMatcher.matches`). -/
inductive VM where
  | mk (program : List Int) (findPrefixLength groupCount : Nat) (classes : List (Nat → Bool)) (lookarounds : List VM)

def VM.program : VM → List Int
  | .mk p _ _ _ _ => p
def VM.findPrefixLength : VM → Nat
  | .mk _ p _ _ _ => p
/-- One more than `groupCount` of the source, which is -1 for a machine without groups. -/
def VM.groups : VM → Nat
  | .mk _ _ g _ _ => g
def VM.classes : VM → List (Nat → Bool)
  | .mk _ _ _ c _ => c
def VM.lookarounds : VM → List VM
  | .mk _ _ _ _ l => l

/-- PikeVM.java:83-88 `ThreadQueue`; `none` is -1 or null. -/
structure Queue where
  head : Option Nat
  tail : Option Nat
  next : Nat → Nat
  offsets : Nat → Option (List Nat)

/-- PikeVM.java:90-94 -/
def Queue.empty : Queue := ⟨none, none, fun _ => 0, fun _ => none⟩

/-- PikeVM.java:96-101; `n` is `offsetsCount`. -/
def Queue.start (pc n : Nat) : Queue := ⟨some pc, some pc, fun _ => 0, upd (fun _ => none) pc (some (List.replicate n 0))⟩

/-- PikeVM.java:258-260 `isScheduled` -/
def Queue.isScheduled (q : Queue) (pc : Nat) : Bool := q.tail == some pc || decide (0 < q.next pc)

/-- PikeVM.java:262-264 `next` -/
def Queue.after (q : Queue) : Option Nat → Option Nat
  | none => q.head
  | some pc => if q.next pc = 0 then none else some (q.next pc - 1)

/-- PikeVM.java:151-169 `queueImmediately` -/
def Queue.queueImmediately (q : Queue) (pc pc' : Nat) : Queue :=
  if q.isScheduled pc' then q
  else
    let o := q.offsets pc
    let q := if q.tail = some pc then { q with tail := some pc' } else { q with next := upd q.next pc' (q.next pc) }
    { q with offsets := upd q.offsets pc' o, next := upd q.next pc (pc' + 1) }

/-- PikeVM.java:188-199 `queueNext`: the queue `next` afterwards, and whether the thread was queued. -/
def Queue.queueNext (q : Queue) (pc pc' : Nat) (next : Queue) : Queue × Bool :=
  match next.tail with
  | none => ({ next with head := some pc', offsets := upd next.offsets pc' (q.offsets pc), tail := some pc' }, true)
  | some t =>
    if next.isScheduled pc' then (next, false)
    else ({ next with next := upd next.next t (pc' + 1), offsets := upd next.offsets pc' (q.offsets pc), tail := some pc' }, true)

/-- PikeVM.java:109-115: the head is taken away. -/
def Queue.behead (q : Queue) (pc : Nat) : Queue :=
  let q' := if q.head = q.tail then { q with head := none, tail := none } else { q with head := q.after (some pc), next := upd q.next pc 0 }
  { q' with offsets := upd q'.offsets pc none }

/-- PikeVM.java:103-122 `queueOneImmediately`: both queues afterwards, and the thread.  The first argument limits the number of rounds. -/
def Queue.queueOneImmediately : Nat → Queue → Queue → Option (Queue × Queue × Option Nat)
  | 0, _, _ => none
  | f + 1, q, into =>
    match q.head with
    | none => some (q, into, none)
    | some pc =>
      let r := q.queueNext pc pc into
      if r.2 then some (q.behead pc, { r.1 with tail := some pc }, some pc)
      else (q.behead pc).queueOneImmediately f r.1

/-- PikeVM.java:201-203 `saveOffset` -/
def Queue.saveOffset (q : Queue) (pc index offset : Nat) : Queue :=
  { q with offsets := upd q.offsets pc ((q.offsets pc).map fun o => o.set index (offset + 1)) }

/-- PikeVM.java:425-429: an offset is saved, if there is one and the result is asked for. -/
def Queue.save (q : Queue) (result : Bool) (pc offset : Nat) : Option Nat → Queue
  | some index => if result then q.saveOffset pc index offset else q
  | none => q

/-- PikeVM.java:228-236: a thread is dropped. -/
def Queue.drop (q : Queue) (previous : Option Nat) (pc : Nat) (pc' : Option Nat) : Queue :=
  let q1 := { q with next := upd q.next pc 0, offsets := upd q.offsets pc none }
  if q.tail = some pc then { q1 with head := none, tail := none }
  else
    match previous with
    | none => { q1 with head := pc' }
    | some p => { q1 with next := upd q1.next p ((pc'.map (· + 1)).getD 0) }

/-- PikeVM.java:218-241 `mustStartMatchAt`: the loop, where `start1` is one more than `start`; `none` is a NullPointerException (or too many rounds). -/
def Queue.mustStartLoop (start1 : Nat) : Nat → Queue → Option Nat → Option Nat → Option Queue
  | 0, _, _, _ => none
  | f + 1, q, previous, pc =>
    match pc with
    | none => some q
    | some pc =>
      let pc' := q.after (some pc)
      match q.offsets pc with
      | none => none
      | some o =>
        if start1 = o.getD 0 0 then q.mustStartLoop start1 f (some pc) pc'
        else (q.drop previous pc pc').mustStartLoop start1 f previous pc'

/-- PikeVM.java:266-274 `clean`: the loop. -/
def Queue.cleanLoop : Nat → Queue → Option Nat → Queue
  | 0, q, _ => q
  | f + 1, q, pc =>
    match pc with
    | none => q
    | some pc => Queue.cleanLoop f { q with next := upd q.next pc 0, offsets := upd q.offsets pc none } (q.after (some pc))

/-- PikeVM.java:266-274 `clean`; each round takes one of the entries away, so there are not more than entries. -/
def Queue.clean (n : Nat) (q : Queue) : Queue := { q.cleanLoop (n + 1) q.head with head := none, tail := none }

/-- What an instruction does: nothing more, an exception (or what is not modelled), go on with the next character, or go on at once (the
last of the list first), with an offset to save. -/
inductive Act where
  | die
  | bad
  | eat (pc : Nat)
  | imm (pcs : List Nat) (save : Option Nat)

/-- CharacterMatcher.java `[a-zA-Z_0-9]` (PikeVM.java:31-32). -/
def wordCharacter (c : Nat) : Bool := (97 ≤ c && c ≤ 122) || (65 ≤ c && c ≤ 90) || c == 95 || (48 ≤ c && c ≤ 57)

/-- PikeVM.java:352-380: `i2` is where the previous character is looked for. -/
def boundary (s : List Nat) (i i2 : Nat) (word : Bool) (c : Nat) : Bool :=
  let c2 := match s[i2]? with
    | none => false
    | some c2 => wordCharacter c2
  if word then if c2 = false then wordCharacter c else decide (i < s.length) && !wordCharacter c
  else if c2 = false then decide (i < s.length) && !wordCharacter c else wordCharacter c

/-- The position of the previous character, `i - step`: -1 is no position; the step is -1 when there are no characters (line 306). -/
def before (s : List Nat) (start i : Nat) : Nat := if start < s.length then (if i = 0 then s.length else i - 1) else i + 1

/-- The argument of an instruction. -/
def arg (p : List Int) (pc : Nat) : Option Nat :=
  match p[pc + 1]? with
  | some (.ofNat n) => some n
  | _ => none

/-- PikeVM.java:345-454: the instruction at `pc` on the character `c` at `i`; `look` are the results of the lookarounds there. -/
def act (vm : VM) (s : List Nat) (start : Nat) (look : Nat → Nat → Option Bool) (i c pc : Nat) : Act :=
  match vm.program[pc]? with
  | none => .bad
  | some op =>
    if op = DOT then if c ≠ 0 ∧ c ≠ 13 ∧ c ≠ 10 then .eat (pc + 1) else .die
    else if op = DOTALL then .eat (pc + 1)
    else if op = WORD_BOUNDARY then if boundary s i (before s start i) true c then .imm [pc + 1] none else .die
    else if op = NON_WORD_BOUNDARY then if boundary s i (before s start i) false c then .imm [pc + 1] none else .die
    else if op = LINE_START then if i = 0 then .imm [pc + 1] none else .die
    else if op = LINE_END then if i = s.length then .imm [pc + 1] none else .die
    else if 0 ≤ op ∧ op ≤ 0xffff then if (c : Int) = op then .eat (pc + 1) else .die
    else
      match arg vm.program pc with
      | none => .bad
      | some k =>
        if op = CHARACTER_CLASS then
          match vm.classes[k]? with
          | none => .bad
          | some m => if m c then .eat (pc + 2) else .die
        else if op = LOOKAHEAD then
          match look k i with
          | none => .bad
          | some b => if b then .imm [pc + 2] none else .die
        else if op = NEGATIVE_LOOKAHEAD then
          match look k i with
          | none => .bad
          | some b => if b then .die else .imm [pc + 2] none
        else if op = SAVE_OFFSET then .imm [pc + 2] (some k)
        else if op = SPLIT then .imm [k, pc + 2] none
        else if op = SPLIT_JMP then .imm [pc + 2, k] none
        else if op = JMP then .imm [k] none
        else .bad

/-- How the loop over the threads ends: with an exception, with `return true`, or with the queues and the offsets of a match. -/
inductive Step where
  | fail
  | yes
  | ok (current queued next : Queue) (result : Option (List Nat))

/-- PikeVM.java:319-343: a thread is at the end of the program, and this counts. -/
def accept (vm : VM) (anchorStart result : Bool) (current queued next : Queue) (pc : Nat) : Step :=
  if result = false then .yes
  else
    match current.offsets pc with
    | none => .fail
    | some o =>
      if anchorStart then .ok current queued next (some o)
      else
        match next.mustStartLoop (o.getD 0 0) (vm.program.length + 2) none next.head with
        | none => .fail
        | some next => .ok current queued next (some o)

/-- PikeVM.java:312-456: the loop over the threads for the character `c` at `i`; `pc` is the thread that was run last.  The first argument
limits the number of rounds (`none`). -/
def threads (vm : VM) (s : List Nat) (start : Nat) (look : Nat → Nat → Option Bool) (anchorStart anchorEnd result : Bool) (i c : Nat) :
    Nat → Queue → Queue → Queue → Option Nat → Option Step
  | 0, _, _, _, _ => none
  | f + 1, current, queued, next, last =>
    match
      (match current.after last with
      | some pc => some (queued, current, some pc)
      | none => queued.queueOneImmediately (vm.program.length + 2) current) with
    | none => none
    | some (queued, current, none) => some (.ok current queued next none)
    | some (queued, current, some pc) =>
      if pc = vm.program.length then
        if anchorEnd ∧ i ≠ s.length then threads vm s start look anchorStart anchorEnd result i c f current queued next (some pc)
        else some (accept vm anchorStart result current queued next pc)
      else
        match act vm s start look i c pc with
        | .bad => some .fail
        | .die => threads vm s start look anchorStart anchorEnd result i c f current queued next (some pc)
        | .eat pc' => threads vm s start look anchorStart anchorEnd result i c f current queued (current.queueNext pc pc' next).1 (some pc)
        | .imm pcs save =>
          threads vm s start look anchorStart anchorEnd result i c f (pcs.foldl (fun q pc' => q.queueImmediately pc pc') (current.save result pc i save))
            queued next (some pc)

/-- What `matches` ends with: an exception, or whether a match was found and the offsets (`none`: not asked for). -/
inductive Out where
  | fail
  | done (found : Bool) (offsets : Option (List Nat))
  deriving DecidableEq

/-- PikeVM.java:307-466: the loop over the characters, of which there are `n - 1` still, and the end. -/
def steps (vm : VM) (s : List Nat) (start : Nat) (look : Nat → Nat → Option Bool) (anchorStart anchorEnd result : Bool) :
    Nat → Nat → Queue → Queue → Queue → Bool → Option (List Nat) → Option Out
  | 0, _, _, _, _, found, offsets => some (.done found offsets)
  | n + 1, i, current, queued, next, found, offsets =>
    if queued.head = none then some (.done found offsets)
    else
      match threads vm s start look anchorStart anchorEnd result i (s.getD i 0) (vm.program.length + 2) current queued next none with
      | none => none
      | some .fail => some .fail
      | some .yes => some (.done true none)
      | some (.ok current queued next r) =>
        steps vm s start look anchorStart anchorEnd result n (i + 1) (current.clean vm.program.length) next queued (found || r.isSome)
          (r.or offsets)

/-- PikeVM.java:295-305: the first thread. -/
def begin (vm : VM) (s : List Nat) (start : Nat) (look : Nat → Nat → Option Bool) (anchorStart anchorEnd result : Bool) : Option Out :=
  if s.length < start then some .fail
  else
    steps vm s start look anchorStart anchorEnd result (s.length + 1 - start) start .empty
      (.start (if anchorStart then vm.findPrefixLength else 0) (2 * vm.groups)) .empty false none

/-- PikeVM.java:295-466 `matches` from `start` to the end of the characters; the first argument limits the depth of lookarounds. -/
def run : Nat → VM → List Nat → Nat → Bool → Bool → Bool → Option Out
  | 0, _, _, _, _, _, _ => none
  | d + 1, vm, s, start, anchorStart, anchorEnd, result =>
    begin vm s start
      (fun k i =>
        match vm.lookarounds[k]? with
        | none => none
        | some v =>
          match run d v s i true false false with
          | some (.done b _) => some b
          | _ => none)
      anchorStart anchorEnd result

/-- RegexMatcher.java:47-49 `matches` -/
def isMatch (d : Nat) (vm : VM) (s : List Nat) : Option Out := run d vm s 0 true true true

/-- RegexMatcher.java:55-57 `find` -/
def find (d : Nat) (vm : VM) (s : List Nat) (offset : Nat) : Option Out := run d vm s offset false false true

end Avian.PikeVM
