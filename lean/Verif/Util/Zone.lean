import Verif.Util.FixedAlloc

/-
Model of the arena src/avian/zone.h.
The backing allocator is an environment: each call that asks it for memory is given the
answers it would return.  Addresses are natural numbers.  Sizes are natural numbers; the places
where the code narrows them to `unsigned` reduce modulo 2^32.
-/
namespace Avian.Zone

/-- src/avian/zone.h:22-32 `Segment` (a header of 24 bytes followed by `size` data bytes);
`base` is the address of the header. -/
structure Segment where
  base : Nat
  size : Nat
  position : Nat
  deriving DecidableEq, Repr

/-- sizeof(Segment) on a 64-bit platform (zone.h:28-31). -/
def headerSize : Nat := 24

/-- Address of `segment->data` (zone.h:31). -/
def Segment.data (s : Segment) : Nat := s.base + headerSize

/-- src/avian/zone.h:149-151: the chain of segments (newest first) and `minimumFootprint`. -/
structure Zone where
  segments : List Segment
  minimumFootprint : Nat
  deriving DecidableEq, Repr

/-- src/avian/zone.h:34-41: constructor. -/
def Zone.new (minimumFootprint : Nat) : Zone :=
  { segments := [],
    minimumFootprint :=
      if minimumFootprint < headerSize then 0 else (minimumFootprint - headerSize) % 2 ^ 32 }

/-- src/avian/common.h:296-299 `pad(size)` as called with a `size_t`. -/
def pad (n : Nat) : Nat := FixedAlloc.pad32 n 8#32

/-- src/avian/zone.h:98-101 `padToPage`: 32-bit rounding to LikelyPageSizeInBytes = 4096. -/
def padToPage (n : Nat) : Nat := FixedAlloc.pad32 n 4096#32

/-- What the backing allocator answers during one `allocate`: two `tryAllocate` calls that may
fail and one `allocate` call that may not (zone.h:113, 116, 132). -/
structure Answers where
  try1 : Option Nat
  try2 : Option Nat
  must : Nat

/-- src/avian/zone.h:106-111: size asked for first. -/
def Zone.wish (z : Zone) (space : Nat) : Nat :=
  let twice := match z.segments with | [] => 0 | s :: _ => s.size * 2 % 2 ^ 32
  padToPage (Nat.max space (Nat.max z.minimumFootprint twice) + headerSize)

/-- src/avian/zone.h:105, 129: must a new segment be added? -/
def Zone.full (z : Zone) (space : Nat) : Bool :=
  match z.segments with | [] => true | s :: _ => s.position + space > s.size

/-- src/avian/zone.h:122, 132-133 and 24: `new (p) Segment(segment, size - sizeof(Segment))`;
the constructor narrows the size to `unsigned`. -/
def Zone.push (z : Zone) (p size : Nat) : Zone :=
  { z with segments :=
      { base := p, size := (size + 2 ^ 32 - headerSize) % 2 ^ 32, position := 0 } :: z.segments }

/-- src/avian/zone.h:103-125 `tryEnsure`. -/
def Zone.tryEnsure (z : Zone) (space : Nat) (a : Answers) : Option Zone :=
  if z.full space then
    match a.try1 with
    | some p => some (z.push p (z.wish space))
    | none =>
      match a.try2 with
      | some p => some (z.push p (padToPage (space + headerSize)))
      | none => none
  else some z

/-- src/avian/zone.h:127-135 `ensure`. -/
def Zone.ensure (z : Zone) (space : Nat) (a : Answers) : Zone :=
  if z.full space then z.push a.must (padToPage (space + headerSize)) else z

/-- src/avian/zone.h:66-68, 141-143: bump the position of the current segment. -/
def Zone.bump (z : Zone) (size : Nat) : Option (Nat × Zone) :=
  match z.segments with
  | [] => none
  | s :: rest =>
    some (s.data + s.position,
      { z with segments := { s with position := s.position + size } :: rest })

/-- src/avian/zone.h:58-70, 137-147 `allocate` (with `tryAllocate` inlined; the size is padded
twice, which is idempotent, and narrowed to `unsigned` by `pad`). -/
def Zone.allocate (z : Zone) (size : Nat) (a : Answers) : Option (Nat × Zone) :=
  let size := pad size
  match z.tryEnsure (pad size) a with
  | some z => z.bump (pad size)
  | none => (z.ensure size a).bump size

/-- src/avian/zone.h:72-81 `peek`; `none` = null dereference. -/
def peekLoop : List Segment → Nat → Option Nat
  | [], _ => none
  | s :: rest, size =>
    if s.position < size then peekLoop rest (size - s.position)
    else some (s.data + (s.position - size))

/-- src/avian/zone.h:72-81 `peek`. -/
def Zone.peek (z : Zone) (size : Nat) : Option Nat := peekLoop z.segments (pad size)

/-- src/avian/zone.h:83-95 `pop`: returns the segments given back to the allocator, oldest
last, and the remaining chain; `none` = null dereference. -/
def popLoop : List Segment → Nat → Option (List Segment × List Segment)
  | [], _ => none
  | s :: rest, size =>
    if s.position < size then
      (popLoop rest (size - s.position)).map fun (freed, left) => (s :: freed, left)
    else some ([], { s with position := s.position - size } :: rest)

/-- src/avian/zone.h:83-95 `pop`. -/
def Zone.pop (z : Zone) (size : Nat) : Option (List Segment × Zone) :=
  (popLoop z.segments (pad size)).map fun (freed, left) => (freed, { z with segments := left })

/-- src/avian/zone.h:48-56 `dispose`: every segment is freed with its full size. -/
def Zone.dispose (z : Zone) : List (Nat × Nat) × Zone :=
  (z.segments.map fun s => (s.base, headerSize + s.size), { z with segments := [] })

end Avian.Zone
