/-
Model of the archive index and class path search in src/finder.cpp and src/avian/finder.h, of the
string hashes in include/avian/util/hash.h and of include/avian/util/tokenizer.h.

The mapped archive is a byte list; reading outside it is undefined (`none`).  File names are byte
lists without the terminating zero.  Offsets are natural numbers.  Inflating (zlib) and the
operating system's file functions are not modelled: a deflated entry is described by the place and
size of its data.
-/
namespace Avian.Finder

abbrev Byte := BitVec 8

/-! ### Hashes (include/avian/util/hash.h) -/

/-- hash.h:19-26 `hash(const char*)`: `char` is signed, so a byte above 127 is added as a negative
number. -/
def hashSigned : BitVec 32 → List Byte → BitVec 32
  | h, [] => h
  | h, c :: r => hashSigned (h * 31#32 + c.signExtend 32) r

/-- hash.h:28-36 `hash(Slice<const uint8_t>)`. -/
def hashUnsigned : BitVec 32 → List Byte → BitVec 32
  | h, [] => h
  | h, c :: r => hashUnsigned (h * 31#32 + c.setWidth 32) r

/-! ### Reading the archive (src/avian/finder.h) -/

/-- src/avian/finder.h:33-36 `get2`. -/
def get2 (d : List Byte) (p : Nat) : Option Nat :=
  match d[p]?, d[p + 1]? with
  | some a, some b => some (b.toNat * 256 + a.toNat)
  | _, _ => none

/-- src/avian/finder.h:38-43 `get4`. -/
def get4 (d : List Byte) (p : Nat) : Option Nat :=
  match get2 d p, get2 d (p + 2) with
  | some a, some b => some (b * 65536 + a)
  | _, _ => none

/-- `fileName(p)` for `n` bytes (src/avian/finder.h:110-113). -/
def getName (d : List Byte) (p n : Nat) : Option (List Byte) :=
  if p + 46 + n ≤ d.length then some ((d.drop (p + 46)).take n) else none

/-- src/finder.cpp:270-278 `JarIndex::Entry`: the hash and the place of the central directory
header.  The name, read from that place by `findNode`, is kept with it. -/
structure Entry where
  hash : BitVec 32
  pos : Nat
  name : List Byte
  deriving DecidableEq

/-- src/finder.cpp:440-446 `JarIndex`: `nodes` are the entries in order of addition (its length is
`position`), `table` the bucket lists. -/
structure Index where
  capacity : Nat
  nodes : List Entry
  table : List (List Entry)

/-- src/finder.cpp:280-297 `make`. -/
def make (capacity : Nat) : Index := ⟨capacity, [], List.replicate capacity []⟩

/-- `hash & (capacity - 1)`. -/
def bucket (h : BitVec 32) (capacity : Nat) : Nat := h.toNat &&& (capacity - 1)

/-- src/finder.cpp:330-333: the case `position < capacity` of `add`. -/
def push (x : Index) (e : Entry) : Index :=
  { x with
    nodes := x.nodes ++ [e]
    table := x.table.set (bucket e.hash x.capacity)
      (e :: x.table.getD (bucket e.hash x.capacity) []) }

/-- The `index->add(...)` calls in src/finder.cpp:336-339, whose result is dropped: `none` if such a
call would have to grow the index again. -/
def addInto (x : Index) (e : Entry) : Option Index :=
  if x.nodes.length < x.capacity then some (push x e) else none

/-- The copying loop src/finder.cpp:336-338. -/
def addAll : List Entry → Index → Option Index
  | [], x => some x
  | e :: r, x => (addInto x e).bind (addAll r)

/-- src/finder.cpp:328-343 `add`. -/
def add (x : Index) (e : Entry) : Option Index :=
  if x.nodes.length < x.capacity then some (push x e)
  else (addAll (x.nodes.take x.capacity) (make (x.capacity * 2))).bind fun y => addInto y e

/-- src/finder.cpp:311-320: the loop over the central directory starting at `p`.  When `p` reaches
the end of the archive the enclosing loop goes on to read a signature there, which is outside
(`none`).  The fuel bounds the iterations (each one advances by at least 46). -/
def readEntries (d : List Byte) : Nat → Nat → Index → Option Index
  | 0, _, _ => none
  | fuel + 1, p, x =>
    if p < d.length then
      (get4 d p).bind fun s =>
      if s = 0x02014b50 then
        (get2 d (p + 28)).bind fun n =>
        (getName d p n).bind fun name =>
        (add x ⟨hashUnsigned 0#32 name, p, name⟩).bind fun x =>
        (get2 d (p + 30)).bind fun ex =>
        (get2 d (p + 32)).bind fun cm =>
        readEntries d fuel (p + 46 + n + ex + cm) x
      else some x
    else none

/-- src/finder.cpp:305-323: the backward search for the end of central directory record. -/
def search (d : List Byte) : Nat → Index → Option Index
  | 0, x => some x
  | p + 1, x =>
    (get4 d (p + 1)).bind fun s =>
    if s = 0x06054b50 then
      (get4 d (p + 1 + 16)).bind fun q => readEntries d (d.length + 1) q x
    else search d p x

/-- src/finder.cpp:296-326 `open`.  For an archive shorter than 22 bytes the search starts before
the data and ends at once. -/
def openJar (d : List Byte) : Option Index := search d (d.length - 22) (make 32)

/-- src/finder.cpp:345-357 `findNode`. -/
def findNode (x : Index) (name : List Byte) : Option Entry :=
  (x.table.getD (bucket (hashSigned 0#32 name) x.capacity) []).find? (fun e => name = e.name)

/-- Where the data of an entry is. -/
inductive Content where
  | stored (start length : Nat)
  | deflated (start compressed uncompressed : Nat)
  deriving DecidableEq

/-- src/avian/finder.h:115-119 `fileData`. -/
def fileData (d : List Byte) (p : Nat) : Option Nat :=
  (get2 d (p + 26)).bind fun n => (get2 d (p + 28)).bind fun ex => some (p + 30 + n + ex)

/-- Outcome of `find`: not listed, found, or undefined/abort. -/
inductive Found where
  | missing
  | content (c : Content)
  | bad
  deriving DecidableEq

/-- src/finder.cpp:358-404 `find`. -/
def find (d : List Byte) (x : Index) (name : List Byte) : Found :=
  match findNode x name with
  | none => .missing
  | some e =>
    match get2 d (e.pos + 10), get4 d (e.pos + 20), get4 d (e.pos + 24),
        (get4 d (e.pos + 42)).bind (fileData d) with
    | some m, some cs, some us, some start =>
      if m = 0 then .content (.stored start cs)
      else if m = 8 then .content (.deflated start cs us)
      else .bad
    | _, _, _, _ => .bad

/-- `System::FileType` as far as `stat` of an archive produces it. -/
inductive FileType where
  | doesNotExist
  | file (length : Nat)
  | directory
  deriving DecidableEq

/-- src/finder.cpp:406-432 `stat`; `none` is a read outside the archive. -/
def stat (d : List Byte) (x : Index) (name : List Byte) (tryDirectory : Bool) : Option FileType :=
  match findNode x name with
  | some e => (get4 d (e.pos + 24)).map .file
  | none =>
    if tryDirectory then
      match findNode x (name ++ [0x2f#8]) with
      | some _ => some .directory
      | none => some .doesNotExist
    else some .doesNotExist

/-- src/finder.cpp:536-537 and 556-557: leading slashes are dropped. -/
def stripSlashes (name : List Byte) : List Byte := name.dropWhile (· = 0x2f#8)

/-! ### Class path -/

/-- An element of the class path, reduced to its answers (src/finder.cpp:30-53). -/
structure Element (R : Type) where
  find : List Byte → Option R
  exists_ : List Byte → Bool → Bool
  source : Option (List Byte)

/-- src/finder.cpp:1000-1010 `MyFinder::find`. -/
def finderFind {R : Type} : List (Element R) → List Byte → Option R
  | [], _ => none
  | e :: rest, name =>
    match e.find name with
    | some r => some r
    | none => finderFind rest name

/-- src/finder.cpp:1012-1024 `MyFinder::stat` reduced to existence. -/
def finderStat {R : Type} : List (Element R) → List Byte → Bool → Bool
  | [], _, _ => false
  | e :: rest, name, dir => if e.exists_ name dir then true else finderStat rest name dir

/-- src/finder.cpp:1047-1058 `MyFinder::sourceUrl`. -/
def finderSource {R : Type} : List (Element R) → List Byte → Option (List Byte)
  | [], _ => none
  | e :: rest, name => if e.exists_ name true then e.source else finderSource rest name

/-- src/finder.cpp:1036-1044: the loop of `nextUrlPrefix` from element number `i`; the result and the
new cursor (`none` after the last element). -/
def urlLoop {R : Type} (name : List Byte) : List (Element R) → Nat → Option Nat
  | [], _ => none
  | e :: rest, i => if e.exists_ name true then some i else urlLoop name rest (i + 1)

/-- src/finder.cpp:1032-1045 `nextUrlPrefix`: the cursor is null or an element; the result is the
number of the element whose prefix is returned, which is also the new cursor. -/
def nextUrlPrefix {R : Type} (path : List (Element R)) (name : List Byte) (cursor : Option Nat) :
    Option Nat :=
  match cursor with
  | none => urlLoop name path 0
  | some i => urlLoop name (path.drop (i + 1)) (i + 1)

/-- The caller's loop (src/builtin.cpp:264-270, classpath/avian/SystemClassLoader.java `ResourceEnumeration`): start with a null cursor and stop at the first null
answer. -/
def urlEnumeration {R : Type} (path : List (Element R)) (name : List Byte) :
    Nat → Option Nat → List Nat
  | 0, _ => []
  | fuel + 1, cursor =>
    match nextUrlPrefix path name cursor with
    | none => []
    | some i => i :: urlEnumeration path name fuel (some i)

/-- include/avian/util/tokenizer.h:30-35 `hasMore` skipping delimiters, on the remaining text (the
list ends at the limit or the terminating zero). -/
def skipDelimiters (delimiter : Byte) (s : List Byte) : List Byte := s.dropWhile (· = delimiter)

/-- The loop `for (Tokenizer t(...); t.hasMore();) t.next()` (tokenizer.h:30-43).  Fuel bounds the
number of tokens. -/
def tokens (delimiter : Byte) : Nat → List Byte → List (List Byte)
  | 0, _ => []
  | fuel + 1, s =>
    match skipDelimiters delimiter s with
    | [] => []
    | c :: r =>
      ((c :: r).takeWhile (· ≠ delimiter)) ::
        tokens delimiter fuel ((c :: r).dropWhile (· ≠ delimiter))

/-- What the operating system says about a path name. -/
inductive PathKind where
  | jar
  | directory
  | missing
  deriving DecidableEq

/-- A class path element by name. -/
inductive Item where
  | builtin (name : List Byte)
  | jar (name : List Byte)
  | directory (name : List Byte)
  deriving DecidableEq

/-- The environment: kinds of files and, for each jar, the entries of its `Class-Path` manifest
attribute (already joined with the directory of the jar, src/finder.cpp:734-749). -/
structure Env where
  kind : List Byte → PathKind
  manifest : List Byte → List (List Byte)

/-- The token loops src/finder.cpp:734-749 and 918-922, for a function adding one token. -/
def addTokenList (f : List Byte → List Item → Option (List Item)) :
    List (List Byte) → List Item → Option (List Item)
  | [], path => some path
  | t :: ts, path => (f t path).bind (addTokenList f ts)

/-- src/finder.cpp:857-909 `add` for one token and 761-855 `addJar`: a jar is appended and then the
entries of its manifest are added in turn.  The recursion is not guarded in the code; `none` when
the fuel (depth) runs out. -/
def addToken (env : Env) : Nat → List Byte → List Item → Option (List Item)
  | 0, _, _ => none
  | fuel + 1, token, path =>
    if token.head? = some 0x5b#8 ∧ token.getLast? = some 0x5d#8 then
      some (path ++ [.builtin ((token.drop 1).take (token.length - 2))])
    else
      match env.kind token with
      | .jar => addTokenList (addToken env fuel) (env.manifest token) (path ++ [.jar token])
      | .directory => some (path ++ [.directory token])
      | .missing => some path

/-- src/finder.cpp:911-925 `parsePath`. -/
def parsePath (env : Env) (fuel : Nat) (separator : Byte) (path : List Byte) : Option (List Item) :=
  addTokenList (addToken env fuel) (tokens separator (path.length + 1) path) []

end Avian.Finder
