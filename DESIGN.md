# Formal model of avian in Lean 4: design

## Trusted base

* The Lean 4.33.0 kernel.
* Axioms: only `propext`, `Classical.choice` and `Quot.sound` (checked with `#print axioms`;
  no own axioms, no `sorry`, no `native_decide`, no `bv_decide`).
* The hand translation from C++ (and Java for the class library) to Lean functions.
  Every definition cites the file and lines it translates.
* For the machine code (C85 and later): the description of the x86-64 instructions in
  `Codegen/Cpu`, written after Intel's manual; it is the specification the assembler is held to.
* Platform assumed: 64-bit little endian, `BytesPerWord = 8`, `char` signed (x86-64 Linux),
  two's complement.

## Conventions

* `lean/Verif/<Area>.lean` holds a model (translation), `lean/Verif/<Area>Lemmas.lean` helper
  lemmas where they are long, `lean/Verif/Props/<Area>.lean` the specification and the property
  theorems with one concrete `example` beside each.
* Abort, undefined behaviour and non-termination are explicit outcomes (`Option.none`, a
  dedicated constructor, or a fuel argument whose exhaustion is `none`) so a theorem cannot be
  true because of a totalised default.
* Where the code violates a property, the file holds a theorem proving the violation on a
  concrete input, and the positive theorem carries the missing hypothesis and the suffix
  `_partial`.
* Concurrency is modelled as a labelled transition system at the granularity of one shared
  memory access per step under sequential consistency. Weak memory is not modelled.

## Plan per property

| id | model | proof |
|----|-------|-------|
| C01 | `math.h`, `pad` on `BitVec 32/64`, loops with fuel | arithmetic, loop invariants; divergence witness |
| C02 | bit maps as functions/lists of words, record loops | induction on record width |
| C03 | stream as byte list + position + error flag | case analysis, refinement to list `take/drop` |
| C04-C06 | heap of tree nodes (address to node), clone and rotate as stores | refinement to functional red-black tree; invariants; frame lemma for old addresses |
| C07-C08 | bucket array of chains, resize, weak keys as liveness predicate | refinement to association list; invariant over operation lists |
| C09 | arena as segment stack with positions | invariant over operation lists |
| C10 | allocator as offset in region | direct; counterexample for non-word sizes |
| C11-C12 | encoder and decoder as list functions | induction; totality by structural recursion |
| C13 | both string storage forms | induction; counterexample |
| C14 | intern over C08 map | invariant over operation lists |
| C15 | central directory records, index with chains, both hash variants | refinement to list search; counterexample at capacity 512 |
| C16 | list of elements | induction |
| C17-C19 | field table fold, mask words, static table second pass | loop invariants |
| C20-C21 | method table construction on lists, virtual map as map | induction over the class chain |
| C22 | finite class table | equivalence with inductively defined subtype relation |
| C23 | character list scanner | induction over descriptor grammar |
| C24-C25 | transition system of threads over class flags and lock | inductive invariant; violation trace for C25 |
| C26-C27 | transition system of `enter` | inductive invariant |
| C28-C30 | transition system of monitor operations | inductive invariant, refinement of queue to list |
| C31 | transition system of the posix monitor: ownership, mutexes of the threads, linked wait list, flags | inductive invariant; every event of the log meets its specification; progress |
| C32 | copying collection on an address-to-object heap | graph isomorphism by invariant of forwarding map |
| C33 | bit set packed in words | refinement to finite set enumeration |
| C34 | write barrier and remembered set over histories | inductive invariant |
| C35 | accounting state machine | invariant over operation lists |
| C36 | fixie lists | invariant over operations |
| C37-C38 | header flags and copy sizes | invariant over operations; counterexample for clone |
| C39 | reference and finalizer lists in post visit, reachability closure | invariants over the loops; a machine life for "once"; three counterexamples |
| C40 | tree of threads with parent, child and peer links | refinement to forest |
| C41-C47 | interpreter state and step functions on `BitVec` | case analysis against an independent spec; counterexamples |
| C48 | list functions | induction, injectivity |
| C49 | line-number table and binary search | loop invariant |
| C50 | FP to integer conversion on bit patterns (`Interp/Float.lean`) | exact rational value of a bit pattern, case analysis |
| C51 | whole interpreter: `Interp/Machine.lean` (stack of tagged words as `stack[]` in `Thread`, frames inside it) against `Interp/Spec.lean` (abstract JVM machine) | forward simulation per instruction, then induction on run length |
| C52 | `Class/Reader`, `Class/Pool`: the constant table as nested recursion over the input stream, with the mask words at its end | writer of well-formed tables as specification; "exactly these bytes are read" lemmas; invariant over slots in any filling order |
| C53 | `Class/ClassFile`: reading of fields, methods, code and attributes; `Class/ClassSource`: written class files | "exactly these bytes are read" lemma for every table and attribute; last attribute of a kind as a fold |
| C54 | `Lib/Numbers`: the loops of `Long.toString` and `parseLong` over a character array, with wrapping arithmetic | digit sequences and their value as specification; loop invariants; the weight of the first digit may be 2^63 |
| C55 | `Lib/Numbers`: `compareTo` with wrapping subtraction | case analysis on the distance |
| C56 | `Lib/Numbers`: bit tricks on `BitVec 32` | bytes are independent in every step; bits smeared to the right as an invariant |
| C57 | `Lib/Strings`: strings as a `byte[]` or `char[]` with offset and length; operations as loops with exceptions | a string denotes a list of characters; every operation refines the list operation; least/greatest index for searches |
| C58 | `Lib/JUtf8`: `encode` and the state of `decode` while it reads | standard encoding as specification; invariant of the decoder before and after it widens |
| C59 | `Lib/StringBuilder`: list of cells, buffer, position | the text is the last `length` characters of all pieces; refinement of every operation; histories by induction |
| C60 | `Lib/LinkedQueue`: shared nodes and one program counter per thread, one shared access per step | invariant: the nodes form a chain with head before tail; the trace of effects replays a queue; every thread's trace is a sequence of operations |
| C61 | `Lib/LinkedList`: cells as numbers with link fields, front, rear, size | representation: a list of distinct cells linked in both directions; refinement of every call and of iterators; histories by induction |
| C62 | `Lib/BlockingQueue`: content and one program counter per thread, one stay in the monitor per step | trace of returns satisfies a sequential specification; invariant that a waiting thread cannot go on |
| C63 | `Lib/FutureTask`: state, fields, lock holder, interrupt flags and one program counter per thread, one field access per step | invariants of a reduced system (nine places), carried to the full one; `Stuck` invariant for the negative results |
| C64 | `Lib/JHashMap`: cells on a heap, buckets as chains of cells, 32-bit hash codes and capacities, the iterator's five fields | invariant `Good` (each bucket is a chain of exactly the cells whose hash code selects it), `Iterating` for iterators; refinement of a relational specification, by induction over the operations |
| C65 | `Lib/JHashMap` setAdd, setRemove, setAddAll over the map | from the refinement of C64 |
| C66 | `Lib/JHashMap` removeThis | chains as in C64; witness for the loss |
| C67 | `Lib/LinkedHashMap`: nodes with both links, the two hash maps as functions (C64) | invariant `Good` (every split of the list of nodes agrees with the links); refinement of a list of entries by induction over the operations |
| C68 | `Lib/ArrayCopy`: arrays as bytes, 32-bit offsets, the marks for the collector | arithmetic of ranges; element by element from the bytes; witnesses for the class test |
| C69 | `Lib/ArrayList`: the array with the places not in use, the iterator's two fields | representation `Rep` (the elements are at the front of the array), refinement of a list by induction over the operations; `At` for iterators |
| C70 | `Lib/ArrayDeque`: the array, the three indices, iterators with their modification count | representation `Rep` (element i at the place start + i of the ring), refinement of a list by induction over the operations |
| C71 | `Lib/JBitSet`: the list of words, the iterator over masks | `mem` (the bits of the words as a set of numbers), each operation bit by bit, induction over masks, words and operations |
| C72 | `Lib/Sort`: introSort, heapSort, siftDown, insertionSort with all index checks | each loop permutes (moving a hole, swapping), searches stop within the range (invariant of the partition), insertion into a sorted list |
| C73 | `Lib/Sort`: searchLoop, listSearchLoop, reverseLoop, shuffleLoop | invariant of the two ends of the search; induction over the part not yet reversed |
| C74 | `Lib/CodePoint`: the functions on chars and code points | bit operations as arithmetic; induction over the rest of the text |
| C75 | `Lib/OutStreams`: cells and buffer of both streams | refinement of a list of bytes by induction over the calls |
| C76 | `Lib/InStreams`: a stream behind with an arbitrary division (`Src`), buffer, push back, arrays, lines | invariant relating the buffer to what is left of the stream; induction over the loops and the calls |
| C77 | `Lib/DataStreams`: the calls as lists of writes and as reads from `InStreams.Buf` | bits of the extracted bytes; composition of C75, C76 and C58; induction over the values |
| C78 | `Heap/Remember`: the levels of marks, the nested loops, the compare-and-swap of `markBitAtomic` | invariant relating the levels, the log of visits and the words that must be marked, by induction over the levels and over the loops; invariant over the steps of the threads |
| C79 | `Heap/Room`: objects with their reserved words, ages and hash marks, the counters, the search for a capacity, copying in an arbitrary order | invariant relating the counters to sums over the objects, kept by every operation and by every copied object; induction over histories |
| C80 | `Heap/ThreadHeap`: the chunks of a thread with their contents | invariant that all memory still to be handed out is zero; induction over histories |
| C81 | `Lib/PersistentSet`: the trees as values and the path as a zipper | colours, black heights and order are an invariant of a tree and of the path above; refinement to sorted lists |
| C82 | `Lib/TreeSet` on `Lib/PersistentSet` | refinement to sorted lists; invariant of an iterator, by induction over calls |
| C83 | `Lib/TreeSet` (TreeMap part) | refinement to functions, from the refinement of sorted sets to sorted lists |
| C84 | `Lib/PersistentNodes`: the nodes in a store, with every write | refinement to `Lib/PersistentSet` with a footprint: every write is to a node of the path or a new one; then induction over histories |
| C85 | `Codegen/X86`: the assembler's functions as lists of bytes; `Codegen/Cpu`: decoder and execution of x86-64 as the specification | for each function, decode its bytes for all registers and constants, execute the instruction symbolically, compare with Java's operation on integers |
| C86 | `Codegen/X86` moves and addressing; `Codegen/Cpu` as specification | decode lemmas over an abstract operand (register or memory) for all registers; memory by its bytes |
| C87 | `Codegen/X86` comparisons, jumps and tasks; `Codegen/Link` as specification of the distances | flags of a subtraction against signed order; tasks patch disjoint bytes, by induction over the emitted pieces |
| C88 | `Codegen/Compare`, `Codegen/X86` branchFloat; specification `fcmp`, `lcmp`, `branchesIf` | flags of ucomiss against the order; rows of jumps by induction; the tables by cases |
| C89 | `Codegen/Frame`, `Codegen/X86` calls and jumps; specification `Called`, `Entered`, `Minded`, `Left` | execution of the decoded bytes; composition of runs; byte lists of patched calls |
| C90 | `Codegen/Layout`; specification `image`, `placed`, `labels`, `jumps` | the assembler's lists by induction over the items; paddings and their caches by induction; memory pointwise |
| C91 | `Codegen/Walk`; specification `Frames`, `Returned`, `Depth` | bytes of the instructions at the return address; induction over the frames; depths from the executions of C89 |
| C92 | `Codegen/X86` (float operations); specification `Arith`, `Follows` | decoding of the bytes for all registers, then one step of the processor |
| C93 | `Lib/ConcurrentMap`; specification `Map`, `Meets`, `Legal`, `Each` | refinement of one round to the map by the theorems about persistent sets, invariant over executions with linearization points |
| C94 | `Codegen/FrameMap`; specification `Log`, `Reaches`, `Arrives` | data flow equations as a bound on all ways (induction over arrivals), witnesses for completeness, descending measure for termination, bits of a packed table |
| C95 | `Codegen/Chain`; specification `Before`, `Next` | invariant of the blocks closed so far by induction over the events; induction over what is still to be laid out |
| C96 | `Codegen/Handlers`, `Interp/Lines`; specification `InCode`, `handlerOf`, `lineOf` | positions in ordered code compared through instructions; first match of mapped lists by induction; invariant of the binary search |
| C97 | `Lib/PikeVM`, `Lib/RegexCompiler`; specification `Lang` (a denotation of expressions) | the queue refines a list without repetitions; the threads at a character are those that can be reached; the code of an expression can be crossed exactly from i to j if the expression matches so, by induction on expressions and numbers of moves; lookaheads by depth |
| C98 | `Heap/Walker`, `Heap/Dump`; specification: recursive traversal `Walk`, reachability, and a reader of the dump format | hash table and block stack refined to a function and a list; induction on the number of objects not met; induction over the traversal |
| C99 | `Heap/BootImage`; specification: places and addresses of objects | invariant of the image over the traversal of C98 (places are disjoint, written references are coded, others are as copied); bits of the map; arithmetic of the coding |
| C100 | `Lib/PlainPattern`; specification: cutting a text at the first n occurrences (`Cut`, `join`, `strip`), and `Lang` of C97 | loop invariants; `Cut` is unique; induction over the expression for plain programs; refutations for the rest |
| C101 | `Lib/JProperties`; specification: the lines of Java's format (`javaLine`) | one lemma for each spelling of a character in each state of the parser; induction over characters and lines; refutations by evaluation, and for all characters from 128 on |
| C102 | `Interp/JniRefs`; specification: frames with the references given in them (`Scope`, `Next`) | invariant: the list is the concatenation of the references of each frame, each counted more often than frames above hold it; induction over operations |
| C103 | `Codegen/NativeCall`; specification: the System V convention by counts (`calleeArg`), where compiled code puts arguments (`Laid`) | invariant over the arguments placed so far; memory invariant of the loop that copies; induction over the descriptors |
| C104 | `Lib/ByteBuf`; specification: the number written by bytes (`bigEndian`), the memory with other bytes at a place (`written`), the bytes left (`rest`) | arithmetic of the parts of a number; induction over the bytes of a value and over the values; induction over the loop of compareTo; refutations for all indices and lengths concerned |
| C105 | `Lib/Crc32`; specification: multiples of the generator polynomial as an inductive predicate (`Multiple`), `Remainder`, `IsChecksum` | linearity of the rounds over exclusive or; the table as eight rounds; induction over the bits of the message with the quotient as a witness; degree argument for uniqueness and for bursts |
| C106 | `Lib/Tokenizer`; specification: `Tokens`, an inductive predicate | induction over the derivation of the tokens; strong induction for their existence |
| C107 | `Lib/JRandom`; specification: `lcg` on numbers, `iter` | a power of two of steps moves by an odd multiple of it (induction), so every residue is reached; arithmetic of int by omega |
| C108 | `Lib/JCalendar`, over `Lib/Numbers`; specification: lengths of months, sums of days (`Date.seconds`) | closed form of the days before a year by induction, omega; monotonicity for uniqueness; two digits by checking all numbers below 100 |
| C109 | `Lib/TimeUnits`; specification: `nanos` of each unit, exact division, `saturate` | each of the 49 conversions is a division or a multiplication by the right factor (by cases); omega |
| C110 | `Lib/EnumSet`, over `Lib/JBitSet`; specification: a predicate on ordinals with a place | simulation by induction over the operations, using the theorems of C71 |
| C111 | `Lib/Atomics`: threads with places in the operation, steps at reads, writes and compareAndSwap; specification: operations one after the other, and an automaton of call, effect, return per thread | induction over executions; counting calls and effects |
| C112 | `Lib/MessageFormat`; specification: pieces with a text and a meaning | induction over pieces; each pattern is split into pieces by induction over its length |
| C113 | `Lib/Urls`, over `Lib/Numbers`; specification: the text of the parts | lemmas on the first and last place of a character; the theorems of C54 |
| C114 | `Conc/Parking`: flags, one place, and the interrupt in two steps; specification: permit and pending interrupt as functions of the events so far | invariants over executions |
| C115 | `Lib/Shuffle`; specification: permutations and List.reverse | induction over turns, keeping a prefix that is done |
| C116 | `Lib/FormatString`; specification: formats as lists of pieces with their meaning | induction over pieces, with the state of the parser and the arguments left |

## What is modelled

| module | source | left out |
|--------|--------|----------|
| `Util/Math`, `Util/Bits`, `Util/Stream`, `Util/FixedAlloc`, `Util/Zone` | `include/avian/util/*`, `src/avian/common.h`, `src/avian/zone.h`, bit records of `src/heap/heap.cpp` | threads, OS allocation failure |
| `Tree/*` | persistent red-black tree of `src/util.cpp` | collection during an insertion |
| `Util/HashMap` | `src/util.cpp` hash maps, weak variant, iterator | memory exhaustion |
| `Text/Utf8`, `Text/JniName`, `Text/Descriptor` | `src/machine.cpp` string conversion, `src/process.cpp` native names, `src/avian/machine.h` descriptors | |
| `Util/Finder` | `src/finder.cpp` archive index, path elements | compressed data (inflate) |
| `Interp/*` | `src/interpret.cpp` 700-3020: every bytecode but multianewarray | resolution (a parameter of the model), native calls, collection between steps, `invokedynamic` |
| `Class/Fields` | `src/machine.cpp` field tables, object masks, static tables, walk | names, annotations |
| `Class/Reader`, `Class/Pool`, `Class/PoolMask`, `Class/PoolScan`, `Class/PoolFill` | `src/machine.cpp` 876-1200; `src/avian/machine.h` 3253-3369 | texts are byte lists (conversion is C11); recursion depth is a parameter, 4 suffices for well-formed tables; collections while reading |
| `Class/ClassFile`, `Class/ClassSource`, `Class/ClassReads` | `src/machine.cpp` 1236-1260, 1313-1391, 2288-2349, 2416-2580, 2760-2862, 4738-4838 | only which bytes become which part; class loading, layout and packing of tables are in the other models |
| `Lib/Numbers` | `classpath/java/lang/`: `Long.java` 37-39, 53-103, 135-173; `Integer.java` 45-47, 61-71, 104-124, 143-151; `Character.java` 29-31, 93-111; `compareTo` of `Short`, `Byte`, `Boolean`, `Enum` | strings are lists of characters |
| `Lib/Strings` | `classpath/java/lang/String.java` 39-41, 48-81, 112-184, 186-297, 307-417, 427-513, 540-570, 636-673; `Character.java` 53-59, 69-75, 157-159 | `intern`, `split`, `format`, regular expressions and locale are not modelled; only UTF-8 |
| `Lib/JUtf8` | `classpath/avian/Utf8.java` 16-117; `Iso88591.java` 17-24 | streams are lists of bytes |
| `Lib/StringBuilder` | `classpath/java/lang/StringBuilder.java` 14-55, 81-93, 115-166, 180-234, 286-348, 364-379 | strings are lists of characters; lengths below 2^31 |
| `Lib/LinkedQueue` | `classpath/java/util/concurrent/ConcurrentLinkedQueue.java` 39-40, 56-72, 84-117 | volatile accesses are sequentially consistent; nodes are fresh (garbage collected) |
| `Lib/LinkedList` | `classpath/java/util/LinkedList.java` 14-462 except `toString`, `element`, `descendingIterator` | `equals` is equality; loops over cells carry the number of cells as fuel and report a circle |
| `Lib/BlockingQueue` | `classpath/java/util/concurrent/LinkedBlockingQueue.java` 28-237, 253-282; `AbstractCollection.java` 78-91 | stays in the monitor are atomic; the clock is an arbitrary answer; the list is a sequence; elements are not null |
| `Class/Dispatch` | `src/machine.cpp` interface tables, method tables, assignability; `src/avian/machine.h` virtual and interface call | classes resolved in two phases (bootstrap), method attributes, packages |
| `Heap/Bitset` | `src/heap/heap.cpp` 1266-1364 and the walker of `collect` 1399-1480 | 64-bit words; offsets below 2^31 |
| `Heap/Account` | `src/heap/heap.cpp` 1760-1779, 1866-1926, 1951-1954 | the debugging guard words; the operating system's allocator is an arbitrary answer |
| `Heap/Fixies`, `Heap/FixieLists`, `Heap/FixieSteps` | `src/heap/heap.cpp` 541-604 (list links), 950-1052 (free, kill, sweep), 1132-1144, 1167-1192 (mark, dirty, clean), 1643-1673, 1990-2025 | footprint counters; the slots of an object (in `Heap/Collect`); memory of a released object is shown with cleared links |
| `Heap/Refs` | `src/machine.cpp` 380-663; `src/types.def` 100-105, 288-301; `classpath/java/lang/ref/ReferenceQueue.java` | objects keep their number when moved; lists linked through objects are lists; a visit marks at once everything reachable (the collector's loop is `Heap/Collect`); the finalizer thread; write barriers of the queue links |
| `Interp/Lines` | `src/process.cpp` 271-308; `src/avian/machine.h` 3822-3835; `src/machine.cpp` 2332-2340 | indices are naturals; an endless search is `none` for all fuel; several tables in one method |
| `Conc/Threads` | `src/machine.cpp` 94-170, 252-275, 3959-3974; `src/avian/machine.h` 1832-1871 | threads are numbers and a freed thread is not reused; the state lock (each operation is one step); joining system threads |
| `Conc/ClassInit` | `src/machine.cpp` 3579-3587, 5188-5270; `src/avian/machine.h` 1206-1230 | the class lock is a mutex with sleepers that may wake at any time; the lock is not held on entry; making error objects always works; code of initializers is a choice of requests and of how it ends |
| `Heap/Header` | `src/avian/machine.h` 138-143, 1650-1697, 1971-2020, 2135-2176; `src/machine.cpp` 3435-3485, 5508-5525; `src/heap/heap.cpp` 90-95, 1110-1128 | word addresses are naturals; padding counters; the thread-local allocation area (any unused block will do); `CloneNotSupportedException` |
| `Heap/Collect`, `Heap/History` | `src/heap/heap.cpp` 1053-1830 (copying, traversal, remembered slots, sweep), 2029-2106 (write barrier); `src/avian/machine.h` 1667-1697 | addresses inside a segment (any unused address will do), the page hierarchy of the remembered-slot map (see `Heap/Remember`), slots remembered during a minor collection being met again by it, stores into boot image objects, weak references, `setObjectClass` on old objects |
| `Conc/Enter` | `src/machine.cpp` `enter`, one memory access per step | exit state, live and daemon counts, build without atomic operations |
| `Conc/SysMonitor` | `src/system/posix.cpp` 133-470 | pthread mutexes and conditions by their specification; other monitors; 32-bit depth; the time of a time-out (a wait may end at any time) |
| `Conc/Monitor` | `src/avian/machine.h` object monitors with the lock-free acquire queue, one memory access per step | other monitors (their notifications appear as spurious wake-ups), 32-bit depth |
| `Lib/FutureTask` | `classpath/java/util/concurrent/FutureTask.java` 15-168 | the clock is an arbitrary answer; `done()` is empty; the callable does not use its own task |
| `Lib/JHashMap` | `classpath/java/util/HashMap.java` 15-384, `classpath/java/util/HashSet.java` 15-56, `classpath/java/util/WeakHashMap.java` 30-37, `classpath/avian/Data.java` 21-25, 243-252 | fewer than 2^31 entries; `nextIndex` does not overflow; toString and the wrappers of `Data` are not modelled |
| `Lib/LinkedHashMap` | `classpath/java/util/LinkedHashMap.java` 14-85, 245-265, `classpath/avian/Data.java` 278-280 | the two hash maps are functions (C64); fewer than 2^31 entries; the views are modelled only through their iterator |
| `Lib/ArrayCopy` | `src/avian/classpath-common.h` 61-120, `src/machine.cpp` 2960-2978, 3326-3334 | the overflow of the signed sums at 84-85 is taken to wrap; the padding behind the elements is outside the array |
| `Lib/ArrayList` | `classpath/java/util/ArrayList.java` 17-185, `classpath/java/util/AbstractList.java` 27-42, `classpath/java/util/Collections.java` 462-511 | fewer than 2^31 - 1 elements; serialization, toString and toArray are not modelled |
| `Lib/ArrayDeque` | `classpath/java/util/ArrayDeque.java` 15-364 | fewer than 2^30 places; removeAll and the methods of AbstractDeque that only forward are not modelled |
| `Lib/JBitSet` | `classpath/java/util/BitSet.java` 21-256 | indices below 2^31 - 64; the other set of a binary operation is another object |
| `Lib/Sort` | `classpath/java/util/Arrays.java` 154-254, 486-496, 690-713, `classpath/java/util/Collections.java` 19-176, 798-808 | fewer than 2^30 elements; comparators without effects; lists that are read by get and written by set like an array |
| `Lib/CodePoint` | `classpath/java/lang/Character.java` 53-119, 165-171, 196-257 | the character classes (isLetter, isWhitespace and so on) are not modelled |
| `Lib/OutStreams` | `classpath/java/io/ByteArrayOutputStream.java` 16-147, `BufferedOutputStream.java` 14-60, `OutputStream.java` 14-26 | one thread; the stream behind accepts every byte |
| `Lib/InStreams` | `classpath/java/io/BufferedInputStream.java`, `InputStream.java` 20-60, `BufferedReader.java`, `PushbackReader.java`, `ByteArrayInputStream.java`, `StringReader.java` | one thread; the stream behind gives at least one element per call until its end; marks are not modelled |
| `Lib/DataStreams` | `classpath/java/io/DataOutputStream.java` 36-100, `DataInputStream.java` 26-131 | conversions of integers to floats modelled for the two wrong calls only |
| `Heap/Remember` | `src/heap/heap.cpp` 69-76, 100-370 (maps), 706-724, 1194-1245, 1675-1736, 2052-2106 | what the visit of a word does apart from its effect on the marks; debug assertions; 32-bit overflow of sizes |
| `Heap/Room` | `src/heap/heap.cpp` 369-437, 455-459, 843-915, 1053-1107, 1128-1167, 1780-1822, 2108-2121; `src/machine.cpp` 275-286, 666-702, 3448-3462, 4252-4300; `src/avian/machine.h` 1617-1652, 2146-2176 | which objects are reachable (any order of meetings is permitted), addresses, 32-bit overflow of the sizes, how the memory available is computed |
| `Heap/ThreadHeap` | `src/avian/machine.h` 1617-1664; `src/machine.cpp` 666-702, 3835-3852, 4236-4362 | one thread; whether chunks are given and limits exceeded is arbitrary; the moving of objects by a collection is C32 |
| `Lib/PersistentSet`, `Lib/PersistentSetLemmas` | `classpath/avian/PersistentSet.java` whole file | trees as values; sizes are below 2^31 |
| `Lib/TreeSet` | `classpath/java/util/TreeSet.java`, `TreeMap.java` | cells hold one value, as in the code; comparators are functions |
| `Lib/PersistentNodes` | `classpath/avian/PersistentSet.java` `find`, `add`, `remove`, rotations, `Node`, `Path` | nodes as numbers in a store, mirrored code once with a side; loops bounded by the size |
| classpath/avian/FormatString.java | `Lib/FormatString` | unbounded numbers in formats, ASCII capitals, texts of hash codes, characters and floating-point numbers as a parameter; Byte and Short arguments left out |
| classpath/java/util/Collections.java: shuffle, reverse | `Lib/Shuffle` | random numbers as a function of the turn |
| src/builtin.cpp:1053-1106, src/machine.cpp:6022-6053, LockSupport.java | `Conc/Parking` | sections under `interruptLock` are steps; the parkBlocker field is not modelled |
| classpath/java/net/{URL,URLStreamHandler}.java, classpath/avian/jar/Handler.java | `Lib/Urls` | constructor, set, toExternalForm; connections not modelled |
| classpath/java/text/MessageFormat.java | `Lib/MessageFormat` | arguments as texts; the other constructors and `applyPattern` not modelled |
| classpath/java/util/concurrent/atomic/{AtomicInteger,AtomicLong}.java | `Lib/Atomics` | generic width; compareAndSwap is one step |
| classpath/java/util/EnumSet.java | `Lib/EnumSet` | constants as ordinals; casts of objects of other types not modelled |
| classpath/java/util/concurrent/TimeUnit.java | `Lib/TimeUnits` | all functions; waiting as the two numbers passed on |
| classpath/java/util/Calendar.java, classpath/java/text/SimpleDateFormat.java | `Lib/JCalendar` | unbounded integers (no overflow in the ranges used); unset and constant methods of MyCalendar, time zones and field positions not modelled |
| classpath/java/util/Random.java | `Lib/JRandom` | loops by rounds; the seed of the clock and the floating point division not modelled |
| classpath/java/util/StringTokenizer.java | `Lib/Tokenizer` | loops over the list of the characters from the index on; substring by what it gives |
| classpath/java/util/zip/CRC32.java | `Lib/Crc32` | arrays as the list of the bytes in question; exceptions for ranges outside of an array are not modelled |
| classpath/java/nio/{Buffer,ByteBuffer,ArrayByteBuffer,DirectByteBuffer,FixedArrayByteBuffer}.java | `Lib/ByteBuf` | what was written before an exception is not kept; floating point values by their bits; put(ByteBuffer) between different memories, char buffers and channels are not modelled |
| src/compile.cpp 7586-7650, 7705-7740, 8315-8480; src/avian/x86.h 170-215; src/x86_64.S 192-288; src/machine.cpp 4688-4713 | `Codegen/NativeCall` | memory by words; parameters as a list of field codes (C23); vmInvoke, fast natives, the Windows variant and the interpreter's marshalling not modelled |
| src/avian/machine.h 962-978, 1507-1526; src/compile.cpp 9022-9074, 7580, 7732-7746; src/interpret.cpp 223-232, 3352-3388; src/jnienv.cpp 415-427, 2258-2298, 3171-3224; src/machine.cpp 512-518, 655-663 | `Interp/JniRefs` | linked lists are lists; objects do not move; native methods that end with an exception are not modelled |
| classpath/java/util/Properties.java | `Lib/JProperties` | what is put into the map is a list; trim by its specification (C57); POSIX line separator |
| classpath/java/util/regex/{TrivialPattern,TrivialMatcher}.java; Matcher.java 29-81; RegexMatcher.java 37-58; Pattern.java 66-88; PikeVM.java 471-494 | `Lib/PlainPattern` | positions from the caller are not negative |
| src/tools/bootimage-generator/main.cpp 1292-1465; compile.cpp 9937-9971; bootimage-template.cpp; target.h 144-148 | `Heap/BootImage` | contents of copies and target offsets are parameters |
| src/heapwalk.cpp; src/avian/heapwalk.h | `Heap/Walker` | the roots are a list; unlimited memory |
| src/heapdump.cpp | `Heap/Dump` | sizes and class names are functions of the object; the file takes all bytes |
| classpath/java/util/regex/PikeVM.java 18-466 | `Lib/PikeVM` | forwards only; offset arrays are values |
| classpath/java/util/regex/Compiler.java 66-73, 93-372 | `Lib/RegexCompiler` | expressions after parsing; no lookbehind |
| classpath/java/util/regex/RegexMatcher.java 47-57 | `Lib/PikeVM` (`isMatch`, `find`) | |
| src/compile.cpp 2116-2142, 6568-6603, 6651-6780; machine.h 3221-3225 | `Codegen/Handlers` | classes of catch types are resolved without exceptions |
| src/codegen/compiler.cpp 1964-2098 (`compile`: blocks only), 2883-2902 (`resolve`: the chain); compiler/ir.cpp 28-38 | `Codegen/Chain` | an event is given by its instruction |
| src/compile.cpp 6790-7000 (`calculateTryCatchRoots`, `calculateFrameMaps`), 7030-7142, 7436 ff. (passes), 7814-7884 | `Codegen/FrameMap` | events of subroutines are left out; the tree of contexts is that of the calls of `compile` |
| classpath/java/util/concurrent/ConcurrentHashMap.java 25-436 | `Lib/ConcurrentMap` | null keys and values, `containsValue`, `remove` of iterators are left out; `size` has no overflow |
| src/codegen/target/x86/encode.cpp 354-387, operations.cpp 1541-1740 | `Codegen/X86` | `float2Int` is left out: assembler.cpp:544 never plans it |
| src/codegen/target/x86/assembler.cpp 60-160, 997-1007, src/compile.cpp 431-490, 562-650 | `Codegen/Walk` | native methods and continuations left out |
| src/codegen/target/x86/padding.cpp, block.cpp, fixup.cpp 45-124, assembler.cpp 1173-1226, operations.cpp 144-178, src/codegen/compiler.cpp 2877-2909 | `Codegen/Layout` | offsets as natural numbers; jump tables and constants left out |
| src/codegen/target/x86/assembler.cpp 54-64, 334-422, 900-912, 975-1132 | `Codegen/Frame` | alignment assertions of updateCall left out |
| src/compile.cpp 3557-3663, 1100-1155; src/codegen/compiler/event.cpp 1588-1684; src/codegen/runtime.cpp 27-110 | `Codegen/Compare` | floats only by how they compare |
| src/codegen/target/x86/fixup.cpp 66-80, encode.cpp 162-176, 266-296 | `Codegen/X86` `resolveOffset`, `conditional`, `branch`; `Codegen/Link` `emit` | distances filled in after all code is emitted; blocks and padding left out |
| `Codegen/X86` | `src/codegen/target/x86/encode.cpp`, `operations.cpp` (64-bit target with SSE), `fixup.cpp` `resolveOffset` | the code buffer as a list of bytes; promises already resolved except jump targets; temporaries are arguments; thread-safe call alignment and barriers are not modelled |
| `Codegen/Cpu` | not code of /repo: the x86-64 instructions the assembler uses, after Intel's manual | the specification for the machine code; trusted. Flags of multiplications and shifts are not defined by it (kept), xmm registers have their low 64 bits, floating point arithmetic is a parameter |
| `Codegen/Decode`, `Codegen/Exec`, `Codegen/Moves` | lemmas | decoding of the bytes of each form, composition of executions |

## Findings: where the code departs from the stated property

Each is a theorem in the development (see the notes in `MANIFEST.json`).

* `nextPowerOfTwo` and `log` do not terminate above 2^31; `powerOfTwo(0)`; `avg`/`ceilingDivide` overflow.
* Segment-map iterator started at an unaligned position misses records.
* `FixedAllocator`: odd sizes cannot be freed, exact fit refused, 2^32 truncated.
* `Stream::setPosition` past the end defeats the bound check.
* `treeUpdate` of a missing key dereferences null; raw `hashMapInsert` keeps duplicates.
* Truncated UTF-8 consumes following bytes; byte strings above 127 compare equal but hash differently.
* JNI mangling copies non-ASCII bytes and is not injective for segments starting with a digit.
* Malformed descriptors read past the string; `JarIndex` loses some non-ASCII names; bad central
  directory offsets read outside the archive; cyclic `Class-Path` manifests diverge.
* Interpreter: minimum divided by -1 undefined; `f2l` undefined out of range; `wide` forms of
  float/double loads and stores missing; `wide astore` of a return address; `fcmpl/fcmpg` push twice
  on NaN; `char` fields sign extended; `aastore` unchecked; synchronized method that overwrites
  local 0 releases the wrong monitor.
* Field layout: instance size and offsets are 16 bits and wrap from 8191 eight-byte fields; a field
  of type `V` restarts the layout at the object header.
* Method tables: the 16-bit method offset wraps above 65536 virtual methods and the wrong method runs;
  of two interfaces with the same name (different loaders) one is lost; a subclass keeps a copied
  default method although a more specific one exists. Not proved, since the model has no packages: a
  package-private method is overridden from other packages.
* Cloning an array whose hash code was taken before a move yields an object that claims one word more
  than it has; the clone of a small non-moving array claims to be non-moving. (`clone` resets the
  header flags of the original, not of the clone.)
- `machine.cpp` 489-516, 567-598: a weak reference to an unreachable object that has a finalizer is
  cleared, but then it counts as one with a reachable target, so it is never put on its queue
  (`Refs.reference_to_finalizable_never_enqueued`).
- `machine.cpp` 567-634: in a major collection young references are dealt with before old finalizers,
  so a reference may be cleared although its target survives (`Refs.early_clear_of_survivor`).
- `machine.cpp` 442-456: an unreachable reference without a reachable queue is dropped without clearing
  its target; if another reference that is enqueued refers to it, it stays alive with a pointer to
  freed memory (`Refs.resurrected_reference_dangles`).
- `process.cpp` 285-299: if two entries of a line number table start at the asked position, the binary
  search can loop for ever (`Lines.duplicate_entry_never_ends`); tables are not sorted first, so an
  unsorted one gives a wrong line (`Lines.unsorted_table_wrong_line`); position 0 wraps around to the
  last line (`Lines.position_zero_wraps`).
- `machine.cpp` 128-141: when the root thread is removed (`DestroyJavaVM` with daemons alive) its
  children keep `parent`, which then points to freed memory (`Threads.dispose_root_dangling`), and
  `visitAll`, `killZombies` and `footprint` from the new root do not look at its peers
  (`Threads.dispose_root_hides`).
- `machine.h` 1853-1871: `removeThread` assumes that the thread is still its parent's first child, so a
  thread registered in between is lost (`Threads.removeThread_loses`), and it decrements the counter
  of threads, which `Thread::dispose` does again (`Threads.removeThread_first`).
- `machine.cpp` 5229-5247: when an initializer fails, `postInitClass` throws before `notifyAll`, so
  waiting threads sleep on (`ClassInit.waiter_stranded`); when woken they leave the loop at 5208
  without looking at `InitErrorFlag` and go on (`ClassInit.waiting_request_returns_after_failure`),
  even to start a subclass's initializer (`ClassInit.subclass_starts_after_failed_superclass`).
- `machine.cpp` 5229-5230: an initializer that ends with a throwable that is no `java.lang.Exception`
  leaves the class marked as initialized (`ClassInit.error_leaves_class_initialized`).
- `machine.cpp` 876-1095: the constant table is trusted. An entry that refers to itself is read
  forever (`ClassFile.self_reference_never_ends`), constant number 0 and numbers behind the table
  read outside (`ClassFile.bad_reference_reads_outside`), and a reference to the wrong kind of
  entry is followed (`ClassFile.wrong_kind_undefined`).
- `machine.cpp` 2790-2806, 2845-2860: constant numbers are read into `int16_t`, so numbers from 32768
  on lead outside the pool (`ClassFile.inner_class_number_unreadable`).
- `machine.cpp` 1350-1380, 2478-2548, 2770-2862: the stated length of a known attribute is ignored
  (`ClassFile.stated_length_ignored`).
- `Long.java` 145-173: numbers out of range are accepted (`Numbers.out_of_range_accepted`), so are texts
  without digits (`Numbers.empty_accepted`), and with many leading zeros the weight of the first
  digit overflows, so the value is wrong (`Numbers.leading_zeros_change_value`).
- `Long.java` 54: base 1 is let through and never ends (`Numbers.base_one_never_ends`); 93-103:
  `toHexString` and its like write negative numbers with a sign (`Numbers.long_hex_negative`).
- `Integer.java` 46: `compareTo` subtracts, so it is not an order
  (`Numbers.compareInt_not_transitive`).
- `Integer.java` 113: `reverseBytes` masks the third byte with 0xFF00 instead of 0xFF0000
  (`Numbers.reverseBytes_wrong`).
- `String.java` 504: `charAt(length())` is not refused (`Strings.charAt_length_leaks`); 403-409:
  `startsWith(text, start)` compares the wrong part (`Strings.startsWithAt_wrong`); 347-372: `replace`
  of a character in a compact string truncates (`Strings.replaceChar_wrong`); negative starts and
  empty texts in `indexOf` (`Strings.indexOf_borders`); `trim` keeps control characters
  (`Strings.trim_keeps_controls`); the range check of the constructor overflows
  (`Strings.make_overflow`).
- `Utf8.java` 46-117: zero characters and four-byte sequences are not decoded (`JUtf8.zero_grows`,
  `JUtf8.four_bytes_dropped`).
- `StringBuilder.java` 192-219: the previous cell is never remembered, so deleting may lose text
  (`Builder.delete_loses`), and the loop goes on behind the range with a negative index
  (`Builder.delete_throws`); 299-313: a longer length shifts the text (`Builder.setLength_shifts`).
- `LinkedList.java` 144-146: `add(index, e)` neither counts the element nor sets the back link
  (`LinkedList.addAt_corrupts`), and refuses `index == size` (`addAt_end_refused`); 378, 390: an
  occurrence at position 0 is not removed (`first_occurrence_stays`, `last_occurrence_stays`); 297:
  `pollLast` throws on an empty list; 273: `removeFirst` throws after removing a null element.
- `LinkedBlockingQueue.java` 135-150, 277-282: `addAll` and `clear` do not notify, so threads keep
  waiting although they could go on (`BlockingQueue.addAll_wakes_nobody`, `clear_wakes_nobody`).
- `FutureTask.java` 100-112: after `cancel(true)` the thread in `run` may sleep for ever, because
  `runningThread` was not yet set, or because the callable noticed the interrupt before the state was
  set (`FutureTask.runner_sleeps_for_ever`); a thread in `get` may wait for ever, because `run` notified
  before the state was set (`FutureTask.getter_sleeps_for_ever`). In the first case `cancel` returns
  false although `isCancelled` is true.
- `FutureTask.java` 159: `get(0, unit)` throws TimeoutException although the task is done
  (`FutureTask.get_zero_refuses`).
- `HashMap.java` 24 and `Data.java` 23: `new HashMap(n)` with n beyond 2^30 does not return
  (`JHashMap.new_never`).
- `HashSet.java` 54: `remove` returns false if it removed the element and true if there was none
  (`JHashMap.setRemove_inverted`).
- `HashMap.java` 117-127: `remove(Cell)` never sets `p`, so the cells before the removed one are cut off
  its bucket: a WeakHashMap forgets live entries when a colliding key is collected
  (`JHashMap.removeThis_drops`); and after `clear` it throws NullPointerException
  (`JHashMap.removeThis_cleared`).
- `LinkedHashMap.java` 64-80: `lookup` is never cleaned, so removing a key a second time relinks the list around
  its old neighbours: a later key stays in the map but no iteration delivers it
  (`LinkedHashMap.order_lost`); `clear` does not clean it either (`LinkedHashMap.clear_undone`).
- `LinkedHashMap.java` 261-264: calling `remove` of an iterator twice removes the element before as well
  (`LinkedHashMap.removes_twice`).
- `LinkedHashMap.java` 121-123: `remove(Object)` of the entry set calls itself
  (an `Entry<?,?>` is not an `Entry<K,V>`, so the overload is not chosen); read only, not modelled.
- `classpath-common.h` 61-66: `compatibleArrayTypes` tests the primitive flag of the array classes, which only the classes
  of the primitive types have (`machine.cpp` 3326-3334). `System.arraycopy` between `long[]` and `int[]` or between numbers
  and references is therefore not refused: it writes beyond the end (`ArrayCopy.mixed_overrun`) or makes
  references of numbers (`ArrayCopy.numbers_as_references`).
- `classpath-common.h` 83, 109: a copy of no elements is not checked (`ArrayCopy.empty_copy_unchecked`).
- `ArrayList.java` 85-91: `add(int, T)` beyond the end is not refused and shows elements that were removed
  (`ArrayList.add_beyond`); at a negative index it throws, but only after the size has changed
  (`ArrayList.add_negative`).
- `ArrayDeque.java` 49-58: with no places, doubling the array makes none, so nothing can be added; growing while empty
  sets the end to -1, so `addAll` of a collection larger than the capacity to an empty deque throws
  (`ArrayDeque.no_places`, `ArrayDeque.large_addAll`).
- `ArrayDeque.java` (`ArrayDequeIterator.remove`): copies one element too many, so it throws in a deque that reaches the
  end of the array; in one that goes around the end it copies the rest to a wrong place and loses elements
  (`ArrayDeque.remove_full`, `ArrayDeque.remove_wrapped`). `removeFirstOccurrence` uses it.
- `ArrayDeque.java` (`descendingIterator`): the remainder of a negative number is negative, so the iteration throws as soon
  as it would go around the end (`ArrayDeque.descending_wrapped`).
- `BitSet.java` 35-38: a shift by 64 is a shift by 0, so `set(n, n)` and `clear(n, n)` within a word are not empty
  (`JBitSet.empty_range`). 146-152: `clear` of a range beyond the words throws (`JBitSet.clear_beyond`). 163-171:
  `intersects` of sets with different numbers of words throws unless it finds a common number before
  (`JBitSet.intersects_fails`).
- `BitSet.java` 189-203: an empty word is counted twice, so the word behind it is skipped and later ones are taken for
  others: `nextSetBit` and `cardinality` are wrong (`JBitSet.next_skips`); `nextClearBit` of an empty set is -1, and
  `length` is the size of the array (`JBitSet.clear_none`).
- `Arrays.java` 225-240, `Collections.java` 119-136: `siftDown` compares the children without the offset, so `heapSort` of a
  part that does not begin at 0 makes no heap. The result is still sorted, because `insertionSort` runs over the whole array
  afterwards (`Sort.sort_sorts`), in quadratic time.
- `Arrays.sort` and `Collections.sort` are not stable with more than sixteen elements (`Sort.sort_unstable`).
- `Collections.java` 798-808: `reverseOrder` negates, which leaves the smallest int negative
  (`Sort.reverseCompare_smallest`).
- `Arrays.java` 690-692: `binarySearch(a, key)` passes `a.length - 1` as the end, which is exclusive: the last element is not
  found, and an empty array is refused (`Sort.search_last`).
- `Character.java` 242: `codePointCount` refuses `end >= length`, so the code points of a whole text cannot be counted
  (`CodePoint.count_whole`).
- `Character.java` 229: `codePointAt` checks `offset >= length` a second time instead of `offset + 1 >= length`; a half of a pair
  at the end of the text throws IndexOutOfBoundsException (`CodePoint.final_half`).
- `Character.java` 93-110: `digit` does not check the base (`CodePoint.digit_base`).
- `BufferedOutputStream.java` 18-40: a buffer of size 0 is accepted and the first `write(int)` fails (`OutStreams.no_places`).
- `BufferedInputStream.java` 80-82: `available` gives one less than the stream behind after the end was seen
  (`InStreams.available_after_end`).
- `InputStream.java` 36-48: `skip` of a negative number throws NegativeArraySizeException (`InStreams.skip_negative`).
- `ByteArrayInputStream.java`: a part beyond the end of the array is not cut off (`InStreams.newArr_beyond`).
- `BufferedReader.java` 33-60: a carriage return that ends the buffer and the line feed that begins the next one count as two line
  ends (`InStreams.divided_end`).
- `LineNumberReader.java`: `read(char[], int, int)` counts the line feeds from index 0 instead of the offset, and `readLine` does not
  count at all (not modelled).
- `DataInputStream.java` 75-81: `readFloat` is `Float.floatToIntBits(readInt())` instead of `intBitsToFloat`, likewise `readDouble`;
  1.0f is read as 1316880384.0f (`DataStreams.float_wrong`, `double_wrong`).
- `DataOutputStream.java` 94-98: `writeUTF` writes the length modulo 65536 instead of throwing UTFDataFormatException
  (`DataStreams.utf_long`).
- `DataInputStream.java` 124: `skipBytes` of a negative number gives that number.
- `heap.cpp` 387: `unsigned target = available` turns a negative amount into a large positive one, so that the desired capacity is taken
  although the limit is exceeded (`Room.negative_available`).
- `machine.cpp` clone of an array (C38): the clone claims a word that was not reserved, and the next collection that keeps it
  writes beyond the end of the young generation (`Room.clone_overflow`).
- `heap.cpp` 908-913: `pendingAllocation`, a number of bytes, is subtracted from a number of words (not modelled).
`PersistentSet.remove(T)` of the only element throws IllegalArgumentException: the path it looks up is copied, and removing the root of a path makes the set empty only when that path is its own (`PersistentSet.remove_last`).
An iterator of a TreeSet refuses to remove the first element it has delivered: the path to the first element is marked as one to a new element, and such a path cannot be removed (`TreeSet.remove_first_fails`).
next at the end of a TreeSet iterator throws NullPointerException instead of NoSuchElementException (`TreeSet.next_at_end`).
TreeMap.firstEntry/lastEntry of an empty map throw NoSuchElementException (`TreeMap.entry_of_empty`).
TreeMap.keySet().add(k) is accepted, drops the value of k, and returns true exactly when k was there (`TreeMap.keyAdd_wrong`).
`PersistentSet.Path.add` writes to the nodes of the path, so calling it twice on one path gives a set that lacks elements (`PersistentNodes.path_once`).
Compiled code divides with `idiv`, so the least int (long) divided by -1, or its remainder, raises the processor's exception, which the machine turns into an ArithmeticException; Java's result is the least int (long), or 0 (`X86.int_rr_overflow`, by reading operations.cpp:1309-1348 and compile.cpp:8777).
A shift by a constant outside of -128..127, e.g. `x << 300`, makes the assembler abort (`X86.shift_constant_aborts`, operations.cpp:1350-1383; compile.cpp does not mask the constant).
`sseMoveRR` for floats passes the registers to `maybeRex` in the wrong order: from xmm1 to xmm8 it writes xmm0, with the value of xmm9 (`X86.float_move_wrong`, encode.cpp:188-192; the double form is right).
`branchFloat` uses `jb` and `jbe` for JumpIfFloatLess and JumpIfFloatLessOrEqual, which jump if a value is not a number: `if (x < y || ...)` and `do ... while (x < y)` take NaN as less (`X86.float_branch_nan_wrong`, encode.cpp:313-323).
`compareFloatRR` passes the registers to `maybeRex` in the wrong order: xmm1 against xmm9 is compared as xmm1 with xmm9 exchanged, xmm1 against xmm10 as xmm9 with xmm2 (`X86.float_branch_registers_wrong`, operations.cpp:1103).
`compareLongs` takes `uint64_t`: lcmp without a branch says that -1 is greater than 1 (`X86.lcmp_wrong`, runtime.cpp:101-110).
`getThunk` gives compareDoublesG for JumpIfFloatGreater: without SSE `x > y` branches if a value is not a number (`X86.thunk_branch_wrong`, compile.cpp:1103, 1146).
- In builds with tail calls, a thread that is interrupted between popping the frame and the jump that ends the method (`pop rcx; add rsp; jmp rcx`, or the jump of a tail call) is walked with a wrong return address: `nextFrame` only knows `ret` (assembler.cpp:115-118). `Avian.X86.recent_tails_wrong`.
- Negation and absolute value of floats between a register below xmm8 and one that is not put the two extension bits of the prefix in the wrong places (operations.cpp:1709, 1737: `maybeRex(a, b)` with `modrm(a, b)`): the result is -0.0, or NaN for the absolute value, whatever the operand, and a register that is not an operand is changed. `Avian.X86.float_negate_wrong`, `Avian.X86.float_absolute_wrong`.
- A ConcurrentHashMap loses keys when hash codes are equal: a new key takes the place of all keys with its hash code (ConcurrentHashMap.java:212-220 makes a cell without `next`), and `size` still counts them. `Avian.ConcurrentMap.put_collision_wrong`.
- A ConcurrentHashMap compares hash codes by subtraction (ConcurrentHashMap.java:367-369), which overflows: of eight keys with different hash codes one is no longer found. `Avian.ConcurrentMap.far_apart_wrong`.
- `keySet().contains`, and `remove` in the same way, throw a NullPointerException for a key that is not in a ConcurrentHashMap (309-316: an entry is made of null). `Avian.ConcurrentMap.contains_wrong`.
- `setValue` of an entry of a ConcurrentHashMap returns the new value (390: `V v = value` reads the parameter).
- The references of a method with exception handlers are wrong after a jump back at the end of its first way: the change is looked for only when the next event ends the log or the context (compile.cpp:6898-6900), not when a handler follows, so the analysis stops too early. `for(;;){try{f();}catch(E e){int i=1;g(i);}}` with a slot that held a reference before: the collector takes the int for a reference. `Avian.FrameMap.back_jump_wrong`.
- A handler that guards a call in a handler which is translated later is analysed without that call, and nothing notices it (compile.cpp:7436). `Avian.FrameMap.late_call_wrong`.
- The size of a table of frame maps is computed in 32 bits (compile.cpp:3148-3152): with 20000 calls and 3000 slots the search looks for maps at the wrong place. `Avian.FrameMap.table_size_wrong`.
- In subroutines the log has the address of the original instruction (compile.cpp:1662-1672) while visits are counted for the copy, so joins in subroutines are not joined (by reading only).
- A `tableswitch` or `lookupswitch` right behind an instruction that is met first as the end of its default target (valid bytecode such as `iload; goto S; D: return; S: tableswitch default D`, which javac does not make): its further events (compile.cpp:6454-6520) directly follow the events of the instruction in front of it, the block is not cut (compiler.cpp:2073-2075), and the first part of the switch is laid out nowhere. `Avian.Chain.switch_wrong`.
- When nothing reaches the instruction at the end of a guarded range, the range of the compiled code ends at the start, not the end, of the last instruction in it (compile.cpp:6592-6594): exceptions of that instruction are not caught. javac does not make such ranges, tools that leave dead code (`nop … athrow`) do. `Avian.Handlers.dead_end_wrong`.
- A guarded range that ends with the method fails an assertion in a method with subroutines (compile.cpp:6587-6589: the position is set to the length of the bytecode, not of its copies). `Avian.Handlers.subroutine_end_wrong`.
- A line that consists of one instruction of one byte (such as `idiv` on a line of its own) is left out of the line table of compiled code (compile.cpp:6760: the end is exclusive, and one is subtracted too). `Avian.Handlers.one_byte_line_wrong`.
- When a line has no machine code and the next line faults with its very first machine instruction, `findLineNumber` never ends (process.cpp:285-299 with two entries at the same address; the fault handler passes the address plus one). `Avian.Handlers.empty_line_never_ends`.
- `Matcher.find` can report a match that is none: `a+|ab.` is found in `aaabc` as the whole text (after a match, threads of lower priority are left in the queue, PikeVM.java:319-343). `Avian.PikeVM.find_not_match`.
- `Matcher.find` does not find the leftmost match: `abcd|bc` is found in `abcd` at 1. `Avian.PikeVM.find_not_leftmost`.
- `find()` after an empty match at the end of the text starts behind the end and throws ArrayIndexOutOfBoundsException. `Avian.PikeVM.find_past_end`.
- `\b` and `\B` never match at the end of the text (PikeVM.java:352-380). `Avian.PikeVM.boundary_end`, `boundary_end_wrong`.
- `.` does not match U+0000 and matches U+0085, U+2028 and U+2029; `$` does not match before a final line terminator. `Avian.PikeVM.dot_wrong`, `line_end_wrong`.
- A repeated group is counted once for each copy: `(a){2}(b)` has three groups, and `group(2)` is the second `a`. `Avian.PikeVM.group_numbers_wrong`.
- `(a*)?b` on `b` leaves group 1 unset (Java: the empty string), since the thread that went through the group comes later to a place already taken. `Avian.PikeVM.group_lost`.
- By reading only: a negative lookbehind is written as NEGATIVE_LOOKAHEAD with a reversed program (Compiler.java, Lookaround.writeCode); `x{0}` is refused (Compiler.java:125-127); `Matcher.replaceAll` with an expression that matches the empty string does not end (Matcher.java:57-75); `groupCount()` before a match throws NullPointerException (RegexMatcher.java).
- The room of an object mask in a boot image is computed in bytes but used in words (main.cpp:961-977 `targetSize` with a referer, used at main.cpp:1349): each mask takes 24 words or more instead of 3, and the words behind it are never written. This is only a waste (`Avian.BootImage.image_ok` holds with any room).
- `"".replaceAll(p, r)` and `"".replaceFirst(p, r)` throw a NullPointerException for every pattern: the loop is not entered and the builder is null (Matcher.java:58-80; `Avian.PlainPattern.replace_empty_text`).
- `replaceAll` with a pattern that matches the empty text at the beginning (`"abc".replaceAll("x*", "-")`) stays at the same place for 2147483647 rounds, or until memory is exhausted (Matcher.java:73; `Avian.PlainPattern.replaceAll_empty_match_wrong`). `while (m.find())` never ends for an empty pattern (Matcher.java:29-31; `plain_find_stuck`).
- `Pattern.split(input, limit)` for patterns with operators gives one piece more than the limit (Pattern.java:77), leaves out one empty piece at the end instead of all (limit 0) or none (negative limit) (Pattern.java:84), and throws an exception when the pattern matches the empty text at the end (`"b".split("x*")`) (`regexSplit_limit_wrong`, `regexSplit_trailing_wrong`, `regexSplit_negative_wrong`, `regexSplit_empty_match_fails`).
- `$` and backslash in replacements have no meaning (Matcher.java:72), and the empty pattern splits with an empty piece first, as before Java 8 (`split_empty`).
- `Properties.store` escapes nothing (Properties.java:32-38): keys with blanks, `=` or `:`, values with backslashes, line ends or leading `=`, comments of several lines and all characters outside ASCII are not read back (`Avian.JProperties.store_escape_wrong`, `equals_wrong`, `comment_wrong`, `store_load_not_ascii`).
- `Properties.load` reads `\t`, `\r` and `\f` as letters, takes a line beginning with an escaped `#` for a comment, keeps the line end of a continued line, swallows a second `=`, does not end lines at carriage returns, and trims escaped or trailing white space of values (Properties.java:110-176; `escape_letter_wrong`, `escaped_comment_wrong`, `continuation_wrong`, `equals_wrong`, `carriage_return_wrong`, `value_trimmed_wrong`).
- Deleting, inside a frame made with `PushLocalFrame`, the newest reference of the frame around it frees the cell that `popLocalFrame` looks for (compile.cpp:9063-9074): all references of the thread are disposed of, then the null pointer is used (`Avian.JniRefs.delete_outer_wrong`).
- `DeleteLocalRef` of an argument of a native method (the address of a word of the Java stack, compile.cpp:7604-7648) counts down in the memory behind it (compile.cpp:9046-9051; `delete_argument_wrong`).
- A native method that ends with an exception leaves its local references behind (compile.cpp:7699-7703 throws before 7742-7744): they keep their objects until the native method around it returns.
- `IsSameObject(weak, NULL)` is false for a weak reference whose object is gone (jnienv.cpp:3171-3180), and `NewGlobalRef` of it is not null (jnienv.cpp:2258-2282): JNI says true and null (`weak_cleared_wrong`, `global_of_cleared_wrong`).
- `NewLocalRef(NULL)` reads the null pointer (jnienv.cpp:415-420); JNI says it is null.
- `CallXMethodA` takes four bytes of the union for booleans, bytes, chars and shorts (compile.cpp:8407): bytes that the caller did not set get into the Java int (`Avian.NativeCall.jvalue_wrong`). The interpreter does the same (interpret.cpp:3116).
- `Method.invoke` reads four bytes of a boxed byte or short (compile.cpp:8446): negative ones arrive as 128…255 or 32768…65535 (`reflect_negative_wrong`). An `Integer` for a long parameter is not widened: negative ones arrive as positive (`reflect_widening_wrong`).
- `Method.invoke` checks no argument's type (Method.java:70-99, classpath-common.h:849-863, compile.cpp:8431-8450): any object is passed for any parameter where Java throws IllegalArgumentException, and null for a primitive parameter is read through (`reflect_unchecked_wrong`).
- A native method returning a jboolean of 128 or more gives Java a negative int (compile.cpp:7706-7709); 0 and 1 are right (`result_ok`).
- `ByteBuffer.checkGet` does not refuse indices below zero (ByteBuffer.java:322): get(-1) reads the byte before the buffer, of a direct buffer outside of its memory (`Avian.ByteBuf.getAt_negative_wrong`).
- `ByteBuffer.checkPut` overflows (ByteBuffer.java:314): putLong(Integer.MAX_VALUE, …) of a direct buffer writes outside of its memory (`putAt_overflow_wrong`); so do put and get of arrays with a length below zero or an offset near the largest int (DirectByteBuffer.java:65, 80; `putArray_direct_wrong`).
- `DirectByteBuffer.get(byte[], int, int)` does not move the position (DirectByteBuffer.java:79-92; `getArray_direct_wrong`), and `compact` of a direct buffer copies overlapping places with memcpy (DirectByteBuffer.java:51, builtin.cpp:802; `compact_direct_wrong`).
- `slice` gives a read-only buffer (ArrayByteBuffer.java:44), and `wrap(array, offset, length)` one with position 0 and offset as its array offset (ByteBuffer.java:34; `slice_readOnly_wrong`, `wrap_wrong`).
- `StringTokenizer.nextToken` does not move its position when it returns a delimiter (StringTokenizer.java:81-83): a loop over the tokens does not end (`Avian.Tokenizer.delimiters_wrong`).
- `StringTokenizer.hasMoreTokens` moves the position past delimiters (StringTokenizer.java:71), so nextToken(String) with other delimiters gives less than without having asked (`change_wrong`).
- `Calendar` takes each fourth year for a leap year when it counts days, but not 2100 when it counts the days of months (Calendar.java:132-143): 2100-01-01 is given as day 0 of January, and all later dates are wrong by a day or more (`Avian.JCalendar.year_2100_wrong`).
- Times before 1970 are divided towards zero (Calendar.java:131, 146-152): -1000 gives 1970-01-01 with -1 seconds (`before_1970_wrong`, `before_1970`).
- `SimpleDateFormat.parse` does not check the month: 14 and more leads to ArrayIndexOutOfBoundsException, not to null (`month_14_wrong`).
- `TimeUnit.scale` notices an overflow only if the wrapped product is smaller than the value (TimeUnit.java:365-368): 27670116110564327 microseconds become 9223372036854775384 nanoseconds, and 300000 days fewer nanoseconds than 130000 (`Avian.TimeUnits.scale_wrong`, `not_monotone`).
- Through `BitSet.nextBit` (see C71), an EnumSet of a type with more than 64 constants that holds none of the first 64 has size 0 and an iterator without elements, though contains is true (`Avian.EnumSet.many_constants_wrong`).
- `MessageFormat.format` drops a parameter without closing brace silently, takes `{}` for `{0}`, lets the number wrap (`{4294967296}` is `{0}`), and leaves through StringIndexOutOfBoundsException for a tick without its match (specification `Tail` and examples of C112).
- A URL with a colon but no port (`http://h:/`) gets the port 0, and a negative port is read but not written (`Avian.Urls.port_changes`).
- With the Avian classpath, `threadInterrupt` sets the flag a second time after it woke the thread. If `Object.wait` (or `Thread.sleep`) ends between, it throws InterruptedException and the flag is true afterwards all the same, so that one interrupt is told twice; if the thread waits again at once, it sleeps with its flag set (`Avian.Parking.interrupt_twice`, `interrupt_unseen`; `clearInterrupted` in classpath-avian.cpp:100 does nothing).
- `Collections.shuffle` exchanges each element with any other one, not only with those that are left, so that orders are not equally likely (`Avian.Shuffle.shuffle_unfair`).
- `String.format` refuses all formats with dates, with IllegalStateException or NumberFormatException (`Avian.FormatString.dates_refused`).
- `String.format` refuses a precision without a width, such as `%.2f`, with IllegalStateException (`Avian.FormatString.precision_alone_refused`).
- `String.format` writes `00-42` for `%05d` of -42 (`zeros_before_sign`: each negative number), refuses `%<s` and `%,d`, takes the next argument for `%<$s`, does not pad what it cuts, and writes `00` for `%x` of Long.MIN_VALUE (`Avian.FormatString.format_wrong`).

Everything in `/repo` not cited by a definition is not modelled: in particular the JIT back ends,
the class library except where stated below, OS services, and memory ordering weaker than
sequential consistency.
