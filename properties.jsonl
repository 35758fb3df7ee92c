{"id": "C01", "title": "Size and alignment arithmetic is exact", "statement": "Rounding a size up to an alignment returns the least multiple that is not below it; dividing rounding up, taking the next power of two and taking a base-two logarithm terminate and return the mathematically defined value for every argument whose result is representable in 32 bits.", "quantifier": "for every 32-bit (64-bit for rounding) argument", "why_tests_cant": "the argument space has 2^32 (2^64) points and the failures sit at the wrap-around end of it, including non-termination which a test cannot observe", "anchors": ["include/avian/util/math.h: powerOfTwo, nextPowerOfTwo, log, ceilingDivide, avg", "src/avian/common.h: pad, padWord, fitsInInt8, fitsInInt16, fitsInInt32"]}
{"id": "C02", "title": "Packed bit records read back what was written and disturb nothing else", "statement": "Writing a k-bit record at index i of a packed bit map makes a later read of record i return that value, leaves every other record unchanged, and single mark and clear operations act on exactly the addressed bit.", "quantifier": "for every map content, record width, index, value and sequence of operations", "why_tests_cant": "errors show only for particular record widths straddling word boundaries and for neighbours of the written record", "anchors": ["src/avian/common.h: markBit, clearBit, getBit, setBits, getBits, clearBits", "src/heap/heap.cpp: Segment::Map::set/get/clear"]}
{"id": "C03", "title": "Class file reading is big-endian, in order, and confined to the buffer", "statement": "Reading 1, 2, 4 or 8 byte integers from a class file image returns the big-endian value of exactly the next bytes, never looks at bytes outside the image, and a read past the end reports the error and yields zero bytes without moving the position.", "quantifier": "for every image, position and sequence of read and skip requests", "why_tests_cant": "out of range reads depend on every truncation point of every image", "anchors": ["include/avian/util/stream.h: AbstractStream::skip/read/read1/read2/read4/read8"]}
{"id": "C04", "title": "Compiled-code index is a correct ordered map", "statement": "After inserting values under distinct keys, looking up any key yields exactly the value last stored for it, and looking up a key never inserted yields the supplied default.", "quantifier": "for every insertion order and every number of keys", "why_tests_cant": "rebalancing has many shape-dependent cases and every history of insertions reaches different shapes", "anchors": ["src/util.cpp: treeQuery, treeInsert, treeUpdate, treeAdd, treeFind"]}
{"id": "C05", "title": "Compiled-code index stays balanced so lookups cannot hit the depth abort", "statement": "Whatever keys are inserted in whatever order, the index keeps its red-black shape, so its depth is at most twice the logarithm of its size and the VM abort that guards against depth above one hundred is unreachable for any size that fits in memory.", "quantifier": "for every history of insertions", "why_tests_cant": "needs an inductive invariant over all shapes; a test would need 2^50 insertions to see the abort", "anchors": ["src/util.cpp: treeAdd, treeFind, leftRotate, rightRotate, treeNodeRed"]}
{"id": "C06", "title": "Inserting into the code index leaves earlier snapshots readable", "statement": "A reader that holds the root of the index taken before an insertion keeps seeing exactly the old contents while and after the insertion runs: no node reachable from an older root is ever modified by an insertion.", "quantifier": "for every tree, key and intermediate point of the insertion", "why_tests_cant": "requires looking at every store of every rebalancing path against every node shared with the old version", "anchors": ["src/util.cpp: cloneTreeNode, treeFind, treeAdd, treeInsert"]}
{"id": "C07", "title": "VM hash tables behave as maps whatever the growth and shrink history", "statement": "After any sequence of insert-if-absent, insert-or-replace and remove operations, a lookup returns the value last stored and not removed under an equal key, removal returns and removes that value only, and the recorded size equals the number of entries; growing and shrinking the bucket array is invisible.", "quantifier": "for every sequence of operations, every hash function and every key equality compatible with it", "why_tests_cant": "resize thresholds interact with operation history and with collisions chosen by an arbitrary hash function", "anchors": ["src/util.cpp: hashMapFindNode, hashMapResize, hashMapInsert, hashMapRemoveNode, hashMapRemove", "src/avian/util.h"]}
{"id": "C08", "title": "Weak hash tables drop only dead keys", "statement": "In a table that holds its keys weakly, an entry whose key is still alive is never lost by lookups, inserts, removes or resizes, and an entry whose key was collected is never returned.", "quantifier": "for every sequence of operations interleaved with arbitrary key deaths", "why_tests_cant": "which keys die between which operations is decided by the collector", "anchors": ["src/util.cpp: hashMapFindNode, hashMapResize, hashMapRemove"]}
{"id": "C09", "title": "Arena blocks never overlap and release in reverse order", "statement": "Blocks handed out by an arena are pairwise disjoint, lie inside memory the arena obtained from its backing allocator, and releasing the most recent block makes exactly that space available again without touching older blocks.", "quantifier": "for every sequence of allocation, peek and release requests and every segment size", "why_tests_cant": "overlap appears only at segment boundaries reached by particular request histories", "anchors": ["src/avian/zone.h: Zone::allocate, tryEnsure, ensure, peek, pop, dispose"]}
{"id": "C10", "title": "Code memory allocator returns disjoint aligned blocks and refuses when full", "statement": "Blocks returned by the fixed-size memory allocator are word aligned, disjoint and inside the region; a request that does not fit is refused and changes nothing; freeing the last block restores the previous state.", "quantifier": "for every region size and request sequence", "why_tests_cant": "boundary conditions at the exact end of the region and for sizes that are not word multiples", "anchors": ["src/util/fixed-allocator.cpp: FixedAllocator::tryAllocate, allocate, free"]}
{"id": "C11", "title": "UTF-8 to string conversion round-trips", "statement": "Converting any sequence of UTF-16 code units to the VM's UTF-8 form and parsing it back yields the same sequence, the announced byte length equals the number of bytes written, and parsing pure ASCII text gives one unit per byte.", "quantifier": "for every sequence of 16-bit units", "why_tests_cant": "there are infinitely many strings and the encoder and decoder are separate programs with several length classes", "anchors": ["src/machine.cpp: stringUTFLength, stringUTFChars, parseUtf8, parseUtf8NonAscii", "src/machine.cpp: readByte"]}
{"id": "C12", "title": "Parsing UTF-8 terminates, never reads past the input and never writes past the buffer", "statement": "For any byte sequence whatsoever, well formed or not, converting it to a string stops, consumes no byte beyond the given length, and stores at most as many characters as the destination was allocated for.", "quantifier": "for every byte sequence", "why_tests_cant": "malformed and truncated sequences form an unbounded set and memory errors may stay silent", "anchors": ["src/machine.cpp: parseUtf8(Thread*, AbstractStream&, unsigned), parseUtf8NonAscii, parseUtf8(Thread*, GcByteArray*)"]}
{"id": "C13", "title": "Equal strings have equal hash codes", "statement": "Two strings that compare equal inside the VM have the same hash, whether their characters are stored as bytes or as 16-bit units, so interning finds them.", "quantifier": "for every pair of strings and both storage forms", "why_tests_cant": "the defect appears only for byte values above 127 in one storage form", "anchors": ["src/avian/machine.h: stringHash, stringCharAt, stringEqual, byteArrayHash, byteArrayEqual", "include/avian/util/hash.h"]}
{"id": "C14", "title": "Interning is canonical", "statement": "Interning two equal strings yields the same object, interning never changes the characters of the result, and interning is idempotent while the canonical object is alive.", "quantifier": "for every history of intern calls and collections", "why_tests_cant": "depends on unbounded histories and on resizes of the weak table between calls", "anchors": ["src/machine.cpp: intern, internByteArray, removeString", "src/util.cpp: hashMapFindNode, hashMapInsert"]}
{"id": "C15", "title": "A jar entry is found exactly when the archive lists its name", "statement": "Looking a name up in an opened archive succeeds iff the central directory lists that name, and then returns the entry listed last under it; growth of the index does not change this.", "quantifier": "for every archive and every name", "why_tests_cant": "the failing names need bytes above 127 together with an archive of more than 256 entries", "anchors": ["src/finder.cpp: JarIndex::open, add, findNode, find, stat", "include/avian/util/hash.h: hash"]}
{"id": "C16", "title": "Class path search honours order", "statement": "A resource is served from the first class path element that contains it; adding elements after it never changes the result; a resource contained in no element is not found.", "quantifier": "for every class path and resource name", "why_tests_cant": "quantifies over all class paths", "anchors": ["src/finder.cpp: MyFinder::find, stat, urlPrefix, sourceUrl, parsePath, add", "include/avian/util/tokenizer.h"]}
{"id": "C17", "title": "Instance fields are laid out without overlap and subclasses extend superclasses", "statement": "Every instance field of a loaded class is aligned to its size, lies inside the instance, starts after the header, and does not overlap any other field of the class or of any superclass; field offsets inherited from a superclass are never changed.", "quantifier": "for every class hierarchy and field list", "why_tests_cant": "overlap depends on the exact mix of field sizes along an arbitrary chain of superclasses", "anchors": ["src/machine.cpp: parseFieldTable, fieldSize, fieldCode, primitiveSize", "src/avian/common.h: pad"]}
{"id": "C18", "title": "The collector's reference map of a class marks exactly its reference fields", "statement": "For every loaded class the reference map marks the header word and the word of each reference field of the class and its superclasses, and no other word.", "quantifier": "for every class hierarchy and field list", "why_tests_cant": "a single wrong bit corrupts the heap only when a collection happens at the wrong moment", "anchors": ["src/machine.cpp: parseFieldTable (object mask), walk", "src/machine.cpp: walk, walkNext"]}
{"id": "C19", "title": "Static fields are laid out without overlap and constant values land in their fields", "statement": "Every static field gets its own aligned place inside the class's static area, its declared constant value is stored at exactly that place, and the static area's reference map marks exactly the reference fields and the class link.", "quantifier": "for every list of fields", "why_tests_cant": "two separate passes compute the offsets and must agree for every mix of sizes", "anchors": ["src/machine.cpp: parseFieldTable (static table)", "src/avian/machine.h: singletonMarkObject, singletonSetBit"]}
{"id": "C20", "title": "Virtual dispatch picks the most derived override", "statement": "Invoking a virtual method through a slot of the receiver's class runs the method declared with that name and descriptor in the most derived class that declares it; a slot keeps its number in all subclasses.", "quantifier": "for every class hierarchy and method set", "why_tests_cant": "tables are built by a chain of merges over arbitrary hierarchies", "anchors": ["src/machine.cpp: parseMethodTable, addInterfaceMethods", "src/avian/machine.h: findVirtualMethod, methodVirtual"]}
{"id": "C21", "title": "Interface dispatch agrees with virtual dispatch", "statement": "Invoking an interface method on an object runs the same method that virtual lookup by name and descriptor would run on the object's class.", "quantifier": "for every hierarchy of classes and interfaces", "why_tests_cant": "interface tables can be inherited, rebuilt or partly filled depending on which methods a class declares", "anchors": ["src/machine.cpp: parseInterfaceTable, addInterfaces, parseMethodTable", "src/avian/machine.h: findInterfaceMethod"]}
{"id": "C22", "title": "Assignability is the subtype relation", "statement": "The assignability test used for casts, instanceof, exception matching and reflection is reflexive, transitive and coincides with the declared subclass, interface and array covariance rules.", "quantifier": "for every finite class hierarchy and every pair of classes", "why_tests_cant": "quantifies over all hierarchies and over unbounded array nesting", "anchors": ["src/machine.cpp: isAssignableFrom, instanceOf", "src/avian/machine.h: exceptionMatch"]}
{"id": "C23", "title": "Method descriptors are measured correctly", "statement": "For every well-formed method descriptor the VM computes the number of parameters, the number of stack slots they take with long and double counted twice plus the receiver, and the return kind.", "quantifier": "for every well-formed descriptor", "why_tests_cant": "the descriptor language is infinite with nested arrays and class names", "anchors": ["src/avian/machine.h: MethodSpecIterator, scanMethodSpec", "src/machine.cpp: parameterFootprint, fieldCode"]}
{"id": "C24", "title": "A class initializer runs at most once and never concurrently", "statement": "Whatever the interleaving of threads asking for a class to be initialised, its static initialiser body is started at most once, by a single thread, after its superclass was initialised, and other threads do not proceed past the request until it finished.", "quantifier": "for every number of threads, every schedule and every class hierarchy", "why_tests_cant": "races need particular interleavings around the lock release inside the initialiser", "anchors": ["src/machine.cpp: classNeedsInit, preInitClass, postInitClass, initClass, isInitializing"]}
{"id": "C25", "title": "Failed class initialisation is reported to every later user", "statement": "If a static initialiser ends with a throwable, every later or concurrent use of the class throws and no waiting thread sleeps forever.", "quantifier": "for every schedule and every kind of throwable", "why_tests_cant": "needs a failing initialiser racing with waiters; hanging cannot be observed by a finite test", "anchors": ["src/machine.cpp: postInitClass, preInitClass, initClass"]}
{"id": "C26", "title": "Stop-the-world state excludes every running thread", "statement": "Once a thread has entered the exclusive state, no other thread is running Java or VM code in the active state until it leaves; at most one thread is exclusive at a time.", "quantifier": "for every number of threads and every interleaving of state changes at the granularity of single memory accesses", "why_tests_cant": "the guarantee rests on a lock-free fast path raced against a flag, a classic schedule-dependent protocol", "anchors": ["src/machine.cpp: enter", "src/avian/machine.h: Thread::State, StateResource"]}
{"id": "C27", "title": "Waiting for the stop-the-world state never loses its wake-up", "statement": "If a thread waits for other threads to leave the active state and all of them have left, a wake-up for the waiter has been or is about to be sent.", "quantifier": "for every interleaving", "why_tests_cant": "a lost wake-up is a rare interleaving that shows only as a hang", "anchors": ["src/machine.cpp: enter"]}
{"id": "C28", "title": "Object monitors give mutual exclusion with re-entrancy", "statement": "At most one thread owns a monitor; a monitor entered n times by its owner is released only after n exits; leaving a monitor not owned never succeeds.", "quantifier": "for every number of threads and every schedule at the granularity of single atomic operations", "why_tests_cant": "the monitor is a lock-free queue plus compare-and-swap whose correctness depends on all interleavings", "anchors": ["src/avian/machine.h: monitorTryAcquire, monitorAcquire, monitorRelease, monitorAtomicAppendAcquire, monitorAtomicPollAcquire, acquire, release"]}
{"id": "C29", "title": "Contended monitor entry is first come first served and wakes the right thread", "statement": "Threads queue for a contended monitor in the order in which they joined the queue; no queued thread is skipped or served twice, and releasing a monitor leaves no queued thread without a pending wake-up.", "quantifier": "for every schedule", "why_tests_cant": "lock-free queue linearizability concerns all interleavings of enqueue and dequeue steps", "anchors": ["src/avian/machine.h: monitorAtomicAppendAcquire, monitorAtomicPollAcquire, monitorRelease"]}
{"id": "C30", "title": "wait and notify follow the Java rules", "statement": "wait and notify by a non-owner are refused; wait releases the monitor completely and re-enters it with the same depth; notify removes exactly the longest waiter and notifyAll exactly all waiters; a thread that leaves wait is in no wait set.", "quantifier": "for every sequence of wait, notify, notifyAll, time-out and interrupt", "why_tests_cant": "the wait list is mutated by several operations in every possible order", "anchors": ["src/avian/machine.h: monitorAppendWait, monitorRemoveWait, monitorFindWait, monitorWait, monitorPollWait, monitorNotify, monitorNotifyAll"]}
{"id": "C31", "title": "Native monitors keep an exact wait queue", "statement": "The platform monitor lets only its owner proceed, a notification wakes the first queued waiter and only queued waiters, a waiter that timed out leaves the queue, and ownership depth is restored after a wait.", "quantifier": "for every number of threads and every schedule", "why_tests_cant": "race between time-out and notification", "anchors": ["src/system/posix.cpp: MySystem::Monitor acquire, tryAcquire, release, wait, notify, notifyAll, append, remove"]}
{"id": "C32", "title": "Collection preserves the reachable object graph", "statement": "After a collection every object reachable from the roots still exists with the same class, the same scalar contents and references to the corresponding objects; sharing and cycles are preserved and the roots point at the corresponding objects.", "quantifier": "for every heap graph and every choice of roots", "why_tests_cant": "graph shapes including cycles and sharing are unbounded", "anchors": ["src/heap/heap.cpp: collect, copy, copy2, copyTo, follow, update2, update3"]}
{"id": "C33", "title": "The collector visits every reference of an object exactly once", "statement": "When an object with many reference fields is scanned, the set of pending fields recorded by the collector is enumerated exactly once each, whatever their number and positions.", "quantifier": "for every set of field positions and object size", "why_tests_cant": "the set is packed in the object being collected and switches representation at 63 fields", "anchors": ["src/heap/heap.cpp: bitsetInit, bitsetClear, bitsetSet, bitsetHasMore, bitsetNext"]}
{"id": "C34", "title": "References from old objects keep young objects alive", "statement": "A young object referenced only from an old object survives a minor collection: every store of a young reference into an old object is remembered until the referent is old or the reference is overwritten.", "quantifier": "for every history of allocations, stores and minor and major collections", "why_tests_cant": "losing one remembered store corrupts memory only after a later minor collection", "anchors": ["src/heap/heap.cpp: mark, markDirty, updateHeapMap, update, collect2, Segment::Map::Iterator", "src/avian/machine.h: setField, mark"]}
{"id": "C35", "title": "Heap accounting matches the memory handed out and the limit is respected", "statement": "The heap's recorded usage equals the total size of memory currently handed out, a request that would exceed the configured limit is refused when it may be refused, and usage returns to zero when everything is freed.", "quantifier": "for every sequence of allocate and free requests", "why_tests_cant": "drift accumulates over unbounded histories", "anchors": ["src/heap/heap.cpp: allocate, tryAllocate, free, limitExceeded"]}
{"id": "C36", "title": "Non-moving objects keep their address and are freed only when unreachable", "statement": "An object allocated as non-moving keeps its address through every collection while reachable, is released exactly when a collection finds it unreachable, and is on exactly one of the collector's lists at any time.", "quantifier": "for every heap history", "why_tests_cant": "list moves happen at several points of a collection depending on age and reachability", "anchors": ["src/heap/heap.cpp: Fixie, sweepFixies, visitMarkedFixies, visitDirtyFixies, killFixies"]}
{"id": "C37", "title": "Identity hash codes never change", "statement": "Once asked for, the identity hash code of an object stays the same for the life of the object, however often the collector moves it, and a copy made by the collector keeps room for it.", "quantifier": "for every object and every history of hash requests and collections", "why_tests_cant": "depends on whether the hash was taken before or after a move", "anchors": ["src/avian/machine.h: objectHash, takeHash, hashTaken, objectExtended, markHashTaken", "src/machine.cpp: HeapClient sizeInWords, copiedSizeInWords, copy"]}
{"id": "C38", "title": "Cloning yields an independent object with the same contents", "statement": "A clone has the same class and field or element values as the original, its own identity, and header state of its own: it never claims memory or properties it does not have.", "quantifier": "for every object or array and every header state", "why_tests_cant": "fails only for arrays whose identity hash was taken before a collection", "anchors": ["src/machine.cpp: clone", "src/avian/machine.h: setObjectClass"]}
{"id": "C39", "title": "Weak references are cleared exactly when their target dies and finalizers run once", "statement": "After a collection every weak reference to an object that did not survive is cleared, every reference to a surviving object is kept, a cleared reference registered with a queue is enqueued once, and each finalizer of an unreachable object is scheduled exactly once.", "quantifier": "for every heap graph with references and finalizers", "why_tests_cant": "resurrection, reference kinds and tenuring give many combinations", "anchors": ["src/machine.cpp: referenceTargetUnreachable, referenceUnreachable, referenceTargetReachable, finalizerTargetUnreachable, postVisit"]}
{"id": "C40", "title": "Removing a thread keeps every other thread registered", "statement": "When a thread ends and is removed from the VM's tree of threads, every other registered thread remains reachable from the root and no thread is lost or duplicated.", "quantifier": "for every tree of threads and every order of exits", "why_tests_cant": "depends on the shape of the creation tree and exit order", "anchors": ["src/machine.cpp: Thread::dispose, addThread, removeThread, visitAll"]}
{"id": "C41", "title": "Integer bytecodes compute Java arithmetic", "statement": "Each integer and long arithmetic, shift, logic, conversion and comparison instruction consumes its operands and pushes the value the Java virtual machine specification defines, for all operand values; division by zero raises the arithmetic exception.", "quantifier": "for all operand values", "why_tests_cant": "2^64 or 2^128 operand pairs per instruction with corner cases at the extremes", "anchors": ["src/interpret.cpp: interpret3 (iadd..lxor, i2b.., lcmp)", "src/interpret.cpp: pushInt, popInt, pushLong, popLong"]}
{"id": "C42", "title": "Stack shuffling bytecodes permute exactly as specified", "statement": "dup, dup_x1, dup_x2, dup2, dup2_x1, dup2_x2, swap, pop and pop2 leave the operand stack with exactly the specified slots, carrying value kind tags along, and do not disturb slots below.", "quantifier": "for every stack content", "why_tests_cant": "aliasing copies inside the stack depend on order for every content", "anchors": ["src/interpret.cpp: interpret3 (dup..swap)"]}
{"id": "C43", "title": "Switch instructions jump to the matching case", "statement": "lookupswitch jumps to the target paired with the key when its sorted table contains it and to the default otherwise; tableswitch jumps to the target at the key's index exactly when the key is within bounds; both stop.", "quantifier": "for every table and key", "why_tests_cant": "binary search over arbitrary tables including extreme keys", "anchors": ["src/interpret.cpp: interpret3 (lookupswitch, tableswitch)", "src/avian/machine.h: codeReadInt32"]}
{"id": "C44", "title": "Floating-point comparison pushes exactly one result", "statement": "The float and double comparison instructions pop two operands and push exactly one integer: -1, 0 or 1, with the documented result for unordered operands.", "quantifier": "for all operand values including not-a-number", "why_tests_cant": "only unordered operands expose the fault", "anchors": ["src/interpret.cpp: interpret3 (fcmpg, fcmpl, dcmpg, dcmpl)"]}
{"id": "C45", "title": "Exceptions reach the first matching handler", "statement": "When an exception is raised at an instruction, control goes to the first handler in table order that covers the instruction and whose catch type the exception is an instance of; frames without such a handler are popped; with none left the exception reaches the caller.", "quantifier": "for every handler table, instruction and call stack", "why_tests_cant": "overlapping ranges and nested frames give unboundedly many configurations", "anchors": ["src/interpret.cpp: findExceptionHandler, interpret3 (throw_), popFrame", "src/avian/machine.h: exceptionHandler*, exceptionMatch"]}
{"id": "C46", "title": "Method invocation and return restore the caller", "statement": "Invoking a method makes its arguments the first local variables and clears the others; returning removes arguments, locals and frame, restores the caller's position and operand stack and pushes the result.", "quantifier": "for every call stack content, frame size and argument count", "why_tests_cant": "off-by-one frame errors depend on the sizes involved", "anchors": ["src/interpret.cpp: pushFrame, popFrame, checkStack, local*/setLocal*"]}
{"id": "C47", "title": "Field reads return what was written", "statement": "Reading a field returns the value last written to it, converted to the field's type as Java defines, and writing a field changes no other field.", "quantifier": "for every field type and value", "why_tests_cant": "values at the top half of the char range are the only ones that fail", "anchors": ["src/interpret.cpp: pushField, interpret3 (getfield, putfield, getstatic, putstatic)"]}
{"id": "C48", "title": "Native method symbol names have the announced length and follow the JNI escaping", "statement": "The symbol name computed for a native method has exactly the length reserved for it, uses the JNI escape sequences, and two different class or method names never produce the same decorated name part.", "quantifier": "for every class name, method name and descriptor", "why_tests_cant": "buffer size and writer are separate programs over arbitrary names", "anchors": ["src/process.cpp: mangledSize, mangle, jniNameLength, makeJNIName"]}
{"id": "C49", "title": "Stack trace line numbers come from the covering table entry", "statement": "The line reported for a return position is the line of the last line-table entry that starts before it, unknown when the method has no table, and native for native methods.", "quantifier": "for every line table and position", "why_tests_cant": "a binary search over arbitrary tables, with positions between and outside the entries", "anchors": ["src/process.cpp: findLineNumber", "src/avian/machine.h: lineNumberIp, lineNumberLine"]}
{"id": "C50", "title": "Conversions from floating point to integers truncate and saturate", "statement": "Converting a float or double to int or long gives the truncated value, the nearest bound when it is out of range, and zero for not-a-number.", "quantifier": "for every bit pattern", "why_tests_cant": "the wrong values are a few bit patterns at the borders of the range", "anchors": ["src/interpret.cpp: interpret3 (f2i, f2l, d2i, d2l)"]}
{"id": "C51", "title": "The interpreter executes the Java instruction set", "statement": "From any state in which the specification of the instruction set defines the next step, the interpreter makes that step (or reports stack exhaustion at a call), and so every run of any length ends in the state, result or exception that the specification gives.", "quantifier": "for every program, state and length of execution", "why_tests_cant": "the instruction set has about two hundred instructions whose effects compose without bound", "anchors": ["src/interpret.cpp: interpret3, findExceptionHandler, pushFrame, popFrame"]}
{"id": "C52", "title": "The constants of a class are what its class file states", "statement": "After reading a well-formed class file every constant number denotes the number, text, class, name and type, member, method handle, method type or call site the file states, whatever the order of the entries and however they refer to each other; which entries are objects and which are floating point is recorded exactly, every call site is registered once, and reading ends exactly behind the table.", "quantifier": "for every well-formed constant table", "why_tests_cant": "entries refer forward and backward to each other in unboundedly many shapes, and two-slot entries shift the numbering", "anchors": ["src/machine.cpp: parsePool, parsePoolEntry", "src/avian/machine.h: singletonMask, singletonMarkObject, singletonIsObject, singletonBit"]}
{"id": "C53", "title": "A class has the parts its class file states", "statement": "Loading a well-formed class file delivers its flags, name, superclass and interfaces, every field with type, constant value, signature and annotations, every method with parameter count, argument slots, return kind, code, exception handlers, line numbers, thrown classes, signature and annotations, and its inner classes, bootstrap methods, enclosing method and source file exactly as stated, with attributes in any order and unknown ones skipped, and reads exactly the bytes of the file.", "quantifier": "for every well-formed class file", "why_tests_cant": "attributes come in any order, nested and mixed with unknown ones, so one wrong length shifts everything behind it", "anchors": ["src/machine.cpp: parseClass, parseInterfaceTable, parseFieldTable, parseMethodTable, parseCode, parseAttributeTable"]}
{"id": "C54", "title": "Numbers are written and read back exactly", "statement": "Writing any long or int in any base from 2 to 36 gives a minus sign if it is negative and its digits without leading zeros; reading a numeral of a number in range, in small or capital letters, gives the number, so that writing and reading back is the identity; anything that contains another character is refused; the unsigned forms of an int are the numerals of its value modulo 2^32.", "quantifier": "for every number, base and text", "why_tests_cant": "two to the sixty-four numbers in thirty-five bases; the wrong ones are at the ends of the range", "anchors": ["classpath/java/lang/Long.java: toString, parseLong, pow", "classpath/java/lang/Integer.java: parseInt, toHexString", "classpath/java/lang/Character.java: digit"]}
{"id": "C55", "title": "Comparing numbers follows their order", "statement": "The result of compareTo is negative, zero or positive exactly when the first number is smaller than, equal to or greater than the second, for Long, Integer, Short, Byte, Character, Boolean and enumeration constants.", "quantifier": "for every pair of values", "why_tests_cant": "failures need operands far apart and break sorted collections only later", "anchors": ["classpath/java/lang/Integer.java: compareTo", "classpath/java/lang/Long.java: compareTo", "classpath/java/lang/Short.java: compareTo", "classpath/java/lang/Byte.java: compareTo", "classpath/java/lang/Character.java: compareTo", "classpath/java/lang/Boolean.java: compareTo"]}
{"id": "C56", "title": "Bit operations on integers count and reverse correctly", "statement": "Integer.bitCount is the number of bits set, Integer.numberOfLeadingZeros the number of zero bits above the highest one set, and Integer.reverseBytes exchanges the bytes end for end.", "quantifier": "for every int", "why_tests_cant": "branch-free bit tricks can be wrong on isolated values among four billion", "anchors": ["classpath/java/lang/Integer.java: bitCount, numberOfLeadingZeros, reverseBytes"]}
{"id": "C57", "title": "String operations work on the sequence of characters", "statement": "A string denotes a sequence of 16-bit characters, whichever of the two internal forms (bytes or characters, shared with other strings or not) it has. charAt, length, substring, toCharArray, equals, compareTo, their ignore-case forms, hashCode, indexOf, lastIndexOf, contains, startsWith, endsWith, regionMatches, trim, toLowerCase, toUpperCase and replace give what the definition on sequences says, and getBytes followed by new String gives an equal string.", "quantifier": "every string in either form, every index, every second string", "why_tests_cant": "Every operation is a loop over two representations with an offset; off by one errors show up only for particular lengths and positions.", "anchors": ["classpath/java/lang/String.java: charAt, substring, compareTo, equals, hashCode, indexOf, lastIndexOf, replace, trim"]}
{"id": "C58", "title": "Text survives the conversion to UTF-8 and back", "statement": "For every text, encoding gives the standard UTF-8 bytes of every character (two bytes for zero), and decoding these bytes gives the text again, in the compact form if all characters are ASCII.", "quantifier": "every sequence of 16-bit characters without zero", "why_tests_cant": "The decoder switches its representation in the middle of the text and trims at the end; the paths depend on where the first wide character is.", "anchors": ["classpath/avian/Utf8.java: encode, decode", "classpath/avian/Iso88591.java: encode"]}
{"id": "C59", "title": "A string builder contains what was put there", "statement": "After any sequence of append, insert, delete, replace, setCharAt and setLength, toString, charAt, substring and getChars deliver the characters that the same operations on a sequence of characters produce; indexes out of range are refused with an exception.", "quantifier": "every sequence of operations with any arguments, however the builder is divided into pieces", "why_tests_cant": "The text is kept in a chain of pieces and a buffer; whether an operation works depends on how the earlier operations divided the text.", "anchors": ["classpath/java/lang/StringBuilder.java: append, insert, delete, setLength, charAt, getChars, toString"]}
{"id": "C60", "title": "The lock-free queue is a queue for any number of threads", "statement": "Whatever the interleaving of add, poll and peek calls of any number of threads, there is an order of their effects, each between the call and the return of its operation, in which the queue is first-in first-out: no element is lost or delivered twice, poll removes the oldest element, null is returned only if the queue was empty at some moment of the call, and peek returns an element that was the first at some moment of the call. An operation that runs alone from any state ends.", "quantifier": "every number of threads, every sequence of operations, every interleaving", "why_tests_cant": "The failures need a thread to be stopped between two particular memory accesses; a test run meets a vanishing part of the interleavings.", "anchors": ["classpath/java/util/concurrent/ConcurrentLinkedQueue.java: add, poll, peek"]}
{"id": "C61", "title": "A linked list is a list", "statement": "Any sequence of calls on a LinkedList (add, addFirst, addAll, add at an index, get, set, peek, poll and remove at both ends, remove by index or object, occurrence removal, clear, contains, indexOf, lastIndexOf, size) answers as the same calls on a sequence of elements do, and list iterators started anywhere deliver the elements in order in both directions and remove what they delivered last.", "quantifier": "every sequence of calls with any arguments", "why_tests_cant": "Each change rewires up to four links; a wrong link shows only in a later call that walks the list in the other direction.", "anchors": ["classpath/java/util/LinkedList.java: addFirst, addLast, add, remove, find, indexOf, lastIndexOf, MyIterator"]}
{"id": "C62", "title": "A blocking queue is bounded, first-in first-out, and wakes its waiters", "statement": "Whatever the interleaving of operations on a LinkedBlockingQueue, the queue never holds more elements than its capacity; in the order of their returns the operations are those of a bounded first-in first-out queue; put and take return only after having put or taken; offer and poll fail only if the queue is full or empty at that moment; and no thread keeps waiting for an element while there is one, or for room while there is some.", "quantifier": "every number of threads, every sequence of operations, every capacity, every interleaving with timeouts and interrupts", "why_tests_cant": "A lost wake-up needs a particular interleaving and shows as a hang.", "anchors": ["classpath/java/util/concurrent/LinkedBlockingQueue.java: offer, put, addAll, poll, take, drainTo, remove, clear, blockTillNotFull, blockTillNotEmpty"]}
{"id": "C63", "title": "A future task is run at most once and everybody learns the same outcome", "statement": "Whatever the interleaving of run, cancel, get, isDone and isCancelled on a FutureTask: the callable is called at most once; get returns what it returned or throws what it threw, reports cancellation only if cancel was called, and times out only if it has a limit; all gets that learn the outcome learn the same; a successful cancel(false) means the callable is never called, a successful cancel(true) that it is never called or its thread is interrupted; once done or cancelled the task stays so; a cancel's interrupt does not reach the thread after run has returned; and a thread waiting in get is woken when the task is finished.", "quantifier": "every number of threads, every sequence of calls, every behaviour of the callable and of the clock, every interleaving of single accesses to the fields", "why_tests_cant": "A second call, a stale result, a stray interrupt or a lost wake-up needs a particular interleaving.", "anchors": ["classpath/java/util/concurrent/FutureTask.java: run, cancel, get, isDone, isCancelled, handleDone"]}
{"id": "C64", "title": "A hash map is a map", "statement": "Whatever sequence of put, get, remove, containsKey, containsValue, size, clear and iteration (with removal of any of the entries it delivers) is applied to a HashMap made with any capacity up to 2^30, no operation fails and every result is that of a map from keys (up to equals, null included) to values; an iteration delivers every entry exactly once and removes exactly the entries it is told to. After putAll a key has the value of the last entry with it.", "quantifier": "all key types with an equals and hashCode that keep their contract, all values, all capacities up to 2^30, all sequences of operations, all choices of what an iteration removes", "why_tests_cant": "Whether a bucket loses a cell depends on which keys collide, on when the table is resized and on what an iteration has removed just before; tests try a few.", "anchors": ["classpath/java/util/HashMap.java: find, put, remove, removeCell, resize, grow, shrink, insert, containsValue, clear, MyIterator", "classpath/avian/Data.java: nextPowerOfTwo, Values.removeAll"]}
{"id": "C65", "title": "A hash set is a set and tells what changed", "statement": "add returns true exactly if the element was not in the set; afterwards the set has it and what it had. addAll adds exactly the given elements and tells whether the set changed. remove takes out the element and nothing else, and returns true exactly if it was there.", "quantifier": "all element types with a lawful equals and hashCode, all sets, all elements", "why_tests_cant": "The results depend on earlier calls and on collisions; a test of remove that ignores its result passes.", "anchors": ["classpath/java/util/HashSet.java: add, addAll, remove"]}
{"id": "C66", "title": "A weak hash map loses only the entries whose keys were collected", "statement": "When the key of an entry of a WeakHashMap has been collected, the next operation removes this entry and no other, and the size goes down by one.", "quantifier": "all maps, all keys with a lawful equals and hashCode, every entry", "why_tests_cant": "Collection is not under the control of a test, and the failure needs a collision.", "anchors": ["classpath/java/util/WeakHashMap.java: poll", "classpath/java/util/HashMap.java: remove(Cell)"]}
{"id": "C67", "title": "A linked hash map keeps the order of insertion", "statement": "Whatever sequence of put, get, containsKey, remove, size, clear and iteration is applied to a LinkedHashMap, no operation fails and every result is that of a map that keeps its keys in the order in which they were put into it (a key put again while present keeps its place, one put again after its removal comes last); an iteration delivers the entries in this order and removes exactly those it is told to.", "quantifier": "all key and value types, all sequences of operations, all choices of what an iteration removes", "why_tests_cant": "Whether the order is kept depends on the whole history of insertions and removals, not only on the content of the map.", "anchors": ["classpath/java/util/LinkedHashMap.java: put, remove, clear, MyIterator"]}
{"id": "C68", "title": "Copying between arrays", "statement": "System.arraycopy refuses a null array, two arrays whose elements do not fit, and a range that is outside either array, each time without any effect. Otherwise the elements of the range become those the source had before the call, also if the ranges overlap; all other elements and arrays stay, and for references every changed element is made known to the garbage collector.", "quantifier": "all arrays, all offsets and lengths of 32 bits, all element sizes, overlapping or not", "why_tests_cant": "Offsets near 2^31 make the sums overflow, and every pair of array classes has to be considered.", "anchors": ["src/avian/classpath-common.h: arrayCopy, compatibleArrayTypes", "src/classpath-avian.cpp: Avian_java_lang_System_arraycopy"]}
{"id": "C69", "title": "An array list is a list", "statement": "Whatever sequence of additions, insertions, accesses, replacements, removals, searches, clear and ensureCapacity is applied to an ArrayList of any capacity, every result is that of a list of elements (null included); an index outside the list is refused without effect. A list iterator started anywhere moves between the elements, removes exactly the element it delivered last, and refuses to remove if there is none.", "quantifier": "all element types and equalities, all capacities, all sequences of operations of the list and of the iterator, all indices", "why_tests_cant": "Elements move when the array grows, shrinks or is shifted; which of these happens depends on the history.", "anchors": ["classpath/java/util/ArrayList.java: grow, shrink, resize, add, addAll, get, set, remove, indexOf, lastIndexOf, clear", "classpath/java/util/AbstractList.java: addAll", "classpath/java/util/Collections.java: ArrayListIterator"]}
{"id": "C70", "title": "An array deque is a list open at both ends", "statement": "Whatever sequence of additions and removals at both ends, looks at both ends, addAll, contains, size, clear, toArray and iterations is applied to an ArrayDeque, no operation fails and every result is that of a list. Removal by an iterator takes out exactly the element delivered last, and the iteration continues behind it; a descending iteration delivers the elements from the last to the first.", "quantifier": "all capacities, all elements (null included), all sequences of operations, all places of the first element in the ring", "why_tests_cant": "Where the elements are in the ring depends on the history, and each operation has other code for each case.", "anchors": ["classpath/java/util/ArrayDeque.java: copyInto, ensureCapacity, offerFirst, offerLast, pollFirst, pollLast, peekFirst, peekLast, addAll, toArray, contains, removeFirstOccurrence, ArrayDequeIterator"]}
{"id": "C71", "title": "A bit set is a set of numbers", "statement": "Whatever sequence of set, clear and flip (of single bits and of ranges), and, andNot, or, xor, get and isEmpty is applied to a BitSet, every answer is that of the set of numbers, negative indices are refused without effect, and get tells the set in the end. intersects tells whether two sets have a common number, nextSetBit the next number, cardinality how many there are.", "quantifier": "all indices and ranges (over any number of words), all other sets, all sequences of operations", "why_tests_cant": "Masks are made by shifts whose count is taken modulo 64; a range may begin and end in any place of any word.", "anchors": ["classpath/java/util/BitSet.java: getTrueMask, enlarge, and, andNot, or, xor, get, flip, set, clear, isEmpty, intersects, nextSetBit, nextClearBit, cardinality, length, MaskInfoIterator"]}
{"id": "C72", "title": "Sorting sorts", "statement": "Arrays.sort and Collections.sort end without failure and leave the same elements, whatever a comparator says (as long as it says of no element that it is smaller than itself); if the comparator is a linear preorder the elements are then in ascending order, and elements it does not tell apart stay in their order. reverseOrder gives the reversed order.", "quantifier": "all arrays of any length, all elements, all comparators", "why_tests_cant": "Which of three algorithms moves which elements depends on the length, on the order of the elements and on how unevenly they are divided; an index that leaves the array shows only for some orders.", "anchors": ["classpath/java/util/Arrays.java: sort, introSort, heapSort, siftDown, insertionSort", "classpath/java/util/Collections.java: sort, introSort, heapSort, siftDown, insertionSort, ReverseComparator"]}
{"id": "C73", "title": "Searching finds, reversing reverses", "statement": "A binary search in a sorted part of an array, or in a sorted list, finds an element equal to the sought one if there is one and tells otherwise where it would have to be inserted; ranges outside the array are refused. Collections.reverse reverses, and shuffle only changes the order.", "quantifier": "all sorted arrays and lists, all ranges, all keys and linear preorders, all sequences of random numbers", "why_tests_cant": "The course of a search depends on all elements it meets; off-by-one errors show only for some lengths and keys.", "anchors": ["classpath/java/util/Arrays.java: binarySearch, checkRange", "classpath/java/util/Collections.java: binarySearch, reverse, shuffle"]}
{"id": "C74", "title": "Characters outside the basic plane are handled as one", "statement": "toChars gives the UTF-16 form of a code point, isSurrogatePair recognises exactly these forms and toCodePoint gives the code point back; codePointAt gives the code point that begins at an offset and codePointCount counts the code points of a part of a text. forDigit and digit are inverse, and changing the case changes exactly the 26 letters.", "quantifier": "all code points, all sequences of chars (well-formed or not), all offsets, all digits and bases", "why_tests_cant": "There are more than a million code points and the results depend on what stands next to an offset and on where the text ends.", "anchors": ["classpath/java/lang/Character.java: toChars, toCodePoint, isSurrogatePair, codePointAt, codePointCount, digit, forDigit, toLowerCase, toUpperCase"]}
{"id": "C75", "title": "Output streams keep every byte in order", "statement": "A ByteArrayOutputStream holds exactly the low bytes written since it was created or reset, in the order of the calls, whatever mixture of single bytes and parts of arrays; size, toByteArray and writeTo agree with that. A BufferedOutputStream passes on a prefix of what was written to it, and everything after flush; a part outside the array is refused and adds nothing.", "quantifier": "all sequences of calls with all arguments, all buffer sizes of at least 1", "why_tests_cant": "The bytes are kept in cells and buffers of different ages; which of them is used depends on the whole history of calls and their lengths.", "anchors": ["classpath/java/io/ByteArrayOutputStream.java: write, flushBuffer, chainCell, toByteArray, writeTo, reset", "classpath/java/io/BufferedOutputStream.java: write, drain, flush", "classpath/java/io/OutputStream.java: write"]}
{"id": "C76", "title": "Input streams deliver every element in order", "statement": "A BufferedInputStream or BufferedReader delivers the elements of the stream behind it, each once and in order, whatever mixture of single reads, reads of arrays and skips is used and however the stream behind divides its elements; the end is reported exactly when nothing is left. The same holds for a PushbackReader (pushed back elements first), ByteArrayInputStream and StringReader; readLine gives the text before the next line end.", "quantifier": "all contents, all ways the stream behind divides them, all buffer sizes of at least 1, all sequences of calls", "why_tests_cant": "How the stream behind divides its elements depends on the machine and on time; the division meets the buffer size and the requested lengths in unboundedly many ways.", "anchors": ["classpath/java/io/BufferedInputStream.java: read, fill, available", "classpath/java/io/InputStream.java: skip, read", "classpath/java/io/BufferedReader.java: read, readLine", "classpath/java/io/PushbackReader.java: read, unread", "classpath/java/io/ByteArrayInputStream.java: read", "classpath/java/io/StringReader.java: read"]}
{"id": "C77", "title": "What is written to a data stream is read back", "statement": "Booleans, bytes, shorts, chars, ints, longs and strings written to a DataOutputStream appear as the big-endian bytes the interface prescribes and are read back unchanged by a DataInputStream, in any mixture, with any buffering on both sides; reading beyond the end throws EOFException. readFully fills the requested part exactly, skipBytes leaves out as many bytes as it says, readLine gives the bytes before the next line feed.", "quantifier": "all lists of values, all buffer sizes of at least 1, all ways the bytes are divided on the way", "why_tests_cant": "The values, their mixture and the division of the bytes are unbounded; a mistake in one of the 64 bits of a long concerns few of the values.", "anchors": ["classpath/java/io/DataOutputStream.java: write*", "classpath/java/io/DataInputStream.java: read*, skipBytes"]}
{"id": "C78", "title": "A minor collection meets every remembered word of the old generation", "statement": "When a store has marked a word of the old generation, the next minor collection takes that word up, whatever else is marked and however the marks lie in the pages of the generation, although it looks only at parts of the generation in which a mark is recorded. Words that still refer to the young generation afterwards, including words of objects the collection itself moved into the old generation, are marked again for the next collection; no word is taken up that is not marked. Threads that mark words at the same time lose no mark of each other, and the maps of the three levels do not overlap in memory.", "quantifier": "all sizes of the generation, all sets of marked words, all behaviours of the visits (objects moved, words marked on the way), all interleavings of all numbers of marking threads", "why_tests_cant": "The marks are kept in three levels which are cleared and set again while the collection runs and adds to them; a mark lost in one level shows only if a word of a particular page is the last reference to an object.", "anchors": ["src/heap/heap.cpp: Segment::Map, Segment::Map::Iterator, markBitAtomic, updateHeapMap, collect, collect2, MyHeap::mark"]}
{"id": "C79", "title": "A collection has room for every object it keeps", "statement": "Whatever objects the threads allocate, whatever hash codes are asked for and however often, and whichever objects the collections meet in whichever order, the space reserved for the new young generation, the old generation and the new old generation is enough for every object that is moved there, including the additional word of an object whose hash code was asked for. The process ends for want of memory only if the system refuses the same request repeatedly. An object is in the old generation exactly if at least five collections have kept it. A new generation has a size between the smallest possible and the desired one; if the limit leaves room, it is within the limit or has the smallest size, and otherwise as large as the limit permits.", "quantifier": "all histories of allocations by any number of threads, hash requests and collections, all orders in which objects are met, all outcomes of requests for memory", "why_tests_cant": "The reserved space is computed from five counters that are updated at different times; running over the end of a generation needs a history in which the counters and the objects disagree by one word.", "anchors": ["src/heap/heap.cpp: Segment::Segment, minimumNextGen1Capacity, minimumNextGen2Capacity, initNextGen1, initNextGen2, oversizedGen2, copyTo, copy2, collect, MyHeap::pad", "src/machine.cpp: footprint, postCollect, HeapClient::copiedSizeInWords", "src/avian/machine.h: allocateSmall, markHashTaken, objectHash"]}
{"id": "C80", "title": "New objects are empty and do not overlap", "statement": "An object that a thread allocates consists of zeros only and shares no word with any other object allocated since the last collection, whose contents the allocation leaves alone; it lies inside the memory of the thread. This holds whatever the memory contained before, whatever was stored into earlier objects, and whichever of the ways of getting memory is taken: the thread's own memory, a further chunk, memory of its own for a large object, the reserve for exceptions, before and after collections and failed allocations. When the reserve was promised, the allocation succeeds without a collection.", "quantifier": "all histories of allocations, stores, promises and collections, all contents of fresh memory, all decisions about chunks and limits", "why_tests_cant": "Memory is cleared at different times in different ways; a word that is not cleared shows only if the earlier object that used it left something there.", "anchors": ["src/avian/machine.h: ensure, allocateSmall, allocate", "src/machine.cpp: allocate2, allocate3, postCollect, Thread::Thread, Thread::init"]}
{"id": "C81", "title": "Persistent sorted sets behave like sorted lists", "statement": "A persistent set built by any sequence of additions and removals contains, in the order of its comparator, exactly one element for every value added and not removed since, and reports their number; adding an equal value keeps the old element or, when asked to replace, exchanges it. Looking up a value finds the equal element, or says that there is none. The least and the greatest element are found, and stepping to the next and the previous element visits all elements in order. No path in the tree is longer than twice the logarithm of the number of elements plus one.", "quantifier": "all comparators that are total orders, all sequences of operations on sets of any size, all values", "why_tests_cant": "Rebalancing after a removal has several mirrored cases with conditions on colours of nephews; the shapes that take each case are rare in tests, and a wrong colour is seen only operations later.", "anchors": ["classpath/avian/PersistentSet.java: find, add, remove, Path.add, Path.remove, Path.replaceWith, first, last, successor, predecessor, minimum, maximum"]}
{"id": "C82", "title": "Sorted sets keep their elements in order, also under iterators that remove", "statement": "A TreeSet contains exactly the values added and not removed since; add and remove say whether they changed it; first and last give the least and the greatest element or throw NoSuchElementException when there is none. An iterator, in either direction, delivers every element once in order, and its remove takes out the element last delivered, and no other, and goes on with the element that follows.", "quantifier": "all comparators that are total orders, all sequences of calls on the set and of hasNext, next and remove on the iterator", "why_tests_cant": "The iterator must find its place again in a rebuilt tree after each removal; which places are affected depends on the shape of the tree.", "anchors": ["classpath/java/util/TreeSet.java: add, addAndReplace, remove, contains, first, last, iterator, descendingIterator, MyIterator"]}
{"id": "C83", "title": "Sorted maps are functions with ordered keys", "statement": "A TreeMap after any sequence of put, remove and clear maps every key to the value last put for an equal key and not removed since; put and remove return the value that was there before. Its size is the number of keys; its keys are delivered in order; firstKey, lastKey and the entries at the ends are those of the least and the greatest key.", "quantifier": "all comparators that are total orders on keys, all sequences of operations, all keys and values, null values included", "why_tests_cant": "Entries are found through a set of entries compared by key only; a mistake in what is replaced shows with equal but different keys and with null values.", "anchors": ["classpath/java/util/TreeMap.java: get, put, remove, containsKey, firstKey, lastKey, firstEntry, lastEntry, keySet, KeySet.add, KeySet.remove"]}
{"id": "C84", "title": "Sets made from a persistent set leave it unchanged", "statement": "A program may keep any number of persistent sets and make new ones from any of them, by adding or removing, in any order. Each set, once made, is read with the same elements and the same size for ever after, whatever is made later from it or from the others; and each new set has the elements of the one it was made from with the one change. Though the sets share nodes, an operation writes only to nodes it has itself created.", "quantifier": "all comparators that are total orders, all histories of additions and removals on any earlier set, sets of any size", "why_tests_cant": "Sharing is damaged only when rebalancing writes to a node that was not copied; whether it does depends on the shape, and the damage shows in another set, later.", "anchors": ["classpath/avian/PersistentSet.java: find, add, remove, leftRotate, rightRotate, minimum, Path.replaceWith, Node"]}
{"id": "C85", "title": "Compiled integer arithmetic computes Java's results", "statement": "The machine code made for an integer operation of a Java method (add, subtract, multiply, divide, remainder, and, or, xor, the three shifts, negation, absolute value; on ints and on longs; with two registers or with a register and a constant of any size) puts into the destination register exactly the value Java prescribes, changes no other register but those it is known to use, and neither memory nor floating point registers; a division by zero raises the processor's exception. Missing, because false: the least integer divided by -1, and shifts by constants outside of -128..127.", "quantifier": "all operations, all sixteen registers for each operand, all 64-bit register contents, all constants, all addresses of the code", "why_tests_cant": "The bytes depend on the numbers of both registers and on the size of the constant, the results on the values; a test runs some of the combinations that the register allocator happens to make.", "anchors": ["src/codegen/target/x86/operations.cpp: addRR, addCR, subtractRR, subtractCR, multiplyRR, multiplyCR, divideRR, remainderRR, andRR, andCR, orRR, orCR, xorRR, xorCR, doShift, shiftLeftRR, shiftRightRR, unsignedShiftRightRR, negateRR, absoluteRR", "src/codegen/target/x86/encode.cpp: maybeRex, modrm, moveCR2"]}
{"id": "C86", "title": "Compiled moves move the value they are meant to move", "statement": "The machine code that moves a value between registers, memory, the stack and constants moves exactly that value: loads read the bytes at base + index * scale + offset, whatever the registers and the offset are, and extend bytes, shorts and ints with their sign and chars with zeros; stores change exactly the bytes of the operand; constants of any size arrive whole; push and pop move the stack pointer by one word; two registers are exchanged; floating point registers are loaded, stored and copied. No other register and no other byte changes, except a named temporary. Missing, because false: a float copied between one of xmm0-xmm7 and one of xmm8-xmm15.", "quantifier": "all registers, all addresses (base, index other than rsp, scales 1, 2, 4, 8, all 32-bit offsets), all sizes, all contents of registers and memory, all constants", "why_tests_cant": "There are some hundred thousand combinations of registers and addressing forms with special encodings for some (rsp, rbp, r12, r13, sil); a program shows only those that the register allocator picks.", "anchors": ["src/codegen/target/x86/operations.cpp: moveRR, moveMR, moveRM, moveCR, moveCM, moveAR, moveZRR, moveZMR, moveZCR, swapRR, pushR, popR", "src/codegen/target/x86/encode.cpp: maybeRex, modrm, sib, modrmSib, modrmSibImm, sseMoveRR, sseMoveCR, sseMoveMR, sseMoveRM, moveCR2"]}
{"id": "C87", "title": "Compiled comparisons of integers go where Java goes", "statement": "The machine code for a comparison of two ints or longs with a conditional jump goes to the target exactly if the signed values are in the relation (equal, not equal, less, greater, less or equal, greater or equal), and otherwise on to the code behind it, whether the operands are registers, constants or in memory, at whatever address the code is put. No register (except a named temporary, and the upper half of an int that is compared with memory) and no byte of memory changes. A branch can be placed exactly where the target is within 32 bits of it; in a program with any number of jumps and calls each of them has in the end the distance to its own target.", "quantifier": "all six relations, both sizes, all registers, addresses, constants and values; all programs of code and jumps; all places and targets", "why_tests_cant": "Signed comparisons differ from unsigned ones, and from subtraction, at values near the limits only; the distances depend on where all pieces of code end up.", "anchors": ["src/codegen/target/x86/operations.cpp: branchRR, branchCR, branchRM, branchCM, compareRR, compareCR, compareRM, compareCM", "src/codegen/target/x86/encode.cpp: conditional, unconditional, branch", "src/codegen/target/x86/fixup.cpp: resolveOffset, OffsetTask::run", "src/codegen/target/x86/assembler.cpp: write"]}
{"id": "C88", "title": "Comparisons of longs, floats and doubles branch where Java branches", "statement": "A comparison of two longs, floats or doubles and the branch on its result, which the compiler turns into one comparison and conditional jumps, goes where the two instructions go one after the other, also if a value is not a number: the dcmpg forms count it as greater, the dcmpl forms as less. Two constants are compared by the compiler with the same result, and a comparison without a branch calls a function that has the result of the instruction. Missing, because false: iflt and ifle after fcmpg and dcmpg jump if a value is not a number; two float registers of which one is below xmm8 and the other is not are not the ones compared; lcmp without a branch compares unsigned numbers; and where the processor has no such instructions, ifgt after fcmpl and dcmpl jumps if a value is not a number.", "quantifier": "all six branches, both treatments of values that are no numbers, floats and doubles, all registers and values, any way in which values compare, all places and targets", "why_tests_cant": "A value that is not a number takes the wrong branch only in some of the twelve combinations, and registers above xmm7 are used only by code with many live values.", "anchors": ["src/compile.cpp: toCompilerJumpOp, toCompilerFloatJumpOp, integerBranch, floatBranch, getThunk", "src/codegen/compiler/event.cpp: shouldJump, thunkBranch, appendBranch", "src/codegen/target/x86/operations.cpp: compareFloatRR, branchRR", "src/codegen/target/x86/encode.cpp: branchFloat", "src/codegen/runtime.cpp: compareDoublesG, compareDoublesL, compareFloatsG, compareFloatsL, compareLongs"]}
{"id": "C89", "title": "Calls, returns and frames of compiled code, and changing the target of a call", "statement": "A compiled call goes to its target, given as an address near or far, in a register or in memory, with the address behind the call on the stack; a jump goes there without that. A method that allocates a frame, does anything that leaves the stack pointer and the return address alone, pops the frame and returns, comes back behind the call with the stack pointer of before (and the frame pointer of the caller, if frame pointers are used); frames keep the stack aligned to sixteen bytes. The stack overflow check goes to the handler exactly if the stack pointer is not above the limit. A tail call finds the return address where it is expected. Changing the target of a call that is already there gives the very code of a call of the new target, and changes no other byte; a target out of reach is refused.", "quantifier": "all targets, places, registers, memory operands, frame sizes, bodies, with and without frame pointers and tail calls", "why_tests_cant": "What a call does to the stack shows only when something walks or unwinds it, and targets are changed while other threads may be executing the code.", "anchors": ["src/codegen/target/x86/operations.cpp: callC, jumpC, callR, jumpR, callM, jumpM, longCallC, longJumpC, return_, trap", "src/codegen/target/x86/assembler.cpp: allocateFrame, popFrame, popFrameForTailCall, popFrameAndPopArgumentsAndReturn, popFrameAndUpdateStackAndReturn, checkStackOverflow, alignFrameSize, updateCall, matchCall"]}
{"id": "C90", "title": "Compiled code is laid out as it was written, with padding where it was asked for and jumps that lead to their labels", "statement": "When the assembler writes a method to memory, its blocks lie one behind the other in the order in which they were resolved, whatever order they were compiled in: without overlap and without anything in between; in each of them are the instructions in order, and padding where it was asked for. Labels have the address of what follows them; each jump and call has the distance from behind it to its target, forward or backward, in the block or in another one. Where alignment was asked for, the distance of the call lies at an aligned address and less than one unit is wasted; padding has no effect when it is executed. Nothing behind the code is written. Code whose jumps do not reach their targets is refused, and only such code.", "quantifier": "all programs of blocks of instructions, jumps, alignments and labels; all orders of the blocks; all addresses of the code; all contents of memory", "why_tests_cant": "Distances depend on how much padding there is in all blocks in between, which again depends on where they start; a test sees the layouts of the methods it compiles.", "anchors": ["src/codegen/target/x86/padding.cpp: padding", "src/codegen/target/x86/block.cpp: MyBlock::resolve", "src/codegen/target/x86/fixup.cpp: OffsetPromise::value, resolveOffset, OffsetTask::run", "src/codegen/target/x86/assembler.cpp: write, offset, endBlock", "src/codegen/target/x86/operations.cpp: alignedCallC, alignedLongCallC, alignedJumpC", "src/codegen/compiler.cpp: resolve, write"]}
{"id": "C91", "title": "Walking the stack of compiled methods finds every frame", "statement": "From the address of the return address of the running method, the walk of the stack (for stack traces, exceptions and the collector) finds each compiled method on the stack, in order, with the place where it will go on, up to where the first of them was called from: with and without frame pointers, and with tail calls, by which the return address has been moved. The method that is running can be interrupted at any instruction, in the check for stack overflow, while its frame is being allocated, in its body, and while the frame is popped: its return address is found with the stack pointer of then, if it ends with a return.", "quantifier": "all stacks of frames of any sizes, all code of methods that starts with the allocation of a frame, all instructions at which it is interrupted, all numbers of arguments", "why_tests_cant": "The stack of another thread is looked at wherever it happens to be, and the layout depends on the sizes of all frames and on calls that have long been replaced by others.", "anchors": ["src/codegen/target/x86/assembler.cpp: nextFrame, argumentFootprint, read4, adjustFrame, checkStackOverflow, allocateFrame", "src/compile.cpp: nextFrame, alignedFrameSize, MyStackWalker::next, MyStackWalker::valid"]}
{"id": "C92", "title": "Compiled floating point arithmetic computes what was asked for", "statement": "Compiled addition, subtraction, multiplication, division, square root, the conversions between float and double and those from int and long leave in the destination register the result that the processor's arithmetic gives for the two operands, in the right order and precision, and change no other register and no memory; the operands can be any registers or memory. The negation of a float changes its sign bit only and the absolute value clears it.", "quantifier": "all sixteen registers, all memory operands (bases, indices, scales, displacements), all states, any arithmetic of the processor", "why_tests_cant": "A wrong prefix shows only with particular pairs of registers, which depend on the register pressure of the compiled method.", "anchors": ["src/codegen/target/x86/operations.cpp: floatAddRR, floatAddMR, floatSubtractRR, floatMultiplyRR, floatDivideRR, floatSqrtRR, float2FloatRR, int2FloatRR, floatNegateRR, floatAbsoluteRR", "src/codegen/target/x86/encode.cpp: floatRegOp, floatMemOp"]}
{"id": "C93", "title": "Concurrent hash maps are linearizable", "statement": "Whatever several threads do at the same time with a ConcurrentHashMap, each get, put, putIfAbsent, replace, remove, size, clear and iteration takes effect at one moment between its call and its return, and the results are those of an ordinary map on which the operations are done one after the other in the order of these moments. An iteration gives every entry that was in the map at one moment once.", "quantifier": "all executions of any number of threads, all keys and values, all conditions, all maps reachable", "why_tests_cant": "Which compare and swap fails depends on the schedule, and lost keys need hash codes that are equal or far apart.", "anchors": ["classpath/java/util/concurrent/ConcurrentHashMap.java: find, put, remove, putIfAbsent, replace, size, clear, MyIterator, Node.compareTo"]}
{"id": "C94", "title": "The collector finds the references in frames of compiled methods", "statement": "When a compiled method makes a call, the slots of its frame that the collector visits are exactly those that hold references whichever way control came to the call: through branches, joins, loops and exception handlers. The analysis of every method stops, and the maps it finds are looked up again from the return address of the call without mixing calls.", "quantifier": "all methods (logs of marks, clears, branches, instructions, calls and handlers), all numbers of slots, all ways of control through the method, all sets of calls", "why_tests_cant": "Which slots are stale depends on the way control came; a missed reference is collected only when a collection happens at that very call, and there are unboundedly many ways through a method with loops.", "anchors": ["src/compile.cpp: calculateFrameMaps, calculateTryCatchRoots, finish, simpleFrameMapTableSize, copyFrameMap, makeSimpleFrameMapTable, findFrameMapInSimpleTable, visitStackAndLocals"]}
{"id": "C95", "title": "Compiled code comes in the order of the bytecode", "statement": "Whatever the order in which the branches, switches and exception handlers of a method were translated, the machine code of every part of every instruction is laid out exactly once, in the order of the instructions, so that control that falls through an instruction reaches the next one.", "quantifier": "all methods and all orders in which their instructions are translated", "why_tests_cant": "The order depends on which branch is translated first and on every nesting of switches and handlers; a part laid out twice, nowhere, or in the wrong place shows only when control falls through it.", "anchors": ["src/codegen/compiler.cpp: compile, resolve", "src/codegen/compiler/ir.cpp: LogicalInstruction::next"]}
{"id": "C96", "title": "Exceptions in compiled code reach the handler that the bytecode names", "statement": "An exception raised in the machine code of a bytecode instruction goes to the handler of the first entry of the method's exception table that guards the instruction and takes the exception, and to the caller if there is none; the line reported for the instruction is that of the last entry of the line table at or in front of it.", "quantifier": "all exception and line tables, all methods and layouts of their code (with or without subroutines), all positions in the code", "why_tests_cant": "Tables overlap, nest, and have ends in code that nothing reaches; which entry is found depends on how instructions were laid out, and on positions at the very edge of their code.", "anchors": ["src/compile.cpp: translateExceptionHandlerTable, translateLineNumberTable, resolveIpForwards, resolveIpBackwards, findExceptionHandler", "src/avian/machine.h: exceptionMatch", "src/process.cpp: findLineNumber"]}
{"id": "C97", "title": "A regular expression matches exactly the texts it describes", "statement": "Matcher.matches answers true exactly if the expression, as java.util.regex.Pattern specifies it (characters, classes, ., ^, $, alternatives, repetitions, groups, lookahead), matches the whole text; Matcher.find answers true exactly if it matches some part of the text from the given position on.", "quantifier": "all expressions, nested to any depth, and all texts", "why_tests_cant": "The machine runs many threads at once in a linked queue with removal of duplicates; whether a thread is lost shows only for particular combinations of loops, alternatives and texts, of which there are infinitely many.", "anchors": ["classpath/java/util/regex/Compiler.java: Repeat.writeCode, Group.writeCode, Lookaround.writeCode, Group0, toVM", "classpath/java/util/regex/PikeVM.java: matches, ThreadQueue", "classpath/java/util/regex/RegexMatcher.java: matches, find"]}
{"id": "C98", "title": "A walk over the heap tells each object and each reference once", "statement": "Walking the heap from some objects ends for every finite heap, with any cycles: the visitor is told each object that can be reached exactly once as a new one, and each reference of each such object exactly once, with the numbers that the visitor gave. A heap dump can be read back: it has each object that can be reached with its size, each class name, each reference and each root, under numbers that tell the objects apart.", "quantifier": "all finite heaps and roots, all numbers that a visitor answers (depending on everything it was told), all sizes and names", "why_tests_cant": "Heaps are cyclic and of any size; the table of objects grows while it is used, and the stack of the walk goes over blocks; a lost or repeated reference shows in a boot image or a dump only much later.", "anchors": ["src/heapwalk.cpp: Walker, walk, visitAllRoots, find, add, push, pop", "src/heapdump.cpp: dumpHeap", "src/avian/heapwalk.h: HeapVisitor"]}
{"id": "C99", "title": "The heap in a boot image is the heap it was made from", "statement": "After a boot image is taken into use at any aligned address, each object that could be reached from the roots has a place of its own in it: each of its references leads to the place of the object it led to (null to null) and keeps its mark bits, and all its other words are as they were copied. Static tables, system class loaders and addenda have the header and the cleared mask of a fixed object around them. The image can be made whenever the objects fit.", "quantifier": "all finite heaps with any sharing and cycles, all roots, all contents of objects and of the memory the image is made in, all aligned addresses", "why_tests_cant": "An image has hundreds of thousands of objects and is made and used by different programs; a reference that is lost, written twice, or coded with a wrong mark shows only when the object is used, or when the collector scans it.", "anchors": ["src/tools/bootimage-generator/main.cpp: makeHeapImage, Visitor", "src/compile.cpp: fixupHeap", "src/bootimage-template.cpp: BootMask, BootShift, heapMapSize", "src/avian/target.h: targetMarkBit"]}
{"id": "C100", "title": "Splitting and replacing cut at the matches", "statement": "Splitting by a pattern gives the pieces of the text between the matches, found from left to right: joined with the separator they give the text, none contains it, there are at most as many as a positive limit says, and for the limit zero the empty ones at the end are left out. replaceAll and replaceFirst put the replacement in place of all matches, or the first. A pattern without operators, which is handled without the matching machine, matches the same texts as it would with it.", "quantifier": "all texts, all plain patterns and all expressions that compile to one, all replacements, all limits; for other patterns, all sequences of matches", "why_tests_cant": "The pieces depend on overlapping and adjacent occurrences, on what is left at the end and on the limit; examples with one or two separators say little about the loop in general.", "anchors": ["classpath/java/util/regex/TrivialPattern.java: split, indexOf", "classpath/java/util/regex/TrivialMatcher.java: matches, find", "classpath/java/util/regex/Matcher.java: replace, replaceAll, replaceFirst", "classpath/java/util/regex/Pattern.java: split", "classpath/java/util/regex/RegexMatcher.java: find", "classpath/java/util/regex/PikeVM.java: isPlainString"]}
{"id": "C101", "title": "Property files are read as they are written", "statement": "Loading a property file gives the entries it was written for: those of a file written according to the specification of java.util.Properties.store, with its escapes for separators, blanks, line ends and characters outside ASCII, and those stored by this library.", "quantifier": "all lists of entries, all keys and values of any characters; the exceptions are described and each is shown to fail", "why_tests_cant": "Each character is read depending on what was read before it (escape, comment, key, separator, value); a file that fails needs a certain character at a certain place.", "anchors": ["classpath/java/util/Properties.java: load, store, Parser.parse, Parser.append, Parser.finishLine, Parser.readUtf16"]}
{"id": "C102", "title": "References given to native code lead to their objects until they are deleted", "statement": "A local reference that JNI gives to native code leads to its object until it is deleted, its local frame is popped or the native method returns, whatever other references are made and deleted in between; popping a frame and returning give the object of the given reference, and after the return exactly the references from before the call are left. A global reference leads to its object until it is deleted as often as it was given, a weak one until its object is gone.", "quantifier": "all sequences of making and deleting references, pushing and popping frames, calling and returning, for all objects and all addresses the allocator may give; collections at any time for global references", "why_tests_cant": "References to the same object share one counted cell and frames are ended by looking for a remembered cell, so that an error needs a certain order of sharing, deletion and end of frames.", "anchors": ["src/avian/machine.h: Reference, acquire, release, dispose", "src/compile.cpp: makeLocalReference, disposeLocalReference, pushLocalFrame, popLocalFrame, invokeNativeSlow", "src/interpret.cpp: pushReference, makeLocalReference, disposeLocalReference, pushLocalFrame, popLocalFrame", "src/jnienv.cpp: NewLocalRef, DeleteLocalRef, PushLocalFrame, PopLocalFrame, newGlobalRef, DeleteGlobalRef, IsSameObject"]}
{"id": "C103", "title": "Native functions get the arguments of Java and Java methods those of native code", "statement": "When a Java method is native, its C function finds the environment, the class or receiver and every argument of the Java call, of the right type and in order, where the platform's calling convention puts them, however many there are; Java gets the value the C function returns. When native code or reflection calls a Java method, the method gets the receiver and the arguments given, and exactly the objects among them are known to the collector.", "quantifier": "all lists of parameter types, all values of arguments, any junk in unused parts of registers and memory; results of all types with arbitrary other bits in the registers", "why_tests_cant": "Where an argument is depends on the kinds of all arguments in front of it; unit tests try a few signatures, and bits that should not matter are often zero by chance.", "anchors": ["src/compile.cpp: invokeNativeSlow, ArgumentList", "src/avian/x86.h: dynamicCall", "src/x86_64.S: vmNativeCall", "src/machine.cpp: fieldType"]}
{"id": "C104", "title": "Byte buffers", "statement": "What is put into a byte buffer is got back: values of any kinds put one after the other are, after flip, got in their order, written with the highest byte first and within the buffer only; slices, duplicates and read-only views show the same bytes, nothing is written through a read-only one, compact moves the rest to the begin, compareTo and equals compare what is left, and indices outside of the buffer are refused.", "quantifier": "all buffers on arrays and on reserved memory, all positions, limits, indices, values and arrays; the exceptions are described and shown", "why_tests_cant": "The checks fail for indices near the ends of int and below zero, where a direct buffer touches memory that is not its own; tests see nothing of that, nor of a memcpy between overlapping places.", "anchors": ["classpath/java/nio/Buffer.java", "classpath/java/nio/ByteBuffer.java: put*, get*, compact, compareTo, equals, checkPut, checkGet", "classpath/java/nio/ArrayByteBuffer.java", "classpath/java/nio/DirectByteBuffer.java", "classpath/java/nio/FixedArrayByteBuffer.java", "src/builtin.cpp: Avian_sun_misc_Unsafe_copyMemory"]}
{"id": "C105", "title": "Checksums are those of the standard", "statement": "The value of a CRC32 object is the checksum of the standard: the remainder of the message, with its first 32 bits complemented, times x^32 divided by the generator, in the order and with the complement the standard asks for. It does not depend on how the message is divided into updates, and changes within 32 bits following one another always change it.", "quantifier": "all messages of any length, all divisions into parts, all int arguments, all changes within 32 consecutive bits", "why_tests_cant": "The claim is about all messages and about division of polynomials; test vectors show a few values, none shows that every burst of errors is noticed.", "anchors": ["classpath/java/util/zip/CRC32.java: update, getValue, reflect, table"]}
{"id": "C106", "title": "String tokenizers", "statement": "A StringTokenizer gives the tokens of its string, the longest parts without delimiters, in their order and then NoSuchElementException; countTokens is the number of tokens to come and hasMoreTokens says whether there are any, at any moment; with delimiters as tokens each delimiter is one.", "quantifier": "all strings, all sets of delimiters, after any number of tokens; the exceptions are described and shown", "why_tests_cant": "The state is a position moved by two methods and read by a third; that they agree is a claim about all strings and all moments.", "anchors": ["classpath/java/util/StringTokenizer.java: countTokens, hasMoreTokens, nextToken"]}
{"id": "C107", "title": "Random numbers", "statement": "Random follows the documented linear congruential generator: every seed of 48 bits follows from every other (full period). nextInt(limit) ends for every seed, is between 0 and the limit, can be each such number, and each has the same share of the numbers taken; a limit that is not positive is refused. nextLong, nextBytes and the numerator of nextDouble are the documented parts of successive numbers.", "quantifier": "all seeds, all limits, all lengths", "why_tests_cant": "The period is 2^48 numbers long and the loop of nextInt is left only by what the generator gives; tests see a few seeds.", "anchors": ["classpath/java/util/Random.java: setSeed, next, nextInt, nextBytes, nextLong, nextDouble"]}
{"id": "C108", "title": "Dates are those of the Gregorian calendar", "statement": "A Calendar set to a time has the fields of the date in the Gregorian calendar, and set to a date it has the time of that date; each determines the other. SimpleDateFormat writes the date as yyyy-MM-ddTHH:mm:ss and reads it back from any place of a text.", "quantifier": "all times and all dates (proved for 1970 to 2099; outside, the code is shown to be wrong)", "why_tests_cant": "A date is computed from a count of days by division and a loop over months; leap years and limits of months are rare days.", "anchors": ["classpath/java/util/Calendar.java: MyCalendar.parseIntoFields, getTime, isLeapYear", "classpath/java/text/SimpleDateFormat.java: format, parse, pad, parseField, expectPrefix"]}
{"id": "C109", "title": "Units of time", "statement": "TimeUnit converts a duration to the whole units it holds, towards zero, and to the limit of long if there are more; to a smaller unit and back gives the same; sleep, timedWait and timedJoin wait for exactly the given time.", "quantifier": "all 49 pairs of units, all durations (conversions with a result of 2^64 and more are shown to be wrong)", "why_tests_cant": "There are 49 conversions with their own constants, and overflow is noticed from the wrapped product only.", "anchors": ["classpath/java/util/concurrent/TimeUnit.java: toNanos ... toDays, convert, excessNanos, scale, sleep"]}
{"id": "C110", "title": "Sets of enum constants", "statement": "An EnumSet, made empty, full or from constants, is a set of constants: add, remove, contains, size, copyOf, complementOf and its iterators, also with remove, answer as the set does, and iterators go through the constants in their order.", "quantifier": "all enum types with at most 64 constants, all sequences of operations (members, copies and complements for any number of constants)", "why_tests_cant": "The set is an array of words with its own search for the next bit; sequences of operations with an iterator in between are endless.", "anchors": ["classpath/java/util/EnumSet.java: add, remove, contains, size, allOf, noneOf, of, complementOf, copyOf, EnumSetIterator", "classpath/java/util/BitSet.java"]}
{"id": "C111", "title": "Atomic numbers are linearizable", "statement": "Whatever threads do with an AtomicInteger or AtomicLong at once, each operation takes effect once, between its call and its return, and returns the result of that effect, and the effects are those of the same operations one after the other: nothing added is lost, no two calls of getAndIncrement return the same number before it wraps, and a thread tries again only if another thread's operation took effect meanwhile.", "quantifier": "all numbers of threads, all sequences of operations, all interleavings of their steps, both widths", "why_tests_cant": "Interleavings of reads and compare-and-swaps are too many to run, and lost updates are rare.", "anchors": ["classpath/java/util/concurrent/atomic/AtomicInteger.java: get, set, lazySet, compareAndSet, getAndSet, getAndAdd, addAndGet, getAndIncrement", "classpath/java/util/concurrent/atomic/AtomicLong.java", "src/builtin.cpp: Avian_sun_misc_Unsafe_compareAndSwapInt"]}
{"id": "C112", "title": "Messages with parameters", "statement": "MessageFormat.format gives the pattern with its parameters replaced: each pattern is a sequence of characters, doubled ticks, quoted texts and numbers in braces, followed by nothing or by an unfinished or wrong piece, and the message is what these mean, one after the other; every text is the message of a pattern, whatever the arguments.", "quantifier": "all patterns, all arguments", "why_tests_cant": "Patterns with ticks and braces in any order are endless, and errors depend on the order of the pieces.", "anchors": ["classpath/java/text/MessageFormat.java: format"]}
{"id": "C113", "title": "URLs have the parts they are written with", "statement": "A URL of a known protocol made of a protocol, a host without colon or slash, a port and a file is read with just these parts, its query being what follows the last question mark; writing a URL with such parts and reading it gives it back; and any accepted text is written back the same, but for the text of its port. The URL of an archive's entry keeps the archive's URL and the entry's name.", "quantifier": "all texts, all hosts, files and ports", "why_tests_cant": "Texts with colons and slashes in any places are endless, and what is read depends on which comes first.", "anchors": ["classpath/java/net/URL.java: URL, set, toString, getHost, getPort, getFile, getPath, getQuery", "classpath/java/net/URLStreamHandler.java: parseURL, toExternalForm", "classpath/avian/jar/Handler.java: parseURL"]}
{"id": "C114", "title": "Parking and interrupting", "statement": "LockSupport.park waits just if the thread was not unparked since its last park returned and is not interrupted; a parked thread that is unparked or interrupted is always told to wake, and then returns; times in nanoseconds are rounded up, and never become unlimited; and each interrupt is told once, by Thread.interrupted or by an exception.", "quantifier": "all interleavings of one thread that parks, waits and asks with any number of threads that unpark and interrupt it, all times", "why_tests_cant": "Lost wake-ups need a thread to be unparked in the short time between its test and its wait.", "anchors": ["src/builtin.cpp: Avian_sun_misc_Unsafe_park, Avian_sun_misc_Unsafe_unpark", "src/machine.cpp: threadInterrupt, threadIsInterrupted", "src/avian/machine.h: monitorWait, wait", "src/system/posix.cpp: interrupt, wait", "classpath/java/util/concurrent/locks/LockSupport.java: park, parkNanos, parkUntil, unpark"]}
{"id": "C115", "title": "Shuffling and reversing lists", "statement": "Collections.shuffle gives a list with the same elements, each as often, whatever random numbers are drawn, each order is possible, and all orders are equally likely; Collections.reverse gives the elements in the opposite order.", "quantifier": "all lists, all random numbers", "why_tests_cant": "Random orders of samples say nothing on the orders that were not drawn, or on their shares.", "anchors": ["classpath/java/util/Collections.java: shuffle, reverse"]}
{"id": "C116", "title": "String.format", "statement": "String.format gives the text of its format with each specifier replaced by its argument: those without an index take the arguments in turn, those with one the argument of that index; each in its conversion, padded to its width on the side its flag says, cut to its precision; formats of dates and floating-point numbers work as documented.", "quantifier": "all formats, all arguments", "why_tests_cant": "Formats and arguments combine without end; a few of them say nothing on the others.", "anchors": ["classpath/avian/FormatString.java: format, next, append, seal, convert, appendify", "classpath/java/lang/String.java: format"]}
