import Verif.Props.Math
import Verif.Props.Bits
import Verif.Props.Stream
import Verif.Props.FixedAlloc
import Verif.Props.Zone
import Verif.Props.Tree
import Verif.Props.HashMap
import Verif.Props.Utf8
import Verif.Props.JniName
import Verif.Props.Descriptor
import Verif.Props.Finder
import Verif.Props.Interp
import Verif.Props.InterpControl
import Verif.Props.InterpDepart
import Verif.Props.Fields
import Verif.Props.Enter
import Verif.Props.Monitor
import Verif.Props.Dispatch
import Verif.Props.Bitset
import Verif.Props.Collect
import Verif.Props.Account
import Verif.Props.Fixies
import Verif.Props.Header
import Verif.Props.Refs
import Verif.Props.Lines
import Verif.Props.Threads
import Verif.Props.ClassInit
import Verif.Props.SysMonitor
import Verif.Props.Pool
import Verif.Props.ClassFile
import Verif.Props.Numbers
import Verif.Props.IntBits
import Verif.Props.JUtf8
import Verif.Props.Strings
import Verif.Props.StringBuilder
import Verif.Props.LinkedQueue
import Verif.Props.LinkedList
import Verif.Props.BlockingQueue
import Verif.Props.FutureTaskCore
import Verif.Props.FutureTask
import Verif.Props.JHashMapCore
import Verif.Props.JHashMapOps
import Verif.Props.JHashMapIter
import Verif.Props.JHashMap
import Verif.Lib.LinkedHashMap
import Verif.Props.LinkedHashMap
import Verif.Lib.ArrayCopy
import Verif.Props.ArrayCopy
import Verif.Lib.ArrayList
import Verif.Props.ArrayList
import Verif.Lib.ArrayDeque
import Verif.Props.ArrayDeque
import Verif.Lib.JBitSet
import Verif.Props.JBitSet
import Verif.Lib.Sort
import Verif.Props.Sort
import Verif.Lib.CodePoint
import Verif.Props.CodePoint
import Verif.Lib.OutStreams
import Verif.Props.OutStreams
import Verif.Lib.InStreams
import Verif.Props.InStreams
import Verif.Lib.DataStreams
import Verif.Props.DataStreams
import Verif.Heap.Remember
import Verif.Props.Remember
import Verif.Heap.Room
import Verif.Props.Room
import Verif.Heap.ThreadHeap
import Verif.Props.ThreadHeap
import Verif.Lib.PersistentSet
import Verif.Lib.PersistentSetLemmas
import Verif.Props.PersistentSet
import Verif.Lib.TreeSet
import Verif.Props.TreeSet
import Verif.Props.TreeMap
import Verif.Lib.PersistentNodes
import Verif.Props.PersistentNodes
import Verif.Codegen.Cpu
import Verif.Codegen.X86
import Verif.Codegen.Decode
import Verif.Codegen.Exec
import Verif.Codegen.Moves
import Verif.Props.X86Int
import Verif.Props.X86Move
import Verif.Codegen.Link
import Verif.Props.X86Branch
import Verif.Codegen.Compare
import Verif.Props.X86FloatBranch
import Verif.Codegen.Frame
import Verif.Props.X86Call
import Verif.Codegen.Layout
import Verif.Props.X86Layout
import Verif.Codegen.Walk
import Verif.Props.X86Walk
import Verif.Props.X86Float
import Verif.Props.ConcurrentMap
import Verif.Props.FrameMap
import Verif.Props.Chain
import Verif.Props.Handlers
import Verif.Props.PikeVM
import Verif.Props.Regex
import Verif.Props.HeapWalk
import Verif.Props.HeapDump
import Verif.Props.BootImage
import Verif.Props.PlainPattern
import Verif.Props.JProperties
import Verif.Props.JniRefs
import Verif.Props.NativeCall
import Verif.Props.ByteBuf
import Verif.Props.Crc32
import Verif.Props.Tokenizer
import Verif.Props.JRandom
import Verif.Props.JCalendar
import Verif.Props.TimeUnits
import Verif.Props.EnumSet
import Verif.Props.Atomics
import Verif.Props.MessageFormat
import Verif.Props.Urls
import Verif.Props.Parking
import Verif.Props.Shuffle
import Verif.Props.FormatString
