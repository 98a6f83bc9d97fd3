import Verif.Algorithm.AllChecks
import Verif.Algorithm.ArrayCmp
import Verif.Algorithm.BinarySearch
import Verif.Algorithm.Compare
import Verif.Algorithm.Consume
import Verif.Algorithm.Container
import Verif.Algorithm.Extra
import Verif.Algorithm.MinMax
import Verif.Algorithm.Model
import Verif.Algorithm.More
import Verif.Algorithm.Remove
import Verif.Algorithm.RemoveRef
import Verif.Algorithm.Reverser
import Verif.Algorithm.Rotate
import Verif.Algorithm.Search
import Verif.Algorithm.Sorted
import Verif.Algorithm.Spec
import Verif.Algorithm.Split
import Verif.Algorithm.SwapRanges
import Verif.Base
import Verif.Bits.BitQueue
import Verif.Bits.BitStream
import Verif.Bits.Bitset
import Verif.Bits.CopySign
import Verif.Bits.CxCmp
import Verif.Bits.Float
import Verif.Bits.FloatBits
import Verif.Bits.FloatPow
import Verif.Bits.Fnv
import Verif.Bits.GenericHash
import Verif.Bits.IntCmp
import Verif.Bits.Limits
import Verif.Bits.Masks
import Verif.Bits.MinMaxN
import Verif.Bits.Natural
import Verif.Bits.Positions
import Verif.Bits.Power
import Verif.Bits.Reverse
import Verif.Bits.Rounding
import Verif.Bits.Sine
import Verif.Bits.Sqrt
import Verif.Bits.StaticBitset
import Verif.Bits.UIntAssign
import Verif.Bits.UIntOps
import Verif.Bits.UIntTypes
import Verif.Bits.Zeros
import Verif.Containers.BoundedHashMap
import Verif.Containers.BoundedHashSet
import Verif.Containers.BoundedString
import Verif.Containers.BoundedStringOps
import Verif.Containers.BoundedVector
import Verif.Containers.BoundedVectorZero
import Verif.Containers.CArray
import Verif.Containers.Circular
import Verif.Containers.CircularWalk
import Verif.Containers.FixedArray
import Verif.Containers.FixedLookup
import Verif.Containers.HashSet
import Verif.Containers.HashSetBack
import Verif.Containers.IterView
import Verif.Containers.KeepN
import Verif.Containers.Lists
import Verif.Containers.MphBits
import Verif.Containers.MphHash
import Verif.Containers.OldHashIter
import Verif.Containers.OldHashTable
import Verif.Containers.OrderedMap
import Verif.Containers.PerfectHash
import Verif.Containers.PerfectTable
import Verif.Containers.Probe
import Verif.Containers.Ring
import Verif.Containers.Span
import Verif.Containers.StaticHash
import Verif.Containers.Views
import Verif.Graph.Bounded
import Verif.Graph.Consistency
import Verif.Graph.Handles
import Verif.Graph.Model
import Verif.Graph.Mst
import Verif.Graph.Topological
import Verif.Graph.Walk
import Verif.Hash.Bytes
import Verif.Hash.Metro
import Verif.Hash.Sip
import Verif.Iter.Base
import Verif.Iter.Checked
import Verif.Iter.Collections
import Verif.Iter.Cpp17
import Verif.Iter.Erased
import Verif.Iter.Find
import Verif.Iter.Inserters
import Verif.Iter.Iota
import Verif.Iter.RangeContains
import Verif.Iter.RangeType
import Verif.Iter.Reverse
import Verif.Iter.Strides
import Verif.Iter.Wrapped
import Verif.Iter.Zip
import Verif.Memory.AtomicWait
import Verif.Memory.CxAtomic
import Verif.Memory.GetBuffer
import Verif.Memory.Observer
import Verif.Memory.RcPtr
import Verif.Memory.SharedFunction
import Verif.Memory.SpanWriter
import Verif.Own.Base
import Verif.Own.Box
import Verif.Own.CheckedExpected
import Verif.Own.ContainerData
import Verif.Own.ExpectedVoid
import Verif.Own.HeapArray
import Verif.Own.MappedFile
import Verif.Own.MappedFileWin
import Verif.Own.MaybeUnique
import Verif.Own.Optional
import Verif.Own.OptionalPoly
import Verif.Own.Resource
import Verif.Own.RunIfValid
import Verif.Own.SafePointer
import Verif.Own.Sbo
import Verif.Own.StackFunction
import Verif.Own.TrackedAlloc
import Verif.Own.UnionPair
import Verif.Own.UniqueArray
import Verif.Own.UniquePtr
import Verif.Own.ValueCompare
import Verif.Own.Values
import Verif.Parse.Addons
import Verif.Parse.Args
import Verif.Parse.Format
import Verif.Parse.FormatRange
import Verif.Parse.Helper
import Verif.Parse.Int
import Verif.Parse.Mixed
import Verif.Parse.Quoted
import Verif.Parse.Split
import Verif.Parse.Streams
import Verif.Pipelines.Chunk
import Verif.Pipelines.Compose
import Verif.Pipelines.Concat
import Verif.Pipelines.Extrema
import Verif.Pipelines.Filter
import Verif.Pipelines.Join
import Verif.Pipelines.Kahan
import Verif.Pipelines.Map
import Verif.Pipelines.Reshape
import Verif.Pipelines.Search
import Verif.Pipelines.Split
import Verif.Pipelines.Zip
import Verif.Random.Lcg
import Verif.Random.Seeds
import Verif.Random.Shuffle
import Verif.Sort.Insertion
import Verif.Sort.Model
import Verif.Sort.Net
import Verif.Sort.Perm
import Verif.Sort.Quick
import Verif.Sort.SortTo
import Verif.Sort.StackQuick
import Verif.StringView.CStr
import Verif.StringView.Compare
import Verif.StringView.Find
import Verif.StringView.History
import Verif.StringView.Model
import Verif.StringView.Packed
import Verif.StringView.SignedWidth
import Verif.StringView.Spec
import Verif.StringView.SplitRange
import Verif.StringView.View1
import Verif.StringView.View1Concat
import Verif.StringView.View1Ops
import Verif.StringView.Views
import Verif.Strings.BraceSplitter
import Verif.Strings.CString
import Verif.Strings.Fmt
import Verif.Strings.FromString
import Verif.Strings.IntText
import Verif.Strings.Split
import Verif.Strings.Trim
import Verif.Util.Benchmark
import Verif.Util.Binding
import Verif.Util.CxprCopy
import Verif.Util.Dispatch
import Verif.Util.DoN
import Verif.Util.Expecting
import Verif.Util.Factory
import Verif.Util.Files
import Verif.Util.FnViews
import Verif.Util.FunctionRef
import Verif.Util.Tuple2
import Verif.Util.TupleHelper
import Verif.Util.Utility
import Verif.Util.Values
import Verif.Util.VisitAs
import Verif.Vector.Alloc
import Verif.Vector.Erase
import Verif.Vector.Input
import Verif.Vector.Insert
import Verif.Vector.IotaOp
import Verif.Vector.Lemmas
import Verif.Vector.Model
import Verif.Vector.OldVector
import Verif.Vector.Ops
import Verif.Vector.Overwrite
import Verif.Vector.PageAlloc
import Verif.Vector.Props
import Verif.Vector.SplitBuf
import Verif.Vector.SplitMove
