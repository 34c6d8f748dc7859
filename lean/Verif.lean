import Verif.Common.Mem
import Verif.Algorithm.Model
import Verif.Algorithm.Spec
import Verif.Algorithm.Props
import Verif.Algorithm.CopyProps
import Verif.Heap.Model
import Verif.Heap.Spec
import Verif.Heap.Lemmas
import Verif.Heap.Props
import Verif.Heap.PriorityQueue
import Verif.Deque.Model
import Verif.Deque.Props
import Verif.Deque.Handler
import Verif.Deque.HandlerIn
import Verif.Deque.HandlerOut
import Verif.Common.Chain
import Verif.Pool.Model
import Verif.Pool.Props
import Verif.Pool.Handler
import Verif.Pool.Linked
import Verif.Pool.Virtual
import Verif.Lists.Model
import Verif.Lists.Props
import Verif.Charconv.Model
import Verif.Charconv.Spec
import Verif.Charconv.Props
import Verif.Charconv.NumGet
import Verif.Charconv.Faults
import Verif.Chooser.Props
import Verif.Strings.Props
import Verif.Strings.Faults
import Verif.DynArray.Model
import Verif.DynArray.Spec
import Verif.DynArray.Props
import Verif.DynArray.History
import Verif.Chrono.Model
import Verif.Chrono.Props
import Verif.Chrono.Duration
import Verif.Chrono.HhMmSs
import Verif.Chrono.Calendar
import Verif.Chrono.Promoted
import Verif.Chrono.TimePoint
import Verif.Units.Unit
import Verif.Hash.Model
import Verif.Hash.Props
import Verif.SharedPtr.Model
import Verif.SharedPtr.Spec
import Verif.SharedPtr.Props
import Verif.SharedPtr.Access
import Verif.SharedPtr.Tasks
import Verif.LinkedRef.Model
import Verif.LinkedRef.Spec
import Verif.LinkedRef.Props
import Verif.Bip.Model
import Verif.Bip.Props
import Verif.Bip.Handler
import Verif.Bip.HandlerIn
import Verif.Bip.HandlerOut
import Verif.Sum.Layer1
import Verif.Streams.IosProps
import Verif.Streams.InProps
import Verif.Streams.IstreamProps
import Verif.Streams.OutProps
import Verif.Streams.OstreamProps
import Verif.Streams.BipOut
import Verif.Streams.BipIn
import Verif.Unordered.More
import Verif.Text.Ctype
import Verif.Locks.Props
import Verif.Func.Props
import Verif.Streams.Extract
import Verif.Streams.ExtractText
import Verif.Variadic.Model
import Verif.Variadic.Props
import Verif.Variadic.Tuple
import Verif.Variadic.TupleProps
import Verif.Streams.OutIter
import Verif.Streams.Device
import Verif.Arrays.Props
import Verif.Bits.Props
import Verif.Utility.Props
import Verif.Pool.V1
import Verif.Pool.Shared
import Verif.Accessor.Props
import Verif.DynArray.InitList
import Verif.DynArray.Options
import Verif.Growable.More
import Verif.Growable.Checked
import Verif.Rtos.More
import Verif.Lifetime.Objects
import Verif.Func.Refs
import Verif.Layout.Props
import Verif.Throw.SumProps
import Verif.Throw.Containers
import Verif.Unordered.Lifetimes
import Verif.Streams.ExtractBool
import Verif.Lists.Nodes
import Verif.Lists.Locks
import Verif.Streams.ExtractFloat
import Verif.Streams.FloatError
import Verif.Moving.Hist
import Verif.Sum.Compare
import Verif.Streams.PutUnit
import Verif.Sum.Visit
import Verif.Rtos.TimerFaults
import Verif.Streams.LiveFaults
import Verif.Streams.Virtual
import Verif.Chrono.Sleep
import Verif.Traits.Transform
import Verif.Unordered.Stable
import Verif.Unordered.Multi
import Verif.Observer.Props
import Verif.Heap.QueueEdits
import Verif.Descriptor.Props
import Verif.StringKinds.Props
import Verif.Text.Sto
import Verif.Strings.Overloads
import Verif.Owned.Model
import Verif.Owned.Props
import Verif.Owned.Steps
import Verif.Owned.Main
import Verif.Text.Legacy
import Verif.Log.Main
import Verif.Pgm.Props
import Verif.Units.Numbers
import Verif.Streams.Timed
import Verif.Span.Main
import Verif.DynArray.Handler
import Verif.DynArray.Reader
import Verif.Lists.Reader
import Verif.Sum.Mailbox
import Verif.Unordered.Reader
import Verif.Heap.Reader
import Verif.Func.Handler
import Verif.Streams.Pico
import Verif.LinkedRef.Handler
import Verif.Sum.Shared
import Verif.Heap.Reentrant
import Verif.Streams.ExtractOverflow
import Verif.Unordered.Capacity
import Verif.Unordered.IntKeys
import Verif.Heap.EraseSeen
import Verif.Sum.MailboxBits
import Verif.Streams.IosShared
