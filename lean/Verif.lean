import Verif.Basic
import Verif.Model.Error
import Verif.Model.Parser
import Verif.Model.Despace
import Verif.Proofs.Scan
import Verif.Proofs.ScanRec
import Verif.Proofs.Fuel
import Verif.Spec.Grammar
import Verif.Proofs.Accept
import Verif.Proofs.Number
import Verif.Proofs.Str
import Verif.Proofs.Value
import Verif.Model.Strerror
import Verif.Spec.Tokens
import Verif.Proofs.Despace
import Verif.Proofs.Api
import Verif.Props.Parser
import Verif.Model.Sink
import Verif.Model.Integer
import Verif.Model.Str
import Verif.Spec.Values
import Verif.Proofs.Sink
import Verif.Proofs.Integer
import Verif.Spec.Strings
import Verif.Proofs.Typed
import Verif.Proofs.StrTyped
import Verif.Proofs.StrWrite
import Verif.Proofs.StrRead
import Verif.Proofs.IntSafe
import Verif.Props.Scalars
import Verif.Spec.Serial
import Verif.Model.Array
import Verif.Model.Object
import Verif.Proofs.Array
import Verif.Proofs.Containers
import Verif.Props.Containers
import Verif.Spec.Object
import Verif.Proofs.Object
import Verif.Spec.Fields
import Verif.Proofs.ObjectRead
import Verif.Props.Objects
import Verif.Model.ObjectArray
import Verif.Proofs.ObjectArray
import Verif.Props.ObjectArrays
import Verif.Model.Enum
import Verif.Proofs.Enum
import Verif.Props.Enums
import Verif.Spec.Flags
import Verif.Proofs.Flags
import Verif.Props.Flags
import Verif.Model.Misc
import Verif.Proofs.Misc
import Verif.Props.Misc
import Verif.Model.Units
import Verif.Spec.Units
import Verif.Proofs.Time
import Verif.Proofs.Size
import Verif.Props.Units
import Verif.Model.Float
import Verif.Model.Schema
import Verif.Proofs.Float
import Verif.Proofs.Schema
import Verif.Props.Float
import Verif.Props.Schema
import Verif.Spec.Described
import Verif.Proofs.Described
import Verif.Proofs.Portable
import Verif.Props.Typed
import Verif.Spec.IntTypes
import Verif.Spec.Nested
import Verif.Proofs.Back
import Verif.Proofs.Nested
import Verif.Proofs.Valid
import Verif.Props.Nested
import Verif.Spec.Denotes
import Verif.Proofs.Exact
import Verif.Proofs.ExactObject
import Verif.Props.Exact
import Verif.Spec.Dialect
import Verif.Proofs.Dialect
import Verif.Props.Dialect
import Verif.Tests.Parser
import Verif.Tests.Value
import Verif.Tests.Units
import Verif.Tests.Array
import Verif.Tests.Enum
import Verif.Tests.Object
import Verif.Tests.Util
import Verif.Model.Client
import Verif.Spec.Stream
import Verif.Proofs.Stream
import Verif.Props.Stream
import Verif.Proofs.ExactMore
import Verif.Proofs.ExactUnits
import Verif.Proofs.Meaning
import Verif.Proofs.ExactFlags
import Verif.Spec.Reuse
import Verif.Props.Reuse
import Verif.Props.AfterError
import Verif.Proofs.Minify
import Verif.Props.Minify
import Verif.Proofs.AfterError
import Verif.Spec.Viable
import Verif.Proofs.ErrPos
import Verif.Proofs.ErrPosValue
import Verif.Props.ErrPos
import Verif.Proofs.ErrArg
import Verif.Proofs.ErrArgMore
import Verif.Proofs.ErrArgInst
import Verif.Props.ErrArg
import Verif.Spec.UpTo
import Verif.Proofs.UpTo
import Verif.Props.Unordered
import Verif.Spec.Platform
import Verif.Proofs.Platform
import Verif.Props.Platform
import Verif.Spec.Ends
import Verif.Proofs.Ends
import Verif.Props.Ends
import Verif.Spec.Stable
import Verif.Proofs.Stable
import Verif.Props.Stable
import Verif.Spec.Room
import Verif.Proofs.Room
import Verif.Props.Room
import Verif.Spec.Versions
import Verif.Proofs.Versions
import Verif.Props.Versions
import Verif.Model.Depth
import Verif.Spec.Depth
import Verif.Proofs.Depth
import Verif.Props.Depth
import Verif.Tests.Examples
import Verif.Model.InPlace
import Verif.Proofs.InPlace
import Verif.Props.InPlace
import Verif.Spec.Utf8
import Verif.Proofs.Utf8
import Verif.Props.Utf8
import Verif.Spec.AfterError
import Verif.Proofs.AfterError2
import Verif.Props.AfterError2
import Verif.Props.Chars
import Verif.Spec.Strict
import Verif.Proofs.ObjectStrict
import Verif.Props.ObjectStrict
import Verif.Model.Work
import Verif.Proofs.Work
import Verif.Props.Work
import Verif.Spec.Diagnosis
import Verif.Props.ErrCode
import Verif.Spec.Mismatch
import Verif.Proofs.Mismatch
import Verif.Props.Mismatch
import Verif.Spec.Faults
import Verif.Proofs.Faults
import Verif.Proofs.FaultsStr
import Verif.Props.Faults
import Verif.Spec.Composite
import Verif.Proofs.Composite
import Verif.Proofs.CompositeSeq
import Verif.Proofs.CompositePos
import Verif.Proofs.CompositeObj
import Verif.Proofs.CompositeObj2
import Verif.Proofs.CompositeAll
import Verif.Props.Composite
import Verif.Model.Calls
import Verif.Spec.Calls
import Verif.Proofs.Calls
import Verif.Props.Calls
import Verif.Proofs.CompositeFlags
import Verif.Proofs.CompositeUnits
import Verif.Model.TypedWork
import Verif.Spec.TypedWork
import Verif.Proofs.TypedWork
import Verif.Proofs.TypedWork2
import Verif.Proofs.TypedWork3
import Verif.Props.TypedWork
import Verif.Proofs.TypedWork4
import Verif.Spec.Slots
import Verif.Proofs.Slots
import Verif.Props.Slots
import Verif.Spec.Memory
import Verif.Proofs.Memory
import Verif.Props.Memory
import Verif.Spec.Uninit
import Verif.Proofs.Uninit
import Verif.Props.Uninit
import Verif.Model.Frames
import Verif.Spec.Frames
import Verif.Proofs.Frames
import Verif.Props.Frames
import Verif.Model.Ieee
import Verif.Spec.Decimal
import Verif.Proofs.Rounding
import Verif.Proofs.RoundBin
import Verif.Proofs.Decimal
import Verif.Proofs.Ieee
import Verif.Props.Ieee
import Verif.Model.Recursive
import Verif.Spec.Recursive
import Verif.Proofs.Recursive
import Verif.Props.Recursive
import Verif.Spec.Again
import Verif.Proofs.Again
import Verif.Props.Again
import Verif.Model.Heap
import Verif.Spec.Heap
import Verif.Proofs.Heap
import Verif.Props.Heap
import Verif.Model.WorkIf
import Verif.Spec.WorkIf
import Verif.Proofs.WorkIf
import Verif.Proofs.WorkIf2
import Verif.Proofs.WorkIf3
import Verif.Proofs.WorkIf4
import Verif.Props.WorkIf
import Verif.Spec.Alternatives
import Verif.Proofs.Alternatives
import Verif.Proofs.AlternativesJson
import Verif.Props.Alternatives
import Verif.Spec.View
import Verif.Proofs.View
import Verif.Props.View
import Verif.Spec.Log
import Verif.Proofs.Log
import Verif.Props.Log
import Verif.Spec.LogIf
import Verif.Proofs.LogIf
import Verif.Props.LogIf
import Verif.Proofs.RoomUnits
import Verif.Props.RoomUnits
import Verif.Model.Receive
import Verif.Spec.Receive
import Verif.Proofs.Receive
import Verif.Props.Receive
import Verif.Model.Lines
import Verif.Spec.Lines
import Verif.Proofs.Lines
import Verif.Props.Lines
