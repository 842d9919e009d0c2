import Verif.Basic
import Verif.Model.Cache
import Verif.Model.Container
import Verif.Model.Copy
import Verif.Model.Decoder
import Verif.Model.Eface
import Verif.Model.EncCache
import Verif.Model.EncLinked
import Verif.Model.Encode
import Verif.Model.ErrText
import Verif.Model.Float
import Verif.Model.Fold
import Verif.Model.Gc
import Verif.Model.GoVal
import Verif.Model.Int
import Verif.Model.Iter
import Verif.Model.Linked
import Verif.Model.Marshal
import Verif.Model.Mem
import Verif.Model.Num
import Verif.Model.Pool
import Verif.Model.Prog
import Verif.Model.Read
import Verif.Model.Report
import Verif.Model.Setting
import Verif.Model.Skip
import Verif.Model.Stack
import Verif.Model.Str
import Verif.Model.Streamer
import Verif.Model.Struct
import Verif.Model.Typed
import Verif.Model.Words
import Verif.Model.WordsWrite
import Verif.Proof.Again
import Verif.Proof.Alike
import Verif.Proof.BigStep
import Verif.Proof.Blame
import Verif.Proof.Cache
import Verif.Proof.Channel
import Verif.Proof.Clean
import Verif.Proof.Container
import Verif.Proof.Copy
import Verif.Proof.Cut
import Verif.Proof.Cyclic
import Verif.Proof.DecInj
import Verif.Proof.Decided
import Verif.Proof.Deferred
import Verif.Proof.Dominant
import Verif.Proof.Eface
import Verif.Proof.Embed
import Verif.Proof.EncCache
import Verif.Proof.EncFloat
import Verif.Proof.EncInt
import Verif.Proof.EncSample
import Verif.Proof.EncStr
import Verif.Proof.Encodable
import Verif.Proof.ErrText
import Verif.Proof.Exact
import Verif.Proof.Expected
import Verif.Proof.Flat
import Verif.Proof.Float
import Verif.Proof.Fold
import Verif.Proof.Gc
import Verif.Proof.GcTyped
import Verif.Proof.GcValue
import Verif.Proof.Grammar
import Verif.Proof.Grown
import Verif.Proof.HasTy
import Verif.Proof.Iface
import Verif.Proof.Int
import Verif.Proof.Lax
import Verif.Proof.Lazy
import Verif.Proof.Levels
import Verif.Proof.Machine
import Verif.Proof.Marshal
import Verif.Proof.Mem
import Verif.Proof.Num
import Verif.Proof.Order
import Verif.Proof.Patch
import Verif.Proof.Phys
import Verif.Proof.Plain
import Verif.Proof.Pool
import Verif.Proof.Reformat
import Verif.Proof.Reorder
import Verif.Proof.Report
import Verif.Proof.Restores
import Verif.Proof.Safe
import Verif.Proof.SafeOps
import Verif.Proof.Sample
import Verif.Proof.Setting
import Verif.Proof.Sim
import Verif.Proof.Stack
import Verif.Proof.Storage
import Verif.Proof.Str
import Verif.Proof.Stream
import Verif.Proof.Struct
import Verif.Proof.Tag
import Verif.Proof.Tidy
import Verif.Proof.Top
import Verif.Proof.TypedBase
import Verif.Proof.TypedMain
import Verif.Proof.TypedParts
import Verif.Proof.TypedSafe
import Verif.Proof.TypedScalar
import Verif.Proof.TypedTop
import Verif.Proof.Unknown
import Verif.Proof.UnknownIn
import Verif.Proof.Utf8Text
import Verif.Proof.Viable
import Verif.Proof.Visible
import Verif.Proof.Walk
import Verif.Proof.Words
import Verif.Proof.WordsEmpty
import Verif.Proof.WordsRight
import Verif.Proof.WordsRun
import Verif.Proof.WordsTotal
import Verif.Proof.WordsUnique
import Verif.Proof.WordsWrite
import Verif.Proof.Work
import Verif.Props.Again
import Verif.Props.Alike
import Verif.Props.Blame
import Verif.Props.Cache
import Verif.Props.Channel
import Verif.Props.Container
import Verif.Props.Copy
import Verif.Props.Cyclic
import Verif.Props.Decided
import Verif.Props.Decoder
import Verif.Props.Deferred
import Verif.Props.Described
import Verif.Props.Eface
import Verif.Props.Embed
import Verif.Props.EncCache
import Verif.Props.EncDescribed
import Verif.Props.EncInt
import Verif.Props.EncLinked
import Verif.Props.EncStr
import Verif.Props.ErrText
import Verif.Props.Fold
import Verif.Props.Gc
import Verif.Props.GcValue
import Verif.Props.Grammar
import Verif.Props.Grown
import Verif.Props.Iface
import Verif.Props.Int
import Verif.Props.Iter
import Verif.Props.Keys
import Verif.Props.Lax
import Verif.Props.Lazy
import Verif.Props.Linked
import Verif.Props.Literal
import Verif.Props.Marshal
import Verif.Props.Mem
import Verif.Props.Order
import Verif.Props.Pool
import Verif.Props.Reformat
import Verif.Props.Reorder
import Verif.Props.Report
import Verif.Props.RoundTrip
import Verif.Props.Safe
import Verif.Props.Setting
import Verif.Props.Stack
import Verif.Props.Storage
import Verif.Props.Str
import Verif.Props.Stream
import Verif.Props.Struct
import Verif.Props.Typed
import Verif.Props.TypedExamples
import Verif.Props.TypedSafe
import Verif.Props.Unknown
import Verif.Props.Viable
import Verif.Props.Words
import Verif.Props.WordsWrite
import Verif.Props.Work
import Verif.Spec.Again
import Verif.Spec.Alike
import Verif.Spec.Blame
import Verif.Spec.Cache
import Verif.Spec.Channel
import Verif.Spec.Container
import Verif.Spec.Cyclic
import Verif.Spec.Decided
import Verif.Spec.Decoder
import Verif.Spec.Deferred
import Verif.Spec.Described
import Verif.Spec.Eface
import Verif.Spec.Embed
import Verif.Spec.EncCache
import Verif.Spec.EncDescribed
import Verif.Spec.EncLinked
import Verif.Spec.EncSample
import Verif.Spec.Encodable
import Verif.Spec.Encode
import Verif.Spec.ErrText
import Verif.Spec.Float
import Verif.Spec.Fold
import Verif.Spec.Gc
import Verif.Spec.GcValue
import Verif.Spec.GoValue
import Verif.Spec.Grown
import Verif.Spec.HasTy
import Verif.Spec.Int
import Verif.Spec.Json
import Verif.Spec.Lax
import Verif.Spec.Lazy
import Verif.Spec.Marshal
import Verif.Spec.Mem
import Verif.Spec.Order
import Verif.Spec.Pool
import Verif.Spec.Reader
import Verif.Spec.Reformat
import Verif.Spec.Reorder
import Verif.Spec.Report
import Verif.Spec.Restores
import Verif.Spec.Sample
import Verif.Spec.Setting
import Verif.Spec.Storage
import Verif.Spec.Stream
import Verif.Spec.Struct
import Verif.Spec.StructSample
import Verif.Spec.Typed
import Verif.Spec.Unknown
import Verif.Spec.Viable
import Verif.Spec.Words
import Verif.Spec.WordsSample
import Verif.Spec.WordsWrite
import Verif.Spec.Work
