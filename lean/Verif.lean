import Verif.Wire.Basic
import Verif.Wire.Lemmas
import Verif.Wire.Loops
import Verif.Wire.Unknown
import Verif.Wire.UnknownLemmas
import Verif.Utf8
import Verif.Dyn.SMap
import Verif.Dyn.Value
import Verif.Dyn.Fields
import Verif.Dyn.Codec
import Verif.Dyn.Typing
import Verif.Dyn.ScalarLemmas
import Verif.Dyn.TypingLemmas
import Verif.Dyn.Len
import Verif.Dyn.Total
import Verif.Dyn.Decode
import Verif.Dyn.FieldLemmas
import Verif.Dyn.Conf
import Verif.Dyn.Accept
import Verif.Dyn.Merge
import Verif.Dyn.MergeEnc
import Verif.Dyn.Canon
import Verif.Dyn.Iter
import Verif.Dyn.Api
import Verif.Dyn.Observe
import Verif.Dyn.Same
import Verif.Dyn.UnknownKeep
import Verif.Dyn.PackedMix
import Verif.Dyn.Deep
import Verif.Dyn.DepthBound
import Verif.Dyn.Occur
import Verif.Props.Example
import Verif.Dyn.Machine
import Verif.Dyn.History
import Verif.Dyn.AccessLemmas
import Verif.Props.Binary
import Verif.Props.Access
import Verif.Pool.Proto
import Verif.Pool.Visit
import Verif.Pool.Inner
import Verif.Pool.NamesPass
import Verif.Pool.Scope
import Verif.Pool.Default
import Verif.Pool.Locate
import Verif.Pool.Resolve
import Verif.Pool.Build
import Verif.Pool.Query
import Verif.Pool.Count
import Verif.Pool.Strip
import Verif.Pool.Effects
import Verif.Pool.Frame
import Verif.Pool.Family
import Verif.Pool.Batch
import Verif.Pool.NamesOk
import Verif.Pool.ResolveOk
import Verif.Pool.Tally
import Verif.Pool.Tables
import Verif.Pool.Pass2
import Verif.Pool.Closed
import Verif.Pool.Desc
import Verif.Pool.Added
import Verif.Pool.Hist
import Verif.Pool.Spec
import Verif.Pool.Known
import Verif.Pool.Paths
import Verif.Pool.Failed
import Verif.Pool.Located
import Verif.Props.PoolExample
import Verif.Props.PoolNames
import Verif.Pool.Exts
import Verif.Props.PoolFields
import Verif.Num
import Verif.Pool.Unescape
import Verif.Props.PoolDeclared
import Verif.Props.PoolDefaults
import Verif.Pool.ScopeSpec
import Verif.Pool.Visible
import Verif.Pool.RefSpec
import Verif.Props.PoolScope
import Verif.Pool.Runs
import Verif.Pool.Runs2
import Verif.Pool.Runs3
import Verif.Props.PoolTotal
import Verif.Text.Lex
import Verif.Text.Format
import Verif.Text.Parse
import Verif.Text.LexLemmas
import Verif.Text.StrLemmas
import Verif.Text.LexText
import Verif.Text.IntText
import Verif.Text.ParseLemmas
import Verif.Text.OneField
import Verif.Props.Text
import Verif.Dyn.DecEq
import Verif.Text.LexSafe
import Verif.Text.Safe
import Verif.Text.Once
import Verif.Props.TextSafe
import Verif.Props.Narrow
import Verif.Dyn.Alike
import Verif.Dyn.Ren
import Verif.Dyn.Keep
import Verif.Text.RoundScalar
import Verif.Text.RoundTrip
import Verif.Text.RoundMsg
import Verif.Dyn.IterTotal
import Verif.Text.PrintTotal
import Verif.Text.LitLemmas
import Verif.Props.TextRound
import Verif.Props.TextLits
import Verif.Json.Tree
import Verif.Json.Ints
import Verif.Json.Base64
import Verif.Json.Base64Lemmas
import Verif.Json.Mask
import Verif.Json.MaskLemmas
import Verif.Json.Time
import Verif.Props.JsonInts
import Verif.Props.JsonBytes
import Verif.Props.JsonMask
import Verif.Props.JsonTime
import Verif.Json.Env
import Verif.Json.Ser
import Verif.Json.De
import Verif.Json.Sound
import Verif.Json.Accept
import Verif.Json.Safe
import Verif.Json.SerSafe
import Verif.Json.Object
import Verif.Props.JsonSafe
import Verif.Props.JsonObject
import Verif.Json.RoundScalar
import Verif.Json.Round
import Verif.Json.Leaf
import Verif.Json.Writes
import Verif.Json.DecEq
import Verif.Props.JsonRound
import Verif.Props.JsonWkt
import Verif.Props.JsonAny
import Verif.Pool.Heap
import Verif.Props.PoolClones
import Verif.Opt.Options
import Verif.Opt.Bytes
import Verif.Opt.Set
import Verif.Props.Options
import Verif.Dyn.Size
import Verif.Json.Make
import Verif.Json.LeafAny
import Verif.Json.Says
import Verif.Props.JsonStd
import Verif.Json.Settle
import Verif.Props.JsonValue
import Verif.Props.OptionValues
import Verif.Props.OptionEntries
import Verif.Text.UnknownText
import Verif.Props.TextUnknown
import Verif.Pool.View
import Verif.Props.PoolView
import Verif.Props.PoolShows
import Verif.Text.RoundAny
import Verif.Props.TextAny
import Verif.Pool.Listing
import Verif.Pool.Declared
import Verif.Props.PoolLists
import Verif.Dyn.Agree
import Verif.Dyn.ByField
import Verif.Dyn.Order
import Verif.Dyn.AsUnknown
import Verif.Props.Forward
import Verif.Props.PoolGrows
import Verif.Opt.Read
import Verif.Opt.Locations
import Verif.Props.OptionRead
import Verif.Props.OptionLocs
import Verif.Props.TextEscapes
import Verif.Props.JsonForm
import Verif.Dyn.Reenc
import Verif.Dyn.Twins
import Verif.Dyn.Evolve
import Verif.Dyn.Jumble
import Verif.Dyn.Down
import Verif.Dyn.EvolveKeep
import Verif.Props.Evolve
import Verif.Props.Reorder
import Verif.Dyn.Equal
import Verif.Dyn.EqualSpec
import Verif.Props.Equal
import Verif.Pool.Global
import Verif.Pool.GlobalLin
import Verif.Pool.GlobalRun
import Verif.Props.GlobalPool
import Verif.Pool.HeapEq
import Verif.Props.PoolSame
import Verif.Derive.Machine
import Verif.Derive.Runs
import Verif.Derive.Ends
import Verif.Props.Derived
import Verif.Derive.Macro
import Verif.Derive.Config
import Verif.Props.Configure
import Verif.Pool.Valid
import Verif.Pool.Accept1
import Verif.Pool.Accept2
import Verif.Pool.Accept3
import Verif.Pool.Accept4
import Verif.Pool.Accept5
import Verif.Props.PoolAccept
import Verif.Pool.Check
import Verif.Pool.Entries
import Verif.Reflect.Files
import Verif.Reflect.Std
import Verif.Reflect.Like
import Verif.Reflect.Types
import Verif.Reflect.Own
import Verif.Props.WellKnown
import Verif.Dyn.Left
import Verif.Dyn.Cut
import Verif.Props.Failed
import Verif.Text.Cut
import Verif.Text.Left
import Verif.Props.FailedText
import Verif.Pool.Twin
import Verif.Pool.Twin2
import Verif.Props.PoolSplit
import Verif.Pool.Stored
import Verif.Pool.Stored2
import Verif.Pool.Stored3
import Verif.Props.PoolStored
import Verif.Pool.Rebuild1
import Verif.Pool.Rebuild2
import Verif.Pool.Rebuild3
import Verif.Pool.Rebuild4
import Verif.Props.PoolRebuild
import Verif.Pool.Shared1
import Verif.Pool.Shared2
import Verif.Pool.Shared3
import Verif.Props.PoolShared
import Verif.Dyn.Across
import Verif.Dyn.Across2
import Verif.Props.PoolAcross
import Verif.Dyn.Across3
import Verif.Dyn.Across4
import Verif.Text.Across
import Verif.Text.Across2
import Verif.Text.Across3
import Verif.Json.Across
import Verif.Json.Across2
import Verif.Props.PoolPrints
import Verif.Dyn.Stream
import Verif.Dyn.Limit
import Verif.Props.Stream
import Verif.Wire.Shorter
import Verif.Props.UnknownField
import Verif.Text.Display
import Verif.Text.Layout
import Verif.Props.TextLayout
import Verif.Text.ShowTotal
import Verif.Dyn.Heft
import Verif.Text.ShowAny
import Verif.Text.OneText
import Verif.Props.TextTotal
import Verif.Json.Ends
import Verif.Props.JsonEnds
import Verif.Json.OneRead
import Verif.Props.JsonOneRead
import Verif.Text.OneParse
import Verif.Props.TextOneRead
import Verif.Opt.OneStack
import Verif.Props.OptionStack
import Verif.Text.Grow
import Verif.Text.LexGrow
import Verif.Text.Lines
import Verif.Text.Seam
import Verif.Props.TextLines
import Verif.Json.Shuffle
import Verif.Props.JsonShuffle
