import Verif.Base.Arith
import Verif.Base.Bytes
import Verif.Base.Lit
import Verif.Base.Res
import Verif.Compiler.FlagLemmas
import Verif.Compiler.Input
import Verif.Compiler.Message
import Verif.Compiler.MessageLemmas
import Verif.Compiler.Model
import Verif.Compiler.Protocol
import Verif.Compiler.ProtocolLemmas
import Verif.Compiler.Structure
import Verif.Compiler.StructureLemmas
import Verif.Compiler.Types
import Verif.Compiler.Word
import Verif.Decl.Message
import Verif.Decl.Scan
import Verif.Decl.Structure
import Verif.Decl.Union
import Verif.Fixtures.Build
import Verif.Fixtures.Compiled
import Verif.Fixtures.Reading
import Verif.Fixtures.Schemas
import Verif.Float.Ieee
import Verif.Float.Lemmas
import Verif.Float.Offset
import Verif.Float.Round
import Verif.Float.Structure
import Verif.Float.Views
import Verif.Gen.AccessLemmas
import Verif.Gen.Code
import Verif.Gen.Driver
import Verif.Gen.EffLemmas
import Verif.Gen.GrammarLemmas
import Verif.Gen.Message
import Verif.Gen.MessageLemmas
import Verif.Gen.OffsetLemmas
import Verif.Gen.OpenLemmas
import Verif.Gen.Reencode
import Verif.Gen.RenderLemmas
import Verif.Gen.ReprLemmas
import Verif.Gen.RoundTrip
import Verif.Gen.Rust
import Verif.Gen.RustLemmas
import Verif.Gen.RustMessageLemmas
import Verif.Gen.RustUnionLemmas
import Verif.Gen.SizeLemmas
import Verif.Gen.Sizes
import Verif.Gen.Struct
import Verif.Gen.StructLemmas
import Verif.Gen.StuckLemmas
import Verif.Gen.Swift
import Verif.Gen.SwiftLemmas
import Verif.Gen.Template
import Verif.Gen.TemplateLemmas
import Verif.Gen.Templates
import Verif.Gen.TemplatesCompiled
import Verif.Gen.Totality
import Verif.Gen.ViewLemmas
import Verif.Gen.WireLemmas
import Verif.Gen.Word
import Verif.Gen.WordLemmas
import Verif.Gen.Work
import Verif.Lang.Accessor
import Verif.Lang.AccessorRun
import Verif.Lang.Code
import Verif.Lang.Eval
import Verif.Lang.Head
import Verif.Lang.Print
import Verif.Lang.Run
import Verif.Lang.RunOff
import Verif.Lang.RunUnion
import Verif.Lang.Syntax
import Verif.Lang.Types
import Verif.Props.Accept
import Verif.Props.AcceptDebug
import Verif.Props.Accessor
import Verif.Props.AccessorFloat
import Verif.Props.AccessorViews
import Verif.Props.Append
import Verif.Props.Arith
import Verif.Props.ArrayBytes
import Verif.Props.Cases
import Verif.Props.CasesBuild
import Verif.Props.Codec
import Verif.Props.Compile
import Verif.Props.CompilePanic
import Verif.Props.Concurrent
import Verif.Props.Corrupt
import Verif.Props.Count
import Verif.Props.Deep
import Verif.Props.Driver
import Verif.Props.EndToEnd
import Verif.Props.Evolve
import Verif.Props.Finish
import Verif.Props.FixtureMessages
import Verif.Props.FixtureStructs
import Verif.Props.Fixtures
import Verif.Props.Float
import Verif.Props.Generics
import Verif.Props.Grow
import Verif.Props.Head
import Verif.Props.Host
import Verif.Props.HostReading
import Verif.Props.Imported
import Verif.Props.Input
import Verif.Props.Lang
import Verif.Props.Loader
import Verif.Props.Message
import Verif.Props.Most
import Verif.Props.Names
import Verif.Props.Nested
import Verif.Props.Parts
import Verif.Props.Patch
import Verif.Props.Protocol
import Verif.Props.Receive
import Verif.Props.Recovery
import Verif.Props.Reorder
import Verif.Props.Reproducible
import Verif.Props.Revise
import Verif.Props.Rust
import Verif.Props.Send
import Verif.Props.Seq
import Verif.Props.Sizes
import Verif.Props.Skeleton
import Verif.Props.Struct
import Verif.Props.Swift
import Verif.Props.SwiftBuffer
import Verif.Props.SwiftCodec
import Verif.Props.SwiftMessage
import Verif.Props.SwiftRuntime
import Verif.Props.Template
import Verif.Props.Torn
import Verif.Props.Types
import Verif.Props.Understand
import Verif.Props.Union
import Verif.Props.Views
import Verif.Props.Wire
import Verif.Props.Word
import Verif.Props.Work
import Verif.Props.Wrapper
import Verif.Props.Write
import Verif.Runtime.ArrayBytes
import Verif.Runtime.Codec
import Verif.Runtime.CodecLemmas
import Verif.Runtime.Message
import Verif.Runtime.MessageLemmas
import Verif.Runtime.SeqLemmas
import Verif.Runtime.Word
import Verif.Runtime.Wrapper
import Verif.Runtime.Write
import Verif.Spec.Alike
import Verif.Spec.Bits
import Verif.Spec.Compile
import Verif.Spec.Concurrent
import Verif.Spec.Disk
import Verif.Spec.Driver
import Verif.Spec.Float
import Verif.Spec.Grammar
import Verif.Spec.Grow
import Verif.Spec.Input
import Verif.Spec.Items
import Verif.Spec.Layout
import Verif.Spec.Least
import Verif.Spec.Message
import Verif.Spec.Most
import Verif.Spec.Parts
import Verif.Spec.Patch
import Verif.Spec.Receive
import Verif.Spec.Reorder
import Verif.Spec.Rust
import Verif.Spec.Send
import Verif.Spec.Skeleton
import Verif.Spec.Swift
import Verif.Spec.SwiftRuntime
import Verif.Spec.Template
import Verif.Spec.Values
import Verif.Spec.Wire
import Verif.Spec.Word
import Verif.Swift.Buffer
import Verif.Swift.Codec
import Verif.Swift.Lemmas
import Verif.Swift.Message
