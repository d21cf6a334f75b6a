import Verif.Proof.Alias
import Verif.Proof.Direct
import Verif.Proof.PropRead
import Verif.Proof.PropText
import Verif.Model.Basic
import Verif.Model.Text
import Verif.Model.Indicator
import Verif.Model.Parser
import Verif.Model.Cursor
import Verif.Model.Grammar
import Verif.Model.Number
import Verif.Model.Float32
import Verif.Model.Node
import Verif.Model.Loader
import Verif.Model.Dumper
import Verif.Proof.Frame
import Verif.Proof.IndicatorSpec
import Verif.Proof.Safety
import Verif.Proof.Zip
import Verif.Proof.Zip2
import Verif.Proof.Safety2
import Verif.Proof.NumText
import Verif.Proof.Decimal
import Verif.Proof.NodeEq
import Verif.Proof.Fuel
import Verif.Proof.Utf8
import Verif.Proof.Eval
import Verif.Proof.Plain
import Verif.Proof.Leaf
import Verif.Proof.Block
import Verif.Proof.Tree
import Verif.Proof.TreeRead
import Verif.Proof.Gaps
import Verif.Proof.Stream
import Verif.Proof.Stale
import Verif.Proof.Quoted
import Verif.Proof.Leaves
import Verif.Proof.Words
import Verif.Proof.Flow
import Verif.Proof.ScalarText
import Verif.Proof.Literal
import Verif.Proof.Layout
import Verif.Proof.Same
import Verif.Proof.Reads
import Verif.Proof.Round
import Verif.Proof.NumVal
import Verif.Model.Serde
import Verif.Model.RepoTests
import Verif.Proof.Float
import Verif.Proof.Serde
import Verif.Proof.SerdeErr
import Verif.Proof.SerdeNode
import Verif.Proof.Dump
import Verif.Proof.PlainHang
import Verif.Proof.DumpEnds
import Verif.Proof.LFrame
import Verif.Proof.LoaderInv
import Verif.Proof.LoaderTop
import Verif.Proof.Runs
import Verif.Proof.RunsP
import Verif.Proof.RunsQ
import Verif.Proof.RunsL
import Verif.Proof.RunsF
import Verif.Proof.RunsB
import Verif.Proof.RunsD
import Verif.Proof.Hang
import Verif.Proof.Blind
import Verif.Proof.Faults
import Verif.Proof.FloatNear
import Verif.Props.Cursor
import Verif.Props.Text
import Verif.Props.Nodes
import Verif.Props.Loader
import Verif.Props.Fuel
import Verif.Props.Scalars
import Verif.Props.Layout
import Verif.Props.Directives
import Verif.Props.Anchors
import Verif.Props.Floats
import Verif.Props.Ints
import Verif.Props.Serde
import Verif.Props.Dump
import Verif.Props.Ends
import Verif.Props.Twice
import Verif.Proof.Charset
import Verif.Proof.CharsetP
import Verif.Proof.CharsetW
import Verif.Proof.CharsetL
import Verif.Props.Charset
import Verif.Proof.SerdeText
import Verif.Props.SerdeText
import Verif.Proof.LastChar
import Verif.Proof.Fold
import Verif.Proof.PlainFold
import Verif.Props.Fold
import Verif.Proof.DumpAnchors
import Verif.Props.DumpAnchors
import Verif.Props.DumpText
import Verif.Proof.FlowPlain
import Verif.Props.Json
import Verif.Props.ComplexKeys
import Verif.Proof.OpenFlow
import Verif.Proof.OpenEnd
import Verif.Props.Open
import Verif.Props.Cut
import Verif.Spec.Share
import Verif.Proof.Share
import Verif.Props.Share
import Verif.Model.Message
import Verif.Proof.Mismatch
import Verif.Proof.ErrNames
import Verif.Props.Errors
import Verif.Model.Debug
import Verif.Proof.Debug
import Verif.Props.Debug
import Verif.Model.Macro
import Verif.Props.Macro
import Verif.Proof.Float32
import Verif.Props.Float32
import Verif.Proof.Broken
import Verif.Proof.BrokenBlock
import Verif.Proof.BrokenTerm
import Verif.Proof.BrokenDoc
import Verif.Props.Broken
import Verif.Proof.Order
import Verif.Props.Tables
import Verif.Props.Scan
import Verif.Spec.Positions
import Verif.Proof.Sim
import Verif.Proof.Shift
import Verif.Props.Shift
import Verif.Spec.LineEnds
import Verif.Proof.LineEnds
import Verif.Props.LineEnds
import Verif.Spec.Resolve
import Verif.Proof.Resolve
import Verif.Props.Resolve
import Verif.Spec.InOrder
import Verif.Spec.Written
import Verif.Proof.Fresh
import Verif.Proof.Extent
import Verif.Proof.InOrder
import Verif.Props.InOrder
import Verif.Props.Written
import Verif.Spec.Amount
import Verif.Props.Amount
import Verif.Props.Size
