import Verif.Common.Machine
import Verif.Common.SortedMap
import Verif.Scope.VarProps
import Verif.Scope.LinkProps
import Verif.Scope.SymbolProps
import Verif.Registry.Props
import Verif.Envelope.HeaderProps
import Verif.Ops.TagProps
import Verif.Types.BoundProps
import Verif.Types.SumProps
import Verif.Types.PartsProps
import Verif.Types.Kinds
import Verif.Types.SubstProps
import Verif.IntFold.TypeProps
import Verif.IntFold.ConvertProps
import Verif.Ops.SubstProps
import Verif.Types.KindExact
import Verif.Types.Base64Canon
import Verif.Types.ExportProps
import Verif.Dataflow.ValueProps
import Verif.Ident.Props
import Verif.SumLayout.Props
import Verif.Graph.Props
import Verif.Graph.Canon
import Verif.Graph.InsertProps
import Verif.Graph.SerializeOps
import Verif.Text.Fuel
import Verif.Text.NodeFuel
import Verif.Passes.DeadCodeProps
import Verif.Passes.DeadFuncsProps
import Verif.Passes.RegionBlocksProps
import Verif.Persistent.Findings
import Verif.Persistent.Replacement
import Verif.Graph.LinkingTop
import Verif.Validate.Findings
import Verif.Dataflow.AnalysisExample
import Verif.Dataflow.ConstFoldFindings
import Verif.Patch.InlineDfgsProps
import Verif.Patch.ForceOrderSound
import Verif.Patch.SiblingExamples
import Verif.Patch.SimpleReplaceMeansProps
import Verif.Patch.UntupleProps
import Verif.Patch.PeelValidProps
import Verif.Patch.IdentityProps
import Verif.Consts.FoldProps
import Verif.Binary.Props
import Verif.Resolve.Same
import Verif.Builder.Props
import Verif.Builder.WireProps
import Verif.Types.TransformProps
import Verif.Patch.MoveInOrder
import Verif.Patch.OutlineProps
import Verif.Patch.ReplacementProps
import Verif.Patch.ReplaceApplied
import Verif.Patch.MergeBlocksProps
