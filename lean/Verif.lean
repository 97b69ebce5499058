import Verif.Lib.Phase
import Verif.Lib.PSum
import Verif.Model.Scalar
import Verif.Props.Scalar
import Verif.Model.Graph
import Verif.Model.Rule
import Verif.Model.Rules
import Verif.Model.Match
import Verif.Spec.Tensor
import Verif.Spec.Match
import Verif.Spec.Example
import Verif.Sem.PathSum
import Verif.Sem.Ops
import Verif.Sem.OpsInv
import Verif.Sem.Batch
import Verif.Sem.Frame
import Verif.Sem.Sign
import Verif.Sem.Groups
import Verif.Sem.Total
import Verif.Proofs.Ids
import Verif.Proofs.Lcomp
import Verif.Proofs.Spider
import Verif.Proofs.Pivot
import Verif.Model.MatchGadget
import Verif.Proofs.Match
import Verif.Proofs.Gadget
import Verif.Proofs.PivotGadget
import Verif.Proofs.PivotBoundary
import Verif.Props.Rules
import Verif.Props.Graph
import Verif.Model.Linalg
import Verif.Spec.Linalg
import Verif.Proofs.Linalg
import Verif.Proofs.LinalgAlg
import Verif.Proofs.LinalgApp
import Verif.Proofs.LinalgCost
import Verif.Props.Linalg
import Verif.Model.Perm
import Verif.Props.Perm
import Verif.Model.Circuit
import Verif.Spec.Circuit
import Verif.Proofs.Circuit
import Verif.Proofs.Circuit2
import Verif.Proofs.Circuit3
import Verif.Props.Circuit
import Verif.Model.Basic
import Verif.Model.Bialg
import Verif.Model.Recolor
import Verif.Proofs.Color
import Verif.Proofs.Replace
import Verif.Proofs.StrongComp
import Verif.Proofs.Fuse
import Verif.Proofs.Bialg
import Verif.Proofs.Recolor
import Verif.Props.Basic
import Verif.Spec.UpTo
import Verif.Model.Isolated
import Verif.Spec.Isolated
import Verif.Proofs.Isolated
import Verif.Props.Isolated
import Verif.Model.Copy
import Verif.Proofs.Copy
import Verif.Props.Copy
import Verif.Model.Supp
import Verif.Proofs.Supp
import Verif.Props.Supp
import Verif.Model.GadgetFuse
import Verif.Proofs.GadgetFuse
import Verif.Props.GadgetFuse
import Verif.Props.Counts
import Verif.Model.Compose
import Verif.Model.Diff
import Verif.Spec.Matrix
import Verif.Spec.State
import Verif.Proofs.Paste
import Verif.Proofs.Compose
import Verif.Proofs.State
import Verif.Proofs.Diff
import Verif.Props.Compose
import Verif.Props.ComposeEx
import Verif.Props.State
import Verif.Props.Diff
import Verif.Model.Tensorfy
import Verif.Proofs.Tensorfy
import Verif.Props.Tensorfy
import Verif.Model.ToGraph
import Verif.Spec.ToGraph
import Verif.Sem.PathSumH
import Verif.Proofs.ToGraph
import Verif.Props.ToGraph
import Verif.Model.Magic
import Verif.Proofs.Magic
import Verif.Proofs.MagicPhi
import Verif.Proofs.MagicId
import Verif.Props.Magic
import Verif.Model.Symbolic
import Verif.Spec.Symbolic
import Verif.Props.Symbolic
import Verif.Model.Simp
import Verif.Spec.Simp
import Verif.Proofs.Simp
import Verif.Proofs.SimpRules
import Verif.Proofs.SimpBPhase
import Verif.Proofs.SimpLoop
import Verif.Proofs.SimpPivot
import Verif.Proofs.SimpTransfer
import Verif.Proofs.SimpGadget
import Verif.Proofs.SimpBoundary
import Verif.Proofs.SimpMeasure
import Verif.Proofs.SimpClifford
import Verif.Props.Simp
import Verif.Spec.FullReduce
import Verif.Proofs.SimpGadgetFuse
import Verif.Proofs.FullReduce
import Verif.Props.FullReduce
import Verif.Model.GFlow
import Verif.Spec.GFlow
import Verif.Proofs.GFlow
import Verif.Props.GFlow
import Verif.Model.Extract
import Verif.Proofs.ExtSem
import Verif.Proofs.ExtSem2
import Verif.Proofs.ExtSem3
import Verif.Proofs.ExtQ
import Verif.Proofs.ExtCz
import Verif.Proofs.ExtInv
import Verif.Proofs.ExtClean
import Verif.Proofs.ExtNbr
import Verif.Proofs.ExtPivot
import Verif.Proofs.ExtGad
import Verif.Proofs.ExtCnot
import Verif.Proofs.ExtPull
import Verif.Proofs.ExtEnd
import Verif.Proofs.ExtInit
import Verif.Spec.Extract
import Verif.Props.Extract
import Verif.Spec.Norm
import Verif.Proofs.Norm
import Verif.Proofs.ToGraphZX
import Verif.Model.Verify
import Verif.Proofs.Verify
import Verif.Props.Verify
import Verif.Props.Pipeline
import Verif.Model.Optimize
import Verif.Spec.Optimize
import Verif.Proofs.OptComm
import Verif.Proofs.OptLin
import Verif.Proofs.OptMove
import Verif.Proofs.OptLocal
import Verif.Proofs.OptPlace
import Verif.Proofs.OptPlace2
import Verif.Proofs.OptPlace3
import Verif.Proofs.OptLayer
import Verif.Proofs.OptLayer2
import Verif.Proofs.OptSort
import Verif.Proofs.OptParse
import Verif.Proofs.OptPass
import Verif.Proofs.OptRounds
import Verif.Props.Optimize
import Verif.Model.Todd
import Verif.Spec.Todd
import Verif.Proofs.ParityNet
import Verif.Proofs.ToddPoly
import Verif.Proofs.ToddStep
import Verif.Proofs.ToddSem
import Verif.Proofs.ToddMain
import Verif.Proofs.ToddSimp
import Verif.Props.Todd
import Verif.Model.PhaseBlock
import Verif.Spec.PhaseBlock
import Verif.Proofs.PBMove
import Verif.Proofs.PBFlt
import Verif.Proofs.PBFront
import Verif.Proofs.PBBehind
import Verif.Proofs.PBGreedy
import Verif.Proofs.PBBlocks
import Verif.Proofs.PBQuarter
import Verif.Proofs.PBPre
import Verif.Props.PhaseBlock
import Verif.Model.Routing
import Verif.Model.Topology
import Verif.Spec.Routing
import Verif.Proofs.RouteFloyd
import Verif.Proofs.RouteRun
import Verif.Proofs.RouteTree
import Verif.Proofs.RouteElim
import Verif.Proofs.RoutePlace
import Verif.Proofs.RouteCut
import Verif.Proofs.RouteTopo
import Verif.Props.Routing
import Verif.Proofs.TermWeight
import Verif.Proofs.TermLcomp
import Verif.Proofs.TermSpider
import Verif.Proofs.TermIds
import Verif.Proofs.TermPivot
import Verif.Proofs.TermBoundary
import Verif.Proofs.TermGadget
import Verif.Proofs.TermRounds
import Verif.Proofs.TermPasses
import Verif.Proofs.TermFuse
import Verif.Proofs.TermLoop
import Verif.Model.Choose
import Verif.Model.ColSwap
import Verif.Spec.Clifford
import Verif.Proofs.ExtTot
import Verif.Proofs.ExtTot2
import Verif.Proofs.ExtTot3
import Verif.Proofs.ExtTot4
import Verif.Proofs.ExtTot5
import Verif.Proofs.ExtTot6
import Verif.Proofs.ExtTot7
import Verif.Proofs.ExtTot8
import Verif.Proofs.Choose
import Verif.Proofs.Choose2
import Verif.Proofs.CliffGraph
import Verif.Proofs.FiltCnots
import Verif.Proofs.ColSwap
import Verif.Props.Clifford
import Verif.Model.TCount
import Verif.Proofs.TermCount
import Verif.Proofs.ExtCount
import Verif.Props.TCount
import Verif.Model.Simulate
import Verif.Proofs.ScalSep
import Verif.Proofs.ScalSupp
import Verif.Proofs.ScalLoop
import Verif.Proofs.ScalMagic
import Verif.Proofs.ScalDecomp
import Verif.Props.Simulate
import Verif.Model.Generate
import Verif.Model.LocalSearch
import Verif.Proofs.Generate
import Verif.Proofs.GenCnots
import Verif.Props.Generate
import Verif.Props.LocalSearch
import Verif.Model.Identities
import Verif.Proofs.Identities
import Verif.Proofs.IdGraph
import Verif.Props.Identities
import Verif.Model.HRules
import Verif.Proofs.HRules
import Verif.Proofs.HRules2
import Verif.Spec.HForm
import Verif.Props.HRules
import Verif.Proofs.HFuse
import Verif.Props.HFuse
import Verif.Proofs.HZero
import Verif.Model.HPar
import Verif.Proofs.HPar
import Verif.Proofs.HPar2
import Verif.Proofs.HParMatch
import Verif.Proofs.HParFull
import Verif.Model.HSimp
import Verif.Props.HPar
import Verif.Props.HSimp
import Verif.Proofs.HAbsorb
import Verif.Props.HAbsorb
import Verif.Model.HNot
import Verif.Props.HNot
