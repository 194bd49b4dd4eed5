import Verif.Props.Configuration
import Verif.Props.Stationary
import Verif.Props.Updaters
import Verif.Lemmas.NextPerm
import Verif.Model.Updaters
import Verif.Props.SuwaTodo
import Verif.Props.Jastrow
import Verif.Props.Statistics
import Verif.Props.Schedulers
import Verif.Props.Spike
import Verif.Props.Optimizer
import Verif.Props.OptimizerTermination
import Verif.Props.UpdateRules
import Verif.Props.LBFGS
import Verif.Props.LineSearch
import Verif.Props.Selector
import Verif.Props.CG
import Verif.Props.SR
import Verif.Props.Energy
import Verif.Props.Fermion
import Verif.Props.Evaluator
import Verif.Props.Observables
import Verif.Props.Contractor
import Verif.Props.Contractor3
import Verif.Props.Traversal
import Verif.Props.State
import Verif.Props.StateIO
import Verif.Props.SimpleUpdate
import Verif.Props.UpdateLoop
import Verif.Props.Taylor
import Verif.Props.Tps
import Verif.Props.Peps
import Verif.Props.PepsTps
import Verif.Props.PepsInit
import Verif.Props.PepsFlow
import Verif.Props.PepsIO
import Verif.Props.Bmps
import Verif.Props.SplitIndex
import Verif.Props.BondDim
import Verif.Props.BmpsTraversal
import Verif.Props.SolverRun
import Verif.Props.IndexCombine
import Verif.Props.ExactRun
import Verif.Props.Chain
import Verif.Props.McRun
import Verif.Props.ChainPBC
import Verif.Props.Reach
import Verif.Props.Trg
import Verif.Props.TrgTensor
import Verif.Props.TrgHoles
import Verif.Props.TrgWalker
import Verif.Props.Executor
import Verif.Props.PsiConsistency
import Verif.Props.Measurer
import Verif.Props.StructureFactor
import Verif.Props.Walker
import Verif.Props.MinSRRun
import Verif.Props.PepsLoop
import Verif.Props.Arnoldi
import Verif.Props.Replica
import Verif.Props.BmpsVar
import Verif.Props.Conversions
import Verif.Props.WalkerRow
import Verif.Props.BmpsSvdErr
import Verif.Props.BmpsErr
import Verif.Props.BmpsVarStop
import Verif.Props.BmpsCano
import Verif.Props.BmpsCanoTrunc
import Verif.Props.ObsMatrix
import Verif.Props.EnergyWarn
import Verif.Props.BmpsQuasi
import Verif.Props.BmpsRows
import Verif.Spec.WalkerTrunc
import Verif.Props.WalkerTrunc
import Verif.Props.WalkerTrunc3
import Verif.Props.WalkerLines
import Verif.Spec.GradScale
import Verif.Props.GradScale
import Verif.Spec.GradStep
import Verif.Props.GradStep
import Verif.Spec.ScaleRun
import Verif.Lemmas.ScaleRun
import Verif.Props.ScaleRun
import Verif.Model.SRStep
import Verif.Spec.SRStep
import Verif.Props.SRStep
import Verif.Model.SRRun
import Verif.Props.SRRun
import Verif.Spec.ScaleAll
import Verif.Props.ScaleAll
import Verif.Props.ScaleExact
