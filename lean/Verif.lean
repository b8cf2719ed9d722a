import Verif.Model.Basic
import Verif.Model.Tools
import Verif.Lemmas.Tools
import Verif.Props.Tools
import Verif.Spec.TSet
import Verif.Lemmas.TSet
import Verif.Props.TSet
import Verif.Model.Base
import Verif.Model.MC
import Verif.Spec.Paths
import Verif.Lemmas.Paths
import Verif.Lemmas.Likelihood
import Verif.Props.Likelihood
import Verif.Spec.Draws
import Verif.Lemmas.Draws
import Verif.Props.Simulation
import Verif.Model.Generate
import Verif.Props.Generate
import Verif.Model.BW
import Verif.Lemmas.FB
import Verif.Spec.Counts
import Verif.Spec.Models
import Verif.Lemmas.Counts
import Verif.Lemmas.EM
import Verif.Lemmas.BWMC
import Verif.Lemmas.BWHMM
import Verif.Lemmas.BWSet
import Verif.Lemmas.Loop
import Verif.Props.BW
import Verif.Props.BWLearn
import Verif.Lemmas.Learn
import Verif.Props.BWLearnHMM
import Verif.Props.Loop
import Verif.Model.MDP
import Verif.Spec.MDP
import Verif.Lemmas.MDP
import Verif.Props.MDP
import Verif.Lemmas.BWMDP
import Verif.Props.BWMDP
import Verif.Model.CTMC
import Verif.Spec.CTMC
import Verif.Lemmas.CTMC
import Verif.Props.CTMC
import Verif.Props.BWCTMC
import Verif.Model.GoHMM
import Verif.Spec.GoHMM
import Verif.Lemmas.BWGoHMM
import Verif.Props.GoHMM
import Verif.Props.BWGoHMM
import Verif.Model.Create
import Verif.Spec.Create
import Verif.Lemmas.Create
import Verif.Props.Create
import Verif.Props.Random
import Verif.Model.Files
import Verif.Spec.Files
import Verif.Lemmas.Files
import Verif.Lemmas.FilesDec
import Verif.Props.Files
import Verif.Props.ModelFiles
import Verif.Model.Prep
import Verif.Spec.Prep
import Verif.Props.Prep
import Verif.Model.PCTMC
import Verif.Spec.PCTMC
import Verif.Lemmas.PCTMC
import Verif.Props.PCTMC
import Verif.Model.PReduce
import Verif.Spec.PReduce
import Verif.Lemmas.PReduce
import Verif.Props.PReduce
import Verif.Model.Compose
import Verif.Spec.Compose
import Verif.Lemmas.Compose
import Verif.Props.Compose
import Verif.Model.PCompose
import Verif.Spec.PCompose
import Verif.Lemmas.PCompose
import Verif.Lemmas.PFinish
import Verif.Props.PCompose
import Verif.Model.PFiles
import Verif.Props.PFiles
import Verif.Model.CreatePCTMC
import Verif.Spec.CreatePCTMC
import Verif.Props.CreatePCTMC
import Verif.Model.Alergia
import Verif.Spec.Alergia
import Verif.Lemmas.AlergiaHeap
import Verif.Lemmas.AlergiaFold
import Verif.Lemmas.AlergiaStep
import Verif.Lemmas.AlergiaMerge
import Verif.Lemmas.AlergiaTree
import Verif.Lemmas.AlergiaChain
import Verif.Lemmas.AlergiaFit
import Verif.Props.Alergia
import Verif.Model.Active
import Verif.Spec.Active
import Verif.Props.Active
import Verif.Model.IOAlergia
import Verif.Lemmas.IOAlergiaGraph
import Verif.Lemmas.IOAlergiaAuto
import Verif.Lemmas.IOAlergiaMerge
import Verif.Lemmas.IOAlergiaLoop
import Verif.Spec.IOAlergia
import Verif.Lemmas.IOAlergiaCompat
import Verif.Lemmas.IOAlergiaTree
import Verif.Lemmas.IOAlergiaExt
import Verif.Lemmas.IOAlergiaMDP
import Verif.Lemmas.IOAlergiaFit
import Verif.Props.IOAlergia
import Verif.Model.Storm
import Verif.Spec.Storm
import Verif.Lemmas.Storm
import Verif.Props.Storm
import Verif.Props.StormImport
import Verif.Model.BWPCTMC
import Verif.Spec.BWPCTMC
import Verif.Lemmas.PExpr
import Verif.Lemmas.PGain
import Verif.Lemmas.PSort
import Verif.Lemmas.PUpdate
import Verif.Lemmas.GainCT
import Verif.Lemmas.PTables
import Verif.Lemmas.PStep
import Verif.Lemmas.PReduceWF
import Verif.Props.BWPCTMC
import Verif.Props.FitParameters
import Verif.Props.FitParametersEx
import Verif.Model.Prism
import Verif.Spec.Prism
import Verif.Lemmas.Prism
import Verif.Lemmas.PrismProgram
import Verif.Lemmas.PrismPCTMC
import Verif.Props.Prism
import Verif.Props.PrismRound
import Verif.Spec.PrismParam
import Verif.Props.PrismParam
import Verif.Props.PrismEx
import Verif.Props.PrismPCTMC
import Verif.Model.PFit
import Verif.Lemmas.PFit
import Verif.Props.PFit
import Verif.Props.PFitEx
import Verif.Model.Finish
import Verif.Props.Finish
import Verif.Props.FinishEx
import Verif.Model.FinishOthers
import Verif.Props.FinishOthers
import Verif.Props.FinishOthersEx
import Verif.Spec.Observable
import Verif.Props.Observable
import Verif.Props.ObservableMDP
import Verif.Props.ObservableCTMC
import Verif.Props.ObservableEx
import Verif.Spec.Clocks
import Verif.Spec.CTMCSim
import Verif.Props.CTMCSim
import Verif.Props.CTMCSimTimed
import Verif.Props.CTMCSimEx
import Verif.Spec.MDPSim
import Verif.Props.MDPSim
import Verif.Props.MDPSimEx
import Verif.Spec.Streams
import Verif.Spec.Geometric
import Verif.Spec.GenerateMDP
import Verif.Props.GenerateLaw
import Verif.Props.GenerateGeo
import Verif.Props.GenerateMDP
import Verif.Spec.GenerateOne
import Verif.Lemmas.StopStream
import Verif.Lemmas.GenerateOne
import Verif.Props.GenerateOne
import Verif.Props.GenerateEx
import Verif.Spec.Evaluation
import Verif.Lemmas.Evaluation
import Verif.Props.Evaluation
import Verif.Props.EvaluationEx
import Verif.Spec.Consistency
import Verif.Lemmas.Consistency
import Verif.Lemmas.ConsistencyMDP
import Verif.Props.Consistency
import Verif.Props.ConsistencyMDP
import Verif.Props.ConsistencyEx
import Verif.Spec.Renaming
import Verif.Lemmas.Renaming
import Verif.Props.Renaming
import Verif.Props.RenamingMDP
import Verif.Props.RenamingCTMC
import Verif.Props.RenamingGo
import Verif.Props.RenamingEx
import Verif.Model.IOAlergiaRun
import Verif.Props.IOAlergiaRun
import Verif.Spec.GoHMMSim
import Verif.Lemmas.GoHMMSim
import Verif.Props.GoHMMSim
import Verif.Spec.GoHMMEval
import Verif.Lemmas.Averages
import Verif.Lemmas.GoHMMEval
import Verif.Props.GoHMMEval
import Verif.Spec.ConsistencyCTMC
import Verif.Lemmas.ConsistencyCTMC
import Verif.Props.ConsistencyCTMC
import Verif.Model.StateArgs
import Verif.Spec.StateArgs
import Verif.Lemmas.StateArgs
import Verif.Props.StateArgs
import Verif.Spec.PCTMCSim
import Verif.Lemmas.RaceFree
import Verif.Props.PCTMCSim
import Verif.Lemmas.TimedLaw
import Verif.Lemmas.TimedDensity
import Verif.Spec.TimedEval
import Verif.Lemmas.TimedEval
import Verif.Props.TimedEval
import Verif.Spec.PCTMCEval
import Verif.Lemmas.PCTMCEval
import Verif.Props.PCTMCEval
import Verif.Spec.PLearn
import Verif.Lemmas.PLearn
import Verif.Props.PLearn
import Verif.Props.PLearnFit
import Verif.Lemmas.Walker
import Verif.Lemmas.PWalker
import Verif.Props.ConsistencyPCTMC
import Verif.Props.PLearnEx
import Verif.Spec.Stationary
import Verif.Lemmas.Limit
import Verif.Lemmas.LimitMC
import Verif.Lemmas.Climb
import Verif.Props.Limit
import Verif.Lemmas.LimitCT
import Verif.Props.LimitCT
import Verif.Lemmas.LimitMDP
import Verif.Props.LimitMDP
import Verif.Lemmas.LimitHMM
import Verif.Props.LimitHMM
import Verif.Model.Print
import Verif.Spec.Print
import Verif.Lemmas.Print
import Verif.Props.Print
import Verif.Props.PrintHMM
import Verif.Model.PrintPCTMC
import Verif.Lemmas.PrintPCTMC
import Verif.Props.PrintPCTMC
import Verif.Lemmas.Hoeffding
import Verif.Lemmas.AlergiaError
import Verif.Spec.AlergiaError
import Verif.Lemmas.AlergiaErrorLaw
import Verif.Props.AlergiaError
import Verif.Spec.AlergiaLimit
import Verif.Lemmas.AlergiaLimit
import Verif.Props.AlergiaLimit
import Verif.Props.AlergiaHMM
import Verif.Model.FinishPCTMC
import Verif.Props.FinishPCTMC
import Verif.Props.FinishPCTMCEx
import Verif.Props.Scale
import Verif.Props.ScalePCTMC
import Verif.Props.ScaleEx
import Verif.Props.Resume
import Verif.Props.ResumeEx
import Verif.Props.Impossible
import Verif.Model.Launch
import Verif.Spec.Launch
import Verif.Props.Launch
import Verif.Props.LaunchEx
import Verif.Spec.PIter
import Verif.Props.PIter
import Verif.Props.PIterEx
import Verif.Spec.Kinds
import Verif.Lemmas.Kinds
import Verif.Props.Kinds
import Verif.Props.KindsMDP
import Verif.Props.KindsEx
import Verif.Spec.Folding
import Verif.Lemmas.Folding
import Verif.Props.Folding
import Verif.Props.FoldingMDP
import Verif.Props.FoldingCTMC
import Verif.Props.FoldingGo
import Verif.Props.FoldingEx
import Verif.Spec.Near
import Verif.Lemmas.Near
import Verif.Props.Near
import Verif.Props.NearHMM
import Verif.Props.NearMDP
import Verif.Props.NearCTMC
import Verif.Props.NearTotal
import Verif.Props.NearEx
import Verif.Lemmas.Short
import Verif.Props.Short
import Verif.Props.ShortEx
import Verif.Props.ShortUse
import Verif.Spec.Continues
import Verif.Props.Prefix
import Verif.Props.Continue
import Verif.Props.ContinueEx
import Verif.Props.PCTMCDefaults
import Verif.Model.SetHeap
import Verif.Spec.SetHeap
import Verif.Lemmas.SetHeap
import Verif.Props.SetHeap
import Verif.Model.PHeap
import Verif.Spec.PHeap
import Verif.Lemmas.PHeap
import Verif.Props.PHeap
import Verif.Spec.Product
import Verif.Lemmas.Product
import Verif.Props.Product
import Verif.Spec.IOAlergiaError
import Verif.Lemmas.IOAlergiaError
import Verif.Lemmas.IOAlergiaErrorLaw
import Verif.Props.IOAlergiaError
import Verif.Lemmas.IOAlergiaLimit
import Verif.Props.IOAlergiaLimit
import Verif.Lemmas.Precision
import Verif.Props.Precision
import Verif.Lemmas.LearnPrecision
import Verif.Props.LearnPrecision
import Verif.Lemmas.Fresh
import Verif.Props.Fresh
import Verif.Props.FreshMDP
import Verif.Props.FreshAlergia
import Verif.Model.StormCalls
import Verif.Props.StormCalls
import Verif.Model.ActiveCount
import Verif.Props.ActiveCount
import Verif.Props.FitEnds
import Verif.Props.PrepPCTMC
import Verif.Props.ResumeHMM
import Verif.Props.GoOne
import Verif.Props.GoOneEnds
import Verif.Props.OneBest
import Verif.Props.OneTotal
