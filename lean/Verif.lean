import Verif.Admm
import Verif.AdmmBinary
import Verif.AdmmLemmas
import Verif.AdmmRun
import Verif.AdmmStep1
import Verif.AdmmSteps
import Verif.AdmmSteps2
import Verif.AdmmTrace
import Verif.Apps
import Verif.AppsLemmas
import Verif.BitsTotal
import Verif.BuildLemmas
import Verif.Cplex
import Verif.DecodeLemmas
import Verif.Dict
import Verif.DictLemmas
import Verif.Docplex
import Verif.DocplexExport
import Verif.DocplexLemmas
import Verif.DocplexSuccess
import Verif.Draw
import Verif.Dtype
import Verif.EditLemmas
import Verif.EncodeLemmas
import Verif.Expr
import Verif.ExprLemmas
import Verif.Files
import Verif.FloatErrorLemmas
import Verif.FloatEval
import Verif.FloatEvalLemmas
import Verif.FloatLog
import Verif.FloatPenalty
import Verif.FloatQubo
import Verif.FloatQuboLemmas
import Verif.Geometry
import Verif.GeometryLemmas
import Verif.GoemansLemmas
import Verif.GoemansRounding
import Verif.GoemansRoundingLemmas
import Verif.GoemansWilliamson
import Verif.Grover
import Verif.GroverCircuit
import Verif.GroverCircuitLemmas
import Verif.GroverDraw
import Verif.GroverLemmas
import Verif.GroverRun
import Verif.GroverRunLemmas
import Verif.GrowLemmas
import Verif.HyperplaneLemmas
import Verif.IneqToEq
import Verif.IneqToEqLemmas
import Verif.IneqToEqLoops
import Verif.IneqToEqMain
import Verif.IneqToEqSuccess
import Verif.Inputs
import Verif.IntToBin
import Verif.IntToBinLemmas
import Verif.IntToBinMain
import Verif.IntToBinStages
import Verif.IntToBinSuccess
import Verif.Ising
import Verif.IsingLemmas
import Verif.IsingMatrix
import Verif.ListSum
import Verif.LpFile
import Verif.Mirror
import Verif.Multistart
import Verif.NegIndex
import Verif.Opposite
import Verif.OppositeRecursive
import Verif.OppositeRuns
import Verif.OrderQubo
import Verif.Penalty
import Verif.PenaltyLemmas
import Verif.PipelineLemmas
import Verif.Program
import Verif.ProgramLemmas
import Verif.PropsAdmm
import Verif.PropsAdmmBinary
import Verif.PropsAdmmContinuous
import Verif.PropsAdmmConverge
import Verif.PropsAdmmFixed
import Verif.PropsAdmmIndex
import Verif.PropsAdmmSteps
import Verif.PropsAgree
import Verif.PropsApps
import Verif.PropsAppsAgree
import Verif.PropsBestSample
import Verif.PropsCompat
import Verif.PropsCplex
import Verif.PropsDecode
import Verif.PropsDocplex
import Verif.PropsDocplexFail
import Verif.PropsDraw
import Verif.PropsDtype
import Verif.PropsEdit
import Verif.PropsEquations
import Verif.PropsExpr
import Verif.PropsFeasible
import Verif.PropsFiles
import Verif.PropsFloat
import Verif.PropsFloatDecimal
import Verif.PropsFloatError
import Verif.PropsFloatLog
import Verif.PropsFloatPenalty
import Verif.PropsFloatQubo
import Verif.PropsGeometry
import Verif.PropsGoemans
import Verif.PropsGoemansBound
import Verif.PropsGrover
import Verif.PropsGroverCaller
import Verif.PropsGroverCircuit
import Verif.PropsGroverCounts
import Verif.PropsGroverDraw
import Verif.PropsGroverRun
import Verif.PropsIneqToEq
import Verif.PropsIntToBin
import Verif.PropsIsing
import Verif.PropsIsingMatrix
import Verif.PropsItems
import Verif.PropsLocal
import Verif.PropsLpFile
import Verif.PropsMinEigen
import Verif.PropsMirror
import Verif.PropsMultistart
import Verif.PropsMultistartMore
import Verif.PropsNegIndex
import Verif.PropsOpposite
import Verif.PropsOrder
import Verif.PropsOrderQubo
import Verif.PropsPenalty
import Verif.PropsPipeline
import Verif.PropsPipelineItems
import Verif.PropsPipelineTours
import Verif.PropsProgram
import Verif.PropsQubo
import Verif.PropsQuboSize
import Verif.PropsQuboTwice
import Verif.PropsQuboValue
import Verif.PropsRaise
import Verif.PropsRecursive
import Verif.PropsRecursiveExact
import Verif.PropsRelax
import Verif.PropsRename
import Verif.PropsRenameAdmm
import Verif.PropsRenameRecursive
import Verif.PropsRenumber
import Verif.PropsRenumberQubo
import Verif.PropsResult
import Verif.PropsReuse
import Verif.PropsRounding
import Verif.PropsSampleOrder
import Verif.PropsScale
import Verif.PropsSlackShape
import Verif.PropsSubstChain
import Verif.PropsSubstitute
import Verif.PropsTsp
import Verif.PropsVarDict
import Verif.PropsVehicle
import Verif.PropsWarmCircuit
import Verif.PropsWarmStart
import Verif.PropsWellFormed
import Verif.Qubo
import Verif.QuboLemmas
import Verif.QuboSample
import Verif.QuboSize
import Verif.Raise
import Verif.RaiseRuns
import Verif.Recursive
import Verif.RecursiveExact
import Verif.RecursiveLemmas
import Verif.Rename
import Verif.RenameAdmm
import Verif.RenameRecursive
import Verif.RenameSolve
import Verif.RenameSubst
import Verif.Renumber
import Verif.Result
import Verif.ResultLemmas
import Verif.Reuse
import Verif.ReuseLemmas
import Verif.RouteLemmas
import Verif.Scale
import Verif.SlackSpec
import Verif.SlackTotal
import Verif.Spec
import Verif.SubstChainLemmas
import Verif.SubstSuccess
import Verif.SubstTableLemmas
import Verif.Substitute
import Verif.SubstituteLemmas
import Verif.SubstituteSpec
import Verif.SumLemmas
import Verif.TourLemmas
import Verif.Tours
import Verif.VarDict
import Verif.WFLemmas
import Verif.WarmStart
import Verif.WarmStartLemmas
import Verif.WarmStartRuns
