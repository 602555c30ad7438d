import Verif.Props.EventInterval
import Verif.Props.RunLoop
import Verif.Props.RestartSchedule
import Verif.Props.TemperatureHistory
import Verif.Props.Functions
import Verif.Props.PairWeights
import Verif.Props.Quat
import Verif.Props.QuatTransfer
import Verif.Props.Tools
import Verif.Props.Grains
import Verif.Props.Coefficients
import Verif.Props.Flux
import Verif.Props.PhaseFlow
import Verif.Props.PhaseRHS
import Verif.Props.MultiOrder
import Verif.Props.RigidBody
import Verif.Props.Weights
import Verif.Props.Tagging
import Verif.Props.OrientSolve
import Verif.Props.Smoother
import Verif.Props.BcTable
import Verif.Props.InputEcho
import Verif.Props.DiffCoeff
import Verif.Props.Anisotropy
import Verif.Props.EnergyReport
import Verif.Props.TempField
import Verif.Props.HeatEquation
import Verif.Props.Alloy
import Verif.Props.KimMobility
import Verif.Props.QuatNearest
import Verif.Props.QuatFlow
import Verif.Props.QuatDissipation
import Verif.Props.LevelSolve
import Verif.Props.Precond
import Verif.Props.Interface
import Verif.Props.ConservedFlow
import Verif.Props.Regrid
import Verif.Props.ScalarDiag
import Verif.Props.AntiTrap
import Verif.Props.FieldsFile
import Verif.Props.Selection
import Verif.Props.AlloyThree
import Verif.Props.MobDiff
import Verif.Props.GradT
import Verif.Props.PhaseSplit
import Verif.Props.RateCall
import Verif.Props.Frame
import Verif.Props.Velocity
import Verif.Props.Boundary
import Verif.Props.Coupling
import Verif.Props.FACSolve
import Verif.Props.StepCall
import Verif.Props.CoarseFine
import Verif.Props.QuatPrecond
import Verif.Props.Restart
import Verif.Props.Remesh
import Verif.Props.Noise
import Verif.Props.PhaseConc
import Verif.Props.DrivingForce
import Verif.Props.Rescale
import Verif.Props.Projection
import Verif.Props.MeltFlow
import Verif.Props.MeltFlow3
import Verif.Props.PrecondCall
import Verif.Props.AlloyFlow
import Verif.Props.AlloyFlowLimits
import Verif.Props.AlloyFlowKKS
import Verif.Props.SelectionInput
import Verif.Props.StartGuess
import Verif.Props.Smoothing
import Verif.Props.InterfaceDiff
import Verif.Props.SmoothLevel
import Verif.Props.PrecondLevel
import Verif.Props.GrainEnergy
import Verif.Props.Options
import Verif.Props.QuatFlow3
import Verif.Props.AlloyFlow3
import Verif.Props.AlloyFlow3Columns
import Verif.Props.ConservedFlow3
import Verif.Props.ConservedFlow3Columns
import Verif.Props.FluxAxes
import Verif.Props.LevelSolve3
import Verif.Props.HandOver
import Verif.Props.SolverMesh
import Verif.Props.MeltColumns
import Verif.Props.Coupling3
import Verif.Props.IntegratorNorm
import Verif.Props.DrivingForceVar
import Verif.Props.QuatRefineFill
import Verif.Props.HistoryField
import Verif.Props.AlloyPlacement
import Verif.Props.InitMesh
import Verif.Props.PhaseBounds
import Verif.Props.ThreeBounds
import Verif.Props.MultiBounds
import Verif.Props.SoluteBounds
import Verif.Props.TempReport
import Verif.Props.HeatOrder
import Verif.Props.Observe
import Verif.Props.MobilityFile
import Verif.Props.GrainFlow
import Verif.Props.Convergence
import Verif.Props.Drivers
import Verif.Props.Nuclei
import Verif.Props.Dependence
import Verif.Props.Bilayer
import Verif.Props.QuatBound
import Verif.Props.PyQuat
import Verif.Props.MeltExist
import Verif.Props.CommandLine
import Verif.Props.BoundaryGrains
import Verif.Props.MultiSpheres
import Verif.Props.Sphere
import Verif.Props.MeltRest
import Verif.Props.MeltRest3
import Verif.Props.GrainRest
import Verif.Props.GrainExist
import Verif.Props.Corners
import Verif.Props.GrainWalls
import Verif.Props.Substitute
import Verif.Props.VolFrac
import Verif.Props.MeltHistory
import Verif.Props.MeltWalls
import Verif.Props.MeltWalls3
import Verif.Props.GrainScripts
import Verif.Props.CalphadFile
import Verif.Props.Profiles
import Verif.Props.Bain
import Verif.Props.LinePlot
import Verif.Props.OptionalBlocks
import Verif.Props.TempInput
