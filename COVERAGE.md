# Source lines cited by the model

Generated by `gen_coverage.py`.  Lines that are not listed are not modelled.

| Source file | lines | cited | ranges | model files |
|---|---|---|---|---|
| source/AMPE.cc | 134 | 116 | 19-134 | CommandLine |
| source/AMPE.h | 48 | 28 | 21-48 | CommandLine |
| source/AdaptMovingFrame.cc | 67 | 52 | 15-27, 29-67 | Coefficients |
| source/AzizPartitionCoefficientStrategy.cc | 169 | 56 | 40-54, 78-92, 136-145, 151-166 | CalphadFile, Coefficients |
| source/BeckermannCompositionRHSStrategy.cc | 466 | 130 | 227-240, 271-307, 309-345, 347-388 | Coupling, Coupling3 |
| source/BiasDoubleWellBeckermannFreeEnergyStrategy.cc | 93 | 27 | 67-93 | Rescale |
| source/BiasDoubleWellUTRCFreeEnergyStrategy.cc | 95 | 25 | 71-95 | Rescale |
| source/CALPHADFreeEnergyStrategyBinary.cc | 969 | 347 | 255-320, 413-432, 436-683, 688-700 | Alloy, AlloyFlow, AlloyThree, DrivingForce, PhaseBounds |
| source/CALPHADFreeEnergyStrategyBinaryThreePhase.cc | 782 | 329 | 240-325, 418-660 | DrivingForce, PhaseRHS, ThreeBounds |
| source/CALPHADFreeEnergyStrategyMultiOrder.cc | 254 | 201 | 45-245 | AlloyThree, DrivingForce, MultiBounds |
| source/CALPHADFreeEnergyStrategyTernary.cc | 669 | 335 | 185-290, 375-566, 632-668 | Alloy, DrivingForce, PhaseBounds |
| source/CALPHADMobility.cc | 244 | 213 | 18, 20-153, 158-168, 170-177, 181-195, 200-219, 221-244 | Coefficients, MobilityFile |
| source/CALPHADMobility.h | 152 | 83 | 36-44, 46-59, 61-96, 108-131 | Coefficients |
| source/CALPHADequilibriumPhaseConcentrationsStrategy.cc | 454 | 292 | 163-454 | PhaseConc, PhaseSplit, Restart, StartGuess |
| source/CALPHADequilibriumPhaseConcentrationsStrategyMultiOrder.cc | 52 | 18 | 30-47 | CalphadFile, InputEcho |
| source/CALPHADequilibriumPhaseConcentrationsStrategyMultiOrderThreePhases.cc | 63 | 15 | 33-47 | CalphadFile |
| source/CahnHilliardDoubleWell.cc | 109 | 42 | 66-107 | ConservedFlow, ConservedFlow3 |
| source/CartesianRobinBcHelperWithDepth.cc | 787 | 365 | 165-174, 186-540 | Boundary, Boundary3, HeatOrder, Rescale |
| source/CompositionDiffusionStrategy.h | 51 | 12 | 34-45 | Options, PhaseSplit |
| source/CompositionDiffusionStrategyFactory.h | 105 | 67 | 34-100 | InterfaceDiff, Options, Selection |
| source/CompositionRHSStrategy.cc | 116 | 28 | 25-52 | GradT |
| source/CompositionRHSStrategyFactory.h | 105 | 80 | 26-105 | ConservedFlow, ConservedFlow3, GradT, Options, Selection, SoluteBounds |
| source/CompositionStrategyMobilities.cc | 373 | 53 | 34-39, 200-246 | CalphadFile, MobDiff |
| source/ConcFACOps.cc | 61 | 34 | 28-61 | PrecondLevel |
| source/ConstantHeatCapacityStrategy.cc | 36 | 14 | 23-36 | Thermal |
| source/ConstantMolarVolumeStrategy.h | 48 | 2 | 25-26 | Alloy |
| source/ConstantTemperatureStrategy.h | 77 | 36 | 35-70 | RateCall, TempReport |
| source/Database2JSON.cc | 186 | 160 | 26-119, 121-186 | Drivers, InputEcho |
| source/DeltaTemperatureFreeEnergyStrategy.cc | 248 | 93 | 88-140, 143-182 | MeltFlow, PrecondCall, Rescale |
| source/DerivDiffusionCoeffForQuat.cc | 148 | 19 | 129-147 | QuatPrecond |
| source/EBSCompositionRHSStrategy.cc | 533 | 143 | 149-154, 192-327, 374 | AlloyFlow, AlloyFlow3, Flux, MobDiff, PhaseConc, PhaseSplit, SoluteBounds |
| source/EBSCompositionRHSStrategy.h | 120 | 1 | 42 | GradT |
| source/EBSCompositionRHSStrategyWithGradT.cc | 534 | 60 | 56-69, 265-310 | GradT |
| source/EBSCompositionRHSStrategyWithGradT.h | 90 | 1 | 68 | GradT |
| source/EllipticFACOps.cc | 2604 | 884 | 2, 466-772, 781-818, 913-940, 1067-1231, 1239-1346, 1355-1387, 1692-1694, 1726-1741, 1784, 1958-1966, 1974-1993, 2020-2024, 2144-2291, 2309, 2513 | CoarseFine, FACSolve, IntegratorNorm, Precond, SmoothLevel, Smoother, SolverMesh |
| source/EllipticFACSolver.cc | 382 | 246 | 34-58, 102-147, 165-178, 181-196, 199-211, 225-274, 288-369 | IntegratorNorm, SolverMesh |
| source/EllipticFACSolver.h | 547 | 9 | 271-279 | SolverMesh |
| source/EnergyEvaluationStrategy.cc | 59 | 35 | 14-42, 44-49 | EnergyReport |
| source/EquilibriumPhaseConcentrationsBinaryMultiOrder.cc | 151 | 125 | 27-151 | Alloy, PhaseConc, PhaseSplit, StartGuess |
| source/EquilibriumPhaseConcentrationsBinaryMultiOrderThreePhases.cc | 176 | 148 | 29-176 | AlloyThree, PhaseConc, StartGuess |
| source/EventInterval.cc | 175 | 153 | 17-79, 81-90, 92-95, 97-107, 109-123, 125-139, 141-175 | EventInterval, OptionalBlocks |
| source/EventInterval.h | 56 | 9 | 24, 46-53 | EventInterval |
| source/FieldsInitializer.cc | 707 | 606 | 72-345, 350-640, 660-700 | FieldsFile |
| source/FieldsWriter.cc | 639 | 580 | 55-483, 489-639 | FieldsFile, InitMesh, Rescale |
| source/FreeEnergyStrategy.cc | 86 | 18 | 49-66 | DrivingForce |
| source/FreeEnergyStrategy.h | 98 | 15 | 68-82 | DrivingForce |
| source/FreeEnergyStrategyFactory.h | 265 | 230 | 36-265 | AlloyFlow, CalphadFile, MeltFlow, MultiBounds, PhaseBounds, Rescale, Selection, ThreeBounds |
| source/GaussianTemperatureStrategy.cc | 191 | 91 | 68-110, 112-159 | TempReport, Thermal |
| source/GradientTemperatureStrategy.cc | 211 | 99 | 69-97, 100-169 | HistoryField, TempReport, Thermal |
| source/GradientTemperatureStrategy.h | 91 | 13 | 36-48 | HistoryField, Thermal |
| source/Grains.cc | 1156 | 596 | 22-56, 78-124, 133-158, 227-244, 267, 277, 283, 289, 291, 301-305, 307-312, 314-324, 345-361, 382-520, 536-590, 598-606, 625-630, 651, 657-691, 693-697, 782-789, 799-813, 822-873, 906, 974-1062, 1116-1126 | GrainScripts, Grains, OptionalBlocks, Smoothing |
| source/HierarchyStencilOps.cc | 223 | 1 | 147 | Tagging |
| source/KKSCompositionRHSStrategy.cc | 441 | 137 | 133-146, 272-372, 419-440 | AlloyFlow3, Coupling, Coupling3 |
| source/KKSdiluteBinary.cc | 697 | 270 | 62, 270-337, 422-440, 444-625 | DrivingForce, InputEcho |
| source/KKSdiluteEquilibriumPhaseConcentrationsStrategy.cc | 190 | 151 | 40-190 | PhaseConc, StartGuess |
| source/KKStools.cc | 30 | 18 | 13-30 | Alloy |
| source/KimMobilityStrategy.cc | 312 | 115 | 49-63, 65-69, 99-113, 226-305 | Alloy, CalphadFile |
| source/KimMobilityStrategyFiniteMob.cc | 46 | 3 | 34-36 | Alloy |
| source/KimMobilityStrategyFiniteMob.h | 43 | 0 |  | Alloy |
| source/KimMobilityStrategyFiniteMobAntiTrap.cc | 89 | 38 | 43-80 | Alloy |
| source/KimMobilityStrategyInfMob.cc | 92 | 35 | 49-83 | Alloy |
| source/KimMobilityStrategyInfMob3Phases.cc | 114 | 67 | 45-111 | Alloy |
| source/MinIntCoarsen.cc | 106 | 23 | 84-106 | Tools |
| source/MobilityCompositionDiffusionStrategy.cc | 611 | 168 | 19-28, 57-96, 98-144, 291-331, 522-551 | MobDiff |
| source/MobilityFactory.h | 165 | 133 | 31-163 | CalphadFile, Selection |
| source/MovingFrameRHS.cc | 129 | 115 | 15-129 | Frame, HeatOrder, MultiBounds, PhaseBounds, ThreeBounds |
| source/MultiOrderPEnergyEvaluationStrategy.cc | 111 | 21 | 32-52 | RigidBody |
| source/MultiOrderRHSStrategy.cc | 300 | 133 | 49, 70-84, 146-262 | DrivingForce, Interface, MultiBounds, Remesh |
| source/NKRHeatCapacityStrategy.cc | 133 | 42 | 31-49, 54-76 | TempReport, Thermal |
| source/Noise.cc | 73 | 59 | 15-73 | Noise |
| source/PFModel.cc | 753 | 372 | 87-99, 109-117, 133-134, 188-202, 222-237, 249-264, 320-323, 341-407, 419-434, 436-536, 565-570, 607-618, 621-651, 653-716 | CommandLine, FieldsFile, GrainScripts, HandOver, InitMesh, OptionalBlocks, Remesh, Restart, RunLoop, Smoothing, StepCall, VolFrac |
| source/PFModel.h | 174 | 6 | 148, 156-160 | InitMesh, RunLoop |
| source/PartitionCoefficientStrategy.cc | 53 | 20 | 34-53 | RateCall |
| source/PartitionPhaseConcentrationsStrategy.cc | 150 | 137 | 14-150 | Coefficients, PhaseConc, SoluteBounds |
| source/PhaseConcentrationsStrategy.cc | 129 | 104 | 26-129 | PhaseConc |
| source/PhaseConcentrationsStrategyFactory.h | 225 | 188 | 38-225 | CalphadFile, InputEcho, Selection, StartGuess |
| source/PhaseFACOps.cc | 183 | 35 | 33-52, 165-179 | Precond |
| source/PhaseFluxStrategyFactory.h | 38 | 12 | 16-22, 29-33 | Interface, PhaseBounds |
| source/PhaseFluxStrategyIsotropic.cc | 64 | 11 | 50-60 | Interface |
| source/PhaseFluxStrategySimple.cc | 73 | 10 | 54-63 | Interface |
| source/PhaseFreeEnergyStrategy.cc | 176 | 41 | 120-160 | MultiBounds, PhaseRHS |
| source/PhaseIndependentConcentrationsStrategy.cc | 41 | 28 | 14-41 | PhaseConc |
| source/PhaseRHSStrategyWithQ.cc | 312 | 238 | 68, 75-89, 91-312 | AlloyFlow, AlloyFlow3, DrivingForce, GrainEnergy, Interface, MeltFlow, Noise, Observe, Options, PhaseBounds, PhaseRHS, RateCall, Remesh, Rescale |
| source/PhaseTemperatureFACOps.cc | 178 | 28 | 31-46, 157-163, 172-176 | Precond |
| source/QuadraticEquilibriumPhaseConcentrationsStrategy.cc | 144 | 102 | 42-143 | PhaseConc, PhaseSplit, StartGuess |
| source/QuadraticEquilibriumThreePhasesTernaryStrategyMultiOrder.cc | 181 | 134 | 48-181 | AlloyThree, PhaseConc, StartGuess |
| source/QuadraticFreeEnergyStrategy.cc | 556 | 133 | 168-256, 486-498, 500-530 | Alloy, AlloyFlow, DrivingForce, PhaseBounds |
| source/QuadraticFreeEnergyStrategyMultiOrder.cc | 579 | 400 | 65-225, 307-545 | DrivingForce, MultiBounds |
| source/QuadraticFreeEnergyStrategyMultiOrderTernaryThreePhase.cc | 598 | 471 | 84-234, 237-517, 560-598 | AlloyThree, DrivingForce, MultiBounds |
| source/QuatFACOps.cc | 2574 | 593 | 70, 147-148, 254-255, 494-498, 735-827, 831-870, 1092-1168, 1220, 1440-1446, 1572-1578, 1757-1850, 1892-1958, 2078-2120, 2277-2315, 2318-2432 | CoarseFine, IntegratorNorm, Projection, QuatFlow, QuatFlow3, QuatPrecond, SolverMesh |
| source/QuatFaceCoeff.cc | 121 | 84 | 38-121 | GrainEnergy, QuatFlow, QuatFlow3 |
| source/QuatGradModulusStrategy.cc | 107 | 0 |  | GrainEnergy |
| source/QuatIntegrator.cc | 4172 | 2048 | 3, 63-130, 228, 238-241, 428-551, 557-595, 918-925, 977-983, 1217-1283, 1341-1343, 1345-1350, 1353-1383, 1426, 1577-1578, 1592, 1622-1670, 1676-1730, 1764-1805, 1809-1824, 1940-2008, 2010-2016, 2066-2235, 2263-2269, 2406, 2440-2478, 2480-2546, 2550-2566, 2578-2691, 2693-2826, 2872-2956, 2962-2994, 3000-3090, 3092-3127, 3134-3302, 3307-3373, 3378-3387, 3408-3443, 3488-3541, 3574, 3607-3631, 3666-3765, 3770-3825, 3827-3880, 3882-3908, 3911-3963, 4007 | Alloy, ConservedFlow, ConservedFlow3, DrivingForce, Flux, Frame, GradT, GrainEnergy, HeatOrder, HistoryField, IntegratorNorm, Interface, LevelSolve, MultiBounds, Noise, Observe, OptionalBlocks, PhaseBounds, PhaseConc, Precond, PrecondCall, PrecondLevel, Projection, QuatFlow, QuatFlow3, QuatPrecond, RateCall, Regrid, Remesh, Rescale, RigidBody, Selection, SoluteBounds, SolverMesh, StartGuess, StepCall, TempReport, Thermal, ThreeBounds |
| source/QuatIntegrator.h | 954 | 14 | 274-279, 321-328 | RateCall, TempReport |
| source/QuatLevelSolver.cc | 1717 | 659 | 21, 478-530, 868-963, 965-1045, 1078-1190, 1386-1700 | LevelSolve, LevelSolve3 |
| source/QuatLinearRefine.cc | 174 | 83 | 91-108, 110-174 | QuatRefineFill, QuatTransfer |
| source/QuatMobilityStrategy.cc | 27 | 12 | 16-27 | Precond |
| source/QuatModel.cc | 5422 | 2586 | 95, 158, 205-240, 242-281, 291-424, 426-750, 753-812, 815-832, 866-869, 887-900, 902-919, 922-956, 1000-1036, 1067-1092, 1100-1144, 1169-1172, 1207-1215, 1223-1240, 1242-1259, 1269, 1290-1301, 1375-1378, 1393-1395, 1419-1421, 1483-1485, 1495-1501, 1570-1572, 1574-1577, 1636, 1743-1776, 1804-1808, 1961-1967, 2182-2196, 2238-2249, 2261-2293, 2316-2363, 2366-2375, 2378-2440, 2443-2532, 2536-2544, 2552-2677, 2692-2729, 2733-2855, 2877-3298, 3340-3358, 3424-3428, 3437-3600, 3617, 3630-3645, 3774-3784, 3786-3805, 3813-3827, 4134-4150, 4277-4291, 4295-4352, 4710-4753, 4769-4790, 4815-4826, 4836, 4856-4859, 4864-4881, 4888-4974, 5156-5168, 5171-5180, 5218-5233, 5283-5296, 5301-5361, 5373-5396 | CalphadFile, ConservedFlow, DiffCoeff, EnergyReport, FieldsFile, Frame, GrainFlow, GrainScripts, InitMesh, Observe, OptionalBlocks, Options, PhaseConc, QuatFlow, RateCall, Regrid, Rescale, Restart, RunLoop, ScalarDiag, Selection, Smoothing, StartGuess, StepCall, Tagging, TempInput, TempReport, Thermal, VolFrac, Weights |
| source/QuatModel.h | 674 | 17 | 113-129 | RateCall |
| source/QuatModelParameters.cc | 1219 | 1072 | 18-133, 167-400, 414-423, 441-448, 464-480, 482-491, 493-494, 496-609, 612-623, 628-768, 811-1178, 1180-1219 | Alloy, FieldsFile, GradT, Interface, OptionalBlocks, Options, PhaseSplit, RateCall, Rescale, ScalarDiag, Selection, TempInput, Thermal |
| source/QuatModelParameters.h | 767 | 85 | 35-44, 46-54, 64-69, 81-82, 85-86, 90-95, 213-216, 224, 246-249, 304-311, 326-333, 431-434, 465-468, 476-492 | Alloy, Boundary, FieldsFile, Frame, Interface, OptionalBlocks, Options, PhaseConc, ScalarDiag, Selection, StartGuess, TempInput |
| source/QuatRefinePatchStrategy.cc | 194 | 78 | 33-90, 111-130 | Boundary, Rescale |
| source/QuatRefinePatchStrategy.h | 133 | 6 | 37-38, 95-98 | Rescale |
| source/QuatSysSolver.cc | 481 | 151 | 172-220, 223-233, 236-250, 253-265, 290-348, 387-389, 411 | IntegratorNorm, Projection, QuatPrecond, SolverMesh |
| source/RigidBodyForces.cc | 125 | 59 | 31-34, 40-94 | RigidBody |
| source/RigidBodyMotionConcRHS.cc | 101 | 16 | 83-98 | RigidBody |
| source/RigidBodyMotionRHS.cc | 100 | 4 | 43-46 | RigidBody |
| source/ScalarTemperatureStrategy.cc | 90 | 63 | 21-27, 33-55, 57-74, 76-90 | Coefficients, TempReport |
| source/SimpleQuatMobilityStrategy.cc | 100 | 13 | 46-58 | Options |
| source/SimpleTemperatureRHSStrategy.cc | 95 | 10 | 85-94 | HeatOrder, Rescale, Thermal |
| source/SinteringUWangRHSStrategy.cc | 239 | 108 | 28-30, 62-76, 150-239 | ConservedFlow, ConservedFlow3, Interface, MultiBounds, Remesh |
| source/SteadyStateTemperatureCompositionSource.cc | 103 | 55 | 38, 43-96 | HeatOrder, RateCall, TempInput, TempReport, Thermal |
| source/SteadyStateTemperatureGaussianSource.cc | 166 | 93 | 68, 72-163 | HeatOrder, RateCall, TempInput, TempReport, Thermal |
| source/SteadyStateTemperatureStrategy.cc | 75 | 43 | 20-46, 57-65, 69-75 | SolverMesh |
| source/SteadyStateTemperatureStrategy.h | 96 | 31 | 46-70, 76-77, 79-82 | SolverMesh, TempReport |
| source/TbasedCompositionDiffusionStrategy.cc | 331 | 248 | 20-54, 118-330 | InterfaceDiff, Selection |
| source/TemperatureFACOps.cc | 45 | 16 | 30-45 | HeatOrder, Precond |
| source/TemperatureFreeEnergyStrategy.cc | 209 | 49 | 47-55, 58-96, 160 | MeltFlow, PhaseRHS, Rescale |
| source/TemperatureHistory.cc | 171 | 157 | 14-67, 69-171 | HistoryField, TemperatureHistory |
| source/TemperatureHistory.h | 26 | 0 |  | TemperatureHistory |
| source/TemperatureStrategy.h | 56 | 8 | 46-53 | SolverMesh |
| source/TemperatureStrategyFactory.cc | 163 | 117 | 46-71, 73-163 | RateCall, TempInput, TempReport |
| source/ThreePhasesRHSStrategy.cc | 300 | 153 | 70-84, 146-264, 266-270, 287-300 | DrivingForce, Interface, Projection, Remesh, ThreeBounds |
| source/TiltingFolchPlapp2005.cc | 53 | 10 | 17-26 | PhaseRHS |
| source/TiltingMoelans2011.cc | 43 | 6 | 17-22 | PhaseRHS |
| source/TimeLocationIndexRobinBcCoefs.cc | 258 | 139 | 66-110, 134-216, 218-228 | BcTable |
| source/TwoPhasesEnergyEvaluationStrategy.cc | 177 | 137 | 41-177 | EnergyReport, GrainEnergy, GrainFlow, Options |
| source/UniformNoise.cc | 24 | 12 | 13-24 | Noise |
| source/UniformNoise.h | 42 | 25 | 18-42 | Noise |
| source/WangRigidBodyForces.cc | 69 | 9 | 45-53 | OptionalBlocks |
| source/WangSinteringCompositionDiffusionStrategy.cc | 172 | 86 | 87-172 | ConservedFlow3 |
| source/WangSinteringCompositionRHSStrategy.cc | 145 | 64 | 82-145 | ConservedFlow, ConservedFlow3 |
| source/computeQDiffs.cc | 285 | 179 | 20-170, 243-270 | QuatFlow, QuatFlow3 |
| source/computeWeights3Pairs.cc | 90 | 74 | 17-90 | PairWeights |
| source/diagnostics.cc | 97 | 75 | 19-93 | CalphadFile, MobilityFile |
| source/fortran/2d/concentrationdiffusion.m4 | 1078 | 730 | 14-95, 99-153, 191-206, 341-427, 430-519, 523-640, 680-701, 736-804, 883-967, 970-1010, 1014-1078 | DiffCoeff, InterfaceDiff, PhaseSplit |
| source/fortran/2d/concentrationrhs.m4 | 801 | 642 | 15-80, 116-133, 204-213, 231-319, 326-362, 369-432, 439-524, 529-668, 670-801 | Flux |
| source/fortran/2d/correctrhsquatforsymmetry.m4 | 140 | 19 | 90-108 | OrientSolve |
| source/fortran/2d/ellipticfacops.m4 | 805 | 596 | 16-57, 106-125, 129-345, 347-391, 448-492, 543-769 | CoarseFine, Precond, Smoother |
| source/fortran/2d/flux.m4 | 243 | 217 | 11-62, 69-131, 139-240 | DiffCoeff, Flux, PhaseConc |
| source/fortran/2d/forces.m4 | 159 | 71 | 44-70, 116-159 | RigidBody |
| source/fortran/2d/grad.m4 | 265 | 174 | 11-52, 56-124, 172-176, 196-200, 208-260 | Frame, Tagging |
| source/fortran/2d/hyprepoisson.m4 | 79 | 34 | 4-37 | LevelSolve |
| source/fortran/2d/laplacian.m4 | 59 | 19 | 38-56 | Thermal |
| source/fortran/2d/mobility.m4 | 172 | 157 | 13-93, 97-172 | OrientSolve |
| source/fortran/2d/multiorder.m4 | 105 | 35 | 67-101 | MultiBounds, PhaseRHS |
| source/fortran/2d/phase.m4 | 112 | 59 | 51-109 | PhaseRHS, Projection |
| source/fortran/2d/quatcoarsen.m4 | 117 | 103 | 11-113 | QuatTransfer, Regrid |
| source/fortran/2d/quatdiffs.m4 | 304 | 79 | 14-48, 54-97 | Tagging |
| source/fortran/2d/quatdiffusion.m4 | 151 | 140 | 11-150 | QuatPrecond |
| source/fortran/2d/quatenergy.m4 | 552 | 442 | 47-48, 50-97, 105-460, 517-552 | AlloyFlow, Anisotropy, EnergyReport, GrainEnergy, GrainFlow, MeltFlow, PhaseRHS, RigidBody |
| source/fortran/2d/quatfacops.m4 | 1078 | 662 | 14-122, 124-171, 173-230, 232-282, 284-344, 346-406, 487-540, 542-602, 683-735, 940-997, 999-1018, 1020-1047 | LevelSolve, OrientSolve, Projection, QuatFlow, QuatPrecond |
| source/fortran/2d/quatgrad.m4 | 921 | 545 | 12-55, 157-230, 232-305, 357, 359-395, 409-439, 454-645, 825-877, 882-920 | GrainEnergy, QuatFlow, Tagging |
| source/fortran/2d/quatlevelsolver.m4 | 360 | 289 | 9-63, 65-119, 121-173, 229, 231-297, 303-360 | LevelSolve |
| source/fortran/2d/quatlinrefine.m4 | 115 | 103 | 13-115 | QuatRefineFill, QuatTransfer, Regrid |
| source/fortran/2d/quatrhs.m4 | 1080 | 801 | 12-52, 106-150, 187-221, 224-253, 266-405, 411-497, 587-632, 636-689, 749-806, 810-941, 944-983, 986-1026, 1029-1080 | Anisotropy, Frame, GrainEnergy, PhaseBounds, PhaseRHS, Rescale, Thermal |
| source/fortran/2d/quatrotation.m4 | 121 | 101 | 12-63, 69-117 | QuatFlow, Smoothing |
| source/fortran/2d/quattag.m4 | 112 | 99 | 9-55, 59-110 | Tagging |
| source/fortran/2d/rbmotion.m4 | 57 | 16 | 42-57 | RigidBody |
| source/fortran/2d/sintering.m4 | 102 | 87 | 16-102 | MultiBounds, PhaseRHS |
| source/fortran/2d/smoothquat.m4 | 57 | 47 | 11-57 | Smoothing |
| source/fortran/2d/temperature.m4 | 289 | 108 | 12-42, 74-94, 124-148, 186-204, 237, 274-284 | HistoryField, Rescale, TempInput, Thermal |
| source/fortran/3d/concentrationdiffusion.m4 | 1264 | 670 | 14-126, 310-428, 430-602, 774-792, 794-812, 814-832, 920-1046, 1148-1195, 1232-1264 | AlloyFlow3, ConservedFlow3, Coupling3, DiffCoeff |
| source/fortran/3d/concentrationrhs.m4 | 1147 | 806 | 14-100, 144-172, 250-260, 335-356, 358-381, 412-453, 556-1146 | AlloyFlow3, AntiTrap3, ConservedFlow3, Coupling3, Flux |
| source/fortran/3d/correctrhsquatforsymmetry.m4 | 166 | 62 | 72-133 | QuatFlow3 |
| source/fortran/3d/ellipticfacops.m4 | 1145 | 487 | 17-75, 150-168, 697-1105 | CoarseFine, Smoother |
| source/fortran/3d/flux.m4 | 409 | 213 | 15-96, 103-233 | AlloyFlow3, Flux |
| source/fortran/3d/forces.m4 | 180 | 96 | 48-79, 115-178 | RigidBody |
| source/fortran/3d/grad.m4 | 241 | 58 | 11-68 | Tagging |
| source/fortran/3d/hyprepoisson.m4 | 101 | 50 | 4-53 | LevelSolve3 |
| source/fortran/3d/laplacian.m4 | 66 | 24 | 40-63 | Thermal |
| source/fortran/3d/multiorder.m4 | 121 | 0 |  | MultiBounds |
| source/fortran/3d/quatcoarsen.m4 | 128 | 118 | 11-128 | QuatTransfer, Regrid |
| source/fortran/3d/quatdiffs.m4 | 218 | 200 | 14-60, 66-218 | QuatFlow3, Smoothing, Tagging |
| source/fortran/3d/quatenergy.m4 | 650 | 452 | 15-34, 81, 106-121, 123-126, 143-553 | AlloyFlow3, Anisotropy, EnergyReport, MeltFlow, PhaseRHS |
| source/fortran/3d/quatfacops.m4 | 1168 | 495 | 14-155, 392-481, 483-551, 596-657, 659-727, 729-791 | LevelSolve3, QuatFlow3 |
| source/fortran/3d/quatgrad.m4 | 835 | 204 | 213-333, 337-372, 440, 474, 522, 556, 604, 638, 681-721 | QuatFlow3 |
| source/fortran/3d/quatlevelsolver.m4 | 494 | 406 | 9-86, 88-153, 155-211, 287-397, 401-494 | LevelSolve3 |
| source/fortran/3d/quatlinrefine.m4 | 158 | 146 | 13-158 | QuatRefineFill, QuatTransfer, Regrid |
| source/fortran/3d/quatrhs.m4 | 1235 | 499 | 12-66, 149-177, 213-214, 232-251, 253, 255-256, 288-294, 298-299, 331-337, 341-342, 357-516, 518-620, 887-943, 1036-1087 | AlloyFlow3, Anisotropy, MeltFlow, PhaseBounds, PhaseRHS, Thermal, ThreeBounds |
| source/fortran/3d/quatrotation.m4 | 147 | 77 | 12-88 | QuatFlow3 |
| source/fortran/3d/quattag.m4 | 122 | 50 | 9-58 | Tagging |
| source/fortran/3d/sintering.m4 | 115 | 97 | 16-112 | ConservedFlow3, MultiBounds |
| source/fortran/3d/smoothquat.m4 | 65 | 55 | 11-65 | Smoothing |
| source/fortran/3d/temperature.m4 | 323 | 43 | 75-103, 303-316 | Thermal |
| source/fortran/functions.f | 623 | 454 | 17-91, 95-172, 176-242, 246-271, 275-300, 304-329, 333-367, 371-402, 407-421, 428-442, 449-470, 477-498, 609-623 | Coefficients, DrivingForce, Functions, PhaseSplit |
| source/fortran/pdat_m4arrdim3d.i | 133 | 9 | 76-84 | Coupling3 |
| source/fortran/quat.f | 1537 | 1048 | 9-37, 41-69, 73-161, 184-233, 236-283, 290-339, 343-445, 449-518, 522-624, 628-697, 701-714, 837-849, 853-863, 867-894, 898-911, 915-927, 945-954, 958-967, 971-980, 984-993, 997-1016, 1020-1039, 1069-1083, 1087-1099, 1171-1192, 1203-1224, 1315-1338, 1344-1402, 1410-1432, 1479-1493, 1497-1537 | Anisotropy, Quat, QuatFlow |
| source/main.cc | 62 | 45 | 18-62 | CommandLine |
| source/samrai/CVODESolver.cc | 400 | 138 | 51-53, 112-246 | IntegratorNorm, Noise, Projection, StepCall |
| source/samrai/CVODESolver.h | 1317 | 23 | 317-318, 549-554, 734-737, 1175-1185 | Noise, Projection, StepCall |
| source/samrai/CellPoissonHypreSolver.cc | 1750 | 549 | 411-422, 486-499, 544-575, 600-603, 687-710, 718-740, 880-896, 898-908, 910-920, 924-977, 979-1036, 1041-1141, 1143-1197, 1467-1482, 1562-1581, 1596-1650, 1694-1735 | HandOver, LevelSolve, LevelSolve3 |
| source/samrai/FACPreconditioner.cc | 727 | 533 | 75-110, 118-150, 152-219, 264-424, 431-468, 476-582, 587-652, 661-684 | FACSolve, IntegratorNorm, SolverMesh |
| source/samrai/Sundials_SAMRAIVector.cc | 207 | 19 | 106-109, 126-131, 156-159, 177-181 | IntegratorNorm |
| source/samrai/Sundials_SAMRAIVector.h | 272 | 41 | 165-205 | IntegratorNorm |
| source/tools.cc | 144 | 85 | 20-48, 66-72, 76-124 | Tools |
| source/toolsSAMRAI.cc | 182 | 24 | 49-72 | ScalarDiag |
