import Verif.Model.InputEcho

/-!
# The file with the thermodynamic database of a run

Every part of a run that needs the CALPHAD database opens the file itself.  A file contains either text in the syntax of the input files or JSON; a parser
given the wrong kind fails.  The JSON reader and writer of boost are taken to be inverse to each other.  What the parts do with the tree is not modelled here.
-/

namespace AMPE.CalphadFile

open AMPE.InputEcho (DB Forest copyTree)

/-- Contents of a file. -/
inductive Content
  | input (d : DB)
  | json (f : Forest)

/-- drivers/convertDatabase2JSON.cc:24-45. -/
noncomputable def converted (d : DB) : Content := .json (copyTree d .nil)

/-- `calphad_filename.compare(calphad_filename.size() - 4, 4, "json") == 0`; `none`: `std::out_of_range` for a name of less than four letters
(`size() - 4` is unsigned). -/
def namedJson (name : List Char) : Option Bool := if name.length < 4 then none else some (name.drop (name.length - 4) == "json".toList)

/-- `InputManager::parseInputFile`. -/
noncomputable def parse : Content → Option DB
  | .input d => some d
  | .json _ => none

/-- `read_json`. -/
def readJson : Content → Option Forest
  | .json f => some f
  | .input _ => none

/-- The parts that look at the name first: source/FreeEnergyStrategyFactory.h:54-66, source/PhaseConcentrationsStrategyFactory.h:50-61,
source/CALPHADequilibriumPhaseConcentrationsStrategyMultiOrder.cc:30-44, source/CALPHADequilibriumPhaseConcentrationsStrategyMultiOrderThreePhases.cc:33-47,
source/KimMobilityStrategy.cc:49-63. -/
noncomputable def readEither (name : List Char) (c : Content) : Option Forest :=
  (namedJson name).bind fun j => if j then readJson c else (parse c).map fun d => copyTree d .nil

/-- The parts that do not: source/AzizPartitionCoefficientStrategy.cc:40-50, 78-88, source/KimMobilityStrategy.cc:99-113 (ternary alloys),
source/CompositionStrategyMobilities.cc:34-39 (where the database is used without conversion). -/
noncomputable def readInput (c : Content) : Option Forest := (parse c).map fun d => copyTree d .nil

/-- Choices in the input of a run with the CALPHAD model. -/
structure Options where
  /-- More than two species. -/
  ternary : Bool
  /-- Several order parameters, phase compositions by KKS. -/
  multi : Bool
  /-- Rate of the composition `EBS`. -/
  ebs : Bool
  /-- Composition dependent diffusion (`CTD`). -/
  ctd : Bool
  /-- Partition coefficient after Aziz. -/
  aziz : Bool
  /-- Phase mobility a number in the input; otherwise computed after Kim. -/
  scalarMobility : Bool
  /-- The input has a section `NewtonSolver`. -/
  newton : Bool

/-- The parts of a run that read the file, in order: `true` for those that look at the name.  source/QuatModel.cc:344-383, 411-413, 427-457, 825-831,
2435-2438; source/MobilityFactory.h:36-76.  The last part, source/diagnostics.cc:19-38, skips files named JSON. -/
def readers (o : Options) : List Bool :=
  [true, true] ++ (if o.multi && !o.ternary then [true] else []) ++ (if o.ebs && o.ctd then [false] else []) ++ (if o.aziz then [false] else [])
    ++ (if o.scalarMobility then [] else [!o.ternary])

/-- The start of a run: the trees the parts get; `none` if it ends with an error.  Kim's mobility with composition dependent diffusion is an error whatever
the file, source/MobilityFactory.h:41-46.  source/AzizPartitionCoefficientStrategy.cc:48-54, 86-92 copies the section `NewtonSolver` through a null pointer
when there is none; the other parts test for it (for instance source/KimMobilityStrategy.cc:65-69). -/
noncomputable def start (o : Options) (name : List Char) (c : Content) : Option (List Forest) :=
  if (!o.scalarMobility && o.ctd) || (o.aziz && !o.newton) then none
  else ((readers o).mapM fun (b : Bool) => if b then readEither name c else readInput c).bind fun l =>
    (namedJson name).bind fun j => if j then some l else (parse c).map fun _ => l

end AMPE.CalphadFile
