import Verif.Model.MultiBounds

/-!
# The energy printed for a run with several order parameters

The strategy that evaluates the energy is `TwoPhasesEnergyEvaluationStrategy` in every run (source/QuatModel.cc:703-706) and it is called for
every run with a phase that is not a three phases run (source/QuatModel.cc:4954-4959), so also for `norderp > 1`.  It hands the array of
the order parameters to `QUATENERGY` with the number of phases `1` (source/TwoPhasesEnergyEvaluationStrategy.cc:147-170, argument
after the ghost width) and to `BULKENERGY`, which has no such argument (lines 172-179): both read the first component only.
Not included: orientation and anisotropy (grains described by order parameters have no orientation).
-/

namespace AMPE.GrainFlow

open AMPE.Flux AMPE.PhaseRHS

/-- Energy printed for a patch, 2D (source/fortran/2d/quatenergy.m4:105-175, 376-456 with `nphases = 1`). -/
noncomputable def reported2 {n : ℕ} (interp : Char) (eps scale dx dy w : ℝ) (fl fa : Field2) (lo0 hi0 lo1 hi1 : ℤ)
    (phi : Fin (n + 1) → Field2) : Option ℝ :=
  energy2 interp eps scale dx dy fl fa (fun _ => w) lo0 hi0 lo1 hi1 (phi 0)

end AMPE.GrainFlow
