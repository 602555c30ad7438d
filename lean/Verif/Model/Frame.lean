import Verif.Model.RateCall
import Mathlib.Analysis.Calculus.Deriv.Basic
import Mathlib.Analysis.SpecialFunctions.Sqrt

/-! # Moving frame: kernels on profiles along x, interface velocity, start of the adaptation

The program of `Model/RateCall.lean` with `V := ℝ → ℝ`: arrays are profiles along the first axis, without boundaries and mesh
(the other coordinates are parameters; discretisation of the frame term: C46). -/

namespace AMPE.Frame

open AMPE.RateCall

/-- A profile along the first axis. -/
abbrev Prof := ℝ → ℝ

/-- `MovingFrameRHS::addRHS`, source/MovingFrameRHS.cc:75-138, `addvdphidx`, source/fortran/2d/quatrhs.m4:986-1026: `rhs + vel * dphi/dx`. -/
noncomputable def addVdphidx (r f p : Prof) : Prof := fun x => r x + f x * deriv p x

/-- `velocity`, source/fortran/2d/grad.m4:208-260, called from source/QuatModel.cc:5337-5352 with `threshold = 0.02 / dx[0]`; one cell,
gradient `(gx, gy)`. -/
noncomputable def velocity (dx gx gy phidot : ℝ) : ℝ := phidot / Real.sqrt (gx * gx + gy * gy + (0.02 / dx) * (0.02 / dx))

/-- As a kernel on profiles that vary along the first axis only; `g` is the derivative. -/
noncomputable def velocityKernel (dx : ℝ) (g r : Prof) : Prof := fun x => velocity dx (g x) 0 (r x)

/-- `inMovingFrame`, source/QuatModelParameters.h:465-468. -/
noncomputable def inMovingFrame (v : ℝ) : Bool := decide (1 / 10 ^ 16 < |v|)

/-- First accepted step: `d_adapt_moving_frame` exists only in a moving frame, source/QuatIntegrator.cc:2010-2016, and is dereferenced
if `adapt` is set, source/QuatIntegrator.cc:2198-2204. `none`: null pointer. -/
noncomputable def firstStep (v : ℝ) (adapt : Bool) : Option Unit :=
  if adapt then (if inMovingFrame v then some () else none) else some ()

end AMPE.Frame
