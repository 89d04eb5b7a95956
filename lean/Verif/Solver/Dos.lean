import Verif.Solver.Solver
import Mathlib.Analysis.RCLike.Basic
import Mathlib.Analysis.SpecialFunctions.Exp
import Mathlib.Analysis.SpecialFunctions.Pow.Real
import Mathlib.Analysis.SpecialFunctions.Trigonometric.Basic

/-!
# Model of the densities of states of an eigenvalue solver

Source: `cppcore/src/solver/Solver.cpp` (`CalcDOS`, `CalcSpatialLDOS`, `calc_dos`, `calc_spatial_ldos`).

The arithmetic is exact; `constant::pi` (a `float`) is the number pi.  A broadening of zero divides by zero: `scale` is
infinite and `constant` is minus infinity, every Gaussian is 0 or not a number, and every result is not a number,
written `none`.
-/

namespace Verif.Solver

open Real

/-- `scale`, Solver.cpp:11 and 31. -/
noncomputable def dosScale (b : ℝ) : ℝ := 1 / (b * √(2 * π))

/-- `constant`, Solver.cpp:12 and 32. -/
noncomputable def dosConstant (b : ℝ) : ℝ := -(1 / 2) / b ^ 2

/-- `exp((En - E).square() * constant)` for one eigenvalue, Solver.cpp:17 and 38. -/
noncomputable def dosGaussian (b e E : ℝ) : ℝ := exp ((e - E) ^ 2 * dosConstant b)

open Classical in
/-- A quotient by the broadening: not a number if the broadening is zero, Solver.cpp:11-12, 31-32. -/
noncomputable def broadened (b : ℝ) (x : ℝ) : Option ℝ := if b = 0 then none else some x

/-- `CalcDOS::operator()`, Solver.cpp:10-21. -/
noncomputable def dosOf (vals targets : List ℝ) (b : ℝ) : List (Option ℝ) :=
  targets.map fun E => broadened b (dosScale b * (vals.map fun e => dosGaussian b e E).sum)

/-- `CalcSpatialLDOS::operator()`, Solver.cpp:29-42.  The states are the columns of `psi`; Eigen does not check the
sizes of the factors of `psi2 * gaussian` unless assertions are enabled. -/
noncomputable def spatialLdosOf {𝕜 : Type} [RCLike 𝕜] {n : Nat} (vals : List ℝ) (vecs : List (Fin n → 𝕜)) (E b : ℝ) :
    Res (List (Option ℝ)) :=
  if vals.length ≠ vecs.length then .ub
  else .ok (List.ofFn fun i => broadened b
    (dosScale b * (List.zipWith (fun v e => ‖v i‖ ^ 2 * dosGaussian b e E) vecs vals).sum))

/-- `BaseSolver::calc_dos`, Solver.cpp:88-90; `vals` reads the eigenvalues of a solution. -/
noncomputable def Solver.calcDos {E : Env} (vals : Option E.Eig → List ℝ) (s : Solver E) (targets : List ℝ) (b : ℝ) :
    Solver E × Res (List (Option ℝ)) :=
  match s.eigenvalues with
  | (s', .ok r) => (s', .ok (dosOf (vals r) targets b))
  | (s', .err e) => (s', .err e)
  | (s', .ub) => (s', .ub)

/-- `BaseSolver::calc_spatial_ldos`, Solver.cpp:92-97; the second read finds the problem solved. -/
noncomputable def Solver.calcSpatialLdos {E : Env} {𝕜 : Type} [RCLike 𝕜] {n : Nat} (vals : Option E.Eig → List ℝ)
    (vecs : Option E.Eig → List (Fin n → 𝕜)) (s : Solver E) (target b : ℝ) : Solver E × Res (List (Option ℝ)) :=
  match s.eigenvalues with
  | (s', .ok r) =>
    match s'.eigenvalues with
    | (s'', .ok r') => (s'', spatialLdosOf (vals r) (vecs r') target b)
    | (s'', .err e) => (s'', .err e)
    | (s'', .ub) => (s'', .ub)
  | (s', .err e) => (s', .err e)
  | (s', .ub) => (s', .ub)

end Verif.Solver
