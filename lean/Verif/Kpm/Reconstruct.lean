import Verif.Kpm.Config
import Mathlib.Analysis.SpecialFunctions.Trigonometric.Inverse
import Mathlib.Analysis.SpecialFunctions.Exp
import Mathlib.Analysis.SpecialFunctions.Trigonometric.Basic
import Mathlib.Data.Complex.Basic

/-!
# Model of the reconstruction of functions from moments

Source: `cppcore/include/kpm/reconstruct.hpp`.  Real and complex numbers stand for the floating point types.
Outside the open interval `(-1, 1)` the program computes a NaN or an infinity; this is `.ub` here.
-/

namespace Verif.Kpm

open Verif.Numeric

/-- The value of `SpectralDensity` at one scaled energy `E`, reconstruct.hpp:25-32 (one vector of moments) and
40-51 (the same for every column). -/
noncomputable def densityAt (s : Scale ℝ) (moments : List ℂ) (E : ℝ) : ℝ :=
  let k := 2 / Real.pi / s.a
  k / Real.sqrt (1 - E * E) * (moments.mapIdx fun n m => m.re * Real.cos (n * Real.arccos E)).sum

/-- `SpectralDensity` for one energy. reconstruct.hpp:16-55. -/
noncomputable def spectralDensity (s : Scale ℝ) (moments : List ℂ) (energy : ℝ) : Res ℝ :=
  let E := s.apply energy
  if -1 < E ∧ E < 1 then .ok (densityAt s moments E) else .ub

/-- `GreensFunction` for one energy, reconstruct.hpp:63-77. -/
noncomputable def greensFunction (s : Scale ℝ) (moments : List ℂ) (energy : ℝ) : Res ℂ :=
  let E := s.apply energy
  let k := -2 * Complex.I / s.a
  if -1 < E ∧ E < 1 then
    .ok (k / Real.sqrt (1 - E * E) * (moments.mapIdx fun n m => m * Complex.exp (-Complex.I * n * Real.arccos E)).sum)
  else .ub

/-- `integrate` of `KuboBastin`, reconstruct.hpp:120-127, for the function values at the (at least one) energy
samples.  `width` is the difference of the largest and the smallest sample.  `func(0)` of an empty array is UB. -/
def kuboIntegrate {K : Type} [Field K] (width : K) (func : List K) : Res K := do
  let coeff := width / (2 * func.length)
  let first ← rd func 0
  let last ← rd func (func.length - 1)
  return coeff * (2 * func.sum - first - last)

end Verif.Kpm
