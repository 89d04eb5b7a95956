import Verif.Kpm.Reorder
import Mathlib.Algebra.Order.Field.Basic
import Mathlib.Analysis.SpecialFunctions.Trigonometric.Basic
import Mathlib.Analysis.SpecialFunctions.Trigonometric.DerivHyp
import Mathlib.Algebra.Order.Floor.Defs
import Mathlib.Algebra.Order.Floor.Semiring
import Mathlib.Algebra.Order.Archimedean.Basic
import Mathlib.Data.Real.Archimedean

/-!
# Model of the KPM front end

Source: `cppcore/include/kpm/Kernel.hpp`, `cppcore/src/kpm/Kernel.cpp`, `cppcore/include/kpm/Bounds.hpp`,
`cppcore/src/KPM.cpp`, `Velocity` in `cppcore/src/kpm/Moments.cpp`.

Floating point numbers are modelled by an exact field (or the real numbers).
-/

namespace Verif.Kpm

open Verif.Numeric
open Verif.Hopping (Csr)

/-! ## Number of moments -/

/-- The loop `while ((n - 2) % 4 != 0) { ++n; }`, Kernel.hpp:11, run for at most `fuel` steps; `none` if it has not
stopped by then.  The integers do not overflow. -/
def roundLoop : Nat → Int → Option Int
  | 0, _ => none
  | fuel + 1, n => if (n - 2).tmod 4 ≠ 0 then roundLoop fuel (n + 1) else some n

/-- `round_num_moments`, Kernel.hpp:9-13. -/
def roundNumMoments (fuel : Nat) (n : Int) : Option Int := if n < 2 then some 2 else roundLoop fuel n

/-- `required_num_moments` of the kernels, Kernel.cpp:18-21, 35-38, 44-47.  `width` is `pi` (Jackson, Dirichlet) or
`lambda` (Lorentz).  The cast truncates; dividing by zero, or a quotient that does not fit the integer type, is
undefined (only the first is modelled). -/
noncomputable def requiredNumMoments (fuel : Nat) (width broadening : ℝ) : Res (Option Int) :=
  if broadening = 0 then .ub
  else
    let q := width / broadening
    .ok (roundNumMoments fuel ((if 0 ≤ q then ⌊q⌋ else ⌈q⌉) + 1))

/-! ## Damping kernels -/

/-- `jackson_kernel().damping_coefficients`, Kernel.cpp:8-17. -/
noncomputable def jackson (num n : Nat) : ℝ :=
  let Np : ℝ := num + 1
  ((Np - n) * Real.cos (Real.pi * n / Np) + Real.sin (Real.pi * n / Np) / Real.tan (Real.pi / Np)) / Np

/-- `lorentz_kernel(lambda)`, Kernel.cpp:26-34: the coefficients, or the exception. -/
noncomputable def lorentz (lambda : ℝ) : Res (Nat → Nat → ℝ) :=
  if lambda ≤ 0 then .err .invalidArgument
  else .ok fun num n => Real.sinh (lambda * (1 - n / num)) / Real.sinh lambda

/-- `dirichlet_kernel().damping_coefficients`, Kernel.cpp:43. -/
def dirichlet (_num _n : Nat) : ℝ := 1

/-- `Kernel::operator()(ArrayX&)`, Kernel.hpp:28-34: every moment is multiplied by its coefficient. -/
def damp {V : Type} [SMul ℝ V] (g : Nat → Nat → ℝ) (moments : List V) : List V :=
  moments.mapIdx fun n m => g moments.length n • m

/-! ## Energy scale -/

/-- `Scale`, Bounds.hpp:11-33. -/
structure Scale (R : Type) where
  a : R
  b : R

/-- `Scale(min_energy, max_energy)`, Bounds.hpp:19-25.  Dividing by `a = 0` gives an infinity or a NaN, which are
not elements of the field: `.ub` here. -/
def Scale.ofBounds {R : Type} [Field R] [LinearOrder R] (min max : R) : Res (Scale R) :=
  let tol : R := 1 / 100
  let a := 1 / 2 * (max - min) * (1 + tol)
  let b := 1 / 2 * (max + min)
  if a = 0 then .ub
  else if |b / a| < 1 / 100 * tol then .ok ⟨a, 0⟩
  else .ok ⟨a, b⟩

/-- `Scale::operator()`, Bounds.hpp:32. -/
def Scale.apply {R : Type} [Field R] (s : Scale R) (v : R) : R := (v - s.b) / s.a

/-- The bounds given by the user, `Core::Core`, Core.cpp:19-25 (`none`: the Lanczos procedure is used). -/
def userBounds {R : Type} [LinearOrder R] (min max : R) : Res (Option (R × R)) :=
  if min > max then .err .invalidArgument
  else if min = max then .ok none
  else .ok (some (min, max))

/-! ## Checks of arguments -/

/-- The check of `KPM::calc_greens_vector`, KPM.cpp:114-121 (`calc_greens`, KPM.cpp:101-105, is the same with one
column). -/
def checkGreens (size : Nat) (row : Int) (cols : List Int) : Res Unit :=
  if (row < 0 ∨ row > size) ∨ cols.any (fun c => decide (c < 0 ∨ c > size)) then .err .logicError else .ok ()

/-- `calc_greens_vector` up to the optimized matrix: the check, then `optimize_for({row, cols}, scale)`, Core.cpp:103,
with reordering or without it.  In the latter case the indices are first used by `UnitStarter`, Starter.cpp:42 and
`MultiUnitCollector`, collectors.cpp:60-75, to access vectors of the size of the Hamiltonian. -/
def greensSetup {K : Type} [Mul K] [Add K] [Sub K] [Neg K] [Zero K] [DecidableEq K] (reorder : Bool) (h : Csr K) (invA b : K)
    (row : Int) (cols : List Int) : Res (Optimized K) := do
  checkGreens h.length row cols
  if reorder then createReordered h invA b [row.toNat] (cols.map Int.toNat)
  else if row.toNat < h.length ∧ cols.all (fun c => c.toNat < h.length) then
    .ok (createScaled h invA b [row.toNat] (cols.map Int.toNat))
  else .ub

/-- `std::string::find_first_of`: is there a character of `s` that occurs in `set`?.
Used in KPM.cpp:135. -/
def findFirstOf (s set : List Char) : Bool := s.any fun c => set.contains c

/-- `KPM::calc_conductivity` up to the choice of coordinates, KPM.cpp:130-142.  `map[c]` for an unknown character
inserts a null pointer, which is dereferenced. -/
def conductivityDirections (direction : String) : Res (Char × Char) :=
  let d := direction.toList
  let xyz := "xyz".toList
  if d.length ≠ 2 ∨ findFirstOf xyz d = false then .err .logicError
  else
    match d with
    | [c, e] => if xyz.contains c ∧ xyz.contains e then .ok (c, e) else .ub
    | _ => .ub

/-! ## Velocity operator -/

/-- `Velocity::operator()`, Moments.cpp:135-151. -/
def velocity {K : Type} [Mul K] [Sub K] (alpha : List K) (ham : Csr K) : Res (Csr K) :=
  ham.zipIdx.mapM fun p =>
    p.1.mapM fun e => do
      let x ← rd alpha p.2
      let y ← rd alpha e.1
      return (e.1, e.2 * (x - y))

end Verif.Kpm
