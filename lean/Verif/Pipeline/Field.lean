import Verif.Hamiltonian.Model
import Verif.Binding.Names
import Verif.Pipeline.Repository
import Mathlib.Analysis.SpecialFunctions.Trigonometric.Basic
import Mathlib.Analysis.SpecialFunctions.Complex.Circle

/-!
# Model of the modifiers of the repository

`pybinding/repository/graphene/modifiers.py` and `pb.constant_potential` (`pybinding/modifier.py`), as functions of the
arrays which C++ passes.  Numbers are exact.  An array of energies holds `orbitals * orbitals` segments with one element
for each site or hopping (`_process_modifier_args` moves the axis, numpy broadcasts the coordinates over the orbitals:
modifier.py:29-51), so element `t` belongs to the site or hopping `t % n`.  Exceptions of Python arrive as
`std::runtime_error`.
-/

namespace Verif.Field

open Verif.Hamiltonian (OnsiteModifier HoppingModifier)
open Verif.Pipeline (Vec3)

/-- `hbar`, constants.py:11. -/
noncomputable def hbar : ℝ := 6.58211899e-16

/-- `phi0`, constants.py:12. -/
noncomputable def phi0 : ℝ := 2 * Real.pi * hbar

/-- `hbar * vf`, graphene/constants.py:7 and graphene/modifiers.py:41. -/
noncomputable def hbarVf : ℝ := hbar * (3 / (2 * hbar) * |Pipeline.Repository.t| * Pipeline.Repository.aCC)

/-- `beta`, graphene/constants.py:8. -/
noncomputable def beta : ℝ := 3.37

/-- A function of energy and position for all elements of an array with `p.length` sites (numpy broadcasting,
modifier.py:47-48). -/
def eachSite {K : Type} (f : K → Vec3 → K) (data : List K) (p : List Vec3) : List K :=
  data.mapIdx fun t e => f e (p.getD (t % p.length) 0)

/-- The same for hoppings. modifier.py:47-48. -/
def eachHop {K : Type} (f : K → Vec3 → Vec3 → K) (data : List K) (p1 p2 : List Vec3) : List K :=
  data.mapIdx fun t e => f e (p1.getD (t % p1.length) 0) (p2.getD (t % p1.length) 0)

/-- `energy[sub_id == name] += delta`, graphene/modifiers.py:20-21, for the part of one sublattice.  The mask is
`AliasIndex.__eq__` (alias.py:186-187). -/
def addWhere (name : String) (o : String) (delta : ℂ) (data : List ℂ) : List ℂ :=
  if Binding.Names.splitEq name.toList o.toList then data.map (· + delta) else data

/-- `mass_term(delta)`, graphene/modifiers.py:9-24.  With several orbitals the mask has the shape `(n, 1, 1)`
(modifier.py:36, 46), which does not fit to the array: an `IndexError`. -/
def massTerm (delta : ℝ) : OnsiteModifier ℂ Vec3 := fun data pos name =>
  if data.length ≠ pos.length then .err .runtimeError
  else .ok (addWhere name "B" (-(delta : ℂ)) (addWhere name "A" delta data))

/-- Distance of a point from the charge, graphene/modifiers.py:44-45. -/
noncomputable def radius (offset p : Vec3) : ℝ := √((p 0 - offset 0) ^ 2 + (p 1 - offset 1) ^ 2 + (p 2 - offset 2) ^ 2)

/-- `r[r < cutoff_radius] = cutoff_radius`, graphene/modifiers.py:46. -/
noncomputable def clip (cutoff r : ℝ) : ℝ := if r < cutoff then cutoff else r

open Classical in
/-- `coulomb_potential(beta, cutoff_radius, offset)`, graphene/modifiers.py:27-49.  A division by zero gives an
infinite energy, for which the construction of the Hamiltonian throws a `std::runtime_error` (Hamiltonian.hpp:134-142);
here the modifier itself returns this error. -/
noncomputable def coulomb (beta cutoff : ℝ) (offset : Vec3) : OnsiteModifier ℂ Vec3 := fun data pos _ =>
  if ∃ p ∈ pos, clip cutoff (radius offset p) = 0 then .err .runtimeError
  else .ok (eachSite (fun e p => e - ((beta * hbarVf / clip cutoff (radius offset p) : ℝ) : ℂ)) data pos)

/-- `const`, graphene/modifiers.py:60-61. -/
noncomputable def fieldConst : ℝ := 1e-18 * 2 * Real.pi / phi0

/-- `vp_x * (x1 - x2)`, graphene/modifiers.py:66-68. -/
noncomputable def peierls (magnitude : ℝ) (p1 p2 : Vec3) : ℝ := 0.5 * magnitude * (p1 1 + p2 1) * (p1 0 - p2 0)

/-- `constant_magnetic_field(magnitude)`, graphene/modifiers.py:52-71. -/
noncomputable def magneticField (magnitude : ℝ) : HoppingModifier ℂ Vec3 := fun data p1 p2 _ =>
  .ok (eachHop (fun e p1 p2 => e * Complex.exp (Complex.I * fieldConst * peierls magnitude p1 p2)) data p1 p2)

/-- `l`, graphene/modifiers.py:78. -/
noncomputable def bondLength (p1 p2 : Vec3) : ℝ := √((p1 0 - p2 0) ^ 2 + (p1 1 - p2 1) ^ 2 + (p1 2 - p2 2) ^ 2)

/-- `strained_hopping`, graphene/modifiers.py:74-80. -/
noncomputable def strainedHopping : HoppingModifier ℂ Vec3 := fun data p1 p2 _ =>
  .ok (eachHop (fun e p1 p2 =>
    e * ((Real.exp (-beta * (bondLength p1 p2 / Pipeline.Repository.aCC - 1)) : ℝ) : ℂ)) data p1 p2)

/-- `field_to_strain`, graphene/modifiers.py:93-94. -/
noncomputable def fieldToStrain (field : ℝ) : ℝ := field * Pipeline.Repository.aCC / (4 * hbar * beta) * 1e-18

/-- The displacement of `triaxial_strain`, graphene/modifiers.py:96-113, for one site; `zigzag_direction` is `False`. -/
noncomputable def triaxial (field : ℝ) (p : Vec3) : Vec3 :=
  let c := fieldToStrain field
  ![p 0 + 2 * c * p 0 * p 1, p 1 + c * (p 0 ^ 2 - p 1 ^ 2), p 2]

/-- The displacement of `gaussian_bump`, graphene/modifiers.py:129-134, for one site. -/
noncomputable def bump (height sigma : ℝ) (center : ℝ × ℝ) (p : Vec3) : Vec3 :=
  ![p 0, p 1, height * Real.exp (-((p 0 - center.1) ^ 2 + (p 1 - center.2) ^ 2) / sigma ^ 2)]

/-- `constant_potential(magnitude)`, modifier.py:391-402: `sub_id.eye` is the unit matrix of the size of the orbitals
(alias.py:195-197), which numpy broadcasts over the sites. -/
def constantPotential (magnitude : ℝ) : OnsiteModifier ℂ Vec3 := fun data pos _ =>
  let norb := Nat.sqrt (data.length / pos.length)
  .ok (data.mapIdx fun t e => if t / pos.length / norb = t / pos.length % norb then e + magnitude else e)

end Verif.Field
