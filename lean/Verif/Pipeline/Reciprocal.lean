import Verif.Pipeline.Model
import Mathlib.LinearAlgebra.Matrix.NonsingularInverse
import Mathlib.Analysis.SpecialFunctions.Trigonometric.Basic
import Mathlib.Analysis.SpecialFunctions.Exp

/-!
# Reciprocal lattice and wave vectors

`reciprocal_vectors` and `brillouin_zone` of `pybinding/lattice.py`, the phases of `build_periodic` (Hamiltonian.hpp) and the translation vectors of
Symmetry.cpp, in exact real arithmetic.  `numpy.linalg.inv` is the inverse matrix, and `scipy.spatial.Voronoi` is described by what it computes: the set of
points which are at least as near to the origin as to any other of the given points.
-/

namespace Verif.Pipeline

open Verif (Index3)

/-- `Cartesian`. numeric/dense.hpp:52, over the reals. -/
abbrev Vec3 := Fin 3 → ℝ

/-- Component of an `Index3D`, `shift_index[i]` of Symmetry.cpp:73-74. -/
def Index3.comp (S : Index3) : Nat → ℤ
  | 0 => S.x
  | 1 => S.y
  | _ => S.z

/-- `shift_length`, Symmetry.cpp:71-75: the combination of the lattice vectors with the components of `shift_index`. -/
def shiftVec {n : Nat} (a : Fin n → Vec3) (S : Index3) : Vec3 := ∑ i : Fin n, (Index3.comp S i : ℝ) • a i

/-- `exp(i1 * k_vector.dot(d))`, Hamiltonian.hpp:125. -/
noncomputable def bloch (k d : Vec3) : ℂ := Complex.exp (Complex.I * ((k ⬝ᵥ d : ℝ) : ℂ))

/-- `np.column_stack(self.vectors)[:n]`, lattice.py:299. -/
def vectorMatrix {n : Nat} (hn : n ≤ 3) (a : Fin n → Vec3) : Matrix (Fin n) (Fin n) ℝ := Matrix.of fun c j => a j (Fin.castLE hn c)

open Classical in
/-- `Lattice.reciprocal_vectors`, lattice.py:298-302.  A singular matrix raises `LinAlgError` (here `runtimeError`). -/
noncomputable def reciprocal {n : Nat} (hn : n ≤ 3) (a : Fin n → Vec3) : Res (Fin n → Vec3) :=
  if (vectorMatrix hn a).det = 0 then .err .runtimeError
  else .ok fun j c => if h : c.val < n then 2 * Real.pi * ((vectorMatrix hn a)⁻¹).transpose ⟨c.val, h⟩ j else 0

/-- `brillouin_zone` in one dimension, lattice.py:322-325: the two ends. -/
noncomputable def zone1 (b : Vec3) : ℝ × ℝ := (-(Real.sqrt (b ⬝ᵥ b)) / 2, Real.sqrt (b ⬝ᵥ b) / 2)

/-- The points given to `Voronoi`, lattice.py:328-330: all combinations with the coefficients -1, 0 and 1. -/
def zonePoints (b1 b2 : Vec3) : List Vec3 :=
  [-1, 0, 1].flatMap fun m : ℤ => [-1, 0, 1].map fun n : ℤ => (m : ℝ) • b1 + (n : ℝ) • b2

/-- `brillouin_zone` in two dimensions, lattice.py:326-341: the region whose corners are returned. -/
def zone2 (b1 b2 : Vec3) (k : Vec3) : Prop := ∀ p ∈ zonePoints b1 b2, k ⬝ᵥ k ≤ (k - p) ⬝ᵥ (k - p)

end Verif.Pipeline
