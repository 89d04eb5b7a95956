import Verif.Basic
import Mathlib.LinearAlgebra.Matrix.NonsingularInverse
import Mathlib.LinearAlgebra.Matrix.Notation
import Mathlib.Algebra.Order.Field.Rat

/-!
# Lattice vectors, positions and coordinates

Source: `cppcore/src/Lattice.cpp`: constructor 23-28, `set_offset` 127-133, `calc_position` 190-200,
`translate_coordinates` 202-217.

Single precision floats are replaced by an arbitrary linearly ordered field.  The QR solver is
replaced by the exact inverse; for a singular matrix (where the solver returns some least squares
answer) the result is the distinct value `none`.
-/

namespace Verif.Lattice

open Matrix

variable {F : Type} [Field F] [LinearOrder F] [IsStrictOrderedRing F]

/-- `Cartesian`. numeric/dense.hpp:52. -/
abbrev Cart (F : Type) := Fin 3 → F

/-- The constructor, Lattice.cpp:23-28: zero vectors other than the first are dropped. -/
def latticeVectors (a1 a2 a3 : Cart F) : List (Cart F) :=
  [a1] ++ (if a2 = 0 then [] else [a2]) ++ (if a3 = 0 then [] else [a3])

/-- The loop of `calc_position`, Lattice.cpp:192-195. -/
def bravais : List (Cart F) → List Int → Cart F → Cart F
  | v :: vs, n :: ns, p => bravais vs ns (p + (n : F) • v)
  | _, _, p => p

/-- `calc_position`, Lattice.cpp:190-200, with the position of the sublattice (zero if no name is
given). -/
def calcPosition (vectors : List (Cart F)) (offset : Cart F) (index : List Int) (sub : Cart F) :
    Cart F :=
  bravais vectors index offset + sub

/-- The leading `d` components. The maps of the first `ndim()` rows, Lattice.cpp:202-217. -/
def head (d : Nat) (hd : d ≤ 3) (p : Cart F) : Fin d → F := fun i => p (i.castLE hd)

/-- The square matrix of `translate_coordinates`, Lattice.cpp:204-210: column `i` holds the leading
components of vector `i`. -/
def latticeMatrix (vectors : List (Cart F)) (hd : vectors.length ≤ 3) :
    Matrix (Fin vectors.length) (Fin vectors.length) F :=
  Matrix.of fun r c => head vectors.length hd (vectors[c]) r

/-- `translate_coordinates`, Lattice.cpp:202-217 (without the zero padding to three components). -/
noncomputable def translateCoordinates (vectors : List (Cart F)) (hd : vectors.length ≤ 3)
    (position : Cart F) : Option (Fin vectors.length → F) :=
  let m := latticeMatrix vectors hd
  if m.det = 0 then none else some (m⁻¹ *ᵥ head vectors.length hd position)

/-- `set_offset`, Lattice.cpp:127-133: the new offset, or a rejection; `limit` is 0.55.  `none` is
the unspecified answer of the solver for a singular matrix. -/
noncomputable def setOffset (vectors : List (Cart F)) (hd : vectors.length ≤ 3) (limit : F)
    (position : Cart F) : Option (Res (Cart F)) :=
  (translateCoordinates vectors hd position).map fun v =>
    if ∃ i, limit < |v i| then .err .logicError else .ok position

end Verif.Lattice
