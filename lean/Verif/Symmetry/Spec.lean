import Verif.Symmetry.Model

/-!
# Specification vocabulary for translational symmetry

The infinite structure repeats the block of valid sites with period `middle` in every enabled
direction.  A copy of a site is the site moved by `D` periods, where `D` is zero in the directions
without symmetry.
-/

namespace Verif.Symmetry

/-- `D` only moves along enabled directions. -/
def Supported (p : Periods) (D : Index3) : Prop :=
  (p.x = none → D.x = 0) ∧ (p.y = none → D.y = 0) ∧ (p.z = none → D.z = 0)

/-- The number of cells per period, zero where the symmetry is disabled. -/
def periodIndex (p : Periods) : Index3 :=
  ⟨(p.x.getD 0 : Nat), (p.y.getD 0 : Nat), (p.z.getD 0 : Nat)⟩

/-- The cell which lies `D` periods away from cell `c`. -/
def copy (p : Periods) (c D : Index3) : Index3 := c.add (cmul D (periodIndex p))

/-- In every enabled direction the period is a single cell or the distance is at most one cell. -/
def Short (p : Periods) (r : Index3) : Prop :=
  (p.x.isSome → |r.x| ≤ 1 ∨ p.x = some 1) ∧ (p.y.isSome → |r.y| ≤ 1 ∨ p.y = some 1) ∧
    (p.z.isSome → |r.z| ≤ 1 ∨ p.z = some 1)

/-- All stored pairs of a family whose first site is meant `shift` cells away: the main block has
shift zero, every boundary its own shift. -/
def stored (main : Hopping.HoppingBlocks) (bs : List Boundary) (shift : Index3) (fam : Nat) :
    List Hopping.COO :=
  (if shift = Index3.zero then main.blocks.getD fam [] else []) ++
    (bs.filter fun b => decide (b.shift = shift)).flatMap fun b => b.hoppings.blocks.getD fam []

end Verif.Symmetry
