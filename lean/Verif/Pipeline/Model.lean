import Verif.Symmetry.Model
import Verif.Hamiltonian.Model

/-!
# From the lattice to the system

Source: `cppcore/src/Model.cpp` (`make_system`), `cppcore/src/system/System.cpp`,
`cppcore/src/system/Registry.cpp`, `cppcore/src/Lattice.cpp` (`has_diagonal_terms`),
`cppcore/include/hamiltonian/Hamiltonian.hpp` (`build_main`).
-/

namespace Verif.Pipeline

open Verif.Lattice (Sublattice HoppingFamily Registry optimizedUnitCell siteRegistry hoppingRegistry)
open Verif.Foundation (Dims populateSystem)
open Verif.Symmetry (Periods populateBoundaries)

variable {C L P : Type}

/-- `Registry::name_map`, Registry.cpp:46-52.  The names of a registry are distinct, so that no
assignment overwrites another. -/
def nameMap (r : Registry C) : List (String × Nat) := r.names.zipIdx

/-- `explicit operator bool`, Symmetry.hpp:40. -/
def enabled (p : Periods) : Bool := p.x.isSome || p.y.isSome || p.z.isSome

/-- `if (symmetry) { populate_boundaries }`, Model.cpp:163-165. -/
def boundariesOf (d : Dims) (cell : List Lattice.CellSite) (nhop : Nat) (p : Periods)
    (names : List (String × Nat)) (valid : List Bool) : Res (List Symmetry.Boundary) :=
  if enabled p then populateBoundaries d cell nhop p names valid else .ok []

/-- `Model::make_system`, Model.cpp:142-176, and the registries copied from the lattice in the
constructor of `Model` (Model.cpp:5-8), for a model without system modifiers.  `valid` are the final
states of the foundation sites (after the shape, the symmetry, foundation modifiers and leads),
`pos` their positions and `shiftOf` the translation vector of a number of cells.  `subs` and `hops`
are the contents of the unordered maps of the lattice in iteration order.  The check that the system
is not empty (Model.cpp:173) is the last step. -/
def makeSystem [DecidableEq C] [Zero C] [Star C] (subs : List (String × Sublattice C L))
    (hops : List (String × HoppingFamily C)) (d : Dims) (p : Periods) (valid : List Bool)
    (pos : Nat → P) (junk : P) (shiftOf : Index3 → P) : Res (Hamiltonian.System C P) := do
  let sr ← siteRegistry subs
  let hr ← hoppingRegistry hops
  let cell ← optimizedUnitCell subs hops
  let s ← populateSystem d cell hops.length (nameMap hr) valid pos junk
  let bs ← boundariesOf d cell hops.length p (nameMap hr) valid
  if s.positions.length = 0 then .err .runtimeError
  else
    return ⟨sr, hr, s.positions, s.sublattices, s.hoppings,
      bs.map fun b => ⟨shiftOf b.shift, b.hoppings⟩⟩

/-- `Lattice::has_diagonal_terms`, Lattice.cpp:230-234.  `isZero()` of Eigen, which tolerates 1e-12,
is taken as exactly zero. -/
def hasDiagonalTerms [DecidableEq C] [Zero C] (subs : List (String × Sublattice C L)) : Bool :=
  subs.any fun p => (List.finRange p.2.energy.rows).any fun i =>
    if h : i.val < p.2.energy.cols then decide (p.2.energy.e i ⟨i.val, h⟩ ≠ 0) else false

/-- The storage reserved for each row by the insertion path, Hamiltonian.hpp:83-85. -/
def numPerRow [DecidableEq C] [Zero C] (l : Lattice.Lattice C L) (subs : List (String × Sublattice C L))
    {K : Type} (mods : Hamiltonian.Modifiers K P) : Int :=
  l.maxHoppings + if hasDiagonalTerms subs || !mods.onsite.isEmpty then 1 else 0

end Verif.Pipeline
