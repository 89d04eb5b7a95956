import Verif.Foundation.Model
import Mathlib.Data.Rat.Floor

/-!
# Model of translational symmetry and of the boundaries of a system

Source: `cppcore/src/system/Symmetry.cpp`, `cppcore/include/system/Symmetry.hpp`,
`cppcore/src/system/System.cpp` (`populate_boundaries`).
-/

namespace Verif.Symmetry

open Verif.Lattice (CellSite CellHopping)
open Verif.Foundation

/-- The number of cells per period in every direction: `none` where the symmetry is disabled or the
lattice has no such direction (the loops of Symmetry.cpp stop at `lattice.ndim()`).
Symmetry.hpp:32-45; Symmetry.cpp:13-42. -/
structure Periods where
  x : Option Nat
  y : Option Nat
  z : Option Nat
deriving DecidableEq, Repr

section
variable {F : Type} [Field F] [LinearOrder F] [FloorRing F]

/-- The period in one direction, Symmetry.cpp:26-34 and 6-7: `ratio` is the requested length over
the length of the lattice vector.  A negative length disables the direction; zero (or anything that
rounds to zero) means one cell.  `std::round` of a nonnegative number. -/
def period (length ratio : F) : Option Nat :=
  if length < 0 then none
  else
    let n := ⌊ratio + 1 / 2⌋
    if 0 < n then some n.toNat else some 1

end

/-- `SymmetryArea`, Symmetry.hpp:10-15. -/
structure Area where
  left : Index3
  right : Index3
  middle : Index3
deriving DecidableEq, Repr

/-- One direction of `area`, Symmetry.cpp:18-39: left, right and middle. -/
def axisArea (size : Nat) : Option Nat → Int × Int × Int
  | none => (0, size - 1, 0)
  | some n => (((size : Int) - n).tdiv 2, ((size : Int) - n).tdiv 2 + n - 1, n)

/-- `TranslationalSymmetry::area`, Symmetry.cpp:13-42. -/
def area (d : Dims) (p : Periods) : Area :=
  let ax := axisArea d.sx p.x
  let ay := axisArea d.sy p.y
  let az := axisArea d.sz p.z
  ⟨⟨ax.1, ay.1, az.1⟩, ⟨ax.2.1, ay.2.1, az.2.1⟩, ⟨ax.2.2, ay.2.2, az.2.2⟩⟩

/-- `SymmetryArea::contains`, Symmetry.cpp:9-11. -/
def Area.contains (a : Area) (i : Index3) : Bool :=
  decide (a.left.x ≤ i.x ∧ a.left.y ≤ i.y ∧ a.left.z ≤ i.z ∧
    i.x ≤ a.right.x ∧ i.y ≤ a.right.y ∧ i.z ≤ a.right.z)

/-- `TranslationalSymmetry::apply`, Symmetry.cpp:90-96: the new validity of every site. -/
def apply (d : Dims) (nsub : Nat) (p : Periods) (valid : List Bool) : List Bool :=
  ((sites d nsub).zip valid).map fun s => s.2 && (area d p).contains s.1.loc.idx

/-- `Translation`, Symmetry.hpp:17-22, without the length of the shift, which is the combination of
the lattice vectors with coefficients `shift`. -/
structure Translation where
  direction : Index3
  slice : Slice3
  shift : Index3
deriving DecidableEq, Repr

/-- `cwiseProduct`. Symmetry.cpp:69, 84. -/
def cmul (a b : Index3) : Index3 := ⟨a.x * b.x, a.y * b.y, a.z * b.z⟩

/-- One direction of the boundary slice, Symmetry.cpp:62-68. -/
def axisSlice (direction left right : Int) : SliceIndex :=
  if 0 < direction then .single left
  else if direction < 0 then .single right
  else .whole

/-- `add_translation`, Symmetry.cpp:49-79.  Directions beyond the dimension of the lattice are zero
here because the masks are, so the loops up to `ndim` cover all non-zero directions. -/
def addTranslation (a : Area) (ts : List Translation) (direction : Index3) : List Translation :=
  if direction = Index3.zero then ts
  else if ts.any (fun t => decide (t.direction = direction)) then ts
  else ts ++ [⟨direction,
    ⟨axisSlice direction.x a.left.x a.right.x, axisSlice direction.y a.left.y a.right.y,
     axisSlice direction.z a.left.z a.right.z⟩,
    cmul direction a.middle⟩]

/-- `make_masks`, Symmetry.cpp:100-118. -/
def masks (p : Periods) : List Index3 :=
  let upto : Option Nat → List Int := fun n => if n.isSome then [0, 1] else [0]
  (upto p.x).flatMap fun i => (upto p.y).flatMap fun j => (upto p.z).map fun k => ⟨i, j, k⟩

/-- `TranslationalSymmetry::translations`, Symmetry.cpp:44-88. -/
def translations (d : Dims) (cell : List CellSite) (p : Periods) : List Translation :=
  (cell.flatMap fun s => s.hoppings.flatMap fun h => (masks p).map (cmul h.rel)).foldl
    (addTranslation (area d p)) []

/-- A `System::Boundary`: shift in cells along each lattice vector and hoppings.
System.hpp:68-71. -/
structure Boundary where
  shift : Index3
  hoppings : Hopping.HoppingBlocks

/-- `finalized_indices[site]` without a range check: undefined outside the array.
Foundation.hpp:351-353. -/
def readIndex (f : Finalized) (s : Site) : Res Int :=
  if s.flat < 0 then .ub
  else match f.indices[s.flat.toNat]? with
    | some i => .ok i
    | none => .ub

/-- The site loop of `populate_boundaries`, System.cpp:138-152. -/
def boundaryLoop (d : Dims) (cell : List CellSite) (f : Finalized) (shift : Index3) :
    List SliceSite → Hopping.HoppingBlocks → Res Hopping.HoppingBlocks
  | [], h => .ok h
  | s :: rest, h => do
    let index ← readIndex f s.site
    if index < 0 then boundaryLoop d cell f shift rest h
    else
      let h ← addHoppings f index.toNat
        (neighbors d cell ⟨s.site.loc.idx.add shift, s.site.loc.sub⟩) h
      boundaryLoop d cell f shift rest h

/-- The translation loop of `populate_boundaries`, System.cpp:133-157. -/
def translationLoop (d : Dims) (cell : List CellSite) (f : Finalized)
    (nameMap : List (String × Nat)) : List Translation → List Boundary → Res (List Boundary)
  | [], bs => .ok bs
  | t :: rest, bs => do
    let h ← boundaryLoop d cell f t.shift (sliceSites d cell.length t.slice)
      (Hopping.HoppingBlocks.make f.total nameMap)
    translationLoop d cell f nameMap rest (if h.nnz > 0 then bs ++ [⟨t.shift, h⟩] else bs)

/-- `populate_boundaries`, System.cpp:128-158. -/
def populateBoundaries (d : Dims) (cell : List CellSite) (nhop : Nat) (p : Periods)
    (nameMap : List (String × Nat)) (valid : List Bool) : Res (List Boundary) :=
  translationLoop d cell (finalize d cell nhop valid) nameMap (translations d cell p) []

end Verif.Symmetry
