import Verif.Lattice.Model
import Verif.Hopping.Model
import Mathlib.Algebra.Order.Floor.Defs
import Mathlib.Algebra.Order.Field.Basic
import Mathlib.Algebra.Module.Pi

/-!
# Model of `Foundation`, its iterators and slices, dangling site removal and system population

Source: `cppcore/include/system/Foundation.hpp`, `cppcore/src/system/Foundation.cpp`,
`cppcore/src/system/System.cpp` (`populate_system`).

A foundation is a block of unit cells.  `Dims` is `spatial_size`; the sublattices are the sites of
the optimised unit cell (`Verif.Lattice.CellSite`).  Arrays indexed by the flat site index are lists
or functions of the index.  `int` overflow is not modelled.
-/

namespace Verif.Foundation

open Verif.Lattice (CellSite CellHopping)

/-- `spatial_size`, Foundation.hpp:103. -/
structure Dims where
  sx : Nat
  sy : Nat
  sz : Nat
deriving DecidableEq, Repr

/-- `spatial_size.prod()`. Foundation.hpp:84. -/
def Dims.prod (d : Dims) : Nat := d.sx * d.sy * d.sz

/-- `spatial_size` as an index. Foundation.hpp:103. -/
def Dims.index (d : Dims) : Index3 := ⟨d.sx, d.sy, d.sz⟩

/-- Where a `Site` is: spatial index and sublattice index, Foundation.hpp:122-174. -/
structure Loc where
  idx : Index3
  sub : Nat
deriving DecidableEq, Repr

/-- `Site`, Foundation.hpp:122-175: location and flat index. -/
structure Site where
  loc : Loc
  flat : Int
deriving DecidableEq, Repr

/-- `reset_idx`, Foundation.hpp:164-168. -/
def flatIdx (d : Dims) (l : Loc) : Int :=
  ((l.sub * d.sz + l.idx.z) * d.sy + l.idx.y) * d.sx + l.idx.x

/-- `Site(foundation, spatial_idx, sub_idx)`, Foundation.hpp:128-129. -/
def Site.at (d : Dims) (idx : Index3) (sub : Nat) : Site := ⟨⟨idx, sub⟩, flatIdx d ⟨idx, sub⟩⟩

/-- The carry logic shared by `Iterator::operator++` (Foundation.hpp:194-210, with `lo = 0` and
`hi = spatial_size`) and `SpatialSliceIterator::operator++` (Foundation.hpp:236-252). -/
def advance (lo hi : Index3) (l : Loc) : Loc :=
  if l.idx.x + 1 = hi.x then
    if l.idx.y + 1 = hi.y then
      if l.idx.z + 1 = hi.z then ⟨⟨lo.x, lo.y, lo.z⟩, l.sub + 1⟩
      else ⟨⟨lo.x, lo.y, l.idx.z + 1⟩, l.sub⟩
    else ⟨⟨lo.x, l.idx.y + 1, l.idx.z⟩, l.sub⟩
  else ⟨⟨l.idx.x + 1, l.idx.y, l.idx.z⟩, l.sub⟩

/-- `Foundation::Iterator::operator++`, Foundation.hpp:194-210: the flat index is counted up, not
recomputed. -/
def Site.next (d : Dims) (s : Site) : Site := ⟨advance Index3.zero d.index s.loc, s.flat + 1⟩

/-- `n` steps of a range-based `for` over `Foundation::Iterator`.
Foundation.hpp:194-210, 355-357. -/
def walk (d : Dims) : Nat → Site → List Site
  | 0, _ => []
  | n + 1, s => s :: walk d n (s.next d)

/-- `Foundation::size`, Foundation.hpp:84. -/
def size (d : Dims) (nsub : Nat) : Nat := d.prod * nsub

/-- `for (auto& site : foundation)`: from `begin()` to `end()`, Foundation.hpp:189, 355-369.  The
constructor of the iterator sets the spatial index to zero and the sublattice to 0. -/
def sites (d : Dims) (nsub : Nat) : List Site := walk d (size d nsub) ⟨⟨Index3.zero, 0⟩, 0⟩

/-- `SpatialSliceIterator`, Foundation.hpp:217-261: a site and the index within the slice. -/
structure SliceSite where
  site : Site
  sliceIdx : Nat
deriving DecidableEq, Repr

/-- `SpatialSliceIterator::operator++`, Foundation.hpp:236-252: the flat index is recomputed. -/
def SliceSite.next (d : Dims) (lo hi : Index3) (s : SliceSite) : SliceSite :=
  let l := advance lo hi s.site.loc
  ⟨Site.at d l.idx l.sub, s.sliceIdx + 1⟩

/-- `n` steps over a slice. Foundation.hpp:236-253. -/
def sliceWalk (d : Dims) (lo hi : Index3) : Nat → SliceSite → List SliceSite
  | 0, _ => []
  | n + 1, s => s :: sliceWalk d lo hi n (s.next d lo hi)

/-- `SliceIndex`, slice.hpp:10-34. -/
structure SliceIndex where
  start : Int
  stop : Int
deriving DecidableEq, Repr

namespace SliceIndex
/-- `SliceIndex()`, slice.hpp:15: the whole dimension. -/
def whole : SliceIndex := ⟨0, -1⟩
/-- `SliceIndex(int)`, slice.hpp:17: a single index. -/
def single (i : Int) : SliceIndex := ⟨i, i + 1⟩
/-- `size`, slice.hpp:21. -/
def size (s : SliceIndex) : Nat := if s.start < s.stop then (s.stop - s.start).toNat else 0
/-- One dimension of `normalize`, Foundation.hpp:282-288: open ended slices get the real end. -/
def normalize (n : Nat) (s : SliceIndex) : SliceIndex := if s.stop < 0 then ⟨s.start, n⟩ else s
end SliceIndex

/-- `SliceIndex3D`, slice.hpp:36-59. -/
structure Slice3 where
  x : SliceIndex
  y : SliceIndex
  z : SliceIndex
deriving DecidableEq, Repr

/-- `SpatialSlice::normalize`, Foundation.hpp:282-288. -/
def Slice3.normalize (d : Dims) (r : Slice3) : Slice3 :=
  ⟨r.x.normalize d.sx, r.y.normalize d.sy, r.z.normalize d.sz⟩

/-- `SliceIndexND::size`, slice.hpp:47-50. -/
def Slice3.size (r : Slice3) : Nat := r.x.size * r.y.size * r.z.size

/-- `for (auto& site : foundation[range])`, Foundation.hpp:266-301. -/
def sliceSites (d : Dims) (nsub : Nat) (range : Slice3) : List SliceSite :=
  let r := range.normalize d
  let lo : Index3 := ⟨r.x.start, r.y.start, r.z.start⟩
  let hi : Index3 := ⟨r.x.stop, r.y.stop, r.z.stop⟩
  sliceWalk d lo hi (r.size * nsub) ⟨Site.at d lo 0, 0⟩

/-- `for (auto& site : foundation[sublattice_id])`, Foundation.hpp:306-349, for the sublattice at
index `n` of the unit cell: the iterator is constructed from the flat index only, so it starts with
spatial index zero **and sublattice index 0** (Foundation.hpp:189). -/
def sublatticeSites (d : Dims) (n : Nat) : List Site :=
  walk d d.prod ⟨⟨Index3.zero, 0⟩, n * d.prod⟩

/-! ## Neighbours -/

/-- Inside the foundation?  The negation of the test in Foundation.hpp:152 and Foundation.cpp:63. -/
def inBounds (d : Dims) (i : Index3) : Bool :=
  decide (¬ (i.x < 0 ∨ i.y < 0 ∨ i.z < 0) ∧ ¬ (d.sx ≤ i.x ∨ d.sy ≤ i.y ∨ d.sz ≤ i.z))

/-- `unit_cell[sub_idx].hoppings`; the index is in range for every site of a foundation.
Foundation.hpp:148. -/
def hoppingsAt (cell : List CellSite) (sub : Nat) : List CellHopping :=
  match cell[sub]? with
  | some s => s.hoppings
  | none => []

/-- `Site::for_each_neighbor`, Foundation.hpp:146-157: the calls of the lambda in order. -/
def neighbors (d : Dims) (cell : List CellSite) (l : Loc) : List (Site × CellHopping) :=
  (hoppingsAt cell l.sub).filterMap fun h =>
    let n := l.idx.add h.rel
    if inBounds d n then some (Site.at d n h.toIdx, h) else none

/-- `detail::count_neighbors` for one site, Foundation.cpp:56-69. -/
def neighborCount (d : Dims) (cell : List CellSite) (l : Loc) : Int :=
  (hoppingsAt cell l.sub).foldl
    (fun n h => if inBounds d (l.idx.add h.rel) then n else n - 1)
    ((hoppingsAt cell l.sub).length : Int)

/-! ## Removing dangling sites -/

/-- `is_valid` and `neighbor_count`, indexed by the flat site index.
Foundation.hpp:94-95; Foundation.cpp:50-101. -/
structure Dangling where
  valid : Nat → Bool
  count : Nat → Int

/-- Array element assignment. Used for `count[i] = n`, Foundation.cpp:50-101. -/
def upd {α : Type} (f : Nat → α) (i : Nat) (v : α) : Nat → α := fun j => if j = i then v else f j

/-- `detail::clear_neighbors`, Foundation.cpp:74-90, over the neighbour lists `nbrs`.  The recursion
of the code has no structural bound: `fuel` limits its depth and `none` means that the limit was
hit (the theorems show which depth is always enough). -/
def clearNeighbors (nbrs : Nat → List Nat) (minN : Int) : Nat → Nat → Dangling → Option Dangling
  | 0, _, _ => none
  | fuel + 1, s, st =>
    if st.count s = 0 then some st
    else do
      let st ← (nbrs s).foldlM (init := st) fun st n =>
        if st.valid n = false then some st
        else
          let st := { st with count := upd st.count n (st.count n - 1) }
          if st.count n < minN then
            clearNeighbors nbrs minN fuel n { st with valid := upd st.valid n false }
          else some st
      return { st with count := upd st.count s 0 }

/-- The loop of `remove_dangling`, Foundation.cpp:96-100. -/
def removeDanglingLoop (nbrs : Nat → List Nat) (minN : Int) (fuel : Nat) :
    List Nat → Dangling → Option Dangling
  | [], st => some st
  | s :: rest, st =>
    if st.valid s = false then do
      let st ← clearNeighbors nbrs minN fuel s st
      removeDanglingLoop nbrs minN fuel rest st
    else removeDanglingLoop nbrs minN fuel rest st

/-- `remove_dangling`, Foundation.cpp:94-101, on `n` sites: the initial counts are the numbers of
neighbours whether valid or not. -/
def removeDangling (nbrs : Nat → List Nat) (minN : Int) (fuel n : Nat) (valid : Nat → Bool) :
    Option Dangling :=
  removeDanglingLoop nbrs minN fuel (List.range n) ⟨valid, fun i => (nbrs i).length⟩

/-- The location with the given flat index. The inverse of `reset_idx`, Foundation.hpp:164-168. -/
def locOf (d : Dims) (k : Nat) : Loc :=
  ⟨⟨(k % d.sx : Nat), (k / d.sx % d.sy : Nat), (k / d.sx / d.sy % d.sz : Nat)⟩,
    k / d.sx / d.sy / d.sz⟩

/-- The neighbour lists of a foundation by flat index.
`for_each_neighbor`, Foundation.hpp:146-157. -/
def flatNeighbors (d : Dims) (cell : List CellSite) (k : Nat) : List Nat :=
  (neighbors d cell (locOf d k)).map fun p => p.1.flat.toNat

/-! ## Final numbering -/

/-- `FinalizedIndices`, Foundation.hpp:32-50. -/
structure Finalized where
  indices : List Int
  hoppingCounts : List Nat
  total : Nat
deriving DecidableEq, Repr

/-- The state of the loops in `get_finalized_indices`.  `indices` grows with the loop index, which
runs through 0, 1, 2, ... over all blocks, so writing `indices[i]` is appending.
Foundation.cpp:127-164. -/
structure FinState where
  indices : List Int
  total : Nat
  here : Nat

/-- The inner loop, Foundation.cpp:144-150. -/
def finBlock (valid : List Bool) (start : Nat) : Nat → FinState → FinState
  | 0, st => st
  | k + 1, st =>
    if valid.getD start false = true then
      finBlock valid (start + 1) k ⟨st.indices ++ [(st.total : Int)], st.total + 1, st.here + 1⟩
    else finBlock valid (start + 1) k ⟨st.indices ++ [-1], st.total, st.here⟩

/-- Counting non-conjugate hoppings, Foundation.cpp:155-159. -/
def addCounts (counts : List Nat) (hs : List CellHopping) (n : Nat) : List Nat :=
  hs.foldl (fun c h => if h.isConjugate then c else c.modify h.familyId (· + n)) counts

/-- The outer loop, Foundation.cpp:140-160. -/
def finLoop (valid : List Bool) (block : Nat) : Nat → List CellSite → Finalized → Finalized
  | _, [], f => f
  | n, s :: rest, f =>
    let st := finBlock valid (n * block) block ⟨f.indices, f.total, 0⟩
    finLoop valid block (n + 1) rest
      ⟨st.indices, addCounts f.hoppingCounts s.hoppings st.here, st.total⟩

/-- `get_finalized_indices`, Foundation.cpp:127-164, without the cache: every user of the cache asks
after the last change of the states (see `Verif.Pipeline`). -/
def finalize (d : Dims) (cell : List CellSite) (nhop : Nat) (valid : List Bool) : Finalized :=
  finLoop valid d.prod 0 cell ⟨[], List.replicate nhop 0, 0⟩

/-! ## Populating the system -/

/-- `finalized_indices[site]`: -1 for an invalid site. Foundation.hpp:351-353. -/
def finIndex (f : Finalized) (s : Site) : Int := f.indices.getD s.flat.toNat (-1)

/-- The neighbour loop of `populate_system`, System.cpp:115-122. -/
def addHoppings (f : Finalized) (index : Nat) : List (Site × CellHopping) →
    Hopping.HoppingBlocks → Res Hopping.HoppingBlocks
  | [], h => .ok h
  | (n, hop) :: rest, h =>
    if finIndex f n < 0 then addHoppings f index rest h
    else if hop.isConjugate then addHoppings f index rest h
    else do
      let h ← h.add hop.familyId index (finIndex f n).toNat
      addHoppings f index rest h

/-- The site loop of `populate_system`, System.cpp:109-123.  `pos` gives the position of a site. -/
def populateLoop {P : Type} (d : Dims) (cell : List CellSite) (f : Finalized) (pos : Nat → P) :
    List Site → Hopping.System P → Res (Hopping.System P)
  | [], s => .ok s
  | site :: rest, s =>
    if finIndex f site < 0 then populateLoop d cell f pos rest s
    else
      match cell[site.loc.sub]? with
      | none => .ub
      | some c => do
        let index := (finIndex f site).toNat
        let h ← addHoppings f index (neighbors d cell site.loc) s.hoppings
        populateLoop d cell f pos rest
          { s with
            positions := s.positions.set index (pos site.flat.toNat)
            sublattices := Sublat.add s.sublattices c.aliasId c.norb 1
            hoppings := h }

/-- `detail::populate_system`, System.cpp:101-126.  `nhop` is the number of families of the lattice;
`nameMap` are the families of the system, which may be more (generators).  `junk` are the
uninitialised positions after `resize`. -/
def populateSystem {P : Type} (d : Dims) (cell : List CellSite) (nhop : Nat)
    (nameMap : List (String × Nat)) (valid : List Bool) (pos : Nat → P) (junk : P) :
    Res (Hopping.System P) := do
  let f := finalize d cell nhop valid
  let s ← populateLoop d cell f pos (sites d cell.length)
    ⟨List.replicate f.total junk, [], Hopping.HoppingBlocks.make f.total nameMap, [], []⟩
  Sublat.verify s.sublattices f.total
  return s

/-! ## Positions -/

section
variable {F : Type} [Field F]

/-- `detail::generate_positions`, Foundation.cpp:24-48, for the sublattice positions `subs` in unit
cell order.  `lattice.vector(i)` is not bounds checked; it is reached with `i > 0` only if the size
in that direction is more than one (a foundation without sites is not distinguished). -/
def generatePositions (vectors : List (Fin 3 → F)) (origin : Fin 3 → F) (d : Dims)
    (subs : List (Fin 3 → F)) : Res (List (Fin 3 → F)) :=
  let vec := fun i => vectors.getD i 0
  if vectors.length = 0 ∨ (1 < d.sy ∧ vectors.length ≤ 1) ∨ (1 < d.sz ∧ vectors.length ≤ 2) then .ub
  else .ok <| subs.flatMap fun p =>
    let ps := origin + p
    (List.range d.sz).flatMap fun c : Nat =>
      let pc := if c = 0 then ps else ps + (c : F) • vec 2
      (List.range d.sy).flatMap fun b : Nat =>
        let pb := if b = 0 then pc else pc + (b : F) • vec 1
        (List.range d.sx).map fun a : Nat => pb + (a : F) • vec 0

end

/-! ## Bounds -/

/-- The constructor of `Primitive`, Shape.cpp:5-9. -/
def primitiveSize (a b c : Int) : Res Index3 :=
  if a ≤ 0 ∨ b ≤ 0 ∨ c ≤ 0 then .err .logicError else .ok ⟨a, b, c⟩

/-- The bounds of a primitive foundation, Foundation.cpp:110.  C++ division truncates. -/
def primitiveBounds (s : Index3) : Index3 × Index3 :=
  (⟨(-s.x).tdiv 2, (-s.y).tdiv 2, (-s.z).tdiv 2⟩,
   ⟨(s.x - 1).tdiv 2, (s.y - 1).tdiv 2, (s.z - 1).tdiv 2⟩)

section
variable {F : Type} [Field F] [LinearOrder F] [FloorRing F]

/-- `static_cast<int>(float)`: truncation towards zero. Foundation.cpp:11. -/
def truncate (v : F) : Int := if 0 ≤ v then ⌊v⌋ else ⌈v⌉

/-- One direction of `find_bounds`, Foundation.cpp:6-22, given the coordinates of the vertices along
this lattice vector.  `lo` and `hi` start as the largest and the smallest integer. -/
def boundsLoop : List F → Int → Int → Int × Int
  | [], lo, hi => (lo, hi)
  | v :: vs, lo, hi =>
    let t := truncate v
    boundsLoop vs (if t < lo then t else lo) (if hi < t then t else hi)

/-- `find_bounds` in one direction, including the padding of directions below `ndim`
(Foundation.cpp:17-19). -/
def findBounds (intMax intMin : Int) (vs : List F) : Int × Int :=
  let b := boundsLoop vs intMax intMin
  (b.1 - 1, b.2 + 1)

end

end Verif.Foundation
