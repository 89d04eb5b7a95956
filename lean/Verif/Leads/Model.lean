import Verif.Symmetry.Model

/-!
# Model of the leads

Source: `cppcore/src/Model.cpp` (`attach_lead`), `cppcore/src/leads/Spec.cpp`,
`cppcore/src/leads/Leads.cpp`, `cppcore/src/leads/Structure.cpp` and their headers.

Arrays are lists.  Reading or writing an array outside its range is undefined behaviour.  The shape of
a lead is given by its bounds in lattice vector coordinates (`find_bounds`, modelled in
`Verif.Foundation`) and by its `contains` function, which is applied to every position separately.
-/

namespace Verif.Leads

open Verif.Lattice (CellSite CellHopping)
open Verif.Foundation

/-- Component of an index by number. `size[axis]` of an `Index3D`, numeric/dense.hpp:53. -/
def comp (i : Index3) : Nat → Int
  | 0 => i.x
  | 1 => i.y
  | _ => i.z

/-- Assign a component of an index.
`shift_index[axis] = v` of an `Index3D`, numeric/dense.hpp:53. -/
def setComp (i : Index3) (axis : Nat) (v : Int) : Index3 :=
  match axis with
  | 0 => { i with x := v }
  | 1 => { i with y := v }
  | _ => { i with z := v }

/-- `spatial_size[axis]`. leads/Spec.cpp:9-13, 61-64. -/
def extentOf (d : Dims) : Nat → Nat
  | 0 => d.sx
  | 1 => d.sy
  | _ => d.sz

/-- `slice_index[axis]`, slice.hpp:56. -/
def Slice3.get (r : Slice3) : Nat → SliceIndex
  | 0 => r.x
  | 1 => r.y
  | _ => r.z

/-- `slice_index[axis] = v`, slice.hpp:55. -/
def Slice3.set (r : Slice3) (axis : Nat) (v : SliceIndex) : Slice3 :=
  match axis with
  | 0 => { r with x := v }
  | 1 => { r with y := v }
  | _ => { r with z := v }

/-- `array[i]`: undefined outside the array.
`junction.is_valid[i]`, leads/Spec.cpp:22; leads/Structure.cpp:22, 34, 57. -/
def readAt {α : Type} (xs : List α) (i : Int) : Res α :=
  if i < 0 then .ub
  else match xs[i.toNat]? with
    | some a => .ok a
    | none => .ub

/-- The checks of `Model::attach_lead`, Model.cpp:41-50. -/
def checkDirection (ndim : Nat) (direction : Int) : Res Unit :=
  if direction = 0 then .err .logicError
  else if ndim = 1 then .err .logicError
  else if direction.natAbs > ndim then .err .logicError
  else .ok ()

/-- `leads::Spec`, Spec.hpp:24-30; the shape is represented by its bounds and `contains`. -/
structure Spec (P : Type) where
  axis : Int
  sign : Int
  lower : Index3
  upper : Index3
  contains : P → Bool

/-- The constructor of `Spec`, Spec.cpp:6-9. -/
def Spec.make {P : Type} (direction : Int) (lower upper : Index3) (contains : P → Bool) : Spec P :=
  ⟨(direction.natAbs : Int) - 1, if direction ≠ 0 then direction.tdiv direction.natAbs else 0,
    lower, upper, contains⟩

/-- `Model::attach_lead`, Model.cpp:41-53. -/
def attachLead {P : Type} (ndim : Nat) (specs : List (Spec P)) (direction : Int)
    (lower upper : Index3) (contains : P → Bool) : Res (List (Spec P)) := do
  checkDirection ndim direction
  return specs ++ [Spec.make direction lower upper contains]

/-- What the leads use of a foundation: `bounds.first`, `spatial_size`, the unit cell and the
positions, in the order of the flat index. leads/Spec.cpp:46-54; Foundation.hpp:56-112. -/
structure Base (P : Type) where
  low : Index3
  d : Dims
  cell : List CellSite
  pos : List P

variable {P : Type}

/-- One direction of `shape_slice`, Spec.cpp:50-54. -/
def axisSlice (lead0 lead1 low : Int) (size : Nat) : SliceIndex :=
  ⟨max (lead0 - low) 0, min (lead1 + 1 - low) size⟩

/-- `detail::shape_slice`, Spec.cpp:44-56. -/
def shapeSlice (B : Base P) (sp : Spec P) : Slice3 :=
  ⟨axisSlice sp.lower.x sp.upper.x B.low.x B.d.sx, axisSlice sp.lower.y sp.upper.y B.low.y B.d.sy,
    axisSlice sp.lower.z sp.upper.z B.low.z B.d.sz⟩

/-- `step`, Spec.cpp:13 and 60. -/
def Spec.step (sp : Spec P) : Int := -sp.sign

/-- `start`, Spec.cpp:61. -/
def Spec.start (sp : Spec P) (d : Dims) : Int :=
  if sp.step > 0 then 0 else (extentOf d sp.axis.toNat : Int) - 1

/-- `end`, Spec.cpp:14 and 62. -/
def Spec.stop (sp : Spec P) (d : Dims) : Int :=
  if sp.step > 0 then (extentOf d sp.axis.toNat : Int) else -1

/-- The sites of the slice at index `i` along the axis of the lead.  The code changes the slice after
its constructor replaced open ended ranges, here they are replaced every time; single indices are never
negative. leads/Spec.cpp:20-21, 71-72. -/
def layer (B : Base P) (sp : Spec P) (r : Slice3) (i : Int) : List SliceSite :=
  sliceSites B.d B.cell.length (Slice3.set r sp.axis.toNat (.single i))

/-- Is there a valid site?  The inner loop of Spec.cpp:70-74. -/
def anyValid (valid : List Bool) : List SliceSite → Res Bool
  | [] => .ok false
  | s :: rest => do
    let v ← readAt valid s.site.flat
    if v then .ok true else anyValid valid rest

/-- The search for the first index with a valid site, Spec.cpp:68-78; `none` is the return after the
loop.  `fuel` bounds the number of iterations; one more than the size is shown to be enough. -/
def seek (B : Base P) (sp : Spec P) (valid : List Bool) (r : Slice3) : Nat → Int → Res (Option Int)
  | 0, _ => .ub
  | fuel + 1, i =>
    if i = sp.stop B.d then .ok none
    else do
      let any ← anyValid valid (layer B sp r i)
      if any then .ok (some i) else seek B sp valid r fuel (i + sp.step)

/-- `detail::attachment_slice`, Spec.cpp:58-86: the index along the axis of the lead.  The other two
components are those of `shape_slice`. -/
def attachmentSlice (B : Base P) (sp : Spec P) (valid : List Bool) : Res Int := do
  let found ← seek B sp valid (shapeSlice B sp) (extentOf B.d sp.axis.toNat + 1) (sp.start B.d)
  match found with
  | none => .err .runtimeError
  | some i => .ok i

/-- `positions()` of a slice, Foundation.hpp:290-296. -/
def slicePositions (pos : List P) : List SliceSite → Res (List P)
  | [] => .ok []
  | s :: rest => do
    let p ← readAt pos s.site.flat
    let ps ← slicePositions pos rest
    return p :: ps

/-- The slice in which `contains` is invoked, Spec.cpp:92-95. -/
def middleSlice (B : Base P) (sp : Spec P) : Slice3 :=
  let r := shapeSlice B sp
  let si := Slice3.get r sp.axis.toNat
  Slice3.set r sp.axis.toNat (.single ((si.start + si.stop).tdiv 2))

/-- `detail::Junction`, Spec.hpp:45-50: index along the axis and `is_valid`. -/
structure Junction where
  index : Int
  isValid : List Bool
deriving DecidableEq, Repr

/-- The constructor of `Junction`, Spec.cpp:88-101. -/
def junction (B : Base P) (sp : Spec P) (valid : List Bool) : Res Junction := do
  let i ← attachmentSlice B sp valid
  let ps ← slicePositions B.pos (sliceSites B.d B.cell.length (middleSlice B sp))
  let v := ps.map sp.contains
  if v.any id then .ok ⟨i, v⟩ else .err .runtimeError

/-- The body of the inner loop of `create_attachment_area`, Spec.cpp:22-31: the states of the
foundation and `junction.is_valid`. -/
def fillSite (st : List Bool × List Bool) (s : SliceSite) : Res (List Bool × List Bool) := do
  let j ← readAt st.2 s.sliceIdx
  if j then do
    let v ← readAt st.1 s.site.flat
    if v then .ok (st.1, st.2.set s.sliceIdx false)
    else .ok (st.1.set s.site.flat.toNat true, st.2)
  else .ok st

/-- The inner loop, Spec.cpp:21-32. -/
def fillLayer : List SliceSite → List Bool × List Bool → Res (List Bool × List Bool)
  | [], st => .ok st
  | s :: rest, st => do
    let st ← fillSite st s
    fillLayer rest st

/-- The outer loop and the check after it, Spec.cpp:20-41. -/
def fillLoop (B : Base P) (sp : Spec P) : Nat → Int → List Bool × List Bool → Res (List Bool)
  | 0, _, _ => .ub
  | fuel + 1, i, st =>
    if i = sp.stop B.d then .err .runtimeError
    else do
      let st ← fillLayer (layer B sp (shapeSlice B sp) i) st
      if st.2.any id then fillLoop B sp fuel (i + sp.step) st else .ok st.1

/-- `leads::create_attachment_area`, Spec.cpp:11-42: the new states of the foundation. -/
def createArea (B : Base P) (sp : Spec P) (valid : List Bool) : Res (List Bool) := do
  let j ← junction B sp valid
  fillLoop B sp (extentOf B.d sp.axis.toNat + 1) j.index (valid, j.isValid)

/-- `Leads::create_attachment_area`, Leads.cpp:5-9. -/
def createAreas (B : Base P) : List (Spec P) → List Bool → Res (List Bool)
  | [], valid => .ok valid
  | sp :: rest, valid => do
    let valid ← createArea B sp valid
    createAreas B rest valid

/-! ## Structure of a lead -/

/-- `leads::Structure`, Structure.hpp:12-27: indices and the parts of the system of the lead. -/
structure Structure (P : Type) where
  indices : List Int
  positions : List P
  sublattices : Sublat.Table
  hoppings : Hopping.HoppingBlocks
  boundary : Hopping.HoppingBlocks

/-- The loop over the slice which collects the indices, Structure.cpp:17-27. -/
def collect (f : Finalized) (jv : List Bool) : List SliceSite → Res (List Int)
  | [] => .ok []
  | s :: rest => do
    let j ← readAt jv s.sliceIdx
    if j then do
      let i ← readAt f.indices s.site.flat
      let is ← collect f jv rest
      return i :: is
    else collect f jv rest

/-- `lead_index`, Structure.hpp:19-26; `none` stands for -1. -/
def leadIndex (indices : List Int) (i : Int) : Option Nat := indices.findIdx? (· == i)

/-- The neighbour loop of the lead system, Structure.cpp:44-49.  The neighbours are inside the
foundation. -/
def addInside (f : Finalized) (indices : List Int) (index : Nat) :
    List (Site × CellHopping) → Hopping.HoppingBlocks → Res Hopping.HoppingBlocks
  | [], h => .ok h
  | (n, hop) :: rest, h => do
    let i ← readAt f.indices n.flat
    match leadIndex indices i with
    | none => addInside f indices index rest h
    | some j =>
      if hop.isConjugate then addInside f indices index rest h
      else do
        let h ← h.add hop.familyId index j
        addInside f indices index rest h

/-- The neighbour loop of the lead boundary, Structure.cpp:73-78: all hoppings, also conjugate
ones. -/
def addBetween (f : Finalized) (indices : List Int) (index : Nat) :
    List (Site × CellHopping) → Hopping.HoppingBlocks → Res Hopping.HoppingBlocks
  | [], h => .ok h
  | (n, hop) :: rest, h => do
    let i ← readAt f.indices n.flat
    match leadIndex indices i with
    | none => addBetween f indices index rest h
    | some j => do
      let h ← h.add hop.familyId index j
      addBetween f indices index rest h

/-- The lead system, Structure.cpp:30-52.  `lead_index` of a site of the junction is never -1.
`shiftPos` adds the shift of the lead to a position. -/
def systemLoop (B : Base P) (f : Finalized) (jv : List Bool) (indices : List Int) (shiftPos : P → P) :
    List SliceSite → List P × Sublat.Table × Hopping.HoppingBlocks →
      Res (List P × Sublat.Table × Hopping.HoppingBlocks)
  | [], st => .ok st
  | s :: rest, (ps, t, h) => do
    let j ← readAt jv s.sliceIdx
    if j then do
      let i ← readAt f.indices s.site.flat
      match leadIndex indices i with
      | none => .ub
      | some index =>
        match B.cell[s.site.loc.sub]? with
        | none => .ub
        | some c => do
          let p ← readAt B.pos s.site.flat
          let h ← addInside f indices index (neighbors B.d B.cell s.site.loc) h
          systemLoop B f jv indices shiftPos rest
            (ps.set index (shiftPos p), Sublat.add t c.aliasId c.norb 1, h)
    else systemLoop B f jv indices shiftPos rest (ps, t, h)

/-- The index shift between cells of the lead, Structure.cpp:67-69. -/
def Spec.shift (sp : Spec P) : Index3 := setComp Index3.zero sp.axis.toNat sp.sign

/-- The lead boundary, Structure.cpp:55-82. -/
def boundaryLoop (B : Base P) (sp : Spec P) (f : Finalized) (jv : List Bool) (indices : List Int) :
    List SliceSite → Hopping.HoppingBlocks → Res Hopping.HoppingBlocks
  | [], h => .ok h
  | s :: rest, h => do
    let j ← readAt jv s.sliceIdx
    if j then do
      let i ← readAt f.indices s.site.flat
      match leadIndex indices i with
      | none => .ub
      | some index => do
        let h ← addBetween f indices index
          (neighbors B.d B.cell ⟨s.site.loc.idx.add sp.shift, s.site.loc.sub⟩) h
        boundaryLoop B sp f jv indices rest h
    else boundaryLoop B sp f jv indices rest h

/-- The constructor of `Structure`, Structure.cpp:6-78.  `nhop` is the number of hopping families of
the lattice, `names` the name map of its registry, `junk` the positions after `resize`. -/
def makeStructure (B : Base P) (nhop : Nat) (names : List (String × Nat)) (shiftPos : P → P) (junk : P)
    (valid : List Bool) (sp : Spec P) : Res (Structure P) := do
  let f := finalize B.d B.cell nhop valid
  let jn ← junction B sp valid
  let slice := layer B sp (shapeSlice B sp) jn.index
  let indices ← collect f jn.isValid slice
  let n := indices.length
  let (ps, t, h) ← systemLoop B f jn.isValid indices shiftPos slice
    (List.replicate n junk, [], Hopping.HoppingBlocks.make n names)
  Sublat.verify t n
  let b ← boundaryLoop B sp f jn.isValid indices slice (Hopping.HoppingBlocks.make n names)
  return ⟨indices, ps, t, h, b⟩

end Verif.Leads
