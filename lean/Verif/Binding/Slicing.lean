import Verif.Basic
import Verif.Binding.Names
import Verif.Hopping.Model

/-!
# Parts of systems, structures and maps

Source: `pybinding/support/structure.py`, `pybinding/results.py` (`SpatialMap`, `StructureMap`, `Structure`, `_make_crop_indices`), `pybinding/system.py` (`_CppSites`).

Indices with one number only (`structure[3]`) are not modelled.
-/

namespace Verif.Binding.Slicing

open Verif.Binding.Names (AliasArray)

/-! ## Numpy's indices -/

/-- An index: a mask, a list of numbers, or a slice. Numpy documentation; results.py:536. -/
inductive Idx where
  | mask (m : List Bool)
  | ints (is : List Int)
  | slice (start stop : Option Int) (step : Int)

/-- The places where a mask is true, from `i` on. Numpy documentation; results.py:536. -/
def trues : List Bool → Nat → List Nat
  | [], _ => []
  | b :: bs, i => if b then i :: trues bs (i + 1) else trues bs (i + 1)

/-- One number of a list; negative numbers count from the end, others out of range are an `IndexError`. Numpy documentation; results.py:536. -/
def wrap (n : Nat) (i : Int) : Res Nat :=
  if 0 ≤ i ∧ i < n then .ok i.toNat else if i < 0 ∧ -n ≤ i then .ok (i + n).toNat else .err .outOfRange

/-- All numbers of a list. Numpy documentation; results.py:536. -/
def wrapAll (n : Nat) : List Int → Res (List Nat)
  | [] => .ok []
  | i :: is => do
    let p ← wrap n i
    let ps ← wrapAll n is
    return p :: ps

/-- A bound of a slice, clipped to the range (`PySlice_AdjustIndices`). Python documentation of slices; results.py:536. -/
def clip (n : Nat) (step : Int) (d : Int) : Option Int → Int
  | none => d
  | some i =>
    let i := if i < 0 then i + n else i
    let lo : Int := if step < 0 then -1 else 0
    let hi : Int := if step < 0 then n - 1 else n
    if i < lo then lo else if hi < i then hi else i

/-- The elements of a slice. Python documentation of slices; results.py:536. -/
def sliceFrom (step stop : Int) : Nat → Int → List Nat
  | 0, _ => []
  | fuel + 1, i => if (0 < step ∧ i < stop) ∨ (step < 0 ∧ stop < i) then i.toNat :: sliceFrom step stop fuel (i + step) else []

/-- The places which an index takes from an array of length `n`. Numpy documentation; results.py:536.  A mask of another length is an `IndexError`, a slice with step zero a
`ValueError`. -/
def resolve (n : Nat) : Idx → Res (List Nat)
  | .mask m => if m.length = n then .ok (trues m 0) else .err .outOfRange
  | .ints is => wrapAll n is
  | .slice start stop step =>
    if step = 0 then .err .invalidArgument
    else .ok (sliceFrom step (clip n step (if step < 0 then -1 else n) stop) n (clip n step (if step < 0 then n - 1 else 0) start))

/-- The elements at the given places. Numpy documentation; structure.py:176. -/
def gather {α : Type} (l : List α) (ps : List Nat) : List α := ps.filterMap fun p => l[p]?

/-- `v[item]`, structure.py:176. -/
def index {α : Type} (l : List α) (idx : Idx) : Res (List α) := do
  let ps ← resolve l.length idx
  return gather l ps

/-! ## Sparse matrices -/

/-- A matrix of hopping ids. structure.py:207-208. -/
abbrev Csr := Hopping.Csr Nat

/-- `m.data += 1`, structure.py:15. -/
def incr (m : Csr) : Csr := m.map fun row => row.map fun e => (e.1, e.2 + 1)

/-- `m.data -= 1`, structure.py:17. -/
def decr (m : Csr) : Csr := m.map fun row => row.map fun e => (e.1, e.2 - 1)

/-- `m[idx]`, structure.py:16: rows.  As in scipy at that time, the rows are taken with a product of sparse matrices, which stores no zeros. -/
def takeRows (m : Csr) (ps : List Nat) : Csr := ps.map fun p => (m.getD p []).filter fun e => e.2 ≠ 0

/-- `m[:, idx]`, structure.py:16: columns, again with a product, which adds up entries at the same place and stores no zeros.  The order of the entries in a row
is not modelled (they are in the order of columns here). -/
def takeCols (m : Csr) (ps : List Nat) : Csr :=
  m.map fun row => (List.range ps.length).filterMap fun l =>
    let v := ((row.filter fun e => e.1 = ps.getD l 0).map (·.2)).sum
    if v = 0 then none else some (l, v)

/-- `_slice_csr_matrix(csr, idx)`, structure.py:9-18. -/
def sliceCsr (m : Csr) (idx : Idx) : Res Csr := do
  let ps ← resolve m.length idx
  return decr (takeCols (takeRows (incr m) ps) ps)

/-! ## Structures -/

variable {F : Type}

/-- `Sites`, structure.py:151-176; `_CppSites`, system.py:22-46.  `ids` may be missing in the former. -/
structure Sites (F : Type) where
  x : List F
  y : List F
  z : List F
  ids : Option AliasArray

/-- `Sites.__getitem__`, structure.py:175-176, and `_CppSites.__getitem__`, system.py:45-46.  Without ids there is an `AttributeError` (here `runtimeError`).  A part of an
array with aliases has the same names (alias.py:40-43). -/
def Sites.get (s : Sites F) (idx : Idx) : Res (Sites F) := do
  let x ← index s.x idx
  let y ← index s.y idx
  let z ← index s.z idx
  match s.ids with
  | none => .err .runtimeError
  | some ids => do
    let d ← index ids.data idx
    return ⟨x, y, z, some ⟨d, ids.mapping⟩⟩

/-- `Boundary`, structure.py:224-243. -/
structure Boundary (F : Type) where
  shift : List F
  hoppings : Csr

/-- `Boundary.__getitem__`, structure.py:241-243 and system.cpp:70-73. -/
def Boundary.get (b : Boundary F) (idx : Idx) : Res (Boundary F) := do
  let h ← sliceCsr b.hoppings idx
  return ⟨b.shift, h⟩

/-- `Structure`, results.py:475-484. -/
structure Structure (F : Type) where
  sites : Sites F
  hoppings : Csr
  boundaries : List (Boundary F)

/-- `[b[idx] for b in self._boundaries]`, results.py:542. -/
def getBoundaries (idx : Idx) : List (Boundary F) → Res (List (Boundary F))
  | [] => .ok []
  | b :: bs => do
    let c ← b.get idx
    let cs ← getBoundaries idx bs
    return c :: cs

/-- `Structure.__getitem__`, results.py:536-545, for numpy's indices. -/
def Structure.get (s : Structure F) (idx : Idx) : Res (Structure F) := do
  let sites ← s.sites.get idx
  let h ← sliceCsr s.hoppings idx
  let bs ← getBoundaries idx s.boundaries
  return ⟨sites, h, bs⟩

/-- `Structure.__getitem__` with a shape, results.py:538-539. -/
def Structure.getShape (s : Structure F) (contains : F → F → F → Bool) : Res (Structure F) :=
  s.get (.mask (List.zipWith (fun (p : F × F) z => contains p.1 p.2 z) (List.zip s.sites.x s.sites.y) s.sites.z))

/-- The names of `cropped`. results.py:24. -/
inductive Axis where
  | x
  | y
  | z

/-- `getattr(obj, name)`, results.py:24. -/
def Sites.axis (s : Sites F) : Axis → List F
  | .x => s.x
  | .y => s.y
  | .z => s.z

/-- The loop of `_make_crop_indices`, results.py:23-26. -/
def cropLoop [LE F] [LT F] [DecidableRel (α := F) (· ≤ ·)] [DecidableRel (α := F) (· < ·)] (s : Sites F) : List (Axis × F × F) → List Bool → List Bool
  | [], idx => idx
  | (name, lo, hi) :: rest, idx =>
    let v := s.axis name
    let idx := List.zipWith (· && ·) idx (v.map fun a => decide (lo ≤ a))
    let idx := List.zipWith (· && ·) idx (v.map fun a => decide (a < hi))
    cropLoop s rest idx

/-- `Structure.cropped`, results.py:20-27, 563-577. -/
def Structure.cropped [LE F] [LT F] [DecidableRel (α := F) (· ≤ ·)] [DecidableRel (α := F) (· < ·)] (s : Structure F) (limits : List (Axis × F × F)) :
    Res (Structure F) :=
  s.get (.mask (cropLoop s.sites limits (List.replicate s.sites.x.length true)))

/-- `StructureMap`, results.py:387-394. -/
structure Map (F D : Type) where
  data : List D
  structure_ : Structure F

/-- The constructor of `StructureMap`, results.py:220-228 and 390-393: the number of values must be the number of sites. -/
def Map.make {D : Type} (data : List D) (s : Structure F) : Res (Map F D) :=
  if s.sites.x.length ≠ data.length then .err .runtimeError else .ok ⟨data, s⟩

/-- `StructureMap.__getitem__`, results.py:410-415. -/
def Map.get {D : Type} (m : Map F D) (idx : Idx) : Res (Map F D) := do
  let d ← index m.data idx
  let s ← m.structure_.get idx
  Map.make d s

end Verif.Binding.Slicing
