import Verif.Hopping.Model
import Verif.Lattice.Model
import Mathlib.Algebra.Group.Defs
import Mathlib.Algebra.Star.Basic

/-!
# Model of the Hamiltonian construction

Source: `cppcore/include/hamiltonian/HamiltonianModifiers.hpp`,
`cppcore/include/hamiltonian/Hamiltonian.hpp`, `cppcore/include/detail/algorithm.hpp`,
`cppcore/src/system/System.cpp` (`hamiltonian_nnz`), `cppcore/src/Model.cpp` (`make_hamiltonian`).

`C` is the type of the energies in the registries (`std::complex<double>` in the code), `K` the scalar
type of the matrix, `cast` is `num::force_cast` (numeric/traits.hpp:70-82).  Arithmetic is exact, so
`throw_if_invalid` (Hamiltonian.hpp:134-142) never throws and is left out.  Dense matrices are row
major (`EIGEN_DEFAULT_TO_ROW_MAJOR`, detail/config.hpp:12).  `isZero()` is exact here; Eigen's has a
tolerance of 1e-12.
-/

namespace Verif.Hamiltonian

open Verif.Sublat (Table It iters)
open Verif.Hopping (COO HoppingBlocks Csr csrInsert overwrite)
open Verif.Lattice (Registry)

variable {C K P : Type}

/-- `System::Boundary`, System.hpp:68-71. -/
structure Boundary (P : Type) where
  shift : P
  hoppings : HoppingBlocks

/-- `struct System`, System.hpp:16-33, as the Hamiltonian construction reads it. -/
structure System (C P : Type) where
  siteRegistry : Registry C
  hoppingRegistry : Registry C
  positions : List P
  sublattices : Table
  hoppings : HoppingBlocks
  boundaries : List (Boundary P)

/-- The coefficients of a dense matrix in storage order (`Eigen::begin`/`end`, numeric/dense.hpp:78-101). -/
def flat (m : Mat C) : List C :=
  (List.finRange m.rows).flatMap fun i => (List.finRange m.cols).map fun j => m.e i j

/-- `Registry::has_nonzero_energy`, Registry.cpp:82-87. -/
def hasNonzeroEnergy [Zero C] [DecidableEq C] (r : Registry C) : Bool :=
  r.energies.any fun m => (flat m).any fun v => decide (v ≠ 0)

/-- `Registry::has_multiple_orbitals`, Registry.cpp:96-101. -/
def hasMultipleOrbitals (r : Registry C) : Bool :=
  r.energies.any fun m => decide (m.size ≠ 1)

/-- `site_registry.energy(sub.id())`: the id is an integer; a negative one would pass the upper range
check and index the vector. Registry.cpp:63-70. -/
def energyAt (r : Registry C) (id : Int) : Res (Mat C) :=
  if id < 0 then .ub else r.energy id.toNat

/-- `site_registry.name(sub.id())`. Registry.cpp:54-61. -/
def nameAt (r : Registry C) (id : Int) : Res String :=
  if id < 0 then .ub else r.name id.toNat

/-- `OnsiteModifier::apply`, HamiltonianModifiers.hpp:32-34: a user function that sees the energies
of a whole sublattice (a flat array of shape `norb * norb * nsites`), the positions and the name, and
may throw. -/
abbrev OnsiteModifier (K P : Type) := List K → List P → String → Res (List K)

/-- `HoppingModifier::apply`, HamiltonianModifiers.hpp:51-52: the same for a buffer of hoppings of one
family, with the positions of both ends. -/
abbrev HoppingModifier (K P : Type) := List K → List P → List P → String → Res (List K)

/-- `HamiltonianModifiers`, HamiltonianModifiers.hpp:66-68. -/
structure Modifiers (K P : Type) where
  onsite : List (OnsiteModifier K P)
  hopping : List (HoppingModifier K P)

/-- A call `lambda(row, col, value)`. HamiltonianModifiers.hpp:106-156, 239-289. -/
abbrev Call (K : Type) := Int × Int × K

/-! ## Onsite energies -/

/-- `for (value : values) { array.segment(start, n).setConstant(value); start += n; }`,
HamiltonianModifiers.hpp:124-128 and 223-229.  A segment outside the array is undefined behaviour. -/
def fillSegments (n : Nat) : List K → Nat → List K → Res (List K)
  | [], _, arr => .ok arr
  | v :: vs, start, arr =>
    if start + n ≤ arr.length then fillSegments n vs (start + n) (setSegment arr start n v)
    else .ub

/-- Call all modifiers in turn on the same array, HamiltonianModifiers.hpp:138-140. -/
def runOnsite (pos : List P) (name : String) : List (OnsiteModifier K P) → List K → Res (List K)
  | [], data => .ok data
  | m :: ms, data => do
    let out ← m data pos name
    runOnsite pos name ms (overwrite data out)

/-- The energies of one sublattice before the modifiers, HamiltonianModifiers.hpp:114-129. -/
def onsiteIntrinsic [Zero K] (cast : C → K) (reg : Registry C) (hasIntrinsic : Bool) (sub : It) :
    Res (List K) :=
  let zeros := List.replicate (sub.elem.numSites * sub.elem.numOrb * sub.elem.numOrb) (0 : K)
  if hasIntrinsic then do
    let m ← energyAt reg sub.elem.id
    fillSegments sub.elem.numSites ((flat m).map cast) 0 zeros
  else .ok zeros

/-- `positions.segment(start, n)`. HamiltonianModifiers.hpp:119-128. -/
def segment (xs : List P) (start n : Nat) : Res (List P) :=
  if start + n ≤ xs.length then .ok ((xs.drop start).take n) else .ub

/-- The energies of one sublattice, HamiltonianModifiers.hpp:113-141. -/
def onsiteData [Zero K] (cast : C → K) (s : System C P) (mods : List (OnsiteModifier K P))
    (hasIntrinsic : Bool) (sub : It) : Res (List K) := do
  let data ← onsiteIntrinsic cast s.siteRegistry hasIntrinsic sub
  if mods.isEmpty then .ok data
  else
    let pos ← segment s.positions sub.sysStart sub.elem.numSites
    let name ← nameAt s.siteRegistry sub.elem.id
    runOnsite pos name mods data

/-- The row and column visited for every element of the data array, HamiltonianModifiers.hpp:145-147. -/
def onsiteIndices (sub : It) : List (Int × Int) :=
  (List.range sub.elem.numOrb).flatMap fun i =>
    (List.range sub.elem.numOrb).flatMap fun j =>
      (List.range sub.elem.numSites).map fun k =>
        (((i + (sub.hamStart + k * sub.elem.numOrb) : Nat) : Int),
          ((j + (sub.hamStart + k * sub.elem.numOrb) : Nat) : Int))

/-- `value = *data++; if (value != 0) lambda(row, col, value)`.
HamiltonianModifiers.hpp:135-150. -/
def emit [Zero K] [DecidableEq K] (idx : List (Int × Int)) (data : List K) : List (Call K) :=
  (idx.zip data).filterMap fun p => if p.2 = 0 then none else some (p.1.1, p.1.2, p.2)

/-- The sublattice loop, HamiltonianModifiers.hpp:113-155. -/
def onsiteLoop [Zero K] [DecidableEq K] (cast : C → K) (s : System C P)
    (mods : List (OnsiteModifier K P)) (hasIntrinsic : Bool) : List It → Res (List (Call K))
  | [] => .ok []
  | sub :: rest => do
    let data ← onsiteData cast s mods hasIntrinsic sub
    let calls ← onsiteLoop cast s mods hasIntrinsic rest
    return emit (onsiteIndices sub) data ++ calls

/-- `apply_to_onsite`, HamiltonianModifiers.hpp:106-156: the calls made, in order. -/
def applyToOnsite [Zero C] [DecidableEq C] [Zero K] [DecidableEq K] (cast : C → K) (s : System C P)
    (mods : Modifiers K P) : Res (List (Call K)) :=
  let hasIntrinsic := hasNonzeroEnergy s.siteRegistry
  if hasIntrinsic = false ∧ mods.onsite.isEmpty then .ok []
  else onsiteLoop cast s mods.onsite hasIntrinsic (iters s.sublattices)

/-! ## Hoppings -/

/-- `sliced(vec, step)`, detail/algorithm.hpp:9-51, for `step > 0`. -/
def sliced {α : Type} (step : Nat) : Nat → List α → List (List α)
  | 0, _ => []
  | _ + 1, [] => []
  | fuel + 1, x :: xs => (x :: xs).take step :: sliced step fuel ((x :: xs).drop step)

/-- `IndexTranslator`, HamiltonianModifiers.hpp:161-196. -/
structure Translator where
  rows : Nat
  cols : Nat
  sysRow : Nat
  sysCol : Nat
  hamRow : Nat
  hamCol : Nat

/-- `to_hamiltonian_indices(i)[0]`. System.cpp:33-48. -/
def firstIndex (t : Table) (i : Nat) : Res Nat := do
  let l ← Sublat.toHamiltonianIndices t i
  match l with
  | [] => .ub
  | x :: _ => .ok x

/-- The constructor, HamiltonianModifiers.hpp:164-169. -/
def translator (t : Table) (m : Mat C) : Res Translator := do
  let sr ← Sublat.startIndex t m.rows
  let sc ← Sublat.startIndex t m.cols
  let hr ← firstIndex t sr
  let hc ← firstIndex t sc
  return ⟨m.rows, m.cols, sr, sc, hr, hc⟩

/-- The row and column visited for every element of the buffer, HamiltonianModifiers.hpp:177-182. -/
def Translator.indices (tr : Translator) (coos : List COO) : List (Int × Int) :=
  (List.range tr.rows).flatMap fun (i : Nat) =>
    (List.range tr.cols).flatMap fun (j : Nat) =>
      coos.map fun c =>
        ((tr.hamRow + i : Int) + ((c.row : Int) - tr.sysRow) * tr.rows,
          (tr.hamCol + j : Int) + ((c.col : Int) - tr.sysCol) * tr.cols)

/-- The positions of the two ends, HamiltonianModifiers.hpp:270-275 and 101-104: unchecked access. -/
def ends [Sub P] (pos : List P) (shift : Option P) : List COO → Res (List P × List P)
  | [] => .ok ([], [])
  | c :: rest =>
    match pos[c.row]?, pos[c.col]? with
    | some a, some b => do
      let (p1, p2) ← ends pos shift rest
      return (a :: p1, (match shift with | some d => b - d | none => b) :: p2)
    | _, _ => .ub

/-- Call all modifiers in turn on the same buffer, HamiltonianModifiers.hpp:278-281. -/
def runHopping (p1 p2 : List P) (name : String) : List (HoppingModifier K P) → List K → Res (List K)
  | [], data => .ok data
  | m :: ms, data => do
    let out ← m data p1 p2 name
    runHopping p1 p2 name ms (overwrite data out)

/-- One slice of a block, HamiltonianModifiers.hpp:268-284.  Only the first `size * rows * cols`
elements of the buffer are written and read, so the buffer is that part. -/
def hoppingSlice [Zero K] [DecidableEq K] [Sub P] (s : System C P) (mods : List (HoppingModifier K P))
    (shift : Option P) (unit : List K) (name : String) (tr : Translator) (coos : List COO) :
    Res (List (Call K)) := do
  let (p1, p2) ← ends s.positions shift coos
  let data := unit.flatMap fun v => List.replicate coos.length v
  let data ← runHopping p1 p2 name mods data
  return emit (tr.indices coos) data

/-- All slices of a block. HamiltonianModifiers.hpp:239-289. -/
def hoppingSlices [Zero K] [DecidableEq K] [Sub P] (s : System C P) (mods : List (HoppingModifier K P))
    (shift : Option P) (unit : List K) (name : String) (tr : Translator) :
    List (List COO) → Res (List (Call K))
  | [] => .ok []
  | coos :: rest => do
    let a ← hoppingSlice s mods shift unit name tr coos
    let b ← hoppingSlices s mods shift unit name tr rest
    return a ++ b

/-- One block on the slow path, HamiltonianModifiers.hpp:259-286.  `maxBuffer` is
`HoppingBuffer::max_buffer_size` (100000).  Dividing by a matrix of size 0 is undefined behaviour; a
slice size of 0 makes the loop over the slices run forever, which is also counted as undefined. -/
def slowBlock [Zero K] [DecidableEq K] [Sub P] (cast : C → K) (s : System C P)
    (mods : List (HoppingModifier K P)) (maxBuffer : Nat) (shift : Option P) (fam : Nat)
    (block : List COO) : Res (List (Call K)) :=
  if block.isEmpty then .ok []
  else do
    let m ← s.hoppingRegistry.energy fam
    let name ← s.hoppingRegistry.name fam
    let tr ← translator s.sublattices m
    if m.size = 0 then .ub
    else
      let size := min (maxBuffer / m.size) block.length
      if size = 0 then .ub
      else hoppingSlices s mods shift ((flat m).map cast) name tr (sliced size block.length block)

/-- One block on the fast path, HamiltonianModifiers.hpp:248-255. -/
def fastBlock (cast : C → K) (s : System C P) (fam : Nat) (block : List COO) : Res (List (Call K)) := do
  let m ← s.hoppingRegistry.energy fam
  match (flat m).head? with
  | none => .ub
  | some v => return block.map fun c => ((c.row : Int), (c.col : Int), cast v)

/-- The loop over blocks; the iterator counts the family id from 0 (HoppingBlocks.hpp:84). -/
def blockLoop (f : Nat → List COO → Res (List (Call K))) : Nat → List (List COO) → Res (List (Call K))
  | _, [] => .ok []
  | fam, b :: bs => do
    let a ← f fam b
    let c ← blockLoop f (fam + 1) bs
    return a ++ c

/-- `apply_to_hoppings_impl`, HamiltonianModifiers.hpp:239-289, for the system (`shift = none`) or a
boundary. -/
def applyToHoppings [Zero K] [DecidableEq K] [Sub P] (cast : C → K) (s : System C P)
    (mods : Modifiers K P) (maxBuffer : Nat) (shift : Option P) (h : HoppingBlocks) :
    Res (List (Call K)) :=
  if mods.hopping.isEmpty ∧ hasMultipleOrbitals s.hoppingRegistry = false then
    blockLoop (fastBlock cast s) 0 h.blocks
  else blockLoop (slowBlock cast s mods.hopping maxBuffer shift) 0 h.blocks

/-! ## The sparse matrix -/

/-- `matrix.insert(i, j) = v`: the element must not exist yet. Hamiltonian.hpp:74-117. -/
def insertAt (n : Nat) (m : Csr K) (i j : Int) (v : K) : Res (Csr K) :=
  if i < 0 ∨ j < 0 then .ub else csrInsert n m i.toNat j.toNat v

/-- Add to the element of a row with sorted columns, creating it if needed.
Used for the `coeffRef` and `setFromTriplets` of Hamiltonian.hpp:74-132. -/
def rowAdd [Add K] (col : Nat) (v : K) : List (Nat × K) → List (Nat × K)
  | [] => [(col, v)]
  | (c, w) :: rest =>
    if col < c then (col, v) :: (c, w) :: rest
    else if col = c then (c, w + v) :: rest
    else (c, w) :: rowAdd col v rest

/-- `matrix.coeffRef(i, j) += v`; also one step of `setFromTriplets`, which adds up duplicates.
Hamiltonian.hpp:119-132. -/
def addAt [Add K] (n : Nat) (m : Csr K) (i j : Int) (v : K) : Res (Csr K) :=
  if i < 0 ∨ j < 0 then .ub
  else if j.toNat < n then
    match m[i.toNat]? with
    | none => .ub
    | some r => .ok (m.set i.toNat (rowAdd j.toNat v r))
  else .ub

/-- Insert a list of elements. Hamiltonian.hpp:74-117. -/
def insertAll (n : Nat) : List (Call K) → Csr K → Res (Csr K)
  | [], m => .ok m
  | (i, j, v) :: rest, m => do
    let m ← insertAt n m i j v
    insertAll n rest m

/-- Add up a list of elements. Hamiltonian.hpp:74-132. -/
def addAll [Add K] (n : Nat) : List (Call K) → Csr K → Res (Csr K)
  | [], m => .ok m
  | (i, j, v) :: rest, m => do
    let m ← addAt n m i j v
    addAll n rest m

/-- Each hopping goes to its place and its conjugate to the transposed one, Hamiltonian.hpp:91-94,
110-113. -/
def withConjugate [Star K] (calls : List (Call K)) : List (Call K) :=
  calls.flatMap fun c => [c, (c.2.1, c.1, star c.2.2)]

/-- `detail::build_main`, Hamiltonian.hpp:74-117. -/
def buildMain [Zero C] [DecidableEq C] [Zero K] [Add K] [Star K] [DecidableEq K] [Sub P]
    (cast : C → K) (s : System C P) (mods : Modifiers K P) (maxBuffer : Nat) (simpleBuild : Bool) :
    Res (Csr K) :=
  let n := Sublat.hamiltonianSize s.sublattices
  let zero : Csr K := List.replicate n []
  if simpleBuild then do
    let onsite ← applyToOnsite cast s mods
    let m ← insertAll n onsite zero
    let hop ← applyToHoppings cast s mods maxBuffer none s.hoppings
    insertAll n (withConjugate hop) m
  else do
    let onsite ← applyToOnsite cast s mods
    let hop ← applyToHoppings cast s mods maxBuffer none s.hoppings
    addAll n (onsite ++ withConjugate hop) zero

/-- `detail::build_periodic`, Hamiltonian.hpp:119-132.  `phase d` is `exp(i k.d)` cast to the scalar
type. -/
def buildPeriodic [Zero K] [Add K] [Mul K] [Star K] [DecidableEq K] [Sub P]
    (cast : C → K) (s : System C P) (mods : Modifiers K P) (maxBuffer : Nat) (phase : P → K) :
    List (Boundary P) → Csr K → Res (Csr K)
  | [], m => .ok m
  | b :: bs, m => do
    let hop ← applyToHoppings cast s mods maxBuffer (some b.shift) b.hoppings
    let m ← addAll (Sublat.hamiltonianSize s.sublattices)
      (withConjugate (hop.map fun c => (c.1, c.2.1, c.2.2 * phase b.shift))) m
    buildPeriodic cast s mods maxBuffer phase bs m

/-- `ham::make`, Hamiltonian.hpp:163-175. -/
def make [Zero C] [DecidableEq C] [Zero K] [Add K] [Mul K] [Star K] [DecidableEq K] [Sub P]
    (cast : C → K) (s : System C P) (mods : Modifiers K P) (maxBuffer : Nat) (phase : P → K)
    (simpleBuild : Bool) : Res (Csr K) := do
  let m ← buildMain cast s mods maxBuffer simpleBuild
  buildPeriodic cast s mods maxBuffer phase s.boundaries m

/-- `System::hamiltonian_nnz`, System.cpp:16-31: the storage reserved for the triplets. -/
def hamiltonianNnz (s : System C P) : Res Nat := do
  let onsite := (iters s.sublattices).foldl
    (fun n sub => n + sub.elem.numSites * sub.elem.numOrb * sub.elem.numOrb) 0
  let rec loop : Nat → List (List COO) → Res Nat
    | _, [] => .ok 0
    | fam, b :: bs => do
      let m ← s.hoppingRegistry.energy fam
      let r ← loop (fam + 1) bs
      return b.length * m.size + r
  let hop ← loop 0 s.hoppings.blocks
  return onsite + 2 * hop

end Verif.Hamiltonian
