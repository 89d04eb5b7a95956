import Verif.Basic
import Mathlib.Data.List.Sort

/-!
# Model of `CompressedSublattices` and the index translations of `System`

Source: `cppcore/include/system/CompressedSublattices.hpp`,
`cppcore/src/system/CompressedSublattices.cpp`, `cppcore/src/system/System.cpp`.
Machine integers are unbounded (`storage_idx_t` overflow is not modelled); site and orbital counts
are natural numbers.
-/

namespace Verif.Sublat

/-- `CompressedSublattices::Element`, CompressedSublattices.hpp:17-21. -/
structure Elem where
  id : Int
  numSites : Nat
  numOrb : Nat
deriving DecidableEq, Repr

/-- `std::vector<Element> data`, CompressedSublattices.hpp:98. -/
abbrev Table := List Elem

/-- `CompressedSublattices::add`, CompressedSublattices.cpp:15-21.  A new block is started when the
table is empty or the last block has another id; otherwise only the site count of the last block
grows (its orbital count is not touched). -/
def add (data : Table) (id : Int) (norb count : Nat) : Table :=
  match data.getLast? with
  | none => data ++ [⟨id, count, norb⟩]
  | some back =>
    if back.id ≠ id then data ++ [⟨id, count, norb⟩]
    else data.dropLast ++ [{ back with numSites := back.numSites + count }]

/-- The state of the iterator `CompressedSublattices::It`, CompressedSublattices.hpp:23-66:
the element it points to and the running `sys_idx` and `ham_idx`. -/
structure It where
  elem : Elem
  sysIdx : Nat
  hamIdx : Nat
deriving DecidableEq, Repr

namespace It
/-- `sys_start`, CompressedSublattices.hpp:39. -/
def sysStart (it : It) : Nat := it.sysIdx
/-- `sys_end`, CompressedSublattices.hpp:41. -/
def sysEnd (it : It) : Nat := it.sysIdx + it.elem.numSites
/-- `ham_size`, CompressedSublattices.hpp:47. -/
def hamSize (it : It) : Nat := it.elem.numSites * it.elem.numOrb
/-- `ham_start`, CompressedSublattices.hpp:43. -/
def hamStart (it : It) : Nat := it.hamIdx
/-- `ham_end`, CompressedSublattices.hpp:45. -/
def hamEnd (it : It) : Nat := it.hamIdx + it.hamSize
end It

/-- The sequence of iterator states of a `for (auto const& sub : *this)` loop that starts with the
given running indices: `operator++`, CompressedSublattices.hpp:52-57. -/
def itersFrom (sysIdx hamIdx : Nat) : Table → List It
  | [] => []
  | e :: rest =>
    ⟨e, sysIdx, hamIdx⟩ :: itersFrom (sysIdx + e.numSites) (hamIdx + e.numSites * e.numOrb) rest

/-- `begin()`..`end()`, CompressedSublattices.hpp:64-65, 89-90. -/
def iters (data : Table) : List It := itersFrom 0 0 data

/-- `CompressedSublattices::filter`, CompressedSublattices.cpp:23-37.  Reading `keep` beyond its end
is undefined behaviour. -/
def filter (data : Table) (keep : List Bool) : Res Table :=
  if (iters data).all (fun sub => decide (sub.sysEnd ≤ keep.length)) then
    let newCounts := (iters data).map fun sub =>
      (((keep.drop sub.sysStart).take (sub.sysEnd - sub.sysStart)).count true)
    .ok (List.zipWith (fun e n => { e with numSites := n }) data newCounts)
  else .ub

/-- `decompressed_size`, CompressedSublattices.cpp:70-74. -/
def decompressedSize (data : Table) : Nat :=
  data.foldl (fun n e => n + e.numSites) 0

/-- `decompressed`, CompressedSublattices.cpp:76-82.  The array starts uninitialised (`none`) and
one segment is filled per block. -/
def decompressed (data : Table) : List (Option Int) :=
  (iters data).foldl
    (fun arr sub => setSegment arr sub.sysStart sub.elem.numSites (some sub.elem.id))
    (List.replicate (decompressedSize data) none)

/-- `alias_ids`, CompressedSublattices.cpp:84-89. -/
def aliasIds (data : Table) : List Int := data.map (·.id)
/-- `site_counts`, CompressedSublattices.cpp:91-96. -/
def siteCounts (data : Table) : List Nat := data.map (·.numSites)
/-- `orbital_counts`, CompressedSublattices.cpp:98-103. -/
def orbitalCounts (data : Table) : List Nat := data.map (·.numOrb)

/-- The constructor from arrays, CompressedSublattices.cpp:5-13: `alias_ids.size()` elements, the
other two arrays are indexed without a bounds check. -/
def fromArrays (ids : List Int) (counts norbs : List Nat) : Res Table :=
  if ids.length ≤ counts.length ∧ ids.length ≤ norbs.length then
    .ok (List.zipWith (fun (i : Int) (p : Nat × Nat) => ⟨i, p.1, p.2⟩) ids (counts.zip norbs))
  else .ub

/-- `std::unique` on a sorted range: drop adjacent duplicates. CompressedSublattices.cpp:47. -/
def adjUnique {α : Type} [DecidableEq α] : List α → List α
  | [] => []
  | [x] => [x]
  | x :: y :: rest => if x = y then adjUnique (y :: rest) else x :: adjUnique (y :: rest)

/-- `std::is_sorted`. CompressedSublattices.cpp:53. -/
def isSorted : List Nat → Bool
  | [] => true
  | [_] => true
  | x :: y :: rest => decide (x ≤ y) && isSorted (y :: rest)

/-- `verify`, CompressedSublattices.cpp:39-59.  `std::sort` is any sorting function. -/
def verify (data : Table) (numSites : Nat) : Res Unit :=
  let ids := (aliasIds data).insertionSort (· ≤ ·)
  let aliasIdsAreUnique := (adjUnique ids).length == data.length
  let isSortedByOrbCount := isSorted (orbitalCounts data)
  if decompressedSize data ≠ numSites ∨ aliasIdsAreUnique = false ∨ isSortedByOrbCount = false then
    .err .runtimeError
  else .ok ()

/-- `start_index`, CompressedSublattices.cpp:61-68. -/
def startIndex (data : Table) (norb : Nat) : Res Nat :=
  match (iters data).find? (fun sub => sub.elem.numOrb == norb) with
  | some sub => .ok sub.sysStart
  | none => .err .runtimeError

/-- `System::hamiltonian_size`, System.cpp:8-14. -/
def hamiltonianSize (data : Table) : Nat :=
  (iters data).foldl (fun r sub => r + sub.hamSize) 0

/-- `System::to_hamiltonian_indices`, System.cpp:33-48. -/
def toHamiltonianIndices (data : Table) (i : Nat) : Res (List Nat) :=
  match (iters data).find? (fun sub => decide (sub.sysStart ≤ i ∧ i < sub.sysEnd)) with
  | some sub =>
    let norb := sub.elem.numOrb
    let offset := (i - sub.sysStart) * norb
    let idx := sub.hamStart + offset
    .ok ((List.range norb).map (fun k => idx + k))
  | none => .err .runtimeError

/-- `System::sublattice_range` for a given target id (System.cpp:50-66).  `none` stands for the
empty name: the whole system.  Resolving a name to an id (`site_registry.id`) is modelled in
`Verif.Lattice`. -/
def sublatticeRange (data : Table) (numSites : Nat) (target : Option Int) : Res (Nat × Nat) :=
  match target with
  | none => .ok (0, numSites)
  | some t =>
    match (iters data).find? (fun sub => sub.elem.id == t) with
    | some sub => .ok (sub.sysStart, sub.sysEnd)
    | none => .err .runtimeError

/-- The inner loop of `expanded_positions` (System.cpp:89-94) over the sites `i .. i+k-1`. -/
def expandSites {α : Type u} (pos : List α) (norb : Nat) :
    (k i n : Nat) → List (Option α) → List (Option α)
  | 0, _, _, ep => ep
  | k + 1, i, n, ep =>
    expandSites pos norb k (i + 1) (n + norb) (setSegment ep n norb pos[i]?)

/-- `System::expanded_positions`, System.cpp:84-97 (one coordinate; the three are treated alike).
Entries that are never written stay `none`. -/
def expandedPositions {α : Type u} (data : Table) (pos : List α) : List (Option α) :=
  (iters data).foldl
    (fun ep sub => expandSites pos sub.elem.numOrb sub.elem.numSites sub.sysStart sub.hamStart ep)
    (List.replicate (hamiltonianSize data) none)

/-- The loop of `System::find_nearest` (System.cpp:73-79) over the remaining indices. -/
def nearestLoop {K : Type u} [LT K] [DecidableRel (α := K) (· < ·)] (dist : Nat → K) :
    List Nat → Nat → K → Nat
  | [], best, _ => best
  | i :: is, best, d =>
    if dist i < d then nearestLoop dist is i (dist i) else nearestLoop dist is best d

/-- `System::find_nearest`, System.cpp:68-82.  `dist i` is the distance of site `i` from the target
(the norm is abstracted to any linearly ordered value); `positions[range.start]` and, if the loop is
entered, `positions[i]` up to `range.end - 1` are read without a bounds check. -/
def findNearest {K : Type u} [LT K] [DecidableRel (α := K) (· < ·)] (data : Table)
    (numSites : Nat) (dist : Nat → K) (target : Option Int) : Res Nat :=
  match sublatticeRange data numSites target with
  | .ok (s, e) =>
    if s < numSites ∧ (s + 1 < e → e ≤ numSites) then
      .ok (nearestLoop dist ((List.range e).drop (s + 1)) s (dist s))
    else .ub
  | .err x => .err x
  | .ub => .ub

end Verif.Sublat
