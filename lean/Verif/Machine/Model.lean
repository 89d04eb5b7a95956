import Verif.Foundation.Populate
import Verif.Hamiltonian.Translate

/-!
# Computations with 32-bit integers

The other modules compute with unbounded integers.  Here the same functions are written with the C++ types: `int` (also
`storage_idx_t`, config.hpp:16) has 32 bits and its overflow is undefined behaviour; a conversion from `idx_t` to `int` keeps the
lowest 32 bits.  `idx_t` (64 bits) is unbounded also here.
-/

namespace Verif.Machine

open Verif.Foundation Verif.Sublat Verif.Lattice

/-- The biggest `int`; `std::numeric_limits<int>::max()`, Foundation.cpp:7. -/
def maxInt : Nat := 2147483647

/-- Result of an operation on `int`s (config.hpp:16): undefined if it does not fit. -/
def int (x : Int) : Res Int := if -2147483648 ≤ x ∧ x ≤ 2147483647 then .ok x else .ub

/-- The same for results that are not negative, config.hpp:16. -/
def nat (n : Nat) : Res Nat := if n ≤ maxInt then .ok n else .ub

/-- `static_cast<storage_idx_t>` of an `idx_t`, for instance in System.cpp:38. -/
def narrow (x : Int) : Int := x.bmod 4294967296

/-! ## Foundation -/

/-- `cast<int>()` of a coordinate, Foundation.cpp:11: undefined if the integer part does not fit. -/
def castInt {F : Type} [Field F] [LinearOrder F] [FloorRing F] (v : F) : Res Int := int (truncate v)

/-- `find_bounds` in one direction, Foundation.cpp:6-22, for a direction below `ndim`. -/
def boundsLoop {F : Type} [Field F] [LinearOrder F] [FloorRing F] : List F → Int → Int → Res (Int × Int)
  | [], lo, hi => .ok (lo, hi)
  | v :: vs, lo, hi => do
    let t ← castInt v
    boundsLoop vs (if t < lo then t else lo) (if hi < t then t else hi)

/-- `find_bounds` with its padding and `spatial_size`, Foundation.cpp:17-19, 120. -/
def boundsAndSize {F : Type} [Field F] [LinearOrder F] [FloorRing F] (vs : List F) : Res ((Int × Int) × Int) := do
  let b ← boundsLoop vs 2147483647 (-2147483648)
  let lo ← int (b.1 - 1)
  let hi ← int (b.2 + 1)
  let d ← int (hi - lo)
  let s ← int (d + 1)
  return ((lo, hi), s)

/-- `spatial_size.prod()`, Foundation.cpp:28, 138: Eigen multiplies the first element by the product of the others. -/
def prod (d : Dims) : Res Nat := do
  let p ← nat (d.sy * d.sz)
  nat (d.sx * p)

/-- `num_sites`, Foundation.cpp:28. -/
def numSites (d : Dims) (nsub : Nat) : Res Nat := do
  let p ← prod d
  nat (p * nsub)

/-- `n` times `idx++`, Foundation.cpp:42. -/
def countUp : Nat → Nat → Res Nat
  | idx, 0 => .ok idx
  | idx, n + 1 => do
    let idx ← nat (idx + 1)
    countUp idx n

/-- `generate_positions`, Foundation.cpp:24-48.  The counters of the loops end at the sizes, which are `int`s. -/
def generatePositions {F : Type} [Field F] (vectors : List (Fin 3 → F)) (origin : Fin 3 → F) (d : Dims) (subs : List (Fin 3 → F)) :
    Res (List (Fin 3 → F)) := do
  let _ ← numSites d subs.length
  let ps ← Foundation.generatePositions vectors origin d subs
  let _ ← countUp 0 ps.length
  return ps

/-- The inner loop of `get_finalized_indices`, Foundation.cpp:144-150. -/
def finBlock (valid : List Bool) : Nat → Nat → FinState → Res FinState
  | _, 0, st => .ok st
  | i, k + 1, st => do
    let st ← if valid.getD i false = true then do
        let total ← nat (st.total + 1)
        let here ← nat (st.here + 1)
        Res.ok (⟨st.indices ++ [(st.total : Int)], total, here⟩ : FinState)
      else Res.ok ⟨st.indices ++ [-1], st.total, st.here⟩
    let i ← nat (i + 1)
    finBlock valid i k st

/-- `hopping_counts[...] += valid_sites_for_this_sublattice`, Foundation.cpp:155-159. -/
def addCounts (counts : List Nat) (hs : List CellHopping) (n : Nat) : Res (List Nat) :=
  hs.foldlM (fun c h => if h.isConjugate then .ok c else do
    let x ← nat (c.getD h.familyId 0 + n)
    Res.ok (c.set h.familyId x)) counts

/-- The outer loop, Foundation.cpp:140-160. -/
def finLoop (valid : List Bool) (block : Nat) : Nat → List CellSite → Finalized → Res Finalized
  | _, [], f => .ok f
  | n, s :: rest, f => do
    let start ← nat (n * block)
    let n' ← nat (n + 1)
    let stop ← nat (n' * block)
    let st ← finBlock valid start (stop - start) ⟨f.indices, f.total, 0⟩
    let counts ← addCounts f.hoppingCounts s.hoppings st.here
    let n ← nat (n + 1)
    finLoop valid block n rest ⟨st.indices, counts, st.total⟩

/-- `get_finalized_indices`, Foundation.cpp:127-164. -/
def finalize (d : Dims) (cell : List CellSite) (nhop : Nat) (valid : List Bool) : Res Finalized := do
  let block ← prod d
  finLoop valid block 0 cell ⟨[], List.replicate nhop 0, 0⟩

/-! ## Hamiltonian indices -/

/-- `CompressedSublattices::It::operator++`, CompressedSublattices.hpp:52-57: the product of two `int`s is an `int`. -/
def itersFrom (sysIdx hamIdx : Nat) : Table → Res (List It)
  | [] => .ok []
  | e :: rest => do
    let p ← nat (e.numSites * e.numOrb)
    let its ← itersFrom (sysIdx + e.numSites) (hamIdx + p) rest
    Res.ok (⟨e, sysIdx, hamIdx⟩ :: its)

/-- `System::hamiltonian_size`, System.cpp:8-14 with `ham_size`, CompressedSublattices.hpp:47. -/
def hamiltonianSize (t : Table) : Res Nat := do
  let its ← itersFrom 0 0 t
  its.foldlM (fun r sub => do
    let h ← nat (sub.elem.numSites * sub.elem.numOrb)
    Res.ok (r + h)) 0

/-- `System::to_hamiltonian_indices`, System.cpp:33-48.  (The iterator is advanced until the site is found; here to the end.) -/
def toHamiltonianIndices (t : Table) (i : Nat) : Res (List Int) := do
  let its ← itersFrom 0 0 t
  match its.find? (fun sub => decide (sub.sysStart ≤ i ∧ i < sub.sysEnd)) with
  | some sub =>
    let idx := narrow (sub.hamStart + (i - sub.sysStart) * sub.elem.numOrb : Nat)
    (List.range sub.elem.numOrb).mapM fun (k : Nat) => int (idx + k)
  | none => .err .runtimeError

/-- One index in `IndexTranslator::for_each`, HamiltonianModifiers.hpp:179-180. -/
def hamIndex (ham i : Nat) (site sys : Int) (norb : Nat) : Res Int := do
  let a ← int (site - sys)
  let b ← int (a * norb)
  int ((ham + i : Nat) + b)

/-- The indices visited by `IndexTranslator::for_each`, HamiltonianModifiers.hpp:174-189, for one hopping. -/
def hamIndices (tr : Hamiltonian.Translator) (i j : Nat) (c : Hopping.COO) : Res (Int × Int) := do
  let r ← hamIndex tr.hamRow i c.row tr.sysRow tr.rows
  let s ← hamIndex tr.hamCol j c.col tr.sysCol tr.cols
  return (r, s)

end Verif.Machine
