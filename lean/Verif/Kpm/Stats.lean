import Verif.Kpm.Core
import Mathlib.Data.Real.Basic

/-!
# Model of the statistics of a KPM calculation

Source: `cppcore/src/kpm/Stats.cpp`, the counting functions of `cppcore/src/kpm/OptimizedHamiltonian.cpp` and
`SliceMap::uses_full_system` in `cppcore/include/kpm/OptimizedHamiltonian.hpp`.

Times are not modelled.
-/

namespace Verif.Kpm

open Verif.Numeric

variable {K : Type}

/-- `uses_full_system(num_moments)`, OptimizedHamiltonian.hpp:88-90. -/
def SliceMap.usesFullSystem (m : SliceMap) (num : Nat) : Bool := decide (m.data.length < num / 2)

/-- `OptimizedHamiltonian::VariantMatrix`: the optimized matrix in one of the two formats.
OptimizedHamiltonian.hpp:117. -/
inductive Stored (K : Type) where
  | csr (m : Raw K)
  | ell (m : Ell K)

/-- `NonZeros{rows}`: the elements stored in the first `rows` rows. OptimizedHamiltonian.cpp:162-175. -/
def Stored.nonZeros (m : Stored K) (rows : Nat) : Res Nat :=
  match m with
  | .csr m => rd m.outer rows
  | .ell m => .ok (rows * m.nnzPerRow)

/-- The division by two at the end of both counting functions, OptimizedHamiltonian.cpp:189-191, 203-205. -/
def halveIf (diagonal : Bool) (total : Nat) : Nat := if diagonal then total / 2 else total

/-- The sum over all moments in `num_nonzeros`, OptimizedHamiltonian.cpp:179-188.  `n` is `size()`. -/
def totalNonzeros (n : Nat) (m : Stored K) (map : SliceMap) (opt : Bool) (num : Nat) : Res Nat :=
  if opt then
    (List.range num).foldlM (fun total k => do
      let size ← map.optimalSize k num
      let z ← m.nonZeros size
      return total + z) 0
  else do
    let z ← m.nonZeros n
    return num * z

/-- `num_nonzeros(num_moments, optimal_size)`, OptimizedHamiltonian.cpp:178-193.  `diagonal` is
`optimized_idx.is_diagonal()`. -/
def numNonzeros (n : Nat) (m : Stored K) (map : SliceMap) (diagonal opt : Bool) (num : Nat) : Res Nat := do
  let total ← totalNonzeros n m map opt num
  return halveIf diagonal total

/-- The sum over all moments in `num_vec_elements`, OptimizedHamiltonian.cpp:196-202. -/
def totalElements (n : Nat) (map : SliceMap) (opt : Bool) (num : Nat) : Res Nat :=
  if opt then
    (List.range num).foldlM (fun total k => do
      let size ← map.optimalSize k num
      return total + size) 0
  else .ok (num * n)

/-- `num_vec_elements(num_moments, optimal_size)`, OptimizedHamiltonian.cpp:195-207. -/
def numVecElements (n : Nat) (map : SliceMap) (diagonal opt : Bool) (num : Nat) : Res Nat := do
  let total ← totalElements n map opt num
  return halveIf diagonal total

/-- `matrix_memory()`, OptimizedHamiltonian.cpp:211-231; `scalar` and `index` are the sizes of the types in bytes. -/
def Stored.memory (m : Stored K) (scalar index : Nat) : Nat :=
  match m with
  | .csr m => m.vals.length * scalar + m.vals.length * index + (m.rows + 1) * index
  | .ell m => m.rows * m.nnzPerRow * scalar + m.rows * m.nnzPerRow * index

/-- The counters of `Stats`. Stats.hpp:22-45. -/
structure Stats where
  usesFullSystem : Bool
  nnz : Nat
  optNnz : Nat
  vec : Nat
  optVec : Nat
deriving DecidableEq

/-- `Stats::reset`, Stats.cpp:31-47. -/
def Stats.reset (n : Nat) (m : Stored K) (map : SliceMap) (diagonal opt : Bool) (num : Nat) : Res Stats := do
  let nnz ← numNonzeros n m map diagonal false num
  let optNnz ← numNonzeros n m map diagonal opt num
  let vec ← numVecElements n map diagonal false num
  let optVec ← numVecElements n map diagonal opt num
  return ⟨map.usesFullSystem num, nnz, optNnz, vec, optVec⟩

/-- `percent_removed` of `hamiltonian_report`, Stats.cpp:10-11.  The difference of two `size_t` is reduced modulo
`2^64`; the division by zero of floating point numbers is not a number (`none`). -/
noncomputable def Stats.percentRemoved (s : Stats) : Option ℝ :=
  let diff : Int := ((s.nnz : Int) - s.optNnz) % 2 ^ 64
  if s.nnz = 0 then none else some (100 * (diff : ℝ) / s.nnz)

end Verif.Kpm
