import Verif.Kpm.Model
import Verif.Hamiltonian.Model

/-!
# Model of the optimized Hamiltonian

Source: `cppcore/src/kpm/OptimizedHamiltonian.cpp`, `cppcore/include/kpm/OptimizedHamiltonian.hpp`.

The original matrix is a list of rows (`Csr`), each row a list of `(column, value)` with increasing columns.
The scale factors enter as `invA`, which is `2 / a`, and `b`, both already converted to the scalar type of
the matrix.
-/

namespace Verif.Kpm

open Verif.Numeric
open Verif.Hopping (Csr)
open Verif.Hamiltonian (insertAt rowAdd)

variable {K : Type}

/-- The variables of `create_reordered`: `index_queue`, `reorder_map`, `h2`, `diagonal_inserted` and
`slice_border_indices`. OptimizedHamiltonian.cpp:74-152. -/
structure RoSt (K : Type) where
  queue : List Nat
  map : List Int
  h2 : Csr K
  diag : Bool
  borders : List Nat

/-- "This may be a new index, map it", OptimizedHamiltonian.cpp:114-118. -/
def roVisit (s : RoSt K) (col : Nat) : Res (RoSt K) := do
  let x ← rd s.map col
  if x < 0 then .ok { s with map := s.map.set col s.queue.length, queue := s.queue ++ [col] }
  else .ok s

/-- The value to insert, OptimizedHamiltonian.cpp:123-128. -/
def roValue [Mul K] [Sub K] (invA b : K) (row col : Nat) (v : K) : K :=
  if row = col then v * invA - b * invA else v * invA

/-- The body of the loop over the elements of a row, OptimizedHamiltonian.cpp:113-131. -/
def roElem [Mul K] [Sub K] (n : Nat) (invA b : K) (row h2row : Nat) (s : RoSt K) (e : Nat × K) : Res (RoSt K) := do
  let s ← roVisit s e.1
  let h2col ← rd s.map e.1
  let h2 ← insertAt n s.h2 h2row h2col (roValue invA b row e.1 e.2)
  return { s with h2 := h2, diag := s.diag || row == e.1 }

/-- The missing diagonal element, OptimizedHamiltonian.cpp:133-137. -/
def roDiag [Mul K] [Neg K] [Zero K] [DecidableEq K] (n : Nat) (invA b : K) (h2row : Nat) (s : RoSt K) : Res (RoSt K) :=
  if b ≠ 0 ∧ s.diag = false then do
    let h2 ← insertAt n s.h2 h2row h2row (-b * invA)
    return { s with h2 := h2 }
  else .ok s

/-- "Reached the end of a slice", OptimizedHamiltonian.cpp:139-142.  The array is never empty. -/
def roBorder (h2row : Nat) (s : RoSt K) : RoSt K :=
  if h2row + 1 = s.borders.getLastD 0 then { s with borders := s.borders ++ [s.queue.length] } else s

/-- One row of the reordered matrix, OptimizedHamiltonian.cpp:107-143.  Reading `index_queue` behind its end
is undefined behaviour. -/
def roRow [Mul K] [Sub K] [Neg K] [Zero K] [DecidableEq K] (h : Csr K) (invA b : K) (s : RoSt K) (h2row : Nat) :
    Res (RoSt K) := do
  let row ← rd s.queue h2row
  let es ← rd h row
  let s ← es.foldlM (roElem h.length invA b row h2row) { s with diag := false }
  let s ← roDiag h.length invA b h2row s
  return roBorder h2row s

/-- `reorder_indices`, OptimizedHamiltonian.cpp:154-158.  A negative index (never produced) would be used to
index arrays later; it is counted as undefined behaviour here already. -/
def reorderIndices (map : List Int) (idx : List Nat) : Res (List Nat) :=
  idx.mapM fun i => do
    let x ← rd map i
    if x < 0 then .ub else .ok x.toNat

/-- The optimized matrix with its index maps: `optimized_matrix`, `reorder_map`, `optimized_idx` and
`slice_map`. OptimizedHamiltonian.hpp:115-136, 181-190. -/
structure Optimized (K : Type) where
  h2 : Csr K
  map : List Int
  src : List Nat
  dest : List Nat
  slices : SliceMap

/-- `create_reordered`, OptimizedHamiltonian.cpp:74-152. -/
def createReordered [Mul K] [Sub K] [Neg K] [Zero K] [DecidableEq K] (h : Csr K) (invA b : K) (src dest : List Nat) :
    Res (Optimized K) := do
  let first ← rd src 0
  let map ← wr (List.replicate h.length (-1)) first 0
  let s ← (List.range h.length).foldlM (roRow h invA b) ⟨[first], map, List.replicate h.length [], false, [1]⟩
  let src' ← reorderIndices s.map src
  let dest' ← reorderIndices s.map dest
  let slices ← SliceMap.make s.borders.dropLast src' dest'
  return ⟨s.h2, s.map, src', dest', slices⟩

/-- `create_scaled`, OptimizedHamiltonian.cpp:54-72.  `h - I * b` has the union of both patterns.  The map of
indices stays empty and the slice map is the single slice set by the constructor,
OptimizedHamiltonian.hpp:119-120. -/
def createScaled [Mul K] [Add K] [Neg K] [Zero K] [DecidableEq K] (h : Csr K) (invA b : K) (src dest : List Nat) : Optimized K :=
  let h' := if b = 0 then h else h.zipIdx.map fun p => rowAdd p.2 (-b) p.1
  ⟨h'.map (fun r => r.map fun e => (e.1, e.2 * invA)), [], src, dest, .single h.length⟩

/-- `OptimizedHamiltonian::reorder(Vector&)`, OptimizedHamiltonian.hpp:126-136.  `junk` is the uninitialised memory of
the new vector. -/
def reorderVec {V : Type} (map : List Int) (junk v : List V) : Res (List V) :=
  if map.isEmpty then .ok v
  else
    (List.range v.length).foldlM (fun out i => do
      let x ← rd map i
      let a ← rd v i
      if x < 0 then .ub else wr out x.toNat a) junk

/-- `OptimizedHamiltonian::reorder(SparseMatrixX&)`, OptimizedHamiltonian.hpp:138-152. -/
def reorderMat (map : List Int) (m : Csr K) (ncols : Nat) : Res (Csr K) :=
  if map.isEmpty then .ok m
  else
    m.zipIdx.foldlM (fun out p =>
      p.1.foldlM (fun out (e : Nat × K) => do
        let i ← rd map p.2
        let j ← rd map e.1
        insertAt ncols out i j e.2) out) (List.replicate m.length [])

/-- `makeCompressed`: the arrays of a matrix given by rows. OptimizedHamiltonian.cpp:68, 144. -/
def ofRows (n : Nat) (rows : Csr K) : Raw K :=
  ⟨n, n, (List.range (n + 1)).map (fun i => ((rows.take i).map List.length).sum), rows.flatten.map (·.1),
    rows.flatten.map (·.2)⟩

end Verif.Kpm
