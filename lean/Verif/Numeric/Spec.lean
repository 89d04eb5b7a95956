import Verif.Numeric.Model
import Mathlib.Algebra.BigOperators.Group.Finset.Basic
import Mathlib.Algebra.BigOperators.Fin
import Mathlib.LinearAlgebra.Matrix.Defs

/-!
# Specification vocabulary for sparse matrices and kernels
-/

namespace Verif.Numeric

variable {K V : Type}

/-- The stored entries `(column, value)` of row `i`. -/
def Raw.row (m : Raw K) (i : Nat) : List (Nat × K) :=
  ((m.inner.zip m.vals).drop (m.outer.getD i 0)).take (m.outer.getD (i + 1) 0 - m.outer.getD i 0)

/-- A valid compressed matrix. -/
structure Raw.WF (m : Raw K) : Prop where
  outerLen : m.outer.length = m.rows + 1
  first : m.outer[0]? = some 0
  mono : m.outer.Pairwise (· ≤ ·)
  bound : ∀ o ∈ m.outer, o ≤ m.inner.length
  len : m.inner.length = m.vals.length
  colOk : ∀ c ∈ m.inner, c < m.cols

/-- All stored entries `(row, column, value)`, row by row. -/
def Raw.entries (m : Raw K) : List (Nat × Nat × K) :=
  (List.range m.rows).flatMap fun i => (m.row i).map fun e => (i, e.1, e.2)

/-- The matrix that is stored: entries at the same place add up. -/
def Raw.toMatrix [AddCommMonoid K] (m : Raw K) (n : Nat) : Matrix (Fin n) (Fin n) K :=
  fun i j => (((m.row i).filter (fun e => e.1 = j.val)).map (·.2)).sum

/-- The matrix stored in ELLPACK format. -/
def Ell.toMatrix [AddCommMonoid K] (m : Ell K) (n : Nat) : Matrix (Fin n) (Fin n) K :=
  fun i j => ∑ k ∈ Finset.range m.nnzPerRow, if m.indices i k = j.val then m.data i k else 0

/-- `y := A x - y` on the rows `start <= i < stop`; other rows are unchanged. -/
def mulSub [Semiring K] [AddCommGroup V] [Module K V] {n : Nat} (A : Matrix (Fin n) (Fin n) K) (start stop : Nat)
    (x y : Fin n → V) : Fin n → V :=
  fun i => if start ≤ i.val ∧ i.val < stop then (∑ j, A i j • x j) - y i else y i

/-- The inner product restricted to the rows `start <= i < stop`. -/
def dotOn [CommRing V] [StarRing V] {n : Nat} (start stop : Nat) (a b : Fin n → V) : V :=
  ∑ i, if start ≤ i.val ∧ i.val < stop then star (a i) * b i else 0

/-- A valid ELLPACK matrix of size `n`: the arrays are large enough and columns are in range. -/
structure Ell.WF (m : Ell K) (n : Nat) : Prop where
  rowsEq : m.rows = n
  dataOk : n ≤ m.dataRows
  idxOk : n ≤ m.idxRows
  colOk : ∀ i < n, ∀ k < m.nnzPerRow, m.indices i k < n

end Verif.Numeric
