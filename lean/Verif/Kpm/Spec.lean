import Verif.Kpm.Model
import Verif.Numeric.Diag
import Mathlib.RingTheory.Polynomial.Chebyshev
import Mathlib.LinearAlgebra.Matrix.Hermitian
import Mathlib.Algebra.Star.Module

/-!
# Specification vocabulary for KPM moments

The mathematical objects: `T_n(H) r`, the moments `<l|T_n(H)|r>`, what it means for a matrix to be cut
into slices, and what it means for kernels to implement a matrix.  Nothing here refers to the loops of
the program.
-/

namespace Verif.Kpm

open Verif.Numeric Polynomial

variable {K V α : Type}

/-- The product of a matrix and a (block) vector. -/
def act [Semiring K] [AddCommMonoid V] [Module K V] {n : Nat} (A : Matrix (Fin n) (Fin n) K) (x : Fin n → V) :
    Fin n → V :=
  fun i => ∑ j, A i j • x j

/-- `T_k(H) r`: the Chebyshev polynomial of the first kind, of a matrix, applied to a vector. -/
noncomputable def chebVec [CommRing K] [AddCommMonoid V] [Module K V] {n : Nat} (H : Matrix (Fin n) (Fin n) K)
    (r : Fin n → V) (k : Nat) : Fin n → V :=
  act (aeval H (Chebyshev.T K k)) r

/-- `<a|b>`, conjugate linear in the first argument. -/
def inner [CommRing V] [StarRing V] {n : Nat} (a b : Fin n → V) : V := ∑ i, star (a i) * b i

/-- The diagonal moments `<r|T_k(H)|r>`; the zeroth is halved. -/
noncomputable def diagMoment [CommRing K] [CommRing V] [StarRing V] [Module K V] {n : Nat} (half : K)
    (H : Matrix (Fin n) (Fin n) K) (r : Fin n → V) (k : Nat) : V :=
  if k = 0 then half • inner r (chebVec H r 0) else inner r (chebVec H r k)

/-- The general moments `l(T_k(H) r)`, for a linear functional (or map) `l`; the zeroth is halved. -/
noncomputable def offMoment [CommRing K] [AddCommMonoid V] [Module K V] [SMul K α] {n : Nat} (half : K)
    (H : Matrix (Fin n) (Fin n) K) (l : (Fin n → V) → α) (r : Fin n → V) (k : Nat) : α :=
  if k = 0 then half • l (chebVec H r 0) else l (chebVec H r k)

/-- The kernels `M` implement the matrix `A` (which is *twice* the scaled Hamiltonian). -/
structure Implements [CommRing K] [CommRing V] [StarRing V] [Module K V] {n : Nat} (half : K) (M : Mat n V)
    (A : Matrix (Fin n) (Fin n) K) : Prop where
  spmv : ∀ start stop x y, start ≤ stop → stop ≤ n → M.spmv start stop x y = .ok (mulSub A start stop x y)
  diag : ∀ start stop x y m2 m3, start ≤ stop → stop ≤ n →
    M.diag start stop x y m2 m3 = .ok (diagSpec A start stop x y m2 m3)
  r1 : ∀ r0, M.r1 r0 = .ok (half • act A r0)

/-- The border of slice `k`; past the last slice it stays at the last border. -/
def border (data : List Nat) (k : Nat) : Nat := data.getD (min k (data.length - 1)) 0

/-- The slices of a matrix: borders do not decrease and end at the size of the system, and an element of
the matrix connects only equal or adjacent slices. -/
structure Slices [Zero K] {n : Nat} (data : List Nat) (A : Matrix (Fin n) (Fin n) K) : Prop where
  nonempty : data ≠ []
  mono : data.Pairwise (· ≤ ·)
  last : border data (data.length - 1) = n
  rows : ∀ i j k, A i j ≠ 0 → i.val < border data k → j.val < border data (k + 1)
  cols : ∀ i j k, A i j ≠ 0 → j.val < border data k → i.val < border data (k + 1)

/-- The vector is zero outside the slices `0 .. k`. -/
def ZeroAbove [Zero V] {n : Nat} (data : List Nat) (k : Nat) (x : Fin n → V) : Prop :=
  ∀ i : Fin n, border data k ≤ i.val → x i = 0

/-- A map of vectors that depends only on the slices `0 .. k`. -/
def DependsBelow {n : Nat} (data : List Nat) (k : Nat) (l : (Fin n → V) → α) : Prop :=
  ∀ x y : Fin n → V, (∀ i : Fin n, i.val < border data k → x i = y i) → l x = l y

end Verif.Kpm
