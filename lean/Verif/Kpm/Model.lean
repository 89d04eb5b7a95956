import Verif.Numeric.Model

/-!
# Model of the computation of KPM moments

Source: `cppcore/include/kpm/calc_moments.hpp`, `cppcore/src/kpm/default/collectors.cpp`,
`cppcore/src/kpm/default/Compute.cpp` (`SelectAlgorithm::with`), `SliceMap` in
`cppcore/include/kpm/OptimizedHamiltonian.hpp` and `cppcore/src/kpm/OptimizedHamiltonian.cpp`.

The algorithms are templates over the matrix format.  Here they take the matrix as a `Mat`: the three
kernels that the algorithms call.  The concrete kernels are in `Verif.Numeric.Model`.  As there, the
element type `V` of a KPM vector is `K`, or `Fin c -> K` when `c` vectors are computed together.
Asserts are not checked (they are compiled out of release builds); an access outside an array is
`Res.ub`.
-/

namespace Verif.Kpm

open Verif.Numeric

variable {K V α : Type}

/-! ## Slice map -/

/-- `SliceMap`, OptimizedHamiltonian.hpp:54-96. -/
structure SliceMap where
  data : List Nat
  src : Nat
  dest : Nat
deriving DecidableEq

/-- `SliceMap(system_size)`, OptimizedHamiltonian.hpp:61. -/
def SliceMap.single (size : Nat) : SliceMap := ⟨[size], 0, 0⟩

/-- The maximum of an array, `*std::max_element`; dereferencing the end of an empty array is UB.
OptimizedHamiltonian.hpp:19-49. -/
def maxElement : List Nat → Res Nat
  | [] => .ub
  | a :: l => .ok (l.foldl max a)

/-- `find_offset`, OptimizedHamiltonian.cpp:7-14. -/
def findOffset (data idx : List Nat) : Res Nat := do
  let m ← maxElement idx
  return data.findIdx (fun i => i > m)

/-- `SliceMap(indices, optimized_idx)`, OptimizedHamiltonian.cpp:5-18. -/
def SliceMap.make (data src dest : List Nat) : Res SliceMap := do
  let s ← findOffset data src
  let d ← findOffset data dest
  return ⟨data, s, d⟩

/-- `last_index()`, OptimizedHamiltonian.hpp:80. -/
def SliceMap.lastIndex (m : SliceMap) : Int := (m.data.length : Int) - 1

/-- `index(n, num_moments)`, OptimizedHamiltonian.hpp:67-77, in signed arithmetic; `/` truncates. -/
def SliceMap.index (m : SliceMap) (n num : Nat) : Int :=
  let mid : Int := ((num : Int) - 1 + m.dest - m.src).tdiv 2
  let mx := min m.lastIndex (mid + m.src)
  if (n : Int) < mid then min mx ((n : Int) + m.src)
  else min mx ((num : Int) - 1 - n + m.dest)

/-- `operator[]`, OptimizedHamiltonian.hpp:92. -/
def SliceMap.at (m : SliceMap) (i : Int) : Res Nat := if 0 ≤ i then rd m.data i.toNat else .ub

/-- `optimal_size(n, num_moments)`, OptimizedHamiltonian.hpp:83-85. -/
def SliceMap.optimalSize (m : SliceMap) (n num : Nat) : Res Nat := m.at (m.index n num)

/-! ## The matrix, as seen by the algorithms -/

/-- The kernels of a square matrix `h2` with `n` rows: `kpm_spmv`, `kpm_spmv_diagonal`, `make_r1`.
kernel_polynomial.hpp:18-323. -/
structure Mat (n : Nat) (V : Type) where
  spmv : Nat → Nat → (Fin n → V) → (Fin n → V) → Res (Fin n → V)
  diag : Nat → Nat → (Fin n → V) → (Fin n → V) → V → V → Res (DiagOut n V)
  r1 : (Fin n → V) → Res (Fin n → V)

/-- The kernels of a CSR matrix, kernel_polynomial.hpp:18-81 and `make_r1`, Starter.hpp:54-91.  `junk` is the
uninitialised memory of the new vector. -/
def csrMat [Ring K] [CommRing V] [StarRing V] [Module K V] {n : Nat} (half : K) (junk : Fin n → V) (m : Raw K) : Mat n V :=
  ⟨kpmSpmvCsr m, diagAfter (kpmSpmvCsr m), makeR1Csr half junk m⟩

/-- The kernels of an ELLPACK matrix without SIMD, kernel_polynomial.hpp:90-118 and 195-216, `make_r1`,
Starter.hpp:93-118. -/
def ellMat [Ring K] [CommRing V] [StarRing V] [Module K V] {n : Nat} (half : K) (m : Ell K) : Mat n V :=
  ⟨kpmSpmvEll m, diagAfter (kpmSpmvEll m), makeR1Ell half m⟩

/-- The kernels of an ELLPACK matrix with SIMD registers of `step` elements.  Which rows start at an aligned
address may be different in every call.  kernel_polynomial.hpp:120-158 and 220-285. -/
def ellSimdMat [Ring K] [CommRing V] [StarRing V] [Module K V] {n : Nat} (half : K)
    (aligned : Nat → Nat → (Fin n → V) → (Fin n → V) → Nat → Bool) (step : Nat) (m : Ell K) : Mat n V :=
  ⟨fun a b x y => kpmSpmvSimd m (aligned a b x y) step 0 a b x y,
   fun a b x y => kpmDiagSimd m (aligned a b x y) step a b x y, makeR1Ell half m⟩

/-- The same for a batch of vectors (one register holds one row of the batch), kernel_polynomial.hpp:160-181 and
287-323. -/
def ellSimdBatchMat [Ring K] [CommRing V] [StarRing V] [Module K V] {n : Nat} (half : K) (m : Ell K) : Mat n V :=
  ⟨kpmSpmvSimdBatch m 0, kpmDiagSimdBatch m, makeR1Ell half m⟩

/-- The storage format of the optimized matrix and the instruction set, with everything that the program
leaves to chance: uninitialised memory and the alignment of addresses.
OptimizedHamiltonian.cpp:20-41. -/
inductive Format (K : Type) (n : Nat) (V : Type) where
  | csr (junk : Fin n → V)
  | ell (dataStep idxStep : Nat) (data0 : Nat → Nat → K) (idx0 : Nat → Nat → Nat)
  | ellSimd (dataStep idxStep : Nat) (data0 : Nat → Nat → K) (idx0 : Nat → Nat → Nat)
      (aligned : Nat → Nat → (Fin n → V) → (Fin n → V) → Nat → Bool) (step : Nat)
  | ellSimdBatch (dataStep idxStep : Nat) (data0 : Nat → Nat → K) (idx0 : Nat → Nat → Nat)

/-- The matrix that the algorithms work with: `Optimize::operator()`, OptimizedHamiltonian.cpp:33-36 (the CSR
matrix is converted to ELLPACK when that format is selected) and the overloads of the kernels. -/
def Format.mat [Ring K] [CommRing V] [StarRing V] [Module K V] {n : Nat} (f : Format K n V) (half : K) (m : Raw K) :
    Res (Mat n V) :=
  match f with
  | .csr junk => .ok (csrMat half junk m)
  | .ell ds is d0 i0 => do
    let e ← csrToEll ds is d0 i0 m
    return ellMat half e
  | .ellSimd ds is d0 i0 aligned step => do
    let e ← csrToEll ds is d0 i0 m
    return ellSimdMat half aligned step e
  | .ellSimdBatch ds is d0 i0 => do
    let e ← csrToEll ds is d0 i0 m
    return ellSimdBatchMat half e

/-! ## Collectors -/

/-- Eigen's `a.dot(b)`: conjugate linear in `a`; `a.squaredNorm()` is `a.dot(a)`.  For a batch it is taken
column by column (`V = Fin c -> K`). Used in collectors.cpp:5-15, 36-58. -/
def eigenDot [CommRing V] [StarRing V] {n : Nat} (a b : Fin n → V) : V :=
  ((List.finRange n).map fun i => star (a i) * b i).sum

/-- Off-diagonal collectors.  All of them store one value per moment, computed by a linear map `val`
from the KPM vector: `beta.dot(op * r)` (`GenericCollector`, collectors.cpp:48-58), the elements
`r[idx.dest[i]]` (`MultiUnitCollector`, collectors.cpp:60-75) or the vector `op * r`
(`DenseMatrixCollector`, collectors.cpp:87-106).  `initial`: moment 0 is halved, moment 1 is not. -/
def offInitial [SMul K α] {n : Nat} (half : K) (val : (Fin n → V) → Res α) (moments : List α)
    (r0 r1 : Fin n → V) : Res (List α) := do
  let a ← val r0
  let ms ← wr moments 0 (half • a)
  let b ← val r1
  wr ms 1 b

/-- `operator()(n, r1)` of the off-diagonal collectors. collectors.cpp:55-58, 71-75, 98-106. -/
def offCollect {n : Nat} (val : (Fin n → V) → Res α) (moments : List α) (k : Nat) (r : Fin n → V) :
    Res (List α) := do
  let a ← val r
  wr moments k a

/-- State of `DiagonalCollector` and `BatchDiagonalCollector`. collectors.hpp:9-50. -/
structure DiagCol (V : Type) where
  moments : List V
  m0 : V
  m1 : V

/-- `initial`, collectors.cpp:5-9 and 17-24. -/
def DiagCol.initial [SMul K V] [CommRing V] [StarRing V] {n : Nat} (half : K) (c : DiagCol V)
    (r0 r1 : Fin n → V) : Res (DiagCol V) := do
  let m0 := half • eigenDot r0 r0
  let ms ← wr c.moments 0 m0
  let m1 := eigenDot r1 r0
  let ms ← wr ms 1 m1
  return ⟨ms, m0, m1⟩

/-- `operator()(n, m2, m3)`, collectors.cpp:11-15 and 26-34. -/
def DiagCol.collect [Ring V] (c : DiagCol V) (n : Nat) (m2 m3 : V) : Res (DiagCol V) := do
  let ms ← wr c.moments (2 * (n - 1)) (2 * (m2 - c.m0))
  let ms ← wr ms (2 * (n - 1) + 1) (2 * m3 - c.m1)
  return { c with moments := ms }

/-! ## Diagonal algorithms -/

/-- The variables of the loop: the collector and both vectors.
kpm/calc_moments.hpp:36-57, 100-114. -/
structure St (n : Nat) (V : Type) (C : Type) where
  col : C
  r0 : Fin n → V
  r1 : Fin n → V

/-- The size used for moment `k`: `opt_size ? map.optimal_size(n, num_moments) : h2.rows()`.
kpm/calc_moments.hpp:44, 107. -/
def sizeFor (n : Nat) (map : SliceMap) (opt : Bool) (k num : Nat) : Res Nat :=
  if opt then map.optimalSize k num else .ok n

/-- One iteration of `basic`, kpm/calc_moments.hpp:42-50. -/
def diagBasicStep [Ring V] {n : Nat} (M : Mat n V) (map : SliceMap) (opt : Bool) (num : Nat)
    (s : St n V (DiagCol V)) (k : Nat) : Res (St n V (DiagCol V)) := do
  let size ← sizeFor n map opt k num
  let o ← M.diag 0 size s.r1 s.r0 0 0
  let c ← s.col.collect k o.m2 o.m3
  return ⟨c, s.r1, o.y⟩

/-- `basic`, diagonal, kpm/calc_moments.hpp:35-51; `collect.size()` is the number of moments. -/
def diagBasic [Ring V] {n : Nat} (M : Mat n V) (map : SliceMap) (opt : Bool) (c : DiagCol V)
    (r0 r1 : Fin n → V) : Res (DiagCol V) := do
  let num := c.moments.length
  let s ← (List.range' 2 (num / 2 - 1)).foldlM (diagBasicStep M map opt num) ⟨c, r0, r1⟩
  return s.col

/-- The variables of the inner loop of the interleaved algorithms: both vectors, the accumulators
(diagonal version only) and the start of both ranges. kpm/calc_moments.hpp:70-84. -/
structure Il (n : Nat) (V : Type) where
  r0 : Fin n → V
  r1 : Fin n → V
  m2 : V
  m3 : V
  m4 : V
  m5 : V
  start0 : Nat
  start1 : Nat

/-- `(k == max1) ? map[max2] : start0`. kpm/calc_moments.hpp:77. -/
def end1For (map : SliceMap) (max1 max2 : Int) (k start0 : Nat) : Res Nat :=
  if (k : Int) = max1 then map.at max2 else .ok start0

/-- One iteration of the inner loop, kpm/calc_moments.hpp:75-84. -/
def diagIlStep {n : Nat} (M : Mat n V) (map : SliceMap) (max1 max2 : Int) (s : Il n V) (k : Nat) :
    Res (Il n V) := do
  let end0 ← map.at k
  let end1 ← end1For map max1 max2 k s.start0
  let a ← M.diag s.start0 end0 s.r1 s.r0 s.m2 s.m3
  let b ← M.diag s.start1 end1 a.y s.r1 s.m4 s.m5
  return ⟨a.y, b.y, a.m2, a.m3, b.m2, b.m3, end0, end1⟩

/-- The bounds `max1`, `max2` of an iteration, kpm/calc_moments.hpp:72-73 and 129-130. -/
def ilMax (map : SliceMap) (opt : Bool) (k num : Nat) : Int :=
  if opt then map.index k num else map.lastIndex

/-- One iteration of the outer loop, kpm/calc_moments.hpp:70-88. -/
def diagInterStep [Ring V] {n : Nat} (M : Mat n V) (map : SliceMap) (opt : Bool) (num : Nat)
    (s : St n V (DiagCol V)) (k : Nat) : Res (St n V (DiagCol V)) := do
  let max1 := ilMax map opt k num
  let max2 := ilMax map opt (k + 1) num
  let r ← (List.range (max1 + 1).toNat).foldlM (diagIlStep M map max1 max2)
    ⟨s.r0, s.r1, 0, 0, 0, 0, 0, 0⟩
  let c ← s.col.collect k r.m2 r.m3
  let c ← c.collect (k + 1) r.m4 r.m5
  return ⟨c, r.r0, r.r1⟩

/-- `interleaved`, diagonal, kpm/calc_moments.hpp:61-89: `n = 2, 4, ...` while `n <= num_moments / 2`. -/
def diagInterleaved [Ring V] {n : Nat} (M : Mat n V) (map : SliceMap) (opt : Bool) (c : DiagCol V)
    (r0 r1 : Fin n → V) : Res (DiagCol V) := do
  let num := c.moments.length
  let s ← (List.range' 2 (num / 2 / 2) 2).foldlM (diagInterStep M map opt num) ⟨c, r0, r1⟩
  return s.col

/-! ## Off-diagonal algorithms -/

/-- One iteration of `basic`, kpm/calc_moments.hpp:106-113. -/
def offBasicStep {n : Nat} (M : Mat n V) (map : SliceMap) (opt : Bool) (num : Nat)
    (val : (Fin n → V) → Res α) (s : St n V (List α)) (k : Nat) : Res (St n V (List α)) := do
  let size ← sizeFor n map opt k num
  let y ← M.spmv 0 size s.r1 s.r0
  let c ← offCollect val s.col k y
  return ⟨c, s.r1, y⟩

/-- `basic`, off-diagonal, kpm/calc_moments.hpp:102-114. -/
def offBasic {n : Nat} (M : Mat n V) (map : SliceMap) (opt : Bool) (val : (Fin n → V) → Res α)
    (moments : List α) (r0 r1 : Fin n → V) : Res (List α) := do
  let num := moments.length
  let s ← (List.range' 2 (num - 2)).foldlM (offBasicStep M map opt num val) ⟨moments, r0, r1⟩
  return s.col

/-- The variables of the inner loop, off-diagonal version. kpm/calc_moments.hpp:117-140. -/
structure IlOff (n : Nat) (V : Type) where
  r0 : Fin n → V
  r1 : Fin n → V
  start0 : Nat
  start1 : Nat

/-- One iteration of the inner loop, kpm/calc_moments.hpp:132-141. -/
def offIlStep {n : Nat} (M : Mat n V) (map : SliceMap) (max1 max2 : Int) (s : IlOff n V) (k : Nat) :
    Res (IlOff n V) := do
  let end0 ← map.at k
  let end1 ← end1For map max1 max2 k s.start0
  let y0 ← M.spmv s.start0 end0 s.r1 s.r0
  let y1 ← M.spmv s.start1 end1 y0 s.r1
  return ⟨y0, y1, end0, s.start0⟩

/-- One iteration of the outer loop, kpm/calc_moments.hpp:128-145. -/
def offInterStep {n : Nat} (M : Mat n V) (map : SliceMap) (opt : Bool) (num : Nat)
    (val : (Fin n → V) → Res α) (s : St n V (List α)) (k : Nat) : Res (St n V (List α)) := do
  let max1 := ilMax map opt k num
  let max2 := ilMax map opt (k + 1) num
  let r ← (List.range (max1 + 1).toNat).foldlM (offIlStep M map max1 max2) ⟨s.r0, s.r1, 0, 0⟩
  let c ← offCollect val s.col k r.r0
  let c ← offCollect val c (k + 1) r.r1
  return ⟨c, r.r0, r.r1⟩

/-- `interleaved`, off-diagonal, kpm/calc_moments.hpp:121-146: `n = 2, 4, ...` while `n < num_moments`. -/
def offInterleaved {n : Nat} (M : Mat n V) (map : SliceMap) (opt : Bool) (val : (Fin n → V) → Res α)
    (moments : List α) (r0 r1 : Fin n → V) : Res (List α) := do
  let num := moments.length
  let s ← (List.range' 2 ((num - 1) / 2) 2).foldlM (offInterStep M map opt num val) ⟨moments, r0, r1⟩
  return s.col

/-! ## `SelectAlgorithm::with` -/

/-- `AlgorithmConfig`, Config.hpp:12-18. -/
structure AlgorithmConfig where
  optimalSize : Bool
  interleaved : Bool
deriving DecidableEq

/-- `with`, default/Compute.cpp:24-44, for the diagonal collectors and the given `r0`. -/
def withDiag [SMul K V] [CommRing V] [StarRing V] {n : Nat} (half : K) (M : Mat n V)
    (map : SliceMap) (cfg : AlgorithmConfig) (moments : List V) (r0 : Fin n → V) : Res (List V) := do
  let r1 ← M.r1 r0
  let c ← DiagCol.initial half ⟨moments, 0, 0⟩ r0 r1
  let c ← if cfg.interleaved then diagInterleaved M map cfg.optimalSize c r0 r1
    else diagBasic M map cfg.optimalSize c r0 r1
  return c.moments

/-- `with` for the off-diagonal collectors. default/Compute.cpp:23-44. -/
def withOff [SMul K α] {n : Nat} (half : K) (M : Mat n V)
    (map : SliceMap) (cfg : AlgorithmConfig) (val : (Fin n → V) → Res α) (moments : List α) (r0 : Fin n → V) :
    Res (List α) := do
  let r1 ← M.r1 r0
  let ms ← offInitial half val moments r0 r1
  if cfg.interleaved then offInterleaved M map cfg.optimalSize val ms r0 r1
  else offBasic M map cfg.optimalSize val ms r0 r1

end Verif.Kpm
