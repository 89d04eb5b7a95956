import Verif.Kpm.Core

/-!
# Model of the stochastic calculations of `kpm::Core`: density of states and conductivity

Source: `cppcore/src/kpm/Core.cpp`, `cppcore/src/kpm/Starter.cpp`, `cppcore/src/kpm/Moments.cpp`,
`cppcore/src/kpm/default/collectors.cpp`, `cppcore/include/kpm/reconstruct.hpp`.

The numbers of the random generator are an arbitrary function of the number of the vector and the index: a starter always
begins with the default seed and takes `n` numbers for every vector, so two starters give the same sequence.
-/

namespace Verif.Kpm

open Verif.Numeric
open Verif.Hopping (Csr)

variable {K V : Type} {n : Nat}

/-! ## Random vectors -/

/-- The elements of a random vector for real Hamiltonians, Starter.cpp:59-64; `x` is a random number in `[0, 1)`. -/
noncomputable def signOf (x : ℝ) : ℝ := if x < 1 / 2 then -1 else 1

/-- The elements of a random vector for complex Hamiltonians, Starter.cpp:73-77. -/
noncomputable def phaseOf (x : ℝ) : ℂ := Complex.exp (2 * Real.pi * Complex.I * x)

/-- `RandomStarter::operator()`, Starter.cpp:66-69 and 79-82, for the random vector `r`: apply the operator if there is one,
then reorder. -/
def randomStart [CommRing K] (n : Nat) (o : Optimized K) (op : Option (Csr K)) (junk r : Fin n → K) : Res (Fin n → K) := do
  let r0 := match op with
    | none => r
    | some m => act (matrixOf n m) r
  let v ← reorderVec o.map (List.ofFn junk) (List.ofFn r0)
  asFn n v

/-! ## `Core::dos` -/

section dos

variable [CommRing K] [StarRing K] [DecidableEq K]

/-- One vector of `Core::dos`: the moments of the `k`-th random vector, Core.cpp:78-85 with default/Compute.cpp:78-81.
The optimal size is switched off. -/
def dosColumn (half : K) (M : Mat n K) (cfg : AlgorithmConfig) (o : Optimized K) (num : Nat) (junk : Nat → K)
    (rand : Nat → Fin n → K) (k : Nat) : Res (List K) := do
  let r0 ← randomStart n o none (fun i => junk i) (rand k)
  withDiag half M o.slices { cfg with optimalSize := false } ((List.range num).map junk) r0

/-- The block of vectors which `make_r0` takes from a random starter, Starter.hpp:43-50. -/
def randomBlock (n c : Nat) (o : Optimized K) (junk : Fin n → K) (rand : Nat → Fin n → K) (k : Nat) : Res (Fin n → Fin c → K) := do
  let cols ← (List.finRange c).mapM fun j => randomStart n o none junk (rand (k + j.val))
  return fun i j => (cols.getD j.val fun _ => 0) i

/-- A batch of vectors of `Core::dos`, default/Compute.cpp:69-72. -/
def dosBatch {c : Nat} (half : K) (M : Mat n (Fin c → K)) (cfg : AlgorithmConfig) (o : Optimized K) (num : Nat) (junk : Nat → K)
    (rand : Nat → Fin n → K) (k : Nat) : Res (List (Fin c → K)) := do
  let r0 ← randomBlock n c o (fun i => junk i) rand k
  withDiag half M o.slices { cfg with optimalSize := false } ((List.range num).map fun k _ => junk k) r0

end dos

/-- The last steps of `Core::dos` for one energy, Core.cpp:88-89: damping and reconstruction of the accumulated moments. -/
noncomputable def dosValue {num : Nat} (g : Nat → Nat → ℝ) (s : Scale ℝ) (moments : Fin num → ℂ) (energy : ℝ) : Res ℝ :=
  spectralDensity s (damp g (List.ofFn moments)) energy

/-! ## `Core::conductivity` -/

section conductivity

variable [CommRing K] [StarRing K] [DecidableEq K]

/-- The operator of `DenseMatrixCollector`, collectors.cpp:81-84. -/
def denseOp (n : Nat) (o : Optimized K) (op : Option (Csr K)) : Res (Option (Csr K)) :=
  match op with
  | none => .ok none
  | some m => do
    let m ← reorderMat o.map m n
    return some m

/-- A row of `DenseMatrixCollector` before the halving of the zeroth, collectors.cpp:91-95, 102-105. -/
def denseRow (op : Option (Csr K)) (x : Fin n → K) : Fin n → K :=
  match op with
  | none => x
  | some m => act (matrixOf n m) x

/-- `compute->moments` for `DenseMatrixMoments`, default/Compute.cpp:102-106: a matrix of `num` rows. -/
def denseMoments (half : K) (M : Mat n K) (cfg : AlgorithmConfig) (o : Optimized K) (num : Nat) (op : Option (Csr K)) (junk : Nat → K)
    (r0 : Fin n → K) : Res (Fin num → Fin n → K) := do
  let m ← denseOp n o op
  let rows ← withOff half M o.slices cfg (fun x => .ok (denseRow m x)) ((List.range num).map fun k _ => junk k) r0
  asFn num rows

/-- `MatrixMulAdd`, Moments.cpp:96-100: `result += a * b.adjoint()`. -/
def mulAdd {num : Nat} (result : Fin num → Fin num → K) (a b : Fin num → Fin n → K) : Fin num → Fin num → K :=
  fun i j => result i j + ∑ x, a i x * star (b j x)

/-- One round of the loop in `Core::conductivity`, Core.cpp:138-142. -/
def condStep (half : K) (M : Mat n K) (cfg : AlgorithmConfig) (o : Optimized K) (num : Nat) (vl vr : Csr K) (junk : Nat → K)
    (rand : Nat → Fin n → K) (total : Fin num → Fin num → K) (j : Nat) : Res (Fin num → Fin num → K) := do
  let startL ← randomStart n o (some vl) (fun i => junk i) (rand j)
  let l ← denseMoments half M { cfg with optimalSize := false } o num none junk startL
  let startR ← randomStart n o none (fun i => junk i) (rand j)
  let r ← denseMoments half M { cfg with optimalSize := false } o num (some vr) junk startR
  return mulAdd total l r

end conductivity

/-- The matrix of moments of `Core::conductivity` before damping, Core.cpp:122-143.  The average over zero vectors is 0/0. -/
def condMoments [Field K] [StarRing K] [DecidableEq K] (half : K) (f : Format K n K) (cfg : AlgorithmConfig) (h : Csr K) (invA b : K)
    (num : Nat) (left right : List K) (numRandom : Nat) (junk : Nat → K) (rand : Nat → Fin n → K) : Res (Fin num → Fin num → K) := do
  let o ← optimizeFor cfg.reorder h invA b [0] [0]
  let M ← f.mat half (ofRows n o.h2)
  let vl ← velocity left h
  let vr ← velocity right h
  let total ← (List.range numRandom).foldlM (condStep half M cfg o num vl vr junk rand) fun _ _ => 0
  if numRandom = 0 then .ub else .ok fun i j => total i j / numRandom

/-- `Kernel::operator()(MatrixX&)`, Kernel.hpp:52-60. -/
def dampMat {num : Nat} [SMul ℝ K] (g : Nat → Nat → ℝ) (m : Fin num → Fin num → K) : Fin num → Fin num → K :=
  fun i j => (g num i * g num j) • m i j

/-- `Bounds::linspaced`, Bounds.hpp:54, with `LinSpaced` of Eigen: equidistant samples with both ends; one sample is the
upper end. -/
noncomputable def linspaced (min max : ℝ) (size : Nat) : List ℝ :=
  if size = 1 then [max] else (List.range size).map fun i : Nat => min + i * ((max - min) / ((size : ℝ) - 1))

/-- `gamma` before it is added to its adjoint: `g_p`, reconstruct.hpp:110-118.  `ns_2d(i, j) = j`. -/
noncomputable def gammaP (en : ℝ) (i j : Nat) : ℂ :=
  (en - Complex.I * j * Real.sqrt (1 - en * en)) * Complex.exp (Complex.I * Real.arccos en * j) * Real.cos (Real.arccos en * i)

/-- `gamma`, reconstruct.hpp:107-120. -/
noncomputable def gammaMat (en : ℝ) (i j : Nat) : ℂ := gammaP en i j + star (gammaP en j i)

/-- `sum_nm` for one energy, reconstruct.hpp:133-136; division by zero and roots of negative numbers for `en` outside
of (-1, 1) are `.ub`. -/
noncomputable def kuboSum {num : Nat} (m : Fin num → Fin num → ℂ) (en : ℝ) : Res ℂ :=
  if -1 < en ∧ en < 1 then .ok ((1 / ((1 - en * en) * (1 - en * en)) : ℝ) * ∑ i, ∑ j, m i j * gammaMat en i j) else .ub

/-- `fermi_dirac`, reconstruct.hpp:129-131. -/
noncomputable def fermiDirac (invKbt mu en : ℝ) : ℝ := 1 / (1 + Real.exp ((en - mu) * invKbt))

/-- `maxCoeff()`, `minCoeff()` of an array; undefined for an empty one. reconstruct.hpp:122. -/
noncomputable def extremes (l : List ℝ) : Res (ℝ × ℝ) :=
  match l with
  | [] => .ub
  | x :: xs => .ok (xs.foldl max x, xs.foldl min x)

/-- `KuboBastin::operator()`, reconstruct.hpp:96-142, for one chemical potential.  `kbt` is `kb * temperature`; for zero the
inverse is an infinity, `.ub` here. -/
noncomputable def kuboBastin {num : Nat} (s : Scale ℝ) (kbt : ℝ) (m : Fin num → Fin num → ℂ) (samples : List ℝ) (mu : ℝ) : Res ℂ := do
  if kbt = 0 then .ub else
  let scaled := samples.map s.apply
  let (hi, lo) ← extremes scaled
  let sums ← scaled.mapM (kuboSum m)
  let func := List.zipWith (fun e v => (fermiDirac (s.a / kbt) (s.apply mu) e : ℂ) * v) scaled sums
  let v ← kuboIntegrate ((hi - lo : ℝ) : ℂ) func
  return 4 / (s.a * s.a) * v

/-- `Core::conductivity`, Core.cpp:119-150, for a given number of moments and one chemical potential, and the real part
taken by `KPM::calc_conductivity`, KPM.cpp:147. -/
noncomputable def coreConductivity [DecidableEq ℂ] (f : Format ℂ n ℂ) (cfg : AlgorithmConfig) (g : Nat → Nat → ℝ) (min max : ℝ)
    (h : Csr ℂ) (num : Nat) (left right : List ℂ) (kbt : ℝ) (numRandom numPoints : Nat) (junk : Nat → ℂ) (rand : Nat → Fin n → ℂ)
    (mu : ℝ) : Res ℝ := do
  let s ← Scale.ofBounds min max
  let m ← condMoments (1 / 2) f cfg h (2 / s.a) s.b num left right numRandom junk rand
  let v ← kuboBastin s kbt (dampMat g m) (linspaced min max numPoints) mu
  return v.re

end Verif.Kpm
