import Verif.Kpm.Config
import Verif.Kpm.Reconstruct
import Verif.Kpm.Batch
import Verif.Kpm.PropsReorder

/-!
# Model of the calculations of `kpm::Core`

Source: `cppcore/src/kpm/Core.cpp`, `cppcore/src/kpm/Starter.cpp`, `cppcore/src/kpm/default/collectors.cpp`,
`cppcore/src/kpm/default/Compute.cpp`, `cppcore/src/KPM.cpp`.

The parts (optimized matrix, kernels, algorithms, damping, reconstruction) are modelled in the other files; here
they are put together in the order in which `Core` calls them.  `invA` is `2 / a`, `half` is `0.5`, `junk` stands for
uninitialised memory.  Reusing an optimized matrix of an earlier calculation, timers and statistics are left out (see
`Cache.lean`).  Sparse products by Eigen (`op * r`) are the mathematical product.
-/

namespace Verif.Kpm

open Verif.Numeric
open Verif.Hopping (Csr)

variable {K V : Type} {n : Nat}

/-! ## Optimized matrix, starters, collectors -/

/-- `Optimize::operator()`, OptimizedHamiltonian.cpp:26-31.  The conversion to ELLPACK (33-36) is in `Format.mat`. -/
def optimizeFor [Mul K] [Add K] [Sub K] [Neg K] [Zero K] [DecidableEq K] (reorder : Bool) (h : Csr K) (invA b : K)
    (src dest : List Nat) : Res (Optimized K) :=
  if reorder then createReordered h invA b src dest else .ok (createScaled h invA b src dest)

/-- `AlgorithmConfig::reorder`, Config.hpp:17. -/
def AlgorithmConfig.reorder (cfg : AlgorithmConfig) : Bool := cfg.optimalSize || cfg.interleaved

/-- `UnitStarter::operator()` called for the `i`-th time (from 0), Starter.cpp:38-45. -/
def unitStart [Zero K] [One K] (n : Nat) (sources : List Nat) (i : Nat) : Res (Fin n → K) :=
  match sources[i]? with
  | none => .ok fun _ => 0
  | some s => if s < n then .ok (fun j => if j.val = s then 1 else 0) else .ub

/-- A vector of Eigen as a function; a vector of another size would be accessed out of bounds.
Starter.cpp:9-24. -/
def asFn (n : Nat) (l : List V) : Res (Fin n → V) :=
  if h : l.length = n then .ok (fun i => l[i.val]'(by omega)) else .ub

/-- `ConstantStarter::operator()`, Starter.cpp:18-23. -/
def constantStart (n : Nat) (o : Optimized K) (junk : Fin n → K) (alpha : List K) : Res (Fin n → K) := do
  let r0 ← reorderVec o.map (List.ofFn junk) alpha
  asFn n r0

/-- What `MultiUnitCollector` reads from a vector, collectors.cpp:64-67, 72-74. -/
def multiUnit (dest : List Nat) (x : Fin n → K) : Res (Fin dest.length → K) :=
  if h : ∀ d ∈ dest, d < n then .ok (fun i => x ⟨dest[i.val], h _ (List.getElem_mem _)⟩) else .ub

/-- A sparse matrix given by the user: `rows()`, `cols()` and the elements.  It is absent if `size() == 0`.
Moments.hpp:49-65. -/
structure OpArg (K : Type) where
  rows : Nat
  cols : Nat
  data : Csr K

/-- `op.size() == 0`. collectors.cpp:50-57. -/
def OpArg.absent (op : OpArg K) : Bool := op.rows * op.cols == 0

/-- The operator of `GenericCollector`, collectors.cpp:42-45: empty if there is none. -/
def collectorOp (o : Optimized K) (op : OpArg K) : Res (Option (Csr K)) :=
  if op.absent then .ok none else do
    let m ← reorderMat o.map op.data op.cols
    return some m

/-- `(op.size() != 0) ? beta.dot(op * r) : beta.dot(r)`, collectors.cpp:50-52, 57. -/
def genericValue [CommRing K] [StarRing K] (beta : Fin n → K) (op : Option (Csr K)) (x : Fin n → K) : K :=
  match op with
  | none => eigenDot beta x
  | some m => eigenDot beta (act (matrixOf n m) x)

/-! ## `Core::moments` -/

section moments

variable [CommRing K] [StarRing K] [DecidableEq K] [SMul ℝ K]

/-- The array of moments before damping, Core.cpp:45-47, 51-52 with default/Compute.cpp:46-50, 90-94. -/
def rawMoments (half : K) (f : Format K n K) (cfg : AlgorithmConfig) (o : Optimized K) (num : Nat) (alpha beta : List K)
    (op : OpArg K) (junk : Nat → K) : Res (List K) := do
  let M ← f.mat half (ofRows n o.h2)
  let r0 ← constantStart n o (fun i => junk i) alpha
  if beta.length = 0 ∧ op.absent then
    withDiag half M o.slices cfg ((List.range num).map junk) r0
  else
    let bra ← reorderVec o.map (List.ofFn fun i : Fin n => junk i) (if beta.length ≠ 0 then beta else alpha)
    let bra ← asFn n bra
    let m ← collectorOp o op
    withOff half M o.slices cfg (fun x => .ok (genericValue bra m x)) ((List.range num).map junk) r0

/-- `ExtractData`, Moments.hpp:133-140: `head(num_moments)` needs `0 <= num_moments <= size`. -/
def extractData (data : List K) (num : Int) : Res (List K) :=
  if 0 ≤ num ∧ num ≤ data.length then .ok (data.take num.toNat) else .ub

/-- `Core::moments`, Core.cpp:35-56. -/
def coreMoments (half : K) (f : Format K n K) (cfg : AlgorithmConfig) (g : Nat → Nat → ℝ) (h : Csr K) (invA b : K)
    (num : Int) (alpha beta : List K) (op : OpArg K) (junk : Nat → K) : Res (List K) := do
  let o ← optimizeFor cfg.reorder h invA b [0] [0]
  match roundNumMoments 4 num with
  | none => .ub
  | some N =>
    let data ← rawMoments half f { cfg with optimalSize := false } o N.toNat alpha beta op junk
    extractData (damp g data) num

/-- `KPM::moments`, KPM.cpp:19-53: the checks of the sizes and, for a real model, of the scalar type.  `isReal` is
`imag().isZero()`. -/
def kpmMoments (half : K) (f : Format K n K) (cfg : AlgorithmConfig) (g : Nat → Nat → ℝ) (isComplex : Bool) (isReal : K → Bool)
    (h : Csr K) (invA b : K) (num : Int) (alpha beta : List K) (op : OpArg K) (junk : Nat → K) : Res (List K) :=
  if ¬ (alpha.length = h.length ∧ (beta.length = 0 ∨ beta.length = h.length) ∧
      (op.absent ∨ (op.rows = h.length ∧ op.cols = h.length))) then .err .runtimeError
  else if isComplex = false ∧ ¬ (alpha.all isReal ∧ beta.all isReal ∧ op.data.all fun r => r.all fun e => isReal e.2) then
    .err .runtimeError
  else coreMoments half f cfg g h invA b num alpha beta op junk

end moments

/-! ## `Core::greens_vector` -/

section greens

variable [CommRing K] [StarRing K] [DecidableEq K]

/-- The arrays of moments of `Core::greens_vector` before damping, one for each column, Core.cpp:102-116 with
default/Compute.cpp:46-50, 96-100.  `is_diagonal` is OptimizedHamiltonian.hpp:41-43. -/
def greensMoments (half : K) (f : Format K n K) (cfg : AlgorithmConfig) (h : Csr K) (invA b : K) (num : Nat) (row : Nat)
    (cols : List Nat) (junk : Nat → K) : Res (List (List K)) := do
  let o ← optimizeFor cfg.reorder h invA b [row] cols
  let M ← f.mat half (ofRows n o.h2)
  let r0 ← unitStart n o.src 0
  if o.src = o.dest then
    let ms ← withDiag half M o.slices cfg ((List.range num).map junk) r0
    return [ms]
  else
    let ms ← withOff half M o.slices cfg (multiUnit o.dest) ((List.range num).map fun k => fun _ => junk k) r0
    return (List.finRange o.dest.length).map fun i => ms.map fun v => v i

end greens

/-! ## `Core::ldos` -/

section ldos

variable [CommRing K] [StarRing K] [DecidableEq K]

/-- One vector of `Core::ldos`: the moments of the `k`-th vector of the starter, default/Compute.cpp:79-80. -/
def ldosColumn (half : K) (M : Mat n K) (cfg : AlgorithmConfig) (o : Optimized K) (num : Nat) (junk : Nat → K) (k : Nat) :
    Res (List K) := do
  let r0 ← unitStart n o.src k
  withDiag half M o.slices cfg ((List.range num).map junk) r0

/-- The block of vectors `make_r0` takes from the starter, Starter.hpp:43-50: column `j` is the `(k + j)`-th vector. -/
def unitBlock [Zero K] [One K] (n c : Nat) (sources : List Nat) (k : Nat) : Res (Fin n → Fin c → K) := do
  let cols ← (List.finRange c).mapM fun j => unitStart (K := K) n sources (k + j.val)
  return fun i j => (cols.getD j.val fun _ => 0) i

/-- A batch of vectors of `Core::ldos`, default/Compute.cpp:70-71. -/
def ldosBatch {c : Nat} (half : K) (M : Mat n (Fin c → K)) (cfg : AlgorithmConfig) (o : Optimized K) (num : Nat) (junk : Nat → K)
    (k : Nat) : Res (List (Fin c → K)) := do
  let r0 ← unitBlock n c o.src k
  withDiag half M o.slices cfg ((List.range num).map fun k _ => junk k) r0

end ldos

/-! ## Results -/

/-- `Core::greens_vector`, Core.cpp:96-117, for a given number of moments and one energy: the moments, damping,
reconstruction.  (`Core::greens` is the first element for one column, Core.cpp:92-94.) -/
noncomputable def coreGreens [DecidableEq ℂ] (f : Format ℂ n ℂ) (cfg : AlgorithmConfig) (g : Nat → Nat → ℝ) (s : Scale ℝ) (h : Csr ℂ)
    (num row : Nat) (cols : List Nat) (junk : Nat → ℂ) (energy : ℝ) : Res (List ℂ) := do
  let ms ← greensMoments (1 / 2) f cfg h (2 / s.a) s.b num row cols junk
  ms.mapM fun m => greensFunction s (damp g m) energy

/-- The last steps of `Core::ldos` for one column and one energy, Core.cpp:70-71. -/
noncomputable def ldosValue (g : Nat → Nat → ℝ) (s : Scale ℝ) (column : Res (List ℂ)) (energy : ℝ) : Res ℝ := do
  let m ← column
  spectralDensity s (damp g m) energy

end Verif.Kpm
