import Mathlib.Algebra.Module.Basic
import Mathlib.Algebra.Order.BigOperators.Group.Multiset
import Verif.Basic
import Verif.Thread.Pool

/-!
# Batches of starting vectors: the jobs of `calc_ldos` and `calc_dos`

`BatchDiagonalMoments` computes the moments of `num_vectors` starting vectors on a thread pool, in jobs of one or of
`batch_size` vectors.  A job takes its vectors from the shared starter, under the lock of the starter, computes their
moments privately, and hands the result to a shared collector, under the lock of the collector.
-/

namespace Verif.Kpm

/-- The kinds of jobs: `BatchDiagonalCollector` on a matrix of vectors, `DiagonalCollector` on one vector
(cppcore/src/kpm/default/Compute.cpp 68-85). -/
inductive BatchJob where
  | batch
  | single
  deriving DecidableEq

/-- Number of vectors of a job (Starter.hpp:36-50: `make_r0` for a vector and for a matrix). -/
def BatchJob.width (bs : Nat) : BatchJob → Nat
  | .batch => bs
  | .single => 1

/-- The jobs of `SelectAlgorithm::operator()(BatchDiagonalMoments*)` (Compute.cpp 52-85): full batches, and single
vectors for the rest, or one more batch when the rest is large compared to the number of threads. -/
def batchJobs (threads bs nv : Nat) : List BatchJob :=
  if nv % bs > threads * bs / 2 then List.replicate (nv / bs + 1) .batch
  else List.replicate (nv / bs) .batch ++ List.replicate (nv % bs) .single

/-- Local state of a running job: before taking its vectors; with the computed moments of its vectors, the first of
which has the number `idx`. default/Compute.cpp:67-85. -/
inductive BatchRun (M : Type) where
  | take (j : BatchJob)
  | one (idx : Nat) (a : M)
  | many (idx : Nat) (a : List M)

/-- The shared state: the count of the starter, the accumulator's count and its data. `D` is the type of the data.
Starter.hpp:12-24; Moments.hpp:25-47. -/
structure BatchMem (D : Type) where
  /-- `Starter::count` (Starter.hpp:19) -/
  taken : Nat
  /-- `BatchAccumulator::count`, `BatchConcatenator::count` (Moments.hpp) -/
  count : Nat
  data : D

section
variable {M : Type}

/-- What a collector does with one vector of moments and with a matrix whose columns are vectors of moments.
Moments.hpp:25-47. -/
structure Collector (D M : Type) where
  one : Nat → Nat → M → Nat → D → Res (Nat × D)
  many : Nat → Nat → List M → Nat → D → Res (Nat × D)

/-- One step of a job (`SelectAlgorithm::with` Compute.cpp 24-44, 69-84).  The moments of the `k`-th vector made by the
starter are `col k`: the starter is only used under its lock, so the vectors of a batch are consecutive
(Starter.hpp:43-50); that the moments of a column of a batch are those of the column alone is `C26`.  The collector
runs under the lock of `BatchDiagonalMoments::add` (Moments.hpp 38-41).  Undefined behaviour in the collector makes the
whole memory undefined. Progress messages are left out. -/
def batchStep {D : Type} (bs nv : Nat) (col : Nat → M) (C : Collector D M) :
    BatchRun M → Res (BatchMem D) → Res (BatchMem D) × Option (BatchRun M)
  | .take .single, .ok m => (.ok { m with taken := m.taken + 1 }, some (.one m.taken (col m.taken)))
  | .take .batch, .ok m => (.ok { m with taken := m.taken + bs }, some (.many m.taken ((List.range bs).map fun i => col (m.taken + i))))
  | .one idx a, .ok m => (C.one nv idx a m.count m.data >>= fun r => .ok { m with count := r.1, data := r.2 }, none)
  | .many idx a, .ok m => (C.many nv idx a m.count m.data >>= fun r => .ok { m with count := r.1, data := r.2 }, none)
  | _, m => (m, none)

/-- The jobs as programs of the thread pool. default/Compute.cpp:52-88. -/
def batchSem {D : Type} (bs nv : Nat) (col : Nat → M) (C : Collector D M) :
    Thread.JobSem BatchJob (Res (BatchMem D)) (BatchRun M) :=
  ⟨.take, batchStep bs nv col C⟩

/-- `cols = remaining > batch_size ? batch_size : remaining` with `remaining = num_vectors - idx`, as a signed number;
`leftCols` of a negative number is undefined (Moments.cpp 36-41, 70-77). -/
def leftCols (nv idx : Nat) (a : List M) : Res (List M) :=
  let remaining : Int := (nv : Int) - idx
  let cols : Int := if remaining > a.length then a.length else remaining
  if cols < 0 then .ub else .ok (a.take cols.toNat)

/-- `var_result.get<ArrayX<scalar_t>>()`; using absent data is undefined (the variant holds an empty array).
Moments.cpp:7-49. -/
def getData : Option M → Res M
  | some r => .ok r
  | none => .ub

/-- `BatchAccumulatorImpl` (Moments.cpp 7-50).  The data are absent (`none`) until the first vector arrives. -/
def accumulator (K : Type) [DivisionRing K] [AddCommGroup M] [Module K M] : Collector (Option M) M where
  one nv _ a count data :=
    (if count = 0 then Res.ok a else getData data >>= fun r => .ok (r + a)) >>= fun r =>
    if count + 1 ≥ nv ∧ nv ≠ 1 then .ok (0, some ((nv : K)⁻¹ • r)) else .ok (count + 1, some r)
  many nv idx a count data :=
    (if count = 0 then Res.ok 0 else getData data) >>= fun r =>
    leftCols nv idx a >>= fun l =>
    let r := r + l.sum
    if count + a.length ≥ nv ∧ nv ≠ 1 then .ok (0, some ((nv : K)⁻¹ • r)) else .ok (count + a.length, some r)

/-- Overwrite the columns from `idx`; writing past the end is undefined. Moments.cpp:51-81. -/
def setCols (idx : Nat) (l : List M) (data : List (Option M)) : Res (List (Option M)) :=
  if idx + l.length ≤ data.length then .ok (data.take idx ++ l.map some ++ data.drop (idx + l.length)) else .ub

/-- `BatchConcatenatorImpl` (Moments.cpp 52-81).  Columns that were not written are `none`. -/
def concatenator : Collector (List (Option M)) M where
  one nv idx a count data :=
    let data := if count = 0 then List.replicate nv none else data
    setCols idx [a] data >>= fun d => .ok (count + 1, d)
  many nv idx a count data :=
    let data := if count = 0 then List.replicate nv none else data
    leftCols nv idx a >>= fun l =>
    setCols idx l data >>= fun d => .ok (count + l.length, d)

end

end Verif.Kpm
