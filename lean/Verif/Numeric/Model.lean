import Verif.Basic
import Mathlib.Algebra.Module.Defs
import Mathlib.Logic.Function.Basic
import Mathlib.Algebra.Star.Basic
import Mathlib.Algebra.Algebra.Defs

/-!
# Model of the raw sparse matrix storage and of the KPM multiply kernels

Source: `cppcore/include/numeric/sparse.hpp`, `cppcore/include/numeric/ellmatrix.hpp`,
`cppcore/include/numeric/traits.hpp` (`aligned_size`), `cppcore/include/support/simd.hpp`
(`split_loop`), `cppcore/include/compute/kernel_polynomial.hpp`, `cppcore/include/kpm/Starter.hpp`
(`make_r1`).

Buffers are lists; a read or write outside a buffer is `Res.ub`.  Dense vectors of size `n` are
functions on `Fin n`, read and written through `getV`/`setV`, which are `Res.ub` outside the vector.

The element type `V` of a dense vector is a module over the scalar type `K`: `V = K` for the
`VectorX` overloads and `V = Fin c -> K` for the `MatrixX` overloads, which do the same thing to all
`c` columns of a row at once (Eigen row expressions, or one SIMD register per row).
-/

namespace Verif.Numeric

variable {K V : Type}

instance : LawfulMonad Res := LawfulMonad.mk'
  (id_map := fun x => by cases x <;> rfl)
  (pure_bind := fun _ _ => rfl)
  (bind_assoc := fun x _ _ => by cases x <;> rfl)

/-- Read from a buffer through a pointer. numeric/sparse.hpp:47-51. -/
def rd {α : Type} (xs : List α) (i : Nat) : Res α :=
  match xs[i]? with
  | some a => .ok a
  | none => .ub

/-- Write to a buffer through a pointer. numeric/sparse.hpp:38, 54-55. -/
def wr {α : Type} (xs : List α) (i : Nat) (a : α) : Res (List α) :=
  if i < xs.length then .ok (xs.set i a) else .ub

/-- Compressed row-major `Eigen::SparseMatrix`: `outerIndexPtr()`, `innerIndexPtr()` and `valuePtr()`.
numeric/sparse.hpp:26-28. -/
structure Raw (K : Type) where
  rows : Nat
  cols : Nat
  outer : List Nat
  inner : List Nat
  vals : List K
deriving DecidableEq

/-! ## Loops over a sparse matrix -/

/-- `Loop::for_each`, numeric/sparse.hpp:105-114.  `f` is the callback acting on some state. -/
def forEach {σ : Type} (m : Raw K) (f : σ → Nat → Nat → K → Res σ) (s : σ) : Res σ :=
  (List.range m.rows).foldlM (fun s row => do
    let lo ← rd m.outer row
    let hi ← rd m.outer (row + 1)
    (List.range' lo (hi - lo)).foldlM (fun s k => do
      let c ← rd m.inner k
      let v ← rd m.vals k
      f s row c v) s) s

/-- `Loop::for_each_in_row`, numeric/sparse.hpp:144-151. -/
def forEachInRow {σ : Type} (m : Raw K) (row : Nat) (f : σ → Nat → K → Res σ) (s : σ) : Res σ := do
  let lo ← rd m.outer row
  let hi ← rd m.outer (row + 1)
  (List.range' lo (hi - lo)).foldlM (fun s k => do
    let c ← rd m.inner k
    let v ← rd m.vals k
    f s c v) s

/-- The variables of `buffered_for_each`: the state of the callbacks, `n`, `previous_outer` and
`previous_idx`. numeric/sparse.hpp:99-173. -/
structure Buf (σ : Type) where
  st : σ
  n : Nat
  prevOuter : Nat
  prevIdx : Nat

/-- The `if (n == buffer_size)` block, numeric/sparse.hpp:128-133. -/
def flush {σ : Type} (size : Nat) (p : σ → Nat → Nat → Nat → Res σ) (row k : Nat) (b : Buf σ) :
    Res (Buf σ) :=
  if b.n = size then do
    let s ← p b.st b.prevOuter b.prevIdx size
    return ⟨s, 0, row, k⟩
  else .ok b

/-- One iteration of the inner loop, numeric/sparse.hpp:127-136. -/
def bufStep {σ : Type} (m : Raw K) (size : Nat) (f : σ → Nat → Nat → K → Nat → Res σ)
    (p : σ → Nat → Nat → Nat → Res σ) (row k : Nat) (b : Buf σ) : Res (Buf σ) := do
  let b ← flush size p row k b
  let c ← rd m.inner k
  let v ← rd m.vals k
  let s ← f b.st row c v b.n
  return { b with st := s, n := b.n + 1 }

/-- `Loop::buffered_for_each`, numeric/sparse.hpp:120-140. -/
def bufferedForEach {σ : Type} (m : Raw K) (size : Nat) (f : σ → Nat → Nat → K → Nat → Res σ)
    (p : σ → Nat → Nat → Nat → Res σ) (s : σ) : Res σ := do
  let first ← rd m.outer 0
  let b ← (List.range m.rows).foldlM (fun b row => do
    let lo ← rd m.outer row
    let hi ← rd m.outer (row + 1)
    (List.range' lo (hi - lo)).foldlM (fun b k => bufStep m size f p row k b) b) ⟨s, 0, 0, first⟩
  p b.st b.prevOuter b.prevIdx b.n

/-- The variables of `slice_for_each`; `done` stands for the early `return`.
numeric/sparse.hpp:99-173. -/
structure Sl (σ : Type) where
  st : σ
  n : Nat
  idx : Nat
  done : Bool

/-- One iteration of the inner loop of `slice_for_each`, numeric/sparse.hpp:160-165. -/
def sliceStep {σ : Type} (m : Raw K) (size : Nat) (f : σ → Nat → Nat → K → Nat → Res σ)
    (row k : Nat) (b : Sl σ) : Res (Sl σ) :=
  if b.done then .ok b
  else if b.n = size then .ok { b with done := true }
  else do
    let c ← rd m.inner k
    let v ← rd m.vals k
    let s ← f b.st row c v b.n
    return ⟨s, b.n + 1, k + 1, false⟩

/-- `Loop::slice_for_each`, numeric/sparse.hpp:156-167: `idx` is carried over from row to row. -/
def sliceForEach {σ : Type} (m : Raw K) (outer idx size : Nat) (f : σ → Nat → Nat → K → Nat → Res σ)
    (s : σ) : Res σ := do
  let b ← (List.range' outer (m.rows - outer)).foldlM (fun b row => do
    let hi ← rd m.outer (row + 1)
    (List.range' b.idx (hi - b.idx)).foldlM (fun b k => sliceStep m size f row k b) b) ⟨s, 0, idx, false⟩
  return b.st

/-- `sparse::max_nnz_per_row`, numeric/sparse.hpp:181-191. -/
def maxNnzPerRow (m : Raw K) : Res Nat :=
  (List.range m.rows).foldlM (fun max i => do
    let hi ← rd m.outer (i + 1)
    let lo ← rd m.outer i
    return if hi - lo > max then hi - lo else max) 0

/-! ## CompressedInserter -/

/-- `CompressedInserter`, numeric/sparse.hpp:31-69, together with the matrix buffers it writes to:
`outer` has `outerSize() + 1` elements, `inner` and `vals` have the reserved size. -/
structure Inserter (K : Type) where
  idx : Nat
  row : Nat
  outer : List Nat
  inner : List Nat
  vals : List K

/-- The constructor, numeric/sparse.hpp:34-35.  `outer0`, `inner0`, `vals0`: the contents of the
buffers left by Eigen, of which only the sizes matter. -/
def Inserter.mk' (outer0 inner0 : List Nat) (vals0 : List K) : Inserter K := ⟨0, 0, outer0, inner0, vals0⟩

/-- `start_row()`, numeric/sparse.hpp:37-39. -/
def Inserter.startRow (s : Inserter K) : Res (Inserter K) := do
  let o ← wr s.outer s.row s.idx
  return { s with outer := o, row := s.row + 1 }

/-- The loop of `start_row(row_index)`, which runs `fuel` times. numeric/sparse.hpp:41-44. -/
def Inserter.startRows (s : Inserter K) : Nat → Res (Inserter K)
  | 0 => .ok s
  | fuel + 1 => do
    let s ← s.startRow
    s.startRows fuel

/-- `start_row(row_index)`, numeric/sparse.hpp:41-44. -/
def Inserter.startRowAt (s : Inserter K) (rowIndex : Nat) : Res (Inserter K) :=
  s.startRows (rowIndex + 1 - s.row)

/-- The shifting loop of `insert`, numeric/sparse.hpp:49-53; returns the final `n`. -/
def Inserter.shift (column start : Nat) : Nat → List Nat → List K → Res (Nat × List Nat × List K)
  | 0, inner, vals => .ok (0, inner, vals)
  | n + 1, inner, vals =>
    if n + 1 > start then do
      let c ← rd inner n
      if c > column then do
        let inner ← wr inner (n + 1) c
        let v ← rd vals n
        let vals ← wr vals (n + 1) v
        Inserter.shift column start n inner vals
      else .ok (n + 1, inner, vals)
    else .ok (n + 1, inner, vals)

/-- `insert(column, value)`, numeric/sparse.hpp:46-56. -/
def Inserter.insert (s : Inserter K) (column : Nat) (value : K) : Res (Inserter K) :=
  if s.row = 0 then .ub
  else do
    let start ← rd s.outer (s.row - 1)
    let r ← Inserter.shift column start s.idx s.inner s.vals
    let inner ← wr r.2.1 r.1 column
    let vals ← wr r.2.2 r.1 value
    return { s with idx := s.idx + 1, inner := inner, vals := vals }

/-- `compress()`, numeric/sparse.hpp:58-63; `resizeNonZeros` keeps the first `idx` elements. -/
def Inserter.compress (cols : Nat) (s : Inserter K) : Res (Raw K) := do
  let s ← s.startRowAt (s.outer.length - 1)
  return ⟨s.outer.length - 1, cols, s.outer, s.inner.take s.idx, s.vals.take s.idx⟩

/-- The calls a user of the inserter can make before `compress()`. numeric/sparse.hpp:37-56. -/
inductive InsOp (K : Type) where
  | startRow
  | startRowAt (row : Nat)
  | insert (column : Nat) (value : K)

/-- One call. numeric/sparse.hpp:37-56. -/
def Inserter.run (s : Inserter K) : InsOp K → Res (Inserter K)
  | .startRow => s.startRow
  | .startRowAt r => s.startRowAt r
  | .insert c v => s.insert c v

/-! ## ELLPACK -/

/-- The search loop of `aligned_size`: `fuel` bounds the number of increments. -/
def alignedLoop (step : Nat) : Nat → Nat → Nat
  | 0, size => size
  | fuel + 1, size => if size % step ≠ 0 then alignedLoop step fuel (size + 1) else size

/-- `num::aligned_size`, numeric/traits.hpp:107-114; `step = align_bytes / sizeof(scalar_t)`.  The
loop stops after fewer than `step` increments. -/
def alignedSize (step size : Nat) : Nat := alignedLoop step step size

/-- `num::EllMatrix`, numeric/ellmatrix.hpp:10-33: `data` and `indices` are column-major arrays with
`nnzPerRow` columns and at least `rows` allocated rows. -/
structure Ell (K : Type) where
  rows : Nat
  cols : Nat
  nnzPerRow : Nat
  dataRows : Nat
  idxRows : Nat
  data : Nat → Nat → K
  indices : Nat → Nat → Nat

/-- `matrix.data(row, n)`. numeric/ellmatrix.hpp:10-54. -/
def Ell.dataAt (m : Ell K) (row n : Nat) : Res K :=
  if row < m.dataRows ∧ n < m.nnzPerRow then .ok (m.data row n) else .ub

/-- `matrix.indices(row, n)`. numeric/ellmatrix.hpp:10-54. -/
def Ell.idxAt (m : Ell K) (row n : Nat) : Res Nat :=
  if row < m.idxRows ∧ n < m.nnzPerRow then .ok (m.indices row n) else .ub

/-- Write `data(row, n)` and `indices(row, n)`. numeric/ellmatrix.hpp:70-79. -/
def Ell.put (m : Ell K) (row n : Nat) (v : K) (c : Nat) : Res (Ell K) :=
  if row < m.dataRows ∧ row < m.idxRows ∧ n < m.nnzPerRow then
    .ok { m with
      data := fun i j => if i = row ∧ j = n then v else m.data i j
      indices := fun i j => if i = row ∧ j = n then c else m.indices i j }
  else .ub

/-- The column index of the padding, numeric/ellmatrix.hpp:78: that of the row above. -/
def padCol (row : Nat) (m : Ell K) (n : Nat) : Res Nat := if row > 0 then m.idxAt (row - 1) n else .ok 0

/-- The padding loop of `csr_to_ell`, numeric/ellmatrix.hpp:76-79: `n` runs up to `nnz_per_row`. -/
def ellPad [Zero K] (row : Nat) (n : Nat) (m : Ell K) : Res (Ell K) :=
  (List.range' n (m.nnzPerRow - n)).foldlM (fun m n => do
    let c ← padCol row m n
    m.put row n 0 c) m

/-- One row of `csr_to_ell`, numeric/ellmatrix.hpp:70-79. -/
def ellRow [Zero K] (csr : Raw K) (m : Ell K) (row : Nat) : Res (Ell K) := do
  let r ← forEachInRow csr row (fun (s : Ell K × Nat) col value => do
    let m ← s.1.put row s.2 value col
    return (m, s.2 + 1)) (m, 0)
  ellPad row r.2 r.1

/-- `csr_to_ell`, numeric/ellmatrix.hpp:64-82.  `dataStep`, `idxStep`: number of scalars and indices in
32 bytes.  `data0`, `idx0`: the uninitialised contents of the arrays. -/
def csrToEll [Zero K] (dataStep idxStep : Nat) (data0 : Nat → Nat → K) (idx0 : Nat → Nat → Nat)
    (csr : Raw K) : Res (Ell K) := do
  let nnz ← maxNnzPerRow csr
  (List.range csr.rows).foldlM (ellRow csr)
    ⟨csr.rows, csr.cols, nnz, alignedSize dataStep csr.rows, alignedSize idxStep csr.rows, data0, idx0⟩

/-! ## Dense vectors -/

/-- `x[i]`. compute/kernel_polynomial.hpp:18-50. -/
def getV {n : Nat} (x : Fin n → V) (i : Nat) : Res V :=
  if h : i < n then .ok (x ⟨i, h⟩) else .ub

/-- `y[i] = v`. compute/kernel_polynomial.hpp:18-50. -/
def setV {n : Nat} (y : Fin n → V) (i : Nat) (v : V) : Res (Fin n → V) :=
  if h : i < n then .ok (Function.update y ⟨i, h⟩ v) else .ub

section kernels
variable {n : Nat}

/-- The sum over the stored elements of a row that all CSR kernels compute.
compute/kernel_polynomial.hpp:18-50; compute/lanczos.hpp:36-41; kpm/Starter.hpp:62-68. -/
def csrRowSum [Semiring K] [AddCommMonoid V] [Module K V] (m : Raw K) (x : Fin n → V) (row : Nat) : Res V := do
  let lo ← rd m.outer row
  let hi ← rd m.outer (row + 1)
  (List.range' lo (hi - lo)).foldlM (fun r k => do
    let a ← rd m.vals k
    let c ← rd m.inner k
    let b ← getV x c
    return r + a • b) 0

/-- `kpm_spmv` for CSR matrices, compute/kernel_polynomial.hpp:18-49 (both overloads). -/
def kpmSpmvCsr [Ring K] [AddCommGroup V] [Module K V] (m : Raw K) (start stop : Nat) (x y : Fin n → V) :
    Res (Fin n → V) :=
  (List.range' start (stop - start)).foldlM (fun y row => do
    let r ← csrRowSum m x row
    let old ← getV y row
    setV y row (r - old)) y

/-- `kpm_spmv` for ELLPACK matrices, generic version, compute/kernel_polynomial.hpp:90-119 (both
overloads). -/
def kpmSpmvEll [Ring K] [AddCommGroup V] [Module K V] (m : Ell K) (start stop : Nat) (x y : Fin n → V) :
    Res (Fin n → V) := do
  let y ← (List.range' start (stop - start)).foldlM (fun y row => do
    let old ← getV y row
    setV y row (-old)) y
  (List.range m.nnzPerRow).foldlM (fun y k =>
    (List.range' start (stop - start)).foldlM (fun y row => do
      let a ← m.dataAt row k
      let c ← m.idxAt row k
      let b ← getV x c
      let old ← getV y row
      setV y row (old + a • b)) y) y

/-- `split_loop_t`, support/simd.hpp:82-85. -/
structure Split where
  start : Nat
  peelEnd : Nat
  vecEnd : Nat
  stop : Nat
deriving DecidableEq

/-- The peel loop of `split_loop`, support/simd.hpp:127-129, `fuel = end - peel_end`. -/
def peelLoop (aligned : Nat → Bool) : Nat → Nat → Nat
  | 0, p => p
  | fuel + 1, p => if aligned p then p else peelLoop aligned fuel (p + 1)

/-- The loop finding the end of the vector section, support/simd.hpp:130-133; `d` is
`vec_end - peel_end`. -/
def vecLoop (step : Nat) : Nat → Nat
  | 0 => 0
  | d + 1 => if (d + 1) % step ≠ 0 then vecLoop step d else d + 1

/-- `simd::split_loop`, support/simd.hpp:123-135.  `aligned i`: is the address of element `i` aligned?
Here `start <= end`. -/
def splitLoop (aligned : Nat → Bool) (step start stop : Nat) : Split :=
  let peel := peelLoop aligned (stop - start) start
  ⟨start, peel, peel + vecLoop step (stop - peel), stop⟩

/-- The alignment test of an array of elements of `bytes` bytes at address `base`,
support/simd.hpp:74-77. -/
def alignedAt (base bytes align : Nat) (i : Nat) : Bool := (base + i * bytes) % align = 0

/-- Number of iterations of a loop `for (_ = lo; _ < hi; _ += step)`.
compute/kernel_polynomial.hpp:122-158. -/
def trips (lo hi step : Nat) : Nat := (hi - lo + step - 1) / step

/-- One scalar iteration, compute/kernel_polynomial.hpp:135-140 and 149-154: the new value of
`y[row]`. -/
def ellLane [Ring K] [AddCommGroup V] [Module K V] (m : Ell K) (k : Nat) (x y : Fin n → V) (row : Nat) : Res V := do
  let a ← m.dataAt row k
  let c ← m.idxAt row k
  let b ← getV x c
  let old ← getV y row
  return a • b + (if k = 0 then -old else old)

/-- A vector iteration, compute/kernel_polynomial.hpp:141-148: `step` lanes are loaded and computed
before any is stored. -/
def ellVecStep [Ring K] [AddCommGroup V] [Module K V] (m : Ell K) (k : Nat) (step : Nat) (x y : Fin n → V) (row : Nat) :
    Res (Fin n → V) := do
  let vs ← (List.range' row step).mapM (ellLane m k x y)
  ((List.range' row step).zip vs).foldlM (fun y p => setV y p.1 p.2) y

/-- A scalar iteration. compute/kernel_polynomial.hpp:135-140. -/
def ellScalarStep [Ring K] [AddCommGroup V] [Module K V] (m : Ell K) (k : Nat) (x y : Fin n → V) (row : Nat) :
    Res (Fin n → V) := do
  let v ← ellLane m k x y row
  setV y row v

/-- The body of the loop over `n`: the three sections of the split loop,
compute/kernel_polynomial.hpp:130-155. -/
def ellColumn [Ring K] [AddCommGroup V] [Module K V] (m : Ell K) (k : Nat) (step : Nat) (l : Split) (x y : Fin n → V) :
    Res (Fin n → V) := do
  let y ← (List.range' l.start (l.peelEnd - l.start)).foldlM (ellScalarStep m k x) y
  let y ← (List.range' l.peelEnd (trips l.peelEnd l.vecEnd step) step).foldlM (ellVecStep m k step x) y
  (List.range' l.vecEnd (l.stop - l.vecEnd)).foldlM (ellScalarStep m k x) y

/-- `kpm_spmv` for ELLPACK matrices, vectorised, compute/kernel_polynomial.hpp:122-158.  `skip` is
`skip_last_n`. -/
def kpmSpmvSimd [Ring K] [AddCommGroup V] [Module K V] (m : Ell K) (aligned : Nat → Bool) (step skip : Nat) (start stop : Nat)
    (x y : Fin n → V) : Res (Fin n → V) :=
  (List.range (m.nnzPerRow - skip)).foldlM (fun y k =>
    ellColumn m k step (splitLoop aligned step start stop) x y) y

/-- `kpm_spmv` for ELLPACK matrices and blocks of vectors, vectorised,
compute/kernel_polynomial.hpp:160-181: a row of the block is one register. -/
def kpmSpmvSimdBatch [Ring K] [AddCommGroup V] [Module K V] (m : Ell K) (skip : Nat) (start stop : Nat)
    (x y : Fin n → V) : Res (Fin n → V) :=
  (List.range (m.nnzPerRow - skip)).foldlM (fun y k =>
    (List.range' start (stop - start)).foldlM (ellScalarStep m k x) y) y

/-! ### Kernels which also compute the two dot products of the diagonal algorithm

`V` is a commutative ring with conjugation: `K` itself, or `Fin c -> K` with the columns multiplied
separately.  `star x * x` stands for `|x|^2` (for complex scalars the C++ kernels add up the squares of
the real and imaginary parts, which is the same number). -/

/-- `m2 += x.segment(start, size).squaredNorm(); m3 += y.segment(start, size).dot(x.segment(...))`,
compute/kernel_polynomial.hpp:63-65, 73-79. -/
def diagSums [CommRing V] [StarRing V] (start stop : Nat) (x y : Fin n → V) (m2 m3 : V) : Res (V × V) :=
  if start ≤ stop then
    (List.range' start (stop - start)).foldlM (fun (m : V × V) i => do
      let xi ← getV x i
      let yi ← getV y i
      return (m.1 + star xi * xi, m.2 + star yi * xi)) (m2, m3)
  else .ub

/-- What a diagonal kernel returns: the new `y`, `m2` and `m3`.
compute/kernel_polynomial.hpp:60-81. -/
structure DiagOut (n : Nat) (V : Type) where
  y : Fin n → V
  m2 : V
  m3 : V

/-- `kpm_spmv_diagonal` built from a multiplication followed by the dot products: CSR,
compute/kernel_polynomial.hpp:58-80, and generic ELLPACK, compute/kernel_polynomial.hpp:199-220. -/
def diagAfter [CommRing V] [StarRing V] (spmv : Nat → Nat → (Fin n → V) → (Fin n → V) → Res (Fin n → V))
    (start stop : Nat) (x y : Fin n → V) (m2 m3 : V) : Res (DiagOut n V) := do
  let y ← spmv start stop x y
  let m ← diagSums start stop x y m2 m3
  return ⟨y, m.1, m.2⟩

/-- The variables of the vectorised diagonal kernel; `m2v`, `m3v` are the SIMD accumulators.
compute/kernel_polynomial.hpp:221-285. -/
structure DiagSt (n : Nat) (V : Type) where
  y : Fin n → V
  m2 : V
  m3 : V
  m2v : List V
  m3v : List V

/-- A scalar iteration, compute/kernel_polynomial.hpp:244-255 and 270-281. -/
def diagScalarStep [Ring K] [CommRing V] [StarRing V] [Module K V] (m : Ell K) (k : Nat) (x : Fin n → V)
    (s : DiagSt n V) (row : Nat) : Res (DiagSt n V) := do
  let r2 ← ellLane m k x s.y row
  let r1 ← getV x row
  let y ← setV s.y row r2
  return { s with y := y, m2 := s.m2 + star r1 * r1, m3 := s.m3 + star r2 * r1 }

/-- A vector iteration, compute/kernel_polynomial.hpp:256-269. -/
def diagVecStep [Ring K] [CommRing V] [StarRing V] [Module K V] (m : Ell K) (k : Nat) (step : Nat) (x : Fin n → V)
    (s : DiagSt n V) (row : Nat) : Res (DiagSt n V) := do
  let r1 ← (List.range' row step).mapM (getV x)
  let r2 ← (List.range' row step).mapM (ellLane m k x s.y)
  let y ← ((List.range' row step).zip r2).foldlM (fun y p => setV y p.1 p.2) s.y
  return { s with
    y := y
    m2v := List.zipWith (· + ·) s.m2v (r1.map fun r => star r * r)
    m3v := List.zipWith (· + ·) s.m3v (List.zipWith (fun a b => star a * b) r2 r1) }

/-- `kpm_spmv_diagonal` for ELLPACK matrices, vectorised, compute/kernel_polynomial.hpp:220-285: the
last column is multiplied together with the sums; `&matrix.data(0, -1)` is read when the matrix has no
columns. -/
def kpmDiagSimd [Ring K] [CommRing V] [StarRing V] [Module K V] (m : Ell K) (aligned : Nat → Bool) (step : Nat)
    (start stop : Nat) (x y : Fin n → V) (m2 m3 : V) : Res (DiagOut n V) :=
  if m.nnzPerRow = 0 ∨ stop < start then .ub
  else do
    let y ← kpmSpmvSimd m aligned step 1 start stop x y
    let k := m.nnzPerRow - 1
    let l := splitLoop aligned step start stop
    let s : DiagSt n V := ⟨y, m2, m3, List.replicate step 0, List.replicate step 0⟩
    let s ← (List.range' l.start (l.peelEnd - l.start)).foldlM (diagScalarStep m k x) s
    let s ← (List.range' l.peelEnd (trips l.peelEnd l.vecEnd step) step).foldlM (diagVecStep m k step x) s
    let s ← (List.range' l.vecEnd (l.stop - l.vecEnd)).foldlM (diagScalarStep m k x) s
    return ⟨s.y, s.m2 + s.m2v.sum, s.m3 + s.m3v.sum⟩

/-- `kpm_spmv_diagonal` for ELLPACK matrices and blocks of vectors, vectorised,
compute/kernel_polynomial.hpp:287-323. -/
def kpmDiagSimdBatch [Ring K] [CommRing V] [StarRing V] [Module K V] (m : Ell K)
    (start stop : Nat) (x y : Fin n → V) (m2 m3 : V) : Res (DiagOut n V) :=
  if m.nnzPerRow = 0 ∨ stop < start then .ub
  else do
    let y ← kpmSpmvSimdBatch m 1 start stop x y
    let s ← (List.range' start (stop - start)).foldlM (diagScalarStep m (m.nnzPerRow - 1) x)
      ⟨y, 0, 0, [], []⟩
    return ⟨s.y, m2 + s.m2, m3 + s.m3⟩

/-! ### The first vector of the recursion -/

/-- `make_r1` for CSR matrices, kpm/Starter.hpp:54-90 (both overloads); `half` is `scalar_t{0.5}`.  The
uninitialised result vector is filled row by row, starting here from `junk`. -/
def makeR1Csr [Ring K] [AddCommGroup V] [Module K V] (half : K) (junk : Fin n → V) (m : Raw K)
    (r0 : Fin n → V) : Res (Fin n → V) :=
  (List.range m.rows).foldlM (fun r1 row => do
    let t ← csrRowSum m r0 row
    setV r1 row (half • t)) junk

/-- `make_r1` for ELLPACK matrices, kpm/Starter.hpp:92-118 (both overloads). -/
def makeR1Ell [Ring K] [AddCommGroup V] [Module K V] (half : K) (m : Ell K) (r0 : Fin n → V) :
    Res (Fin n → V) :=
  (List.range m.nnzPerRow).foldlM (fun r1 k =>
    (List.range m.rows).foldlM (fun r1 row => do
      let a ← m.dataAt row k
      let c ← m.idxAt row k
      let b ← getV r0 c
      let old ← getV r1 row
      setV r1 row (old + half • (a • b))) r1) (fun _ => 0)

end kernels

end Verif.Numeric
