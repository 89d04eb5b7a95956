import Verif.Numeric.Model
import Mathlib.Data.Complex.Basic
import Mathlib.Algebra.BigOperators.Group.List.Basic

/-!
# The SIMD registers

`support/simd.hpp`: complex numbers are stored in a register as pairs of lanes, real part first, and
multiplied by permuting lanes.  `Numeric/Model` describes the vectorised kernels by lanes which hold one
scalar each; here are the registers as they are, with one real number per lane, and the steps of the
vectorised loops on raw memory.

The intrinsics and the operations of libsimdpp (not part of the repository) are modelled by their
documentation.  Floating point arithmetic is replaced by exact arithmetic; flipping a sign bit is negation.
Pointers to different arrays do not alias.
-/

namespace Verif.Simd

/-- A register: its lanes, or an array in memory: its elements, by number.  Only the first `N` lanes of a
register with `N` lanes are meaningful; no operation below moves anything between lanes of different
groups of four.  support/simd.hpp:44-50. -/
abbrev Reg (R : Type) := Nat → R

/-- `a + b`. support/simd.hpp:298. -/
def add (a b : Reg ℝ) : Reg ℝ := fun i => a i + b i

/-- `a * b`. support/simd.hpp:332. -/
def mul (a b : Reg ℝ) : Reg ℝ := fun i => a i * b i

/-- `simdpp::neg`, used at support/simd.hpp:298 and compute/kernel_polynomial.hpp:146. -/
def neg (a : Reg ℝ) : Reg ℝ := fun i => -a i

/-- `simdpp::permute2<s0, s1>`, used at support/simd.hpp:331-334: in each group of two lanes. -/
def permute2 (s0 s1 : Nat) (a : Reg ℝ) : Reg ℝ := fun i =>
  a (2 * (i / 2) + if i % 2 = 0 then s0 else s1)

/-- `simdpp::shuffle4x2<s0, s1, s2, s3>`, used at support/simd.hpp:298: in each group of four lanes,
numbers 0 to 3 select from `a`, 4 to 7 from `b`. -/
def shuffle4x2 (s0 s1 s2 s3 : Nat) (a b : Reg ℝ) : Reg ℝ := fun i =>
  let s := if i % 4 = 0 then s0 else if i % 4 = 1 then s1 else if i % 4 = 2 then s2 else s3
  if s < 4 then a (4 * (i / 4) + s) else b (4 * (i / 4) + (s - 4))

/-- `addsub`, the version for every instruction set, support/simd.hpp:296-299. -/
def addsub (a b : Reg ℝ) : Reg ℝ := add a (shuffle4x2 0 5 2 7 (neg b) b)

/-- `addsub` with the intrinsics `_mm_addsub_ps`, `_mm_addsub_pd`, `_mm256_addsub_ps`,
`_mm256_addsub_pd`, support/simd.hpp:301-323. -/
def addsubHw (a b : Reg ℝ) : Reg ℝ := fun i => if i % 2 = 0 then a i - b i else a i + b i

/-- `complex_mul`, support/simd.hpp:328-337.  `hw`: does the instruction set have `addsub`? -/
def complexMul (hw : Bool) (ab xy : Reg ℝ) : Reg ℝ :=
  let axay := mul (permute2 0 0 ab) xy
  let bybx := mul (permute2 1 1 ab) (permute2 1 0 xy)
  if hw then addsubHw axay bybx else addsub axay bybx

/-- `conjugate`, support/simd.hpp:342-350: `make_uint(0, 0x80...)` repeats its two arguments, so the sign
bits of the odd lanes are flipped. -/
def conjugate (a : Reg ℝ) : Reg ℝ := fun i => if i % 2 = 0 then a i else -a i

/-- Is the scalar type `real_t` or `std::complex<real_t>`?  `detail::requires_real`,
`detail::requires_complex`, support/simd.hpp:53-56. -/
inductive Scalar
  | real
  | complex
  deriving DecidableEq

/-- The real numbers that make up a scalar: `sizeof(scalar_t) / sizeof(real_t)`, support/simd.hpp:48-51. -/
def Scalar.width : Scalar → Nat
  | .real => 1
  | .complex => 2

/-- `madd_rc<scalar_t>`, support/simd.hpp:355-367. -/
def maddRc (hw : Bool) : Scalar → Reg ℝ → Reg ℝ → Reg ℝ → Reg ℝ
  | .real, a, b, c => add (mul a b) c
  | .complex, a, b, c => add (complexMul hw a b) c

/-- `conjugate_madd_rc<scalar_t>`, support/simd.hpp:372-380. -/
def conjugateMaddRc (hw : Bool) : Scalar → Reg ℝ → Reg ℝ → Reg ℝ → Reg ℝ
  | .real, a, b, c => maddRc hw .real a b c
  | .complex, a, b, c => add (complexMul hw (conjugate a) b) c

/-- `simdpp::transpose2`, used at support/simd.hpp:394, 412 and 433: the two by two matrices of the two
registers are transposed. -/
def transpose2 (a b : Reg ℝ) : Reg ℝ × Reg ℝ :=
  (fun i => if i % 2 = 0 then a i else b (i - 1), fun i => if i % 2 = 0 then a (i + 1) else b i)

/-- `simdpp::reduce_add` of a register with `N` lanes, used at support/simd.hpp:387 and 395. -/
def reduceAdd (N : Nat) (a : Reg ℝ) : ℝ := ((List.range N).map a).sum

/-- `reduce_add_rc<scalar_t>`, support/simd.hpp:385-396; a real result is converted to a complex
number. -/
noncomputable def reduceAddRc (N : Nat) : Scalar → Reg ℝ → ℂ
  | .real, a => (reduceAdd N a : ℝ)
  | .complex, a => ⟨reduceAdd N (transpose2 a fun _ => 0).1, reduceAdd N (transpose2 a fun _ => 0).2⟩

/-- `reduce_imag<scalar_t>`, support/simd.hpp:403-414. -/
def reduceImag : Scalar → Reg ℝ → Reg ℝ
  | .real, a => a
  | .complex, a => add (transpose2 a fun _ => 0).1 (transpose2 a fun _ => 0).2

/-! ### Memory -/

/-- `simd::load(p + at)`, compute/kernel_polynomial.hpp:143. -/
def load {R : Type} (p : Reg R) (pos : Nat) : Reg R := fun i => p (pos + i)

/-- `simd::store(p + at, r)` of a register with `N` lanes, compute/kernel_polynomial.hpp:147. -/
def store {R : Type} (N : Nat) (p : Reg R) (pos : Nat) (r : Reg R) : Reg R := fun i =>
  if pos ≤ i ∧ i < pos + N then r (i - pos) else p i

/-- Reading an array of `std::complex<float>` as `double`: one 64-bit word for two 32-bit words,
`reinterpret_cast` at support/simd.hpp:178, 212 and 245. -/
def asWords {R : Type} (p : Reg R) : Reg (R × R) := fun j => (p (2 * j), p (2 * j + 1))

/-- `_mm_castpd_ps`, `_mm256_castpd_ps`, `bit_cast`: reading a register of 64-bit lanes as 32-bit lanes,
support/simd.hpp:179, 213, 246 and 426. -/
def asHalves {R : Type} (a : Reg (R × R)) : Reg R := fun i =>
  if i % 2 = 0 then (a (i / 2)).1 else (a (i / 2)).2

/-- `_mm_load_ss`, `_mm_load_sd`: one lane from memory, the others zero, support/simd.hpp:153 and
167-170. -/
def loadLow {R : Type} [Zero R] (v : R) : Reg R := fun i => if i = 0 then v else 0

/-- `_mm_loadh_pd`: the second lane from memory, support/simd.hpp:154. -/
def loadHigh {R : Type} (low : Reg R) (v : R) : Reg R := fun i => if i = 1 then v else low i

/-- `_mm_unpacklo_ps`: the low halves of two registers interleaved, support/simd.hpp:171-173. -/
def unpackLow {R : Type} (a b : Reg R) : Reg R := fun i => if i % 2 = 0 then a (i / 2) else b (i / 2)

/-- `_mm256_insertf128_pd`, `_mm256_insertf128_ps` with position 1: the upper half of a register whose halves have
`half` lanes, support/simd.hpp:197, 207 and 230. -/
def insertHigh {R : Type} (half : Nat) (a b : Reg R) : Reg R := fun i => if i < half then a i else b (i - half)

/-- `Gather<float64x2>::call(double const*, ...)`, support/simd.hpp:151-155. -/
def gatherF64x2 {R : Type} [Zero R] (data : Reg R) (idx : Nat → Nat) : Reg R :=
  loadHigh (loadLow (data (idx 0))) (data (idx 1))

/-- `Gather<float64x2>::call(std::complex<double> const*, ...)`, support/simd.hpp:157-160. -/
def gatherC64x2 (data : Reg ℝ) (idx : Nat → Nat) : Reg ℝ := load data (2 * idx 0)

/-- `Gather<float32x4>::call(float const*, ...)`, support/simd.hpp:165-174. -/
def gatherF32x4 (data : Reg ℝ) (idx : Nat → Nat) : Reg ℝ :=
  let a := loadLow (data (idx 0))
  let b := loadLow (data (idx 1))
  let c := loadLow (data (idx 2))
  let d := loadLow (data (idx 3))
  unpackLow (unpackLow a c) (unpackLow b d)

/-- `Gather<float32x4>::call(std::complex<float> const*, ...)`, support/simd.hpp:176-180. -/
def gatherC32x4 (data : Reg ℝ) (idx : Nat → Nat) : Reg ℝ := asHalves (gatherF64x2 (asWords data) idx)

/-- `Gather<float64x4>::call(double const*, ...)` for AVX, support/simd.hpp:187-191: `_mm256_set_pd` takes the
highest lane first. -/
def gatherF64x4Avx {R : Type} [Zero R] (data : Reg R) (idx : Nat → Nat) : Reg R := fun i =>
  if i = 3 then data (idx 3) else if i = 2 then data (idx 2) else if i = 1 then data (idx 1)
  else if i = 0 then data (idx 0) else 0

/-- `Gather<float64x4>::call(double const*, ...)` for AVX2, support/simd.hpp:219-224:
`_mm256_i32gather_pd`. -/
def gatherF64x4Avx2 {R : Type} [Zero R] (data : Reg R) (idx : Nat → Nat) : Reg R := fun i =>
  if i < 4 then data (idx i) else 0

/-- `Gather<float64x4>::call(std::complex<double> const*, ...)`, support/simd.hpp:193-198 and
226-231. -/
def gatherC64x4 (data : Reg ℝ) (idx : Nat → Nat) : Reg ℝ :=
  insertHigh 2 (gatherC64x2 data idx) (gatherC64x2 data fun i => idx (1 + i))

/-- `Gather<float32x8>::call(float const*, ...)` for AVX, support/simd.hpp:203-208. -/
def gatherF32x8Avx (data : Reg ℝ) (idx : Nat → Nat) : Reg ℝ :=
  insertHigh 4 (gatherF32x4 data idx) (gatherF32x4 data fun i => idx (4 + i))

/-- `Gather<float32x8>::call(float const*, ...)` for AVX2, support/simd.hpp:236-241:
`_mm256_i32gather_ps`. -/
def gatherF32x8Avx2 (data : Reg ℝ) (idx : Nat → Nat) : Reg ℝ := fun i => if i < 8 then data (idx i) else 0

/-- `Gather<V<N, void>>::call` for registers emulated by several smaller ones, support/simd.hpp:251-266:
`baseLen` lanes and `indexStep` indices for each. -/
def gatherEmulated {R : Type} (baseLen indexStep : Nat) (base : (Nat → Nat) → Reg R) (idx : Nat → Nat) : Reg R :=
  fun i => base (fun j => idx (i / baseLen * indexStep + j)) (i % baseLen)

/-- The instruction sets which `support/simd.hpp` distinguishes for `Gather`, support/simd.hpp:148-249. -/
inductive Isa
  | sse2
  | avx
  | avx2
  deriving DecidableEq

/-- The element type of a register, support/simd.hpp:48-49. -/
inductive Elem
  | f32
  | f64
  deriving DecidableEq

/-- The lanes of a register, `traits<float>::size`, `traits<double>::size`, support/simd.hpp:35-49. -/
def Elem.lanes : Elem → Nat
  | .f32 => 8
  | .f64 => 4

/-- `traits<scalar_t>::size`, support/simd.hpp:41-44. -/
def step (e : Elem) (s : Scalar) : Nat := e.lanes / s.width

/-- `gather<Vec>(data, indices)`, support/simd.hpp:279-283, with the specialisation of `Gather` that the
instruction set selects; `index_step` is `base_length * element_size / sizeof(Scalar)`. -/
def gather : Isa → Elem → Scalar → Reg ℝ → (Nat → Nat) → Reg ℝ
  | .sse2, .f64, .real, d, idx => gatherEmulated 2 (2 * 8 / 8) (gatherF64x2 d) idx
  | .sse2, .f64, .complex, d, idx => gatherEmulated 2 (2 * 8 / 16) (gatherC64x2 d) idx
  | .sse2, .f32, .real, d, idx => gatherEmulated 4 (4 * 4 / 4) (gatherF32x4 d) idx
  | .sse2, .f32, .complex, d, idx => gatherEmulated 4 (4 * 4 / 8) (gatherC32x4 d) idx
  | .avx, .f64, .real, d, idx => gatherF64x4Avx d idx
  | .avx2, .f64, .real, d, idx => gatherF64x4Avx2 d idx
  | _, .f64, .complex, d, idx => gatherC64x4 d idx
  | .avx, .f32, .real, d, idx => gatherF32x8Avx d idx
  | .avx2, .f32, .real, d, idx => gatherF32x8Avx2 d idx
  | .avx, .f32, .complex, d, idx => asHalves (gatherF64x4Avx (asWords d) idx)
  | .avx2, .f32, .complex, d, idx => asHalves (gatherF64x4Avx2 (asWords d) idx)

/-- `load_splat_rc<Vec>(p + j)`, support/simd.hpp:419-435: the overloads for real numbers,
`std::complex<float>` and other complex types. -/
def loadSplatRc : Elem → Scalar → Reg ℝ → Nat → Reg ℝ
  | _, .real, p, j => fun _ => p j
  | .f32, .complex, p, j => asHalves fun _ => asWords p j
  | .f64, .complex, p, j => (transpose2 (fun _ => p (2 * j)) (fun _ => p (2 * j + 1))).1

/-! ### The vector iterations of the kernels -/

/-- The processor and the types for which a kernel is compiled. support/simd.hpp:41-57. -/
structure Target where
  isa : Isa
  /-- Is the intrinsic `addsub` available? -/
  hw : Bool
  elem : Elem
  scalar : Scalar

/-- Lanes of a register. support/simd.hpp:41-50. -/
def Target.lanes (t : Target) : Nat := t.elem.lanes

/-- Scalars in a register. support/simd.hpp:41-50. -/
def Target.step (t : Target) : Nat := Simd.step t.elem t.scalar

/-- The register that a vector iteration computes for the rows from `row` on,
compute/kernel_polynomial.hpp:143-147.  `data` and `idx` point to column `n` of the matrix. -/
def newY (t : Target) (n : Nat) (data : Reg ℝ) (idx : Nat → Nat) (x y : Reg ℝ) (row : Nat) : Reg ℝ :=
  let w := t.scalar.width
  let a := load data (w * row)
  let b := gather t.isa t.elem t.scalar x fun i => idx (row + i)
  let c := load y (w * row)
  maddRc t.hw t.scalar a b (if n = 0 then neg c else c)

/-- A vector iteration of `kpm_spmv`, compute/kernel_polynomial.hpp:141-148. -/
def spmvIter (t : Target) (n : Nat) (data : Reg ℝ) (idx : Nat → Nat) (x y : Reg ℝ) (row : Nat) : Reg ℝ :=
  store t.lanes y (t.scalar.width * row) (newY t n data idx x y row)

/-- The vector section of `kpm_spmv`: `trips` iterations from row `peel` on,
compute/kernel_polynomial.hpp:141-148. -/
def spmvLoop (t : Target) (n : Nat) (data : Reg ℝ) (idx : Nat → Nat) (x : Reg ℝ) (peel trips : Nat) (y : Reg ℝ) : Reg ℝ :=
  (List.range' peel trips t.step).foldl (spmvIter t n data idx x) y

/-- The registers of the vector section of `kpm_spmv_diagonal`, compute/kernel_polynomial.hpp:241-269. -/
structure DiagRegs where
  y : Reg ℝ
  m2 : Reg ℝ
  m3 : Reg ℝ

/-- A vector iteration of `kpm_spmv_diagonal`, compute/kernel_polynomial.hpp:256-269. -/
def diagIter (t : Target) (n : Nat) (data : Reg ℝ) (idx : Nat → Nat) (x : Reg ℝ) (s : DiagRegs) (row : Nat) : DiagRegs :=
  let r1 := load x (t.scalar.width * row)
  let r2 := newY t n data idx x s.y row
  ⟨store t.lanes s.y (t.scalar.width * row) r2, add s.m2 (mul r1 r1), conjugateMaddRc t.hw t.scalar r2 r1 s.m3⟩

/-- The vector section of `kpm_spmv_diagonal`, which starts with `make_float(0)`,
compute/kernel_polynomial.hpp:241-269. -/
def diagLoop (t : Target) (n : Nat) (data : Reg ℝ) (idx : Nat → Nat) (x : Reg ℝ) (peel trips : Nat) (y : Reg ℝ) : DiagRegs :=
  (List.range' peel trips t.step).foldl (diagIter t n data idx x) ⟨y, fun _ => 0, fun _ => 0⟩

/-- The register that an iteration of the batched kernel computes for row `row`,
compute/kernel_polynomial.hpp:174-178: one register holds the row of a block with `step` columns. -/
def newRow (t : Target) (n : Nat) (data : Reg ℝ) (idx : Nat → Nat) (x y : Reg ℝ) (row : Nat) : Reg ℝ :=
  let w := t.scalar.width
  let a := loadSplatRc t.elem t.scalar data row
  let b := load x (w * (idx row * t.step))
  let c := load y (w * (row * t.step))
  maddRc t.hw t.scalar a b (if n = 0 then neg c else c)

/-- An iteration of the batched `kpm_spmv`, compute/kernel_polynomial.hpp:173-179. -/
def batchIter (t : Target) (n : Nat) (data : Reg ℝ) (idx : Nat → Nat) (x y : Reg ℝ) (row : Nat) : Reg ℝ :=
  store t.lanes y (t.scalar.width * (row * t.step)) (newRow t n data idx x y row)

/-- The loop over the rows of a slice, compute/kernel_polynomial.hpp:173-179. -/
def batchLoop (t : Target) (n : Nat) (data : Reg ℝ) (idx : Nat → Nat) (x : Reg ℝ) (start stop : Nat) (y : Reg ℝ) : Reg ℝ :=
  (List.range' start (stop - start)).foldl (batchIter t n data idx x) y

/-- An iteration of the batched `kpm_spmv_diagonal`, compute/kernel_polynomial.hpp:306-318. -/
def batchDiagIter (t : Target) (n : Nat) (data : Reg ℝ) (idx : Nat → Nat) (x : Reg ℝ) (s : DiagRegs) (row : Nat) :
    DiagRegs :=
  let r1 := load x (t.scalar.width * (row * t.step))
  let r2 := newRow t n data idx x s.y row
  ⟨store t.lanes s.y (t.scalar.width * (row * t.step)) r2, add s.m2 (mul r1 r1),
    conjugateMaddRc t.hw t.scalar r2 r1 s.m3⟩

/-- The last loop of the batched `kpm_spmv_diagonal` and the sums it adds to `m2` and `m3`,
compute/kernel_polynomial.hpp:303-323. -/
def batchDiagLoop (t : Target) (n : Nat) (data : Reg ℝ) (idx : Nat → Nat) (x : Reg ℝ) (start stop : Nat) (y : Reg ℝ)
    (m2 m3 : Reg ℝ) : DiagRegs :=
  let s := (List.range' start (stop - start)).foldl (batchDiagIter t n data idx x) ⟨y, fun _ => 0, fun _ => 0⟩
  ⟨s.y, store t.lanes m2 0 (add (load m2 0) (reduceImag t.scalar s.m2)),
    store t.lanes m3 0 (add (load m3 0) s.m3)⟩

/-- A vector iteration of `lanczos_axpy`, compute/lanczos.hpp:74-80; the registers are `v0` and
`norm2_vec`. -/
def axpyIter (t : Target) (a : ℝ) (v1 : Reg ℝ) (s : Reg ℝ × Reg ℝ) (i : Nat) : Reg ℝ × Reg ℝ :=
  let r0 := load s.1 (t.scalar.width * i)
  let r1 := load v1 (t.scalar.width * i)
  let tmp := add r0 (neg (mul (fun _ => a) r1))
  (store t.lanes s.1 (t.scalar.width * i) tmp, add s.2 (mul tmp tmp))

/-- The vector section of `lanczos_axpy`, compute/lanczos.hpp:73-80. -/
def axpyLoop (t : Target) (a : ℝ) (v1 : Reg ℝ) (trips : Nat) (v0 : Reg ℝ) : Reg ℝ × Reg ℝ :=
  (List.range' 0 trips t.step).foldl (axpyIter t a v1) (v0, fun _ => 0)

/-! ### The complete kernels -/

/-- An ELLPACK matrix in memory: column-major arrays with `dataRows` and `idxRows` elements in each column,
numeric/ellmatrix.hpp:17-31. -/
structure RawEll where
  nnzPerRow : Nat
  dataRows : Nat
  idxRows : Nat
  data : Reg ℝ
  indices : Nat → Nat

/-- `&matrix.data(0, n)`, compute/kernel_polynomial.hpp:131. -/
def RawEll.column (m : RawEll) (s : Scalar) (n : Nat) : Reg ℝ := fun i => m.data (s.width * (n * m.dataRows) + i)

/-- `&matrix.indices(0, n)`, compute/kernel_polynomial.hpp:132. -/
def RawEll.rowIndices (m : RawEll) (n : Nat) : Nat → Nat := fun i => m.indices (n * m.idxRows + i)

/-- `p[j]` for an array of scalars: a real number, or the real and the imaginary part,
compute/kernel_polynomial.hpp:136-138. -/
def scalarAt (s : Scalar) (p : Reg ℝ) (j : Nat) : ℝ × ℝ :=
  match s with
  | .real => (p j, 0)
  | .complex => (p (2 * j), p (2 * j + 1))

/-- `p[j] = v`, compute/kernel_polynomial.hpp:139. -/
def putScalar (s : Scalar) (p : Reg ℝ) (j : Nat) (v : ℝ × ℝ) : Reg ℝ :=
  match s with
  | .real => fun i => if i = j then v.1 else p i
  | .complex => fun i => if i = 2 * j then v.1 else if i = 2 * j + 1 then v.2 else p i

/-- `detail::mul`, compute/detail.hpp:14-21; a real number has no second component. -/
def scalarMul (s : Scalar) (a b : ℝ × ℝ) : ℝ × ℝ :=
  match s with
  | .real => (a.1 * b.1, 0)
  | .complex => (a.1 * b.1 - a.2 * b.2, a.1 * b.2 + a.2 * b.1)

/-- `detail::square`, compute/detail.hpp:35-41. -/
def scalarSquare (s : Scalar) (a : ℝ × ℝ) : ℝ :=
  match s with
  | .real => a.1 * a.1
  | .complex => a.1 * a.1 + a.2 * a.2

/-- The scalar `mul(a, b) + c` which a scalar iteration computes, compute/kernel_polynomial.hpp:136-139 and
245-250. -/
def newScalar (s : Scalar) (n : Nat) (data : Reg ℝ) (idx : Nat → Nat) (x y : Reg ℝ) (row : Nat) : ℝ × ℝ :=
  let p := scalarMul s (scalarAt s data row) (scalarAt s x (idx row))
  let c := scalarAt s y row
  if n = 0 then (p.1 + -c.1, p.2 + -c.2) else (p.1 + c.1, p.2 + c.2)

/-- A scalar iteration of `kpm_spmv`, compute/kernel_polynomial.hpp:135-140 and 149-154. -/
def scalarIter (t : Target) (n : Nat) (data : Reg ℝ) (idx : Nat → Nat) (x y : Reg ℝ) (row : Nat) : Reg ℝ :=
  putScalar t.scalar y row (newScalar t.scalar n data idx x y row)

/-- The three sections of the loop for column `n`, compute/kernel_polynomial.hpp:131-154. -/
def columnRaw (t : Target) (m : RawEll) (n : Nat) (l : Numeric.Split) (x y : Reg ℝ) : Reg ℝ :=
  let data := m.column t.scalar n
  let idx := m.rowIndices n
  let y := (List.range' l.start (l.peelEnd - l.start)).foldl (scalarIter t n data idx x) y
  let y := spmvLoop t n data idx x l.peelEnd (Numeric.trips l.peelEnd l.vecEnd t.step) y
  (List.range' l.vecEnd (l.stop - l.vecEnd)).foldl (scalarIter t n data idx x) y

/-- `kpm_spmv` for one vector, compute/kernel_polynomial.hpp:122-158. -/
def spmvRaw (t : Target) (m : RawEll) (skip : Nat) (l : Numeric.Split) (x y : Reg ℝ) : Reg ℝ :=
  (List.range (m.nnzPerRow - skip)).foldl (fun y n => columnRaw t m n l x y) y

/-- The variables of a scalar iteration of `kpm_spmv_diagonal`; `m2` and `m3` as complex numbers,
compute/kernel_polynomial.hpp:220-223. -/
structure DiagScalars where
  y : Reg ℝ
  m2 : ℂ
  m3 : ℂ

/-- A scalar iteration of `kpm_spmv_diagonal`, compute/kernel_polynomial.hpp:244-255 and 270-281. -/
noncomputable def diagScalarIter (t : Target) (n : Nat) (data : Reg ℝ) (idx : Nat → Nat) (x : Reg ℝ) (s : DiagScalars) (row : Nat) :
    DiagScalars :=
  let r1 := scalarAt t.scalar x row
  let r2 := newScalar t.scalar n data idx x s.y row
  let p := scalarMul t.scalar (r2.1, -r2.2) r1
  ⟨putScalar t.scalar s.y row r2, s.m2 + (scalarSquare t.scalar r1 : ℝ), s.m3 + ⟨p.1, p.2⟩⟩

/-- `kpm_spmv_diagonal` for one vector, compute/kernel_polynomial.hpp:220-285; `nnz_per_row` is not 0. -/
noncomputable def diagRaw (t : Target) (m : RawEll) (l : Numeric.Split) (x y : Reg ℝ) (m2 m3 : ℂ) : DiagScalars :=
  let n := m.nnzPerRow - 1
  let data := m.column t.scalar n
  let idx := m.rowIndices n
  let s : DiagScalars := ⟨spmvRaw t m 1 l x y, m2, m3⟩
  let s := (List.range' l.start (l.peelEnd - l.start)).foldl (diagScalarIter t n data idx x) s
  let v := diagLoop t n data idx x l.peelEnd (Numeric.trips l.peelEnd l.vecEnd t.step) s.y
  let s := (List.range' l.vecEnd (l.stop - l.vecEnd)).foldl (diagScalarIter t n data idx x) ⟨v.y, s.m2, s.m3⟩
  ⟨s.y, s.m2 + (reduceAdd t.lanes v.m2 : ℝ), s.m3 + reduceAddRc t.lanes t.scalar v.m3⟩

/-- `kpm_spmv` for a block of `step` vectors, compute/kernel_polynomial.hpp:160-181. -/
def spmvRawBatch (t : Target) (m : RawEll) (skip start stop : Nat) (x y : Reg ℝ) : Reg ℝ :=
  (List.range (m.nnzPerRow - skip)).foldl (fun y n => batchLoop t n (m.column t.scalar n) (m.rowIndices n) x start stop y) y

/-- `kpm_spmv_diagonal` for a block of `step` vectors, compute/kernel_polynomial.hpp:287-323; `nnz_per_row` is
not 0. -/
def diagRawBatch (t : Target) (m : RawEll) (start stop : Nat) (x y m2 m3 : Reg ℝ) : DiagRegs :=
  let n := m.nnzPerRow - 1
  batchDiagLoop t n (m.column t.scalar n) (m.rowIndices n) x start stop (spmvRawBatch t m 1 start stop x y) m2 m3

/-- `lanczos_axpy`, the new `v0` and the result before `std::sqrt`, compute/lanczos.hpp:67-90.  The section
before `peel_end` is missing in the code. -/
noncomputable def axpyRaw (t : Target) (a : ℝ) (l : Numeric.Split) (v1 v0 : Reg ℝ) : Reg ℝ × ℝ :=
  let v := axpyLoop t a v1 (Numeric.trips 0 l.vecEnd t.step) v0
  let r := (List.range' l.vecEnd (l.stop - l.vecEnd)).foldl (fun (s : Reg ℝ × ℝ) i =>
    let p := scalarAt t.scalar s.1 i
    let q := scalarAt t.scalar v1 i
    let tmp := (p.1 - a * q.1, p.2 - a * q.2)
    (putScalar t.scalar s.1 i tmp, s.2 + scalarSquare t.scalar tmp)) (v.1, 0)
  (r.1, reduceAdd t.lanes v.2 + r.2)

/-! ### Addresses -/

/-- `sizeof(real_t)`. support/simd.hpp:48-49. -/
def Elem.bytes : Elem → Nat
  | .f32 => 4
  | .f64 => 8

/-- `sizeof(scalar_t)`. support/simd.hpp:43. -/
def Target.scalarBytes (t : Target) : Nat := t.elem.bytes * t.scalar.width

/-- A load or store of the processor: its address, its size in bytes and the alignment that the instruction
demands.  support/simd.hpp:35-38. -/
structure Access where
  address : Nat
  size : Nat
  align : Nat
  deriving DecidableEq

/-- `simd::load`, `simd::store` of a whole register: 32 bytes, which must be aligned to `align_bytes`,
support/simd.hpp:35-38. -/
def wholeRegister (address : Nat) : Access := ⟨address, 32, 32⟩

/-- The vector loads of `gather(px0, idx)`: the indices at once with AVX2 (support/simd.hpp:221 and 238), whole
complex numbers of type double (support/simd.hpp:159).  All other loads of `Gather` are of single elements. -/
def gatherAccesses (t : Target) (px0 pidx : Nat) (idx : Nat → Nat) : List Access :=
  match t.isa, t.elem, t.scalar with
  | .avx2, .f64, .real => [⟨pidx, 16, 16⟩]
  | .avx2, .f32, .real => [⟨pidx, 32, 32⟩]
  | .avx2, .f32, .complex => [⟨pidx, 16, 16⟩]
  | _, .f64, .complex => [⟨px0 + 16 * idx 0, 16, 16⟩, ⟨px0 + 16 * idx 1, 16, 16⟩]
  | _, _, _ => []

/-- The addresses of the arrays. compute/kernel_polynomial.hpp:124-133. -/
structure Arrays where
  x : Nat
  y : Nat
  data : Nat
  indices : Nat

/-- The accesses of a vector iteration of `kpm_spmv` or `kpm_spmv_diagonal` for column `n`,
compute/kernel_polynomial.hpp:143-147 and 258-268 (the latter also reads `px`); `std::int32_t` has four bytes. -/
def vecAccesses (t : Target) (m : RawEll) (at_ : Arrays) (n row : Nat) : List Access :=
  [wholeRegister (at_.data + t.scalarBytes * (n * m.dataRows + row)), wholeRegister (at_.y + t.scalarBytes * row),
    wholeRegister (at_.x + t.scalarBytes * row)] ++
  gatherAccesses t at_.x (at_.indices + 4 * (n * m.idxRows + row)) fun i => m.rowIndices n (row + i)

/-- The accesses of an iteration of a batched kernel for row `row`, compute/kernel_polynomial.hpp:174-178 and
307-317. -/
def batchAccesses (t : Target) (m : RawEll) (at_ : Arrays) (n row : Nat) : List Access :=
  [wholeRegister (at_.x + t.scalarBytes * (m.rowIndices n row * t.step)),
    wholeRegister (at_.y + t.scalarBytes * (row * t.step)), wholeRegister (at_.x + t.scalarBytes * (row * t.step))]

end Verif.Simd
