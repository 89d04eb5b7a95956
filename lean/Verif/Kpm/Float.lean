import Verif.Kpm.Model
import Mathlib.Analysis.Complex.Norm
import Mathlib.Data.Int.Log
import Mathlib.Algebra.Order.Round

/-!
# The kernels in floating-point arithmetic

Every operation on real numbers is followed by a rounding.  Infinities, NaN, overflow and underflow are not modelled, and there is one zero only.
-/

namespace Verif.Kpm.Float

open Verif.Numeric

/-- A rounding of real numbers with a bound of the relative error, as IEEE arithmetic has it as long as there is no overflow or underflow: the standard model
of floating-point arithmetic for `float` and `double`, `num::get_real_t<scalar_t>`, numeric/traits.hpp:27-35.  Which number is chosen between two candidates is left open. -/
structure Rounding where
  fl : ℝ → ℝ
  unit : ℝ
  unit_nonneg : 0 ≤ unit
  near : ∀ x, |fl x - x| ≤ unit * |x|

/-- The operations of the kernels on scalars, real scalars being complex numbers without imaginary part: `acc r a b` is the statement `r += mul(a, b)` (which a
compiler may contract), `madd a b c` is `simd::madd_rc(a, b, c)`, `sub` is `operator-` and `mul` is `detail::mul` as well as `operator*`.
compute/detail.hpp:14-21, support/simd.hpp:329-337, 355-367. -/
structure Ops where
  acc : ℂ → ℂ → ℂ → ℂ
  madd : ℂ → ℂ → ℂ → ℂ
  sub : ℂ → ℂ → ℂ
  mul : ℂ → ℂ → ℂ

/-- The operations without rounding; compute/detail.hpp:14-21. -/
noncomputable def Ops.exact : Ops := ⟨fun r a b => r + a * b, fun a b c => a * b + c, fun a b => a - b, fun a b => a * b⟩

namespace Rounding

variable (R : Rounding)

/-- `a + b`: both parts are rounded. compute/kernel_polynomial.hpp:28. -/
noncomputable def add (a b : ℂ) : ℂ := ⟨R.fl (a.re + b.re), R.fl (a.im + b.im)⟩

/-- `a - b`: both parts are rounded. compute/kernel_polynomial.hpp:30. -/
noncomputable def sub (a b : ℂ) : ℂ := ⟨R.fl (a.re - b.re), R.fl (a.im - b.im)⟩

/-- `detail::mul` for complex scalars, compute/detail.hpp:17-21; `complex_mul`, support/simd.hpp:329-337, rounds in the same places. -/
noncomputable def mul (a b : ℂ) : ℂ :=
  ⟨R.fl (R.fl (a.re * b.re) - R.fl (a.im * b.im)), R.fl (R.fl (a.re * b.im) + R.fl (a.im * b.re))⟩

/-- `simd::madd_rc`, support/simd.hpp:355-367.  `fma`: the instruction set has fused multiplication and addition, which is used for real scalars only. -/
noncomputable def madd (fma : Bool) (a b c : ℂ) : ℂ :=
  if fma = true ∧ a.im = 0 ∧ b.im = 0 ∧ c.im = 0 then ⟨R.fl (a.re * b.re + c.re), 0⟩ else R.add (R.mul a b) c

/-- The rounded operations; compute/detail.hpp:14-21, support/simd.hpp:355-367. -/
noncomputable def ops (fma : Bool) : Ops := ⟨fun r a b => R.add r (R.mul a b), R.madd fma, R.sub, R.mul⟩

end Rounding

section kernels

variable {n : Nat} (o : Ops)

/-- The sum over the stored elements of a row. compute/kernel_polynomial.hpp:26-29; kpm/Starter.hpp:62-66. -/
def rowSum (m : Raw ℂ) (x : Fin n → ℂ) (row : Nat) : Res ℂ := do
  let lo ← rd m.outer row
  let hi ← rd m.outer (row + 1)
  (List.range' lo (hi - lo)).foldlM (fun r k => do
    let a ← rd m.vals k
    let c ← rd m.inner k
    let b ← getV x c
    return o.acc r a b) 0

/-- `kpm_spmv` for CSR matrices, compute/kernel_polynomial.hpp:18-32. -/
def spmvCsr (m : Raw ℂ) (start stop : Nat) (x y : Fin n → ℂ) : Res (Fin n → ℂ) :=
  (List.range' start (stop - start)).foldlM (fun y row => do
    let r ← rowSum o m x row
    let old ← getV y row
    setV y row (o.sub r old)) y

/-- `kpm_spmv` for ELLPACK matrices, generic version, compute/kernel_polynomial.hpp:90-104. -/
def spmvEll (m : Ell ℂ) (start stop : Nat) (x y : Fin n → ℂ) : Res (Fin n → ℂ) := do
  let y ← (List.range' start (stop - start)).foldlM (fun y row => do
    let old ← getV y row
    setV y row (-old)) y
  (List.range m.nnzPerRow).foldlM (fun y k =>
    (List.range' start (stop - start)).foldlM (fun y row => do
      let a ← m.dataAt row k
      let c ← m.idxAt row k
      let b ← getV x c
      let old ← getV y row
      setV y row (o.acc old a b)) y) y

/-- The new value of `y[row]` in column `k` of the vectorised version: `vec` says whether the row is in a vector or is treated alone.
compute/kernel_polynomial.hpp:135-154. -/
def lane (vec : Bool) (m : Ell ℂ) (k : Nat) (x y : Fin n → ℂ) (row : Nat) : Res ℂ := do
  let a ← m.dataAt row k
  let c ← m.idxAt row k
  let b ← getV x c
  let old ← getV y row
  let c := if k = 0 then -old else old
  return if vec then o.madd a b c else o.acc c a b

/-- A row which is treated alone. compute/kernel_polynomial.hpp:135-140, 149-154. -/
def scalarStep (m : Ell ℂ) (k : Nat) (x y : Fin n → ℂ) (row : Nat) : Res (Fin n → ℂ) := do
  let v ← lane o false m k x y row
  setV y row v

/-- `step` rows in a vector: all are computed before any is stored. compute/kernel_polynomial.hpp:141-148. -/
def vecStep (m : Ell ℂ) (k : Nat) (step : Nat) (x y : Fin n → ℂ) (row : Nat) : Res (Fin n → ℂ) := do
  let vs ← (List.range' row step).mapM (lane o true m k x y)
  ((List.range' row step).zip vs).foldlM (fun y p => setV y p.1 p.2) y

/-- The three sections of a column. compute/kernel_polynomial.hpp:130-155. -/
def column (m : Ell ℂ) (k : Nat) (step : Nat) (l : Split) (x y : Fin n → ℂ) : Res (Fin n → ℂ) := do
  let y ← (List.range' l.start (l.peelEnd - l.start)).foldlM (scalarStep o m k x) y
  let y ← (List.range' l.peelEnd (trips l.peelEnd l.vecEnd step) step).foldlM (vecStep o m k step x) y
  (List.range' l.vecEnd (l.stop - l.vecEnd)).foldlM (scalarStep o m k x) y

/-- `kpm_spmv` for ELLPACK matrices, vectorised, compute/kernel_polynomial.hpp:122-158, with `skip_last_n = 0`. -/
def spmvSimd (m : Ell ℂ) (aligned : Nat → Bool) (step : Nat) (start stop : Nat) (x y : Fin n → ℂ) : Res (Fin n → ℂ) :=
  (List.range m.nnzPerRow).foldlM (fun y k => column o m k step (splitLoop aligned step start stop) x y) y

/-- `make_r1` for CSR matrices, kpm/Starter.hpp:54-70. -/
noncomputable def r1Csr (junk : Fin n → ℂ) (m : Raw ℂ) (r0 : Fin n → ℂ) : Res (Fin n → ℂ) :=
  (List.range m.rows).foldlM (fun r1 row => do
    let t ← rowSum o m r0 row
    setV r1 row (o.mul t (1 / 2))) junk

/-- `make_r1` for ELLPACK matrices, kpm/Starter.hpp:93-105. -/
noncomputable def r1Ell (m : Ell ℂ) (r0 : Fin n → ℂ) : Res (Fin n → ℂ) :=
  (List.range m.nnzPerRow).foldlM (fun r1 k =>
    (List.range m.rows).foldlM (fun r1 row => do
      let a ← m.dataAt row k
      let c ← m.idxAt row k
      let b ← getV r0 c
      let old ← getV r1 row
      setV r1 row (o.acc old (o.mul a b) (1 / 2))) r1) (fun _ => 0)

/-- The storage format of the optimized matrix and the instruction set, kpm/OptimizedHamiltonian.cpp:33-36, kernel_polynomial.hpp:90-158.  The off-diagonal algorithms do not use the
kernel for diagonal moments. -/
inductive Kernels (n : Nat) where
  | csr (junk : Fin n → ℂ)
  | ell (dataStep idxStep : Nat) (data0 : Nat → Nat → ℂ) (idx0 : Nat → Nat → Nat)
  | simd (dataStep idxStep : Nat) (data0 : Nat → Nat → ℂ) (idx0 : Nat → Nat → Nat)
      (aligned : Nat → Nat → (Fin n → ℂ) → (Fin n → ℂ) → Nat → Bool) (step : Nat)

/-- The matrix that the algorithms work with; kpm/OptimizedHamiltonian.cpp:33-36, kernel_polynomial.hpp:18-158, Starter.hpp:54-105. -/
noncomputable def Kernels.mat (f : Kernels n) (m : Raw ℂ) : Res (Mat n ℂ) :=
  match f with
  | .csr junk => .ok ⟨spmvCsr o m, fun _ _ _ _ _ _ => .ub, r1Csr o junk m⟩
  | .ell ds is d0 i0 => do
    let e ← csrToEll ds is d0 i0 m
    return ⟨spmvEll o e, fun _ _ _ _ _ _ => .ub, r1Ell o e⟩
  | .simd ds is d0 i0 aligned step => do
    let e ← csrToEll ds is d0 i0 m
    return ⟨fun start stop x y => spmvSimd o e (aligned start stop x y) step start stop x y, fun _ _ _ _ _ _ => .ub, r1Ell o e⟩

end kernels

/-! ## Without rounding the kernels are those of exact arithmetic -/

section exact

variable {n : Nat}

theorem rowSum_exact (m : Raw ℂ) (x : Fin n → ℂ) (row : Nat) : rowSum Ops.exact m x row = csrRowSum m x row := rfl

theorem spmvCsr_exact (m : Raw ℂ) (start stop : Nat) (x y : Fin n → ℂ) : spmvCsr Ops.exact m start stop x y = kpmSpmvCsr m start stop x y := rfl

theorem spmvEll_exact (m : Ell ℂ) (start stop : Nat) (x y : Fin n → ℂ) : spmvEll Ops.exact m start stop x y = kpmSpmvEll m start stop x y := rfl

theorem lane_exact (vec : Bool) (m : Ell ℂ) (k : Nat) (x y : Fin n → ℂ) (row : Nat) : lane Ops.exact vec m k x y row = ellLane m k x y row := by
  unfold lane ellLane Ops.exact
  cases vec
  · simp only [Bool.false_eq_true, if_false, smul_eq_mul, add_comm]
  · simp only [if_true, smul_eq_mul]

theorem spmvSimd_exact (m : Ell ℂ) (aligned : Nat → Bool) (step start stop : Nat) (x y : Fin n → ℂ) :
    spmvSimd Ops.exact m aligned step start stop x y = kpmSpmvSimd m aligned step 0 start stop x y := by
  have h1 : ∀ k x, scalarStep (n := n) Ops.exact m k x = ellScalarStep m k x := by
    intro k x; funext y row; unfold scalarStep ellScalarStep; rw [lane_exact]
  have h2 : ∀ k x, vecStep (n := n) Ops.exact m k step x = ellVecStep m k step x := by
    intro k x; funext y row; unfold vecStep ellVecStep
    rw [show lane Ops.exact true m k x y = ellLane m k x y from funext fun r => lane_exact true m k x y r]
  have h3 : ∀ k l x y, column (n := n) Ops.exact m k step l x y = ellColumn m k step l x y := by
    intro k l x y; unfold column ellColumn; rw [h1, h2]
  unfold spmvSimd kpmSpmvSimd
  simp only [h3, Nat.sub_zero]

theorem r1Csr_exact (junk : Fin n → ℂ) (m : Raw ℂ) (r0 : Fin n → ℂ) : r1Csr Ops.exact junk m r0 = makeR1Csr (1 / 2) junk m r0 := by
  unfold r1Csr makeR1Csr
  simp only [rowSum_exact]
  simp only [Ops.exact, smul_eq_mul, mul_comm]

theorem r1Ell_exact (m : Ell ℂ) (r0 : Fin n → ℂ) : r1Ell Ops.exact m r0 = makeR1Ell (1 / 2) m r0 := by
  unfold r1Ell makeR1Ell
  simp only [Ops.exact, smul_eq_mul, mul_comm (1 / 2 : ℂ)]

end exact

/-! ## Binary numbers of a fixed precision -/

/-- Rounding to the nearest binary number of `p` digits, like `float` with `p = 24` and `double` with `p = 53` (numeric/traits.hpp:27-35): exponents are not
bounded and a number in the middle is rounded up. -/
noncomputable def binary (p : Nat) (x : ℝ) : ℝ :=
  if x = 0 then 0 else round (x / (2 : ℝ) ^ (Int.log 2 |x| - p + 1)) * (2 : ℝ) ^ (Int.log 2 |x| - p + 1)

theorem binary_near (p : Nat) (x : ℝ) : |binary p x - x| ≤ (2 : ℝ) ^ (-(p : ℤ)) * |x| := by
  unfold binary
  split
  · rename_i h
    rw [h]; simp
  · rename_i h
    have hx : 0 < |x| := abs_pos.2 h
    have hq : (0 : ℝ) < (2 : ℝ) ^ (Int.log 2 |x| - p + 1) := zpow_pos (by norm_num) _
    have e : (round (x / (2 : ℝ) ^ (Int.log 2 |x| - p + 1)) : ℝ) * (2 : ℝ) ^ (Int.log 2 |x| - p + 1) - x =
        -(x / (2 : ℝ) ^ (Int.log 2 |x| - p + 1) - round (x / (2 : ℝ) ^ (Int.log 2 |x| - p + 1))) * (2 : ℝ) ^ (Int.log 2 |x| - p + 1) := by
      field_simp
      ring
    rw [e, abs_mul, abs_neg, abs_of_pos hq]
    have h1 := abs_sub_round (x / (2 : ℝ) ^ (Int.log 2 |x| - p + 1))
    have h2 : ((2 : ℕ) : ℝ) ^ Int.log 2 |x| ≤ |x| := Int.zpow_log_le_self (by norm_num) hx
    have h3 : (2 : ℝ) ^ (Int.log 2 |x| - p + 1) = 2 * ((2 : ℝ) ^ (-(p : ℤ)) * (2 : ℝ) ^ Int.log 2 |x|) := by
      rw [← zpow_add₀ (by norm_num), ← zpow_one_add₀ (by norm_num)]
      congr 1
      ring
    push_cast at h2
    have h4 : (0 : ℝ) < (2 : ℝ) ^ (-(p : ℤ)) := zpow_pos (by norm_num) _
    have h6 : (2 : ℝ) ^ (-(p : ℤ)) * (2 : ℝ) ^ Int.log 2 |x| ≤ (2 : ℝ) ^ (-(p : ℤ)) * |x| := mul_le_mul_of_nonneg_left h2 h4.le
    refine (mul_le_mul_of_nonneg_right h1 hq.le).trans ?_
    rw [h3]
    linarith

/-- Binary arithmetic with `p` digits; numeric/traits.hpp:27-35. -/
noncomputable def Rounding.binary (p : Nat) : Rounding := ⟨Float.binary p, (2 : ℝ) ^ (-(p : ℤ)), (zpow_pos (by norm_num) _).le, binary_near p⟩

end Verif.Kpm.Float
