import Verif.Numeric.Model
import Mathlib.Analysis.RCLike.Basic
import Mathlib.Analysis.SpecialFunctions.Sqrt

/-!
# Model of the Lanczos procedure that determines the energy bounds

Source: `cppcore/include/compute/lanczos.hpp`, `cppcore/include/compute/eigen3/lanczos.hpp`,
`cppcore/include/compute/detail.hpp`.

`𝕜` is the scalar type, real or complex.  Floating point numbers are exact real or complex numbers; the machine
epsilon is kept as a parameter because the code compares with it.  A division by zero gives an infinity or a NaN,
which are not numbers here: what depends on them is `.ub` (a test that is certainly false for them is modelled as
false).
-/

namespace Verif.Lanczos

open Verif.Numeric
open scoped Classical

variable {𝕜 : Type} [RCLike 𝕜] {n : Nat}

/-! ## The vector operations -/

/-- `detail::real_dot`, compute/detail.hpp:27-33 (for a real scalar the imaginary parts are zero). -/
noncomputable def realDot (a b : 𝕜) : ℝ := RCLike.re a * RCLike.re b + RCLike.im a * RCLike.im b

/-- `detail::square`, compute/detail.hpp:35-41. -/
noncomputable def square (a : 𝕜) : ℝ := RCLike.re a * RCLike.re a + RCLike.im a * RCLike.im a

/-- One iteration over a row in `lanczos_spmv`, compute/lanczos.hpp:36-41.  The state is `(a, v0)`. -/
noncomputable def spmvRow (bPrev : ℝ) (m : Raw 𝕜) (v1 : Fin n → 𝕜) (s : ℝ × (Fin n → 𝕜)) (row : Nat) :
    Res (ℝ × (Fin n → 𝕜)) := do
  let tmp ← csrRowSum m v1 row
  let old ← getV s.2 row
  let v0 ← setV s.2 row (tmp - (bPrev : 𝕜) * old)
  let x ← getV v1 row
  return (s.1 + realDot tmp x, v0)

/-- `lanczos_spmv`, compute/lanczos.hpp:27-45: the result `a` and the new `v0`. -/
noncomputable def lanczosSpmv (bPrev : ℝ) (m : Raw 𝕜) (v1 v0 : Fin n → 𝕜) : Res (ℝ × (Fin n → 𝕜)) :=
  (List.range m.rows).foldlM (spmvRow bPrev m v1) (0, v0)

/-- One scalar iteration of `lanczos_axpy`, compute/lanczos.hpp:61-63 and 83-85.  The state is `(norm2, v0)`. -/
noncomputable def axpyRow (a : ℝ) (v1 : Fin n → 𝕜) (s : ℝ × (Fin n → 𝕜)) (i : Nat) : Res (ℝ × (Fin n → 𝕜)) := do
  let y ← getV s.2 i
  let x ← getV v1 i
  let l := y - (a : 𝕜) * x
  let v0 ← setV s.2 i l
  return (s.1 + square l, v0)

/-- `lanczos_axpy`, the generic version, compute/lanczos.hpp:56-67: `b` and the new `v0`. -/
noncomputable def axpyGeneric (a : ℝ) (v1 v0 : Fin n → 𝕜) : Res (ℝ × (Fin n → 𝕜)) := do
  let r ← (List.range n).foldlM (axpyRow a v1) (0, v0)
  return (√r.1, r.2)

/-- One lane of one vector iteration of `lanczos_axpy`, compute/lanczos.hpp:76-80.  The register `norm2_vec` has a
real and an imaginary part for every scalar of a block; `tmp * tmp` multiplies the parts separately.  The lanes of a
block are independent, so that computing them one after another is the same as computing them at once. -/
noncomputable def axpyLane (a : ℝ) (v1 : Fin n → 𝕜) (i : Nat) (s : (Nat → ℝ × ℝ) × (Fin n → 𝕜)) (l : Nat) :
    Res ((Nat → ℝ × ℝ) × (Fin n → 𝕜)) := do
  let r0 ← getV s.2 (i + l)
  let r1 ← getV v1 (i + l)
  let tmp := r0 - (a : 𝕜) * r1
  let v0 ← setV s.2 (i + l) tmp
  return (Function.update s.1 l ((s.1 l).1 + RCLike.re tmp * RCLike.re tmp, (s.1 l).2 + RCLike.im tmp * RCLike.im tmp), v0)

/-- One vector iteration of `lanczos_axpy`, compute/lanczos.hpp:76-80. -/
noncomputable def axpyBlock (a : ℝ) (v1 : Fin n → 𝕜) (step : Nat) (s : (Nat → ℝ × ℝ) × (Fin n → 𝕜)) (i : Nat) :
    Res ((Nat → ℝ × ℝ) × (Fin n → 𝕜)) :=
  (List.range step).foldlM (axpyLane a v1 i) s

/-- `lanczos_axpy`, the vectorised version, compute/lanczos.hpp:69-90.  The vector loop starts at 0; that
`peel_end == 0` is only asserted (line 73), and assertions are disabled in a release build.  `aligned i`: is the
address of `v0[i]` aligned? -/
noncomputable def axpySimd (aligned : Nat → Bool) (step : Nat) (a : ℝ) (v1 v0 : Fin n → 𝕜) : Res (ℝ × (Fin n → 𝕜)) := do
  let l := splitLoop aligned step 0 n
  let s ← (List.range' 0 (trips 0 l.vecEnd step) step).foldlM (axpyBlock a v1 step) (fun _ => (0, 0), v0)
  let r ← (List.range' l.vecEnd (l.stop - l.vecEnd)).foldlM (axpyRow a v1) (0, s.2)
  return (√(((List.range step).map fun k => (s.1 k).1 + (s.1 k).2).sum + r.1), r.2)

/-- Which of the two versions of `lanczos_axpy` is compiled, compute/lanczos.hpp:55 and 68. -/
inductive Axpy where
  | generic
  | simd (aligned : Nat → Bool) (step : Nat)

/-- `lanczos_axpy`, compute/lanczos.hpp:47-91. -/
noncomputable def Axpy.run (f : Axpy) (a : ℝ) (v1 v0 : Fin n → 𝕜) : Res (ℝ × (Fin n → 𝕜)) :=
  match f with
  | .generic => axpyGeneric a v1 v0
  | .simd aligned step => axpySimd aligned step a v1 v0

/-! ## Eigenvalues of a symmetric tridiagonal matrix -/

/-- `Eigen::JacobiRotation`: the cosine and the sine. compute/eigen3/lanczos.hpp:28. -/
structure Givens where
  c : ℝ
  s : ℝ

/-- `Eigen::JacobiRotation<real_t>::makeGivens(p, q)` of Eigen 3 (a library function; used in
compute/eigen3/lanczos.hpp:28). -/
noncomputable def makeGivens (p q : ℝ) : Givens :=
  if q = 0 then ⟨if p < 0 then -1 else 1, 0⟩
  else if p = 0 then ⟨0, if q < 0 then 1 else -1⟩
  else if |p| > |q| then
    let t := q / p
    let u := if p < 0 then -√(1 + t * t) else √(1 + t * t)
    ⟨1 / u, -t * (1 / u)⟩
  else
    let t := p / q
    let u := if q < 0 then -√(1 + t * t) else √(1 + t * t)
    ⟨-t * (-1 / u), -1 / u⟩

/-- The shift `mu`, compute/eigen3/lanczos.hpp:10-22, from `diag[end-1]`, `diag[end]` and `subdiag[end-1]`. -/
noncomputable def shift (d0 d1 e : ℝ) : ℝ :=
  let td := (d0 - d1) * (1 / 2)
  if td = 0 then d1 - |e|
  else
    let e2 := e * e
    let h := √(td * td + e * e)
    if e2 = 0 then d1 - (e / (td + (if td > 0 then 1 else -1))) * (e / h)
    else d1 - e2 / (td + (if td > 0 then h else -h))

/-- The arrays and the variables `x`, `z` of `tridiagonal_qr_step`.
compute/eigen3/lanczos.hpp:15-47. -/
structure Qr where
  diag : List ℝ
  sub : List ℝ
  x : ℝ
  z : ℝ

/-- `if (k > start) subdiag[k - 1] = ...`, compute/eigen3/lanczos.hpp:39-40. -/
noncomputable def rotatePrev (start k : Nat) (g : Givens) (z : ℝ) (sub : List ℝ) : Res (List ℝ) :=
  if start < k then do
    let p ← rd sub (k - 1)
    wr sub (k - 1) (g.c * p - g.s * z)
  else .ok sub

/-- `if (k < end - 1) { z = ...; subdiag[k + 1] = ... }`, compute/eigen3/lanczos.hpp:43-46: the new `subdiag` and
`z`. -/
noncomputable def rotateNext (stop k : Nat) (g : Givens) (z : ℝ) (sub : List ℝ) : Res (List ℝ × ℝ) :=
  if k + 1 < stop then do
    let p ← rd sub (k + 1)
    let sub ← wr sub (k + 1) (g.c * p)
    return (sub, -g.s * p)
  else .ok (sub, z)

/-- One iteration of the loop of `tridiagonal_qr_step`, compute/eigen3/lanczos.hpp:26-47. -/
noncomputable def rotate (start stop : Nat) (st : Qr) (k : Nat) : Res Qr := do
  let g := makeGivens st.x st.z
  let dk ← rd st.diag k
  let sk ← rd st.sub k
  let dk1 ← rd st.diag (k + 1)
  let sdk := g.s * dk + g.c * sk
  let dkp1 := g.s * sk + g.c * dk1
  let diag ← wr st.diag k (g.c * (g.c * dk - g.s * sk) - g.s * (g.c * sk - g.s * dk1))
  let diag ← wr diag (k + 1) (g.s * sdk + g.c * dkp1)
  let sub ← wr st.sub k (g.c * sdk - g.s * dkp1)
  let sub ← rotatePrev start k g st.z sub
  let x ← rd sub k
  let r ← rotateNext stop k g st.z sub
  return ⟨diag, r.1, x, r.2⟩

/-- `tridiagonal_qr_step`, compute/eigen3/lanczos.hpp:8-49: the new diagonal and subdiagonal. -/
noncomputable def qrStep (diag sub : List ℝ) (start stop : Nat) : Res (List ℝ × List ℝ) := do
  let d0 ← rd diag (stop - 1)
  let d1 ← rd diag stop
  let e ← rd sub (stop - 1)
  let mu := shift d0 d1 e
  let ds ← rd diag start
  let z ← rd sub start
  let st ← (List.range' start (stop - start)).foldlM (rotate start stop) ⟨diag, sub, ds - mu, z⟩
  return (st.diag, st.sub)

/-- One iteration of the loop that removes negligible elements, compute/eigen3/lanczos.hpp:64-70. -/
noncomputable def deflateAt (eps : ℝ) (diag : List ℝ) (sub : List ℝ) (i : Nat) : Res (List ℝ) := do
  let t ← rd sub i
  let d0 ← rd diag i
  let d1 ← rd diag (i + 1)
  if |t| < (|d0| + |d1|) * eps then wr sub i 0 else .ok sub

/-- The loop that removes negligible elements, compute/eigen3/lanczos.hpp:64-70. -/
noncomputable def deflate (eps : ℝ) (diag sub : List ℝ) (start stop : Nat) : Res (List ℝ) :=
  (List.range' start (stop - start)).foldlM (deflateAt eps diag) sub

/-- `while (end > 0 && temp[end-1] == 0) end--;`, compute/eigen3/lanczos.hpp:72-73. -/
noncomputable def lower (sub : List ℝ) : Nat → Res Nat
  | 0 => .ok 0
  | e + 1 => do
    let t ← rd sub e
    if t = 0 then lower sub e else .ok (e + 1)

/-- `while (start > 0 && temp[start-1] != 0) start--;`, compute/eigen3/lanczos.hpp:82-83. -/
noncomputable def findStart (sub : List ℝ) : Nat → Res Nat
  | 0 => .ok 0
  | s + 1 => do
    let t ← rd sub s
    if t ≠ 0 then findStart sub s else .ok (s + 1)

/-- The main loop of `tridiagonal_eigenvalues`, compute/eigen3/lanczos.hpp:63-86.  `left` is the number of QR steps
that are still allowed, `max_iterations * size - iter`. -/
noncomputable def qrLoop (eps : ℝ) : Nat → List ℝ → List ℝ → Nat → Nat → Res (List ℝ)
  | left, diag, sub, start, stop =>
    if stop = 0 then .ok diag
    else do
      let sub ← deflate eps diag sub start stop
      let stop ← lower sub stop
      if stop = 0 then .ok diag
      else
        match left with
        | 0 => .err .runtimeError
        | left + 1 => do
          let start ← findStart sub (stop - 1)
          let r ← qrStep diag sub start stop
          qrLoop eps left r.1 r.2 start stop

/-- `tridiagonal_eigenvalues`, compute/eigen3/lanczos.hpp:52-90.  The arrays are not empty where it is called. -/
noncomputable def tridiagonalEigenvalues (eps : ℝ) (alpha beta : List ℝ) : Res (List ℝ) :=
  qrLoop eps (30 * alpha.length) alpha beta 0 (alpha.length - 1)

/-- `minCoeff()` of an array that is not empty. compute/lanczos.hpp:137-143. -/
noncomputable def minCoeff : List ℝ → Res ℝ
  | [] => .ub
  | x :: xs => .ok (xs.foldl min x)

/-- `maxCoeff()` of an array that is not empty. compute/lanczos.hpp:137-143. -/
noncomputable def maxCoeff : List ℝ → Res ℝ
  | [] => .ub
  | x :: xs => .ok (xs.foldl max x)

/-! ## The Lanczos procedure -/

/-- `LanczosBounds`, compute/lanczos.hpp:93-97. -/
structure LanczosBounds where
  min : ℝ
  max : ℝ
  loops : Nat

/-- The variables of `minmax_eigenvalues`.  `v1 = none`: the vector was divided by zero, all its elements are NaN.
compute/lanczos.hpp:107-121. -/
structure St (𝕜 : Type) (n : Nat) where
  v0 : Fin n → 𝕜
  v1 : Option (Fin n → 𝕜)
  alpha : List ℝ
  beta : List ℝ
  prevMin : ℝ
  prevMax : ℝ

/-- `v1.normalize()`, compute/lanczos.hpp:107: the zero vector is left as it is. -/
noncomputable def normalize (v : Fin n → 𝕜) : Fin n → 𝕜 :=
  let z := ∑ i, square (v i)
  if z > 0 then fun i => v i * ((1 / √z : ℝ) : 𝕜) else v

/-- `abs((previous - x) / x) < precision`, compute/lanczos.hpp:142-143.  For `x = 0` the quotient is an infinity or a
NaN, and the comparison is false. -/
noncomputable def converged (previous x precision : ℝ) : Bool :=
  decide (x ≠ 0 ∧ |(previous - x) / x| < precision)

/-- Part 1 of an iteration, compute/lanczos.hpp:126-134: the tridiagonal matrix is extended by `a` and `b`, and the
vectors advance. -/
noncomputable def extend (f : Axpy) (m : Raw 𝕜) (s : St 𝕜 n) : Res (St 𝕜 n) :=
  match s.v1 with
  | none => .ub
  | some v1 => do
    let bPrev := s.beta.getLastD 0
    let r ← lanczosSpmv bPrev m v1 s.v0
    let q ← f.run r.1 v1 r.2
    let next : Option (Fin n → 𝕜) := if q.1 = 0 then none else some fun i => q.2 i * ((1 / q.1 : ℝ) : 𝕜)
    return { s with v0 := v1, v1 := next, alpha := s.alpha ++ [r.1], beta := s.beta ++ [q.1] }

/-- The loop of `minmax_eigenvalues`, compute/lanczos.hpp:123-150; `left` is `loop_limit - i`. -/
noncomputable def lanczosLoop (f : Axpy) (eps precision : ℝ) (m : Raw 𝕜) : Nat → Nat → St 𝕜 n → Res LanczosBounds
  | 0, _, _ => .err .runtimeError
  | left + 1, i, s => do
    let s ← extend f m s
    let ev ← tridiagonalEigenvalues eps s.alpha s.beta
    let lo ← minCoeff ev
    let hi ← maxCoeff ev
    if converged s.prevMin lo precision && converged s.prevMax hi precision then return ⟨lo, hi, i⟩
    else lanczosLoop f eps precision m left (i + 1) { s with prevMin := lo, prevMax := hi }

/-- `minmax_eigenvalues`, compute/lanczos.hpp:100-154.  `random` is the vector of `make_random` (line 106; any vector
here), `huge` the largest floating point number (lines 116-117), `eps` the machine epsilon. -/
noncomputable def minmaxEigenvalues (f : Axpy) (eps huge : ℝ) (m : Raw 𝕜) (random : Fin n → 𝕜) (precisionPercent : ℝ) :
    Res LanczosBounds :=
  lanczosLoop f eps (precisionPercent / 100) m 1000 0 ⟨fun _ => 0, some (normalize random), [], [], huge, -huge⟩

end Verif.Lanczos
