import Verif.Kpm.RowKernel
import Verif.Kpm.Convergence
import Mathlib.Analysis.InnerProductSpace.PiL2
import Mathlib.Analysis.SpecialFunctions.Trigonometric.Chebyshev.RootsExtrema

/-!
# The recursion with an error in every step

How far a sequence of vectors which follows the Chebyshev recursion up to an error in every element may be from the exact Chebyshev vectors.
-/

namespace Verif.Kpm

open Finset Polynomial

variable {n : Nat}

/-! ## The norm of a vector -/

/-- The Euclidean norm. -/
noncomputable def nrm (x : Fin n → ℂ) : ℝ := ‖(WithLp.toLp 2 x : EuclideanSpace ℂ (Fin n))‖

theorem nrm_nonneg (x : Fin n → ℂ) : 0 ≤ nrm x := norm_nonneg _

theorem nrm_sq (x : Fin n → ℂ) : nrm x ^ 2 = ∑ i, ‖x i‖ ^ 2 := by
  unfold nrm
  rw [EuclideanSpace.norm_sq_eq]

theorem nrm_add (x y : Fin n → ℂ) : nrm (x + y) ≤ nrm x + nrm y := by
  unfold nrm
  rw [WithLp.toLp_add]
  exact norm_add_le _ _

theorem nrm_sub (x y : Fin n → ℂ) : nrm (x - y) ≤ nrm x + nrm y := by
  unfold nrm
  rw [WithLp.toLp_sub]
  exact norm_sub_le _ _

theorem nrm_zero : nrm (0 : Fin n → ℂ) = 0 := by
  unfold nrm
  rw [WithLp.toLp_zero]
  exact norm_zero

theorem nrm_smul (a : ℂ) (x : Fin n → ℂ) : nrm (a • x) = ‖a‖ * nrm x := by
  unfold nrm
  rw [WithLp.toLp_smul]
  exact norm_smul _ _

theorem nrm_sum {ι : Type} (s : Finset ι) (f : ι → Fin n → ℂ) : nrm (∑ k ∈ s, f k) ≤ ∑ k ∈ s, nrm (f k) := by
  classical
  induction s using Finset.induction_on with
  | empty => simp [nrm_zero]
  | insert a s ha ih =>
    rw [sum_insert ha, sum_insert ha]
    exact (nrm_add _ _).trans (by linarith)

theorem norm_le_nrm (x : Fin n → ℂ) (i : Fin n) : ‖x i‖ ≤ nrm x := by
  refine le_of_sq_le_sq ?_ (nrm_nonneg x)
  rw [nrm_sq]
  exact single_le_sum (f := fun i => ‖x i‖ ^ 2) (fun i _ => sq_nonneg _) (mem_univ i)

theorem nrm_mono {x y : Fin n → ℂ} (h : ∀ i, ‖x i‖ ≤ ‖y i‖) : nrm x ≤ nrm y := by
  refine le_of_sq_le_sq ?_ (nrm_nonneg y)
  rw [nrm_sq, nrm_sq]
  exact sum_le_sum fun i _ => by
    have := h i
    have := norm_nonneg (x i)
    nlinarith

/-- Cauchy and Schwarz. -/
theorem norm_inner_le (x y : Fin n → ℂ) : ‖Kpm.inner x y‖ ≤ nrm x * nrm y := by
  have := norm_inner_le_norm (𝕜 := ℂ) (WithLp.toLp 2 x : EuclideanSpace ℂ (Fin n)) (WithLp.toLp 2 y)
  have e : Kpm.inner x y = Inner.inner ℂ (WithLp.toLp 2 x : EuclideanSpace ℂ (Fin n)) (WithLp.toLp 2 y) := by
    rw [PiLp.inner_apply]
    unfold Kpm.inner
    refine sum_congr rfl fun i _ => ?_
    simp [mul_comm]
  rw [e]
  exact this

theorem inner_self_nrm (x : Fin n → ℂ) : Kpm.inner x x = ((nrm x ^ 2 : ℝ) : ℂ) := by
  rw [nrm_sq]
  unfold Kpm.inner
  push_cast
  refine sum_congr rfl fun i _ => ?_
  rw [show star (x i) = (starRingEnd ℂ) (x i) from rfl, ← Complex.normSq_eq_conj_mul_self, Complex.normSq_eq_norm_sq]
  push_cast
  rfl

/-- Schur's test: the row and column sums of a matrix without negative elements bound its action. -/
theorem nrm_schur {B : Matrix (Fin n) (Fin n) ℝ} {R : ℝ} (h0 : ∀ i j, 0 ≤ B i j) (hr : ∀ i, ∑ j, B i j ≤ R) (hc : ∀ j, ∑ i, B i j ≤ R) (hR : 0 ≤ R)
    (x : Fin n → ℂ) : nrm (fun i => ((∑ j, B i j * ‖x j‖ : ℝ) : ℂ)) ≤ R * nrm x := by
  refine le_of_sq_le_sq ?_ (mul_nonneg hR (nrm_nonneg x))
  rw [nrm_sq, mul_pow, nrm_sq]
  have row : ∀ i, ‖((∑ j, B i j * ‖x j‖ : ℝ) : ℂ)‖ ^ 2 ≤ R * ∑ j, B i j * ‖x j‖ ^ 2 := by
    intro i
    rw [Complex.norm_real, Real.norm_eq_abs, sq_abs]
    have := sum_sq_le_sum_mul_sum_of_sq_eq_mul univ (r := fun j => B i j * ‖x j‖) (f := fun j => B i j) (g := fun j => B i j * ‖x j‖ ^ 2)
      (fun j _ => h0 i j) (fun j _ => mul_nonneg (h0 i j) (sq_nonneg _)) (fun j _ => by ring)
    refine this.trans ?_
    exact mul_le_mul_of_nonneg_right (hr i) (sum_nonneg fun j _ => mul_nonneg (h0 i j) (sq_nonneg _))
  calc ∑ i, ‖((∑ j, B i j * ‖x j‖ : ℝ) : ℂ)‖ ^ 2 ≤ ∑ i, R * ∑ j, B i j * ‖x j‖ ^ 2 := sum_le_sum fun i _ => row i
    _ = R * ∑ j, (∑ i, B i j) * ‖x j‖ ^ 2 := by
      rw [← mul_sum, sum_comm]
      simp only [sum_mul]
    _ ≤ R * ∑ j, R * ‖x j‖ ^ 2 := by
      refine mul_le_mul_of_nonneg_left (sum_le_sum fun j _ => mul_le_mul_of_nonneg_right (hc j) (sq_nonneg _)) hR
    _ = R ^ 2 * ∑ j, ‖x j‖ ^ 2 := by rw [← mul_sum]; ring

/-! ## Polynomials of a Hermitian matrix -/

variable {H U : Matrix (Fin n) (Fin n) ℂ} {E : Fin n → ℝ}

theorem Eigen.overlap_poly (h : Eigen H U E) (p : ℂ[X]) (v : Fin n → ℂ) (j : Fin n) :
    overlap U (act (Polynomial.aeval H p) v) j = ‖p.eval (E j : ℂ)‖ ^ 2 * overlap U v j := by
  have hs : star U * Polynomial.aeval H p = Matrix.diagonal (fun j => p.eval (E j : ℂ)) * star U := by
    rw [h.aeval p, mul_assoc, ← mul_assoc, h.orth, one_mul]
  have e : (∑ i, star (U i j) * act (Polynomial.aeval H p) v i) = p.eval (E j : ℂ) * ∑ i, star (U i j) * v i := by
    have h1 : (∑ i, star (U i j) * act (Polynomial.aeval H p) v i) = Matrix.mulVec (star U) (Matrix.mulVec (Polynomial.aeval H p) v) j := rfl
    have h2 : (∑ i, star (U i j) * v i) = Matrix.mulVec (star U) v j := rfl
    rw [h1, h2, Matrix.mulVec_mulVec, hs, ← Matrix.mulVec_mulVec, Matrix.mulVec_diagonal]
  unfold overlap
  rw [e, Complex.normSq_mul, Complex.normSq_eq_norm_sq]

theorem Eigen.nrm_overlap (h : Eigen H U E) (v : Fin n → ℂ) : nrm v ^ 2 = ∑ j, overlap U v j := by
  have := h.overlap_sum v
  rw [inner_self_nrm] at this
  exact_mod_cast this.symm

theorem Eigen.nrm_poly (h : Eigen H U E) {p : ℂ[X]} {b : ℝ} (hb : 0 ≤ b) (hp : ∀ j, ‖p.eval (E j : ℂ)‖ ≤ b) (v : Fin n → ℂ) :
    nrm (act (Polynomial.aeval H p) v) ≤ b * nrm v := by
  refine le_of_sq_le_sq ?_ (mul_nonneg hb (nrm_nonneg v))
  rw [mul_pow, h.nrm_overlap, h.nrm_overlap, mul_sum]
  refine sum_le_sum fun j _ => ?_
  rw [h.overlap_poly]
  refine mul_le_mul_of_nonneg_right ?_ (overlap_nonneg _ _ _)
  have := hp j
  have := norm_nonneg (p.eval (E j : ℂ))
  nlinarith

theorem norm_T_le {x : ℝ} (hx : |x| ≤ 1) (k : Nat) : ‖(Chebyshev.T ℂ k).eval (x : ℂ)‖ ≤ 1 := by
  rw [← Chebyshev.complex_ofReal_eval_T, Complex.norm_real, Real.norm_eq_abs]
  exact Chebyshev.abs_eval_T_real_le_one k hx

theorem norm_U_le {x : ℝ} (hx : |x| ≤ 1) (k : Nat) : ‖(Chebyshev.U ℂ k).eval (x : ℂ)‖ ≤ k + 1 := by
  induction k with
  | zero => simp
  | succ k ih =>
    have : Chebyshev.U ℂ ((k + 1 : Nat) : Int) = X * Chebyshev.U ℂ (k : Int) + Chebyshev.T ℂ ((k + 1 : Nat) : Int) := by
      have := Chebyshev.U_eq_X_mul_U_add_T ℂ (k : Int)
      push_cast
      exact this
    rw [this, eval_add, eval_mul, eval_X]
    refine (norm_add_le _ _).trans ?_
    rw [norm_mul, Complex.norm_real, Real.norm_eq_abs]
    have h1 := norm_T_le hx (k + 1)
    have h2 := norm_nonneg ((Chebyshev.U ℂ (k : Int)).eval (x : ℂ))
    push_cast at h1 ⊢
    nlinarith [abs_nonneg x]

/-! ## Propagation of errors -/

/-- `U_k(H) v`: the Chebyshev polynomial of the second kind. -/
noncomputable def chebVecU (H : Matrix (Fin n) (Fin n) ℂ) (v : Fin n → ℂ) (k : Nat) : Fin n → ℂ := act (Polynomial.aeval H (Chebyshev.U ℂ k)) v

theorem chebVecU_zero (v : Fin n → ℂ) : chebVecU H v 0 = v := by
  unfold chebVecU
  simp [act_one]

theorem chebVecU_one (v : Fin n → ℂ) : chebVecU H v 1 = act ((2 : ℂ) • H) v := by
  unfold chebVecU
  simp only [Nat.cast_one, Chebyshev.U_one, map_mul, map_ofNat, aeval_X]
  congr 1
  rw [two_smul, two_mul]

theorem chebVecU_add_two (v : Fin n → ℂ) (k : Nat) : chebVecU H v (k + 2) = act ((2 : ℂ) • H) (chebVecU H v (k + 1)) - chebVecU H v k := by
  unfold chebVecU
  rw [← act_mul, ← act_sub]
  congr 1
  have h : Chebyshev.U ℂ ((k + 2 : Nat) : Int) = 2 * X * Chebyshev.U ℂ ((k + 1 : Nat) : Int) - Chebyshev.U ℂ (k : Int) := by
    have := Chebyshev.U_add_two ℂ (k : Int)
    push_cast
    exact this
  rw [h]
  simp only [map_sub, map_mul, aeval_X, map_ofNat]
  congr 2
  rw [two_smul, two_mul]

theorem act_sum {ι : Type} (A : Matrix (Fin n) (Fin n) ℂ) (s : Finset ι) (f : ι → Fin n → ℂ) : act A (∑ k ∈ s, f k) = ∑ k ∈ s, act A (f k) := by
  funext i
  simp only [act, Finset.sum_apply, smul_eq_mul, mul_sum]
  rw [sum_comm]

theorem act_vadd (A : Matrix (Fin n) (Fin n) ℂ) (x y : Fin n → ℂ) : act A (x + y) = act A x + act A y := by
  funext i
  simp only [act, Pi.add_apply, smul_eq_mul, mul_add, sum_add_distrib]

/-- The error made in step `k`. -/
noncomputable def stepError (H : Matrix (Fin n) (Fin n) ℂ) (w : Nat → Fin n → ℂ) : Nat → Fin n → ℂ
  | 0 => 0
  | 1 => w 1 - act H (w 0)
  | k + 2 => w (k + 2) - (act ((2 : ℂ) • H) (w (k + 1)) - w k)

/-- The error of vector `k` is made of the errors of the steps, propagated by the polynomials of the second kind. -/
theorem error_sum (w : Nat → Fin n → ℂ) (k : Nat) :
    w k = chebVec H (w 0) k + ∑ m ∈ range (k + 1), chebVecU H (stepError H w m) (k - m) := by
  induction k using Nat.twoStepInduction with
  | zero =>
    rw [chebVec_zero]
    simp [stepError, chebVecU_zero]
  | one =>
    rw [chebVec_one, sum_range_succ, sum_range_succ]
    simp only [range_zero, sum_empty, zero_add, Nat.sub_zero, Nat.sub_self, chebVecU_zero, chebVecU_one]
    have : act ((2 : ℂ) • H) (stepError H w 0) = 0 := by
      funext i; simp [act, stepError]
    rw [this, zero_add]
    simp only [stepError]
    abel
  | more k h1 h2 =>
    have hw : w (k + 2) = act ((2 : ℂ) • H) (w (k + 1)) - w k + stepError H w (k + 2) := by
      simp only [stepError]; abel
    have e2 : ∀ m ∈ range (k + 1), chebVecU H (stepError H w m) (k + 2 - m) =
        act ((2 : ℂ) • H) (chebVecU H (stepError H w m) (k + 1 - m)) - chebVecU H (stepError H w m) (k - m) := by
      intro m hm
      have := mem_range.1 hm
      rw [show k + 2 - m = k - m + 2 by omega, chebVecU_add_two, show k + 1 - m = k - m + 1 by omega]
    rw [hw]
    conv_lhs => rw [h2, h1]
    have e3 : ∑ m ∈ range (k + 2 + 1), chebVecU H (stepError H w m) (k + 2 - m) =
        act ((2 : ℂ) • H) (∑ m ∈ range (k + 1 + 1), chebVecU H (stepError H w m) (k + 1 - m)) -
          ∑ m ∈ range (k + 1), chebVecU H (stepError H w m) (k - m) + stepError H w (k + 2) := by
      rw [sum_range_succ _ (k + 2), show k + 2 = k + 1 + 1 from rfl, sum_range_succ _ (k + 1), sum_range_succ _ (k + 1)]
      rw [show ∑ m ∈ range (k + 1), chebVecU H (stepError H w m) (k + 1 + 1 - m) = _ from sum_congr rfl e2, sum_sub_distrib, ← act_sum, act_vadd,
        show k + 1 + 1 - (k + 1) = 1 by omega, chebVecU_one, Nat.sub_self, Nat.sub_self, chebVecU_zero, chebVecU_zero]
      abel
    rw [e3, chebVec_add_two, act_vadd]
    abel

/-! ## Kernels with a relative error -/

/-- The rule of kernels with the relative error `γ`: `A` is the matrix that should be multiplied, `B` the magnitudes of its elements. -/
def nearRule (A : Matrix (Fin n) (Fin n) ℂ) (B : Matrix (Fin n) (Fin n) ℝ) (γ : ℝ) : RowRule n ℂ where
  step i x v v' := ‖v' - (∑ j, A i j * x j - v)‖ ≤ γ * (∑ j, B i j * ‖x j‖ + ‖v‖)
  first r w := ∀ i, ‖w i - ∑ j, A i j / 2 * r j‖ ≤ γ * ∑ j, B i j * ‖r j‖

theorem nearRule_local {A : Matrix (Fin n) (Fin n) ℂ} {B : Matrix (Fin n) (Fin n) ℝ} {γ : ℝ} (hγ : 0 ≤ γ) (hAB : ∀ i j, ‖A i j‖ ≤ B i j) :
    (nearRule A B γ).Local B := by
  have hA : ∀ i j, B i j = 0 → A i j = 0 := fun i j h => norm_le_zero_iff.1 (by have := hAB i j; rwa [h] at this)
  have hB : ∀ i j, 0 ≤ B i j := fun i j => (norm_nonneg _).trans (hAB i j)
  refine ⟨?_, ?_, ?_, ?_⟩
  · intro i x x' v v' hx h
    have e1 : ∑ j, A i j * x' j = ∑ j, A i j * x j := sum_congr rfl fun j _ => by
      by_cases hz : B i j = 0
      · rw [hA i j hz, zero_mul, zero_mul]
      · rw [hx j hz]
    have e2 : ∑ j, B i j * ‖x' j‖ = ∑ j, B i j * ‖x j‖ := sum_congr rfl fun j _ => by
      by_cases hz : B i j = 0
      · rw [hz, zero_mul, zero_mul]
      · rw [hx j hz]
    show ‖v' - (∑ j, A i j * x' j - v)‖ ≤ γ * (∑ j, B i j * ‖x' j‖ + ‖v‖)
    rw [e1, e2]
    exact h
  · intro i x v' hx h
    have e1 : ∑ j, A i j * x j = 0 := sum_eq_zero fun j _ => by
      by_cases hz : B i j = 0
      · rw [hA i j hz, zero_mul]
      · rw [hx j hz, mul_zero]
    have e2 : ∑ j, B i j * ‖x j‖ = 0 := sum_eq_zero fun j _ => by
      by_cases hz : B i j = 0
      · rw [hz, zero_mul]
      · rw [hx j hz, norm_zero, mul_zero]
    have h' : ‖v' - (∑ j, A i j * x j - 0)‖ ≤ γ * (∑ j, B i j * ‖x j‖ + ‖(0 : ℂ)‖) := h
    rw [e1, e2, norm_zero, add_zero, mul_zero, sub_zero, sub_zero] at h'
    exact norm_le_zero_iff.1 h'
  · intro i r w hx h
    have e1 : ∑ j, A i j / 2 * r j = 0 := sum_eq_zero fun j _ => by
      by_cases hz : B i j = 0
      · rw [hA i j hz, zero_div, zero_mul]
      · rw [hx j hz, mul_zero]
    have e2 : ∑ j, B i j * ‖r j‖ = 0 := sum_eq_zero fun j _ => by
      by_cases hz : B i j = 0
      · rw [hz, zero_mul]
      · rw [hx j hz, norm_zero, mul_zero]
    have h' : ‖w i - ∑ j, A i j / 2 * r j‖ ≤ γ * ∑ j, B i j * ‖r j‖ := h i
    rw [e1, e2, mul_zero, sub_zero] at h'
    exact norm_le_zero_iff.1 h'
  · intro i x v
    refine ⟨∑ j, A i j * x j - v, ?_⟩
    show ‖(∑ j, A i j * x j - v) - (∑ j, A i j * x j - v)‖ ≤ _
    rw [sub_self, norm_zero]
    exact mul_nonneg hγ (add_nonneg (sum_nonneg fun j _ => mul_nonneg (hB i j) (norm_nonneg _)) (norm_nonneg _))

/-- Specification: a Hermitian matrix with energies between -1 and 1, twice of which has elements of magnitudes `B` with row sums of at most `R`. -/
structure Tame (H : Matrix (Fin n) (Fin n) ℂ) (B : Matrix (Fin n) (Fin n) ℝ) (R : ℝ) : Prop where
  hermitian : H.IsHermitian
  spectrum : ∀ j, |hermitian.eigenvalues j| ≤ 1
  size : ∀ i j, ‖((2 : ℂ) • H) i j‖ ≤ B i j
  rows : ∀ i, ∑ j, B i j ≤ R
  cols : ∀ j, ∑ i, B i j ≤ R
  nonneg : 0 ≤ R

theorem Tame.stepError_le {B : Matrix (Fin n) (Fin n) ℝ} {R γ : ℝ} (h : Tame H B R) (hγ : 0 ≤ γ) {r : Fin n → ℂ} {num : Nat} {w : Nat → Fin n → ℂ}
    (hw : (nearRule ((2 : ℂ) • H) B γ).Run r num w) {k : Nat} (hk : k + 2 < num) :
    nrm (stepError H w (k + 2)) ≤ γ * (R * nrm (w (k + 1)) + nrm (w k)) := by
  have hB : ∀ i j, 0 ≤ B i j := fun i j => (norm_nonneg _).trans (h.size i j)
  have h1 := nrm_schur hB h.rows h.cols h.nonneg (w (k + 1))
  let z : Fin n → ℂ := (γ : ℂ) • ((fun i => ((∑ j, B i j * ‖w (k + 1) j‖ : ℝ) : ℂ)) + fun i => ((‖w k i‖ : ℝ) : ℂ))
  have hz : nrm z ≤ γ * (R * nrm (w (k + 1)) + nrm (w k)) := by
    show nrm ((γ : ℂ) • _) ≤ _
    rw [nrm_smul, Complex.norm_real, Real.norm_eq_abs, abs_of_nonneg hγ]
    refine mul_le_mul_of_nonneg_left ((nrm_add _ _).trans (add_le_add h1 ?_)) hγ
    exact nrm_mono fun i => by rw [Complex.norm_real, Real.norm_eq_abs, abs_of_nonneg (norm_nonneg _)]
  refine (nrm_mono fun i => ?_).trans hz
  have hs := hw.next k hk i
  have hs' : ‖w (k + 2) i - (∑ j, ((2 : ℂ) • H) i j * w (k + 1) j - w k i)‖ ≤ γ * (∑ j, B i j * ‖w (k + 1) j‖ + ‖w k i‖) := hs
  have e1 : stepError H w (k + 2) i = w (k + 2) i - (∑ j, ((2 : ℂ) • H) i j * w (k + 1) j - w k i) := rfl
  have e2 : z i = ((γ * (∑ j, B i j * ‖w (k + 1) j‖ + ‖w k i‖) : ℝ) : ℂ) := by
    show (γ : ℂ) * (((∑ j, B i j * ‖w (k + 1) j‖ : ℝ) : ℂ) + ((‖w k i‖ : ℝ) : ℂ)) = _
    push_cast
    rfl
  rw [e1, e2, Complex.norm_real, Real.norm_eq_abs]
  exact hs'.trans (le_abs_self _)

theorem Tame.stepError_one {B : Matrix (Fin n) (Fin n) ℝ} {R γ : ℝ} (h : Tame H B R) (hγ : 0 ≤ γ) {r : Fin n → ℂ} {num : Nat} {w : Nat → Fin n → ℂ}
    (hw : (nearRule ((2 : ℂ) • H) B γ).Run r num w) : nrm (stepError H w 1) ≤ γ * (R * nrm r) := by
  have hB : ∀ i j, 0 ≤ B i j := fun i j => (norm_nonneg _).trans (h.size i j)
  have h1 := nrm_schur hB h.rows h.cols h.nonneg r
  have hz : nrm ((γ : ℂ) • (fun i => ((∑ j, B i j * ‖r j‖ : ℝ) : ℂ))) ≤ γ * (R * nrm r) := by
    rw [nrm_smul, Complex.norm_real, Real.norm_eq_abs, abs_of_nonneg hγ]
    exact mul_le_mul_of_nonneg_left h1 hγ
  refine (nrm_mono fun i => ?_).trans hz
  have hs : ‖w 1 i - ∑ j, ((2 : ℂ) • H) i j / 2 * r j‖ ≤ γ * ∑ j, B i j * ‖r j‖ := hw.one i
  have e1 : stepError H w 1 i = w 1 i - ∑ j, ((2 : ℂ) • H) i j / 2 * r j := by
    show w 1 i - ∑ j, H i j • w 0 j = _
    rw [hw.zero]
    congr 1
    refine sum_congr rfl fun j _ => ?_
    rw [Matrix.smul_apply, smul_eq_mul, smul_eq_mul]
    ring
  rw [e1, Pi.smul_apply, smul_eq_mul, norm_mul, Complex.norm_real, Complex.norm_real, Real.norm_eq_abs, Real.norm_eq_abs, abs_of_nonneg hγ]
  exact hs.trans (mul_le_mul_of_nonneg_left (le_abs_self _) hγ)

theorem Tame.nrm_cheb {B : Matrix (Fin n) (Fin n) ℝ} {R : ℝ} (h : Tame H B R) (v : Fin n → ℂ) (k : Nat) : nrm (chebVec H v k) ≤ nrm v := by
  have := (exists_eigen h.hermitian).nrm_poly (p := Chebyshev.T ℂ k) zero_le_one (fun j => norm_T_le (h.spectrum j) k) v
  rwa [one_mul] at this

theorem Tame.nrm_chebU {B : Matrix (Fin n) (Fin n) ℝ} {R : ℝ} (h : Tame H B R) (v : Fin n → ℂ) (k : Nat) : nrm (chebVecU H v k) ≤ (k + 1) * nrm v :=
  (exists_eigen h.hermitian).nrm_poly (p := Chebyshev.U ℂ k) (by positivity) (fun j => norm_U_le (h.spectrum j) k) v

theorem sum_weights (k : Nat) : ∑ m ∈ range k, (((k - (m + 1) : Nat) : ℝ) + 1) = k * (k + 1) / 2 := by
  induction k with
  | zero => simp
  | succ k ih =>
    rw [sum_range_succ']
    have : ∀ m ∈ range k, (((k + 1 - (m + 1 + 1) : Nat) : ℝ) + 1) = (((k - (m + 1) : Nat) : ℝ) + 1) := fun m _ => by
      rw [show k + 1 - (m + 1 + 1) = k - (m + 1) by omega]
    rw [sum_congr rfl this, ih, show k + 1 - (0 + 1) = k by omega]
    push_cast
    ring

/-- The error of vector `k` grows at most with the square of `k`. -/
theorem Tame.run_error {B : Matrix (Fin n) (Fin n) ℝ} {R γ : ℝ} (h : Tame H B R) (hγ : 0 ≤ γ) {r : Fin n → ℂ} {num : Nat}
    {w : Nat → Fin n → ℂ} (hw : (nearRule ((2 : ℂ) • H) B γ).Run r num w) (h2 : 2 ≤ num) (hsmall : γ * (R + 1) * ((num - 1) * num) ≤ 1) (k : Nat) (hk : k < num) :
    nrm (w k - chebVec H r k) ≤ γ * (R + 1) * (k * (k + 1)) * nrm r := by
  have hR := h.nonneg
  have hr0 := nrm_nonneg r
  induction k using Nat.strong_induction_on with
  | _ k ih =>
    have hbound : ∀ m, m < k → nrm (w m) ≤ 2 * nrm r := by
      intro m hm
      have e : w m = (w m - chebVec H r m) + chebVec H r m := by abel
      rw [e]
      refine (nrm_add _ _).trans ?_
      have h1 := ih m hm (by omega)
      have h2 := h.nrm_cheb r m
      have h3 : (m : ℝ) * (m + 1) ≤ (num - 1) * num := by
        have : (m : ℝ) + 1 ≤ num := by exact_mod_cast (show m + 1 ≤ num by omega)
        have hm0 : (0 : ℝ) ≤ m := Nat.cast_nonneg m
        nlinarith
      have h4 : γ * (R + 1) * (m * (m + 1)) ≤ 1 := (mul_le_mul_of_nonneg_left h3 (by positivity)).trans hsmall
      nlinarith
    have hstep : ∀ m, m < k → nrm (stepError H w (m + 1)) ≤ γ * (R + 1) * 2 * nrm r := by
      intro m hm
      cases m with
      | zero =>
        refine (h.stepError_one hγ hw).trans ?_
        have : 0 ≤ γ * nrm r := mul_nonneg hγ hr0
        nlinarith
      | succ m =>
        refine (h.stepError_le hγ hw (by omega)).trans ?_
        have b1 := hbound (m + 1) (by omega)
        have b0 := hbound m (by omega)
        have := mul_le_mul_of_nonneg_left (add_le_add (mul_le_mul_of_nonneg_left b1 hR) b0) hγ
        refine this.trans (le_of_eq ?_)
        ring
    have he := error_sum (H := H) w k
    rw [hw.zero] at he
    have hd : w k - chebVec H r k = ∑ m ∈ range (k + 1), chebVecU H (stepError H w m) (k - m) := by
      conv_lhs => rw [he]
      abel
    rw [hd, sum_range_succ']
    have hz : chebVecU H (stepError H w 0) (k - 0) = 0 := by
      funext i; simp [chebVecU, act, stepError]
    rw [hz, add_zero]
    refine (nrm_sum _ _).trans ?_
    calc ∑ m ∈ range k, nrm (chebVecU H (stepError H w (m + 1)) (k - (m + 1)))
        ≤ ∑ m ∈ range k, (((k - (m + 1) : Nat) : ℝ) + 1) * (γ * (R + 1) * 2 * nrm r) := by
          refine sum_le_sum fun m hm => ?_
          exact (h.nrm_chebU _ _).trans (mul_le_mul_of_nonneg_left (hstep m (mem_range.1 hm)) (by positivity))
      _ = γ * (R + 1) * (k * (k + 1)) * nrm r := by
          rw [← sum_mul, sum_weights]
          ring

end Verif.Kpm
