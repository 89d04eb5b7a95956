import Verif.Kpm.Stability

/-!
# Eigenvalues of nearby Hermitian matrices
-/

namespace Verif.Hamiltonian

open Finset Polynomial
open Verif.Kpm (Eigen overlap overlap_nonneg act nrm_sq)

variable {n : Nat}

/-- Specification: the expectation value of a Hermitian matrix. -/
noncomputable def expect (A : Matrix (Fin n) (Fin n) ℂ) (x : Fin n → ℂ) : ℂ := ∑ i, star (x i) * ∑ j, A i j * x j

theorem Eigen.expect_eq {A U : Matrix (Fin n) (Fin n) ℂ} {E : Fin n → ℝ} (h : Eigen A U E) (x : Fin n → ℂ) : expect A x = ((∑ j, E j * overlap U x j : ℝ) : ℂ) := by
  have := h.inner x X
  rw [Polynomial.aeval_X] at this
  have e : Kpm.inner x (act A x) = expect A x := rfl
  rw [← e, this]
  push_cast
  refine sum_congr rfl fun j _ => ?_
  rw [Polynomial.eval_X, mul_comm]

theorem sum_overlap {A U : Matrix (Fin n) (Fin n) ℂ} {E : Fin n → ℝ} (h : Eigen A U E) (x : Fin n → ℂ) : ∑ j, overlap U x j = ∑ i, ‖x i‖ ^ 2 := by
  rw [← h.nrm_overlap, nrm_sq]

/-- A vector without the states of `U` below `k` and those of `V` above `k`. -/
theorem exists_between (U V : Matrix (Fin n) (Fin n) ℂ) (k : Fin n) :
    ∃ x : Fin n → ℂ, x ≠ 0 ∧ (∀ j, j < k → overlap U x j = 0) ∧ ∀ j, k < j → overlap V x j = 0 := by
  let M : Matrix (Fin n) (Fin n) ℂ := fun j i => if j < k then star (U i j) else if k < j then star (V i j) else 0
  have hs : ¬ Function.Surjective (Matrix.toLin' M) := by
    intro hs
    obtain ⟨x, hx⟩ := hs fun _ => 1
    have := congrFun hx k
    rw [Matrix.toLin'_apply] at this
    simp [M, Matrix.mulVec, dotProduct] at this
  rw [← LinearMap.injective_iff_surjective, ← LinearMap.ker_eq_bot, Submodule.eq_bot_iff] at hs
  push Not at hs
  obtain ⟨x, hx, hx0⟩ := hs
  rw [LinearMap.mem_ker, Matrix.toLin'_apply] at hx
  refine ⟨x, hx0, fun j hj => ?_, fun j hj => ?_⟩
  · have := congrFun hx j
    simp only [M, Matrix.mulVec, dotProduct, if_pos hj, Pi.zero_apply] at this
    unfold overlap
    rw [this, map_zero]
  · have := congrFun hx j
    simp only [M, Matrix.mulVec, dotProduct, if_neg hj.not_gt, if_pos hj, Pi.zero_apply] at this
    unfold overlap
    rw [this, map_zero]

/-- One side of Weyl's inequality. -/
theorem weyl_le {A B U V : Matrix (Fin n) (Fin n) ℂ} {E F : Fin n → ℝ} (hA : Eigen A U E) (hB : Eigen B V F) (hE : Monotone E) (hF : Monotone F) {δ : ℝ}
    (h : ∀ x, (expect A x).re ≤ (expect B x).re + δ * ∑ i, ‖x i‖ ^ 2) (k : Fin n) : E k ≤ F k + δ := by
  obtain ⟨x, hx0, hU, hV⟩ := exists_between U V k
  have hpos : 0 < ∑ i, ‖x i‖ ^ 2 := by
    obtain ⟨i, hi⟩ := Function.ne_iff.1 hx0
    exact sum_pos' (fun _ _ => sq_nonneg _) ⟨i, mem_univ _, by have := norm_pos_iff.2 hi; positivity⟩
  have h1 : E k * ∑ i, ‖x i‖ ^ 2 ≤ (expect A x).re := by
    rw [Eigen.expect_eq hA, Complex.ofReal_re, ← sum_overlap hA, mul_sum]
    refine sum_le_sum fun j _ => ?_
    rcases lt_or_ge j k with hj | hj
    · rw [hU j hj]; simp
    · exact mul_le_mul_of_nonneg_right (hE hj) (overlap_nonneg _ _ _)
  have h2 : (expect B x).re ≤ F k * ∑ i, ‖x i‖ ^ 2 := by
    rw [Eigen.expect_eq hB, Complex.ofReal_re, ← sum_overlap hB, mul_sum]
    refine sum_le_sum fun j _ => ?_
    rcases lt_or_ge k j with hj | hj
    · rw [hV j hj]; simp
    · exact mul_le_mul_of_nonneg_right (hF hj) (overlap_nonneg _ _ _)
  have h3 := h x
  have : E k * ∑ i, ‖x i‖ ^ 2 ≤ (F k + δ) * ∑ i, ‖x i‖ ^ 2 := by rw [add_mul]; linarith
  exact le_of_mul_le_mul_right this hpos

theorem expect_near {A B : Matrix (Fin n) (Fin n) ℂ} {δ : ℝ} (hs : ∀ i j, ‖A j i - B j i‖ = ‖A i j - B i j‖) (hr : ∀ i, ∑ j, ‖A i j - B i j‖ ≤ δ) (x : Fin n → ℂ) :
    ‖expect A x - expect B x‖ ≤ δ * ∑ i, ‖x i‖ ^ 2 := by
  have e : expect A x - expect B x = ∑ i, ∑ j, star (x i) * ((A i j - B i j) * x j) := by
    unfold expect
    rw [← sum_sub_distrib]
    refine sum_congr rfl fun i _ => ?_
    rw [← mul_sub, ← sum_sub_distrib, mul_sum]
    exact sum_congr rfl fun j _ => by ring
  rw [e]
  have h1 : ‖∑ i, ∑ j, star (x i) * ((A i j - B i j) * x j)‖ ≤ ∑ i, ∑ j, ‖A i j - B i j‖ * ((‖x i‖ ^ 2 + ‖x j‖ ^ 2) / 2) := by
    refine (norm_sum_le _ _).trans (sum_le_sum fun i _ => (norm_sum_le _ _).trans (sum_le_sum fun j _ => ?_))
    rw [norm_mul, norm_mul, norm_star]
    have := sq_nonneg (‖x i‖ - ‖x j‖)
    have h0 := norm_nonneg (A i j - B i j)
    nlinarith
  have h2 : ∑ i, ∑ j, ‖A i j - B i j‖ * ((‖x i‖ ^ 2 + ‖x j‖ ^ 2) / 2) = ∑ i, ∑ j, ‖A i j - B i j‖ * ‖x i‖ ^ 2 := by
    have h3 : ∑ i, ∑ j, ‖A i j - B i j‖ * ‖x j‖ ^ 2 = ∑ i, ∑ j, ‖A i j - B i j‖ * ‖x i‖ ^ 2 := by
      rw [sum_comm]
      exact sum_congr rfl fun i _ => sum_congr rfl fun j _ => by rw [hs]
    have h4 : ∑ i, ∑ j, ‖A i j - B i j‖ * ((‖x i‖ ^ 2 + ‖x j‖ ^ 2) / 2)
        = (∑ i, ∑ j, ‖A i j - B i j‖ * ‖x i‖ ^ 2 + ∑ i, ∑ j, ‖A i j - B i j‖ * ‖x j‖ ^ 2) / 2 := by
      rw [← sum_add_distrib, sum_div]
      refine sum_congr rfl fun i _ => ?_
      rw [← sum_add_distrib, sum_div]
      exact sum_congr rfl fun j _ => by ring
    rw [h4, h3]
    ring
  refine h1.trans (h2.le.trans ?_)
  rw [mul_sum]
  refine sum_le_sum fun i _ => ?_
  rw [← sum_mul]
  exact mul_le_mul_of_nonneg_right (hr i) (sq_nonneg _)

/-- Weyl's inequality: the `k`-th eigenvalues of two Hermitian matrices differ by no more than the largest row sum of their difference. -/
theorem weyl {A B U V : Matrix (Fin n) (Fin n) ℂ} {E F : Fin n → ℝ} (hA : Eigen A U E) (hB : Eigen B V F) (hE : Monotone E) (hF : Monotone F) {δ : ℝ}
    (hr : ∀ i, ∑ j, ‖A i j - B i j‖ ≤ δ) (k : Fin n) : |E k - F k| ≤ δ := by
  have hs : ∀ i j, ‖A j i - B j i‖ = ‖A i j - B i j‖ := by
    intro i j
    rw [← hA.hermitian.apply j i, ← hB.hermitian.apply j i, ← star_sub, norm_star]
  have hn := fun x => (Complex.abs_re_le_norm _).trans (expect_near hs hr x)
  rw [abs_sub_le_iff]
  constructor
  · have := weyl_le hA hB hE hF (δ := δ) (fun x => by
      have := (abs_le.1 (hn x)).2
      rw [Complex.sub_re] at this
      linarith) k
    linarith
  · have := weyl_le hB hA hF hE (δ := δ) (fun x => by
      have := (abs_le.1 (hn x)).1
      rw [Complex.sub_re] at this
      linarith) k
    linarith

end Verif.Hamiltonian
