import Verif.Kpm.Kernel
import Verif.Kpm.Reconstruct
import Verif.Kpm.Spec
import Mathlib.Analysis.Matrix.Spectrum
import Mathlib.Analysis.SpecialFunctions.Trigonometric.Chebyshev.Orthogonality

/-!
# Spectral form of the moments

For a Hermitian matrix the moments `<r|T_n(H)|r>` are the Chebyshev moments of a positive measure on the spectrum.
-/

namespace Verif.Kpm

open Finset Polynomial

variable {n : Nat}

/-! ## The kernel is positive definite -/

theorem symm_double_sum (f : Nat → Nat → ℝ) (hf : ∀ i j, f i j = f j i) (M : Nat) :
    ∑ k ∈ range M, ∑ l ∈ range M, f k l =
      2 * ∑ d ∈ range M, ∑ k ∈ range (M - d), f k (k + d) - ∑ k ∈ range M, f k k := by
  induction M with
  | zero => simp
  | succ M ih =>
    have h1 : ∑ k ∈ range (M + 1), ∑ l ∈ range (M + 1), f k l =
        ∑ k ∈ range M, ∑ l ∈ range M, f k l + 2 * ∑ k ∈ range M, f k M + f M M := by
      rw [sum_range_succ, sum_range_succ]
      have : ∀ k ∈ range M, ∑ l ∈ range (M + 1), f k l = ∑ l ∈ range M, f k l + f k M := fun k _ => sum_range_succ _ _
      rw [sum_congr rfl this, sum_add_distrib, sum_congr rfl fun l _ => hf M l]
      ring
    have h2 : ∑ d ∈ range (M + 1), ∑ k ∈ range (M + 1 - d), f k (k + d) =
        ∑ d ∈ range M, ∑ k ∈ range (M - d), f k (k + d) + ∑ k ∈ range (M + 1), f k M := by
      have h3 : ∀ d ∈ range (M + 1), ∑ k ∈ range (M + 1 - d), f k (k + d) =
          ∑ k ∈ range (M - d), f k (k + d) + f (M - d) M := by
        intro d hd
        have := mem_range.1 hd
        rw [show M + 1 - d = M - d + 1 by omega, sum_range_succ, show M - d + d = M by omega]
      rw [sum_congr rfl h3, sum_add_distrib]
      congr 1
      · rw [sum_range_succ]; simp
      · rw [← sum_range_reflect]
        exact sum_congr rfl fun d hd => by
          have := mem_range.1 hd
          rw [show M - (M + 1 - 1 - d) = d by omega]
    rw [h1, h2, ih, sum_range_succ (fun k => f k M), sum_range_succ (fun k => f k k)]
    ring

/-- The Jackson kernel as a function of the angle: `g_0 / 2 + sum g_n cos(n t)`. -/
theorem jackson_kernel_nonneg (num : Nat) (h1 : 1 ≤ num) (t : ℝ) :
    0 ≤ ∑ k ∈ range num, (if k = 0 then 1 / 2 else 1) * jackson num k * Real.cos (k * t) := by
  have hM : (0 : ℝ) < num + 1 := by positivity
  -- the square of the modulus of `sum arch_k exp(i k t)`
  have hsq : 0 ≤ (∑ k ∈ range (num + 1), arch num k * Real.cos (k * t)) ^ 2 + (∑ k ∈ range (num + 1), arch num k * Real.sin (k * t)) ^ 2 := by
    positivity
  have he : (∑ k ∈ range (num + 1), arch num k * Real.cos (k * t)) ^ 2 + (∑ k ∈ range (num + 1), arch num k * Real.sin (k * t)) ^ 2 =
      ∑ k ∈ range (num + 1), ∑ l ∈ range (num + 1), arch num k * arch num l * Real.cos ((l - k) * t) := by
    rw [sq, sq, sum_mul_sum, sum_mul_sum, ← sum_add_distrib]
    refine sum_congr rfl fun k _ => ?_
    rw [← sum_add_distrib]
    refine sum_congr rfl fun l _ => ?_
    rw [sub_mul, Real.cos_sub]; ring
  rw [he, symm_double_sum _ (fun i j => by
    rw [show ((i : ℝ) - j) * t = -((j - i) * t) by ring, Real.cos_neg]; ring)] at hsq
  have hdiag : ∀ d ∈ range (num + 1), ∑ k ∈ range (num + 1 - d), arch num k * arch num (k + d) * Real.cos ((((k + d : Nat) : ℝ) - k) * t) =
      (num + 1) / 2 * (jackson num d * Real.cos (d * t)) := by
    intro d hd
    have hd' := mem_range.1 hd
    rw [jackson_autocorrelation num d h1 (by omega)]
    have : ∀ k ∈ range (num + 1 - d), arch num k * arch num (k + d) * Real.cos ((((k + d : Nat) : ℝ) - k) * t) =
        (arch num k * arch num (k + d)) * Real.cos (d * t) := by
      intro k _
      congr 3
      push_cast; ring
    rw [sum_congr rfl this, ← sum_mul]
    field_simp
  rw [sum_congr rfl hdiag, ← mul_sum] at hsq
  have hd0 : ∑ k ∈ range (num + 1), arch num k * arch num k * Real.cos (((k : ℝ) - k) * t) = (num + 1) / 2 := by
    have := arch_sq_sum num h1
    simp only [sub_self, zero_mul, Real.cos_zero, mul_one]
    generalize ∑ k ∈ range (num + 1), arch num k * arch num k = S at this ⊢
    field_simp at this
    linarith
  rw [hd0, sum_range_succ] at hsq
  have hlast : jackson num num = 0 := by
    rw [jackson_autocorrelation num num h1 (by omega)]
    rw [show num + 1 - num = 1 by omega, sum_range_one, arch_zero]
    simp
  rw [hlast, zero_mul, add_zero] at hsq
  have hsplit : ∑ k ∈ range num, (if k = 0 then 1 / 2 else 1) * jackson num k * Real.cos (k * t) =
      ∑ k ∈ range num, jackson num k * Real.cos (k * t) - 1 / 2 := by
    obtain ⟨m, rfl⟩ : ∃ m, num = m + 1 := ⟨num - 1, by omega⟩
    rw [sum_range_succ', sum_range_succ']
    simp [jackson_zero]
    ring
  rw [hsplit]
  nlinarith

/-! ## Hermitian matrices -/

/-- Spectral form: a Hermitian matrix and a vector define a positive measure on the spectrum, which gives the
expectation value of every polynomial of the matrix. -/
theorem spectral_form {H : Matrix (Fin n) (Fin n) ℂ} (hH : H.IsHermitian) (r : Fin n → ℂ) :
    ∃ w x : Fin n → ℝ, (∀ j, 0 ≤ w j) ∧ (∀ j, x j ∈ spectrum ℝ H) ∧
      ∀ p : ℂ[X], inner r (act (aeval H p) r) = ∑ j, (w j : ℂ) * p.eval (x j : ℂ) := by
  let U : Matrix (Fin n) (Fin n) ℂ := hH.eigenvectorUnitary
  let c : Fin n → ℂ := Matrix.mulVec (star U) r
  refine ⟨fun j => Complex.normSq (c j), hH.eigenvalues, fun j => Complex.normSq_nonneg _,
    fun j => hH.eigenvalues_mem_spectrum_real j, fun p => ?_⟩
  have hp : aeval H p = U * Matrix.diagonal (fun j => p.eval (hH.eigenvalues j : ℂ)) * star U := by
    conv_lhs => rw [hH.spectral_theorem]
    rw [aeval_algHom_apply]
    have : (Matrix.diagonal (RCLike.ofReal ∘ hH.eigenvalues) : Matrix (Fin n) (Fin n) ℂ) =
        Matrix.diagonalAlgHom ℂ (fun j => (hH.eigenvalues j : ℂ)) := rfl
    rw [this, aeval_algHom_apply, Unitary.conjStarAlgAut_apply, aeval_pi_apply]
    rfl
  have hact : act (aeval H p) r = Matrix.mulVec (aeval H p) r := by
    funext i; rfl
  have hin : ∀ a b : Fin n → ℂ, inner a b = dotProduct (star a) b := fun a b => rfl
  rw [hact, hp, hin, ← Matrix.mulVec_mulVec, ← Matrix.mulVec_mulVec, Matrix.dotProduct_mulVec]
  have hl : Matrix.vecMul (star r) U = star c := by
    simp only [c]
    rw [Matrix.star_mulVec]
    congr 1
    rw [Matrix.star_eq_conjTranspose, Matrix.conjTranspose_conjTranspose]
  rw [hl]
  show dotProduct (star c) (Matrix.mulVec _ c) = _
  unfold dotProduct
  refine sum_congr rfl fun j _ => ?_
  rw [Matrix.mulVec_diagonal, Pi.star_apply, Complex.normSq_eq_conj_mul_self]
  rw [show star (c j) = (starRingEnd ℂ) (c j) from rfl]
  ring

end Verif.Kpm
