import Verif.Kpm.PropsKernel
import Mathlib.Analysis.SpecialFunctions.Integrals.Basic
import Mathlib.Topology.MetricSpace.Lipschitz

/-!
# The kernel as an average over energies

Integrals of a reconstructed density against a function of the energy, as sums over the eigenstates.  Only lemmas about the definitions of `Kpm/Config` and `Kpm/Reconstruct`.
-/

namespace Verif.Kpm

open Finset Polynomial

variable {n : Nat}

/-! ## Eigenstates -/

/-- Specification: the columns of `U` are orthonormal eigenvectors of `H` with the energies `E`. -/
structure Eigen (H U : Matrix (Fin n) (Fin n) ℂ) (E : Fin n → ℝ) : Prop where
  orth : star U * U = 1
  eig : H * U = U * Matrix.diagonal fun j => (E j : ℂ)

/-- The probability of eigenstate `j` in the vector `r`. -/
noncomputable def overlap (U : Matrix (Fin n) (Fin n) ℂ) (r : Fin n → ℂ) (j : Fin n) : ℝ := Complex.normSq (∑ i, star (U i j) * r i)

variable {H U : Matrix (Fin n) (Fin n) ℂ} {E : Fin n → ℝ}

theorem Eigen.orth' (h : Eigen H U E) : U * star U = 1 := mul_eq_one_comm.1 h.orth

theorem Eigen.eq (h : Eigen H U E) : H = U * Matrix.diagonal (fun j => (E j : ℂ)) * star U := by
  rw [← h.eig, mul_assoc, h.orth', mul_one]

theorem Eigen.hermitian (h : Eigen H U E) : H.IsHermitian := by
  rw [h.eq, Matrix.star_eq_conjTranspose]
  unfold Matrix.IsHermitian
  rw [Matrix.conjTranspose_mul, Matrix.conjTranspose_mul, Matrix.conjTranspose_conjTranspose, Matrix.diagonal_conjTranspose, mul_assoc]
  congr 3
  funext j
  simp

/-- Every Hermitian matrix has eigenstates. -/
theorem exists_eigen (hH : H.IsHermitian) : Eigen H (hH.eigenvectorUnitary : Matrix (Fin n) (Fin n) ℂ) hH.eigenvalues := by
  have h1 : star (hH.eigenvectorUnitary : Matrix (Fin n) (Fin n) ℂ) * hH.eigenvectorUnitary = 1 := Unitary.coe_star_mul_self _
  refine ⟨h1, ?_⟩
  have h2 : H = (hH.eigenvectorUnitary : Matrix (Fin n) (Fin n) ℂ) * Matrix.diagonal (fun j => (hH.eigenvalues j : ℂ)) *
      star (hH.eigenvectorUnitary : Matrix (Fin n) (Fin n) ℂ) := by
    conv_lhs => rw [hH.spectral_theorem]
    rw [Unitary.conjStarAlgAut_apply]
    rfl
  have h3 := congrArg (fun M => M * (hH.eigenvectorUnitary : Matrix (Fin n) (Fin n) ℂ)) h2
  rw [h3, mul_assoc, h1, mul_one]

theorem Eigen.aeval (h : Eigen H U E) (p : ℂ[X]) : aeval H p = U * Matrix.diagonal (fun j => p.eval (E j : ℂ)) * star U := by
  have key : ∀ q : ℂ[X], Polynomial.aeval H q * U = U * Matrix.diagonal (fun j => q.eval (E j : ℂ)) := by
    intro q
    induction q using Polynomial.induction_on' with
    | add p q hp hq =>
      rw [map_add, add_mul, hp, hq, ← mul_add, Matrix.diagonal_add]
      simp only [eval_add]
    | monomial k a =>
      rw [aeval_monomial]
      have hpow : ∀ k : Nat, H ^ k * U = U * Matrix.diagonal (fun j => (E j : ℂ) ^ k) := by
        intro k
        induction k with
        | zero => simp
        | succ k ih =>
          rw [pow_succ', mul_assoc, ih, ← mul_assoc, h.eig, mul_assoc, Matrix.diagonal_mul_diagonal]
          congr 2
          funext j
          ring
      rw [mul_assoc, hpow, Algebra.algebraMap_eq_smul_one, smul_mul_assoc, one_mul, ← Matrix.mul_smul, ← Matrix.diagonal_smul]
      congr 2
      funext j
      simp [eval_monomial]
  rw [← key p, mul_assoc, h.orth', mul_one]

theorem overlap_nonneg (U : Matrix (Fin n) (Fin n) ℂ) (r : Fin n → ℂ) (j : Fin n) : 0 ≤ overlap U r j := Complex.normSq_nonneg _

/-- The expectation value of a polynomial. -/
theorem Eigen.inner (h : Eigen H U E) (r : Fin n → ℂ) (p : ℂ[X]) :
    Kpm.inner r (act (Polynomial.aeval H p) r) = ∑ j, (overlap U r j : ℂ) * p.eval (E j : ℂ) := by
  let c : Fin n → ℂ := Matrix.mulVec (star U) r
  have hact : act (Polynomial.aeval H p) r = Matrix.mulVec (Polynomial.aeval H p) r := by
    funext i; rfl
  have hin : ∀ a b : Fin n → ℂ, Kpm.inner a b = dotProduct (star a) b := fun a b => rfl
  rw [hact, h.aeval p, hin, ← Matrix.mulVec_mulVec, ← Matrix.mulVec_mulVec, Matrix.dotProduct_mulVec]
  have hl : Matrix.vecMul (star r) U = star c := by
    simp only [c]
    rw [Matrix.star_mulVec]
    congr 1
    rw [Matrix.star_eq_conjTranspose, Matrix.conjTranspose_conjTranspose]
  rw [hl]
  show dotProduct (star c) (Matrix.mulVec _ c) = _
  unfold dotProduct
  refine sum_congr rfl fun j _ => ?_
  have hc : overlap U r j = Complex.normSq (c j) := rfl
  rw [Matrix.mulVec_diagonal, Pi.star_apply, hc, Complex.normSq_eq_conj_mul_self]
  rw [show star (c j) = (starRingEnd ℂ) (c j) from rfl]
  ring

/-- The sum of the probabilities. -/
theorem Eigen.overlap_sum (h : Eigen H U E) (r : Fin n → ℂ) : ((∑ j, overlap U r j : ℝ) : ℂ) = Kpm.inner r r := by
  have := h.inner r 1
  rw [map_one, show act (1 : Matrix (Fin n) (Fin n) ℂ) r = r from by funext i; unfold act; simp [Matrix.one_apply]] at this
  rw [this]
  push_cast
  simp

/-- The moments of a vector as sums over the eigenstates. -/
theorem Eigen.momentList (h : Eigen H U E) (s : Scale ℝ) (r : Fin n → ℂ) (num : Nat) :
    momentList s H r num = (List.range num).map fun k : Nat =>
      (((if k = 0 then 1 / 2 else 1) * ∑ j, overlap U r j * (Chebyshev.T ℝ k).eval (s.apply (E j)) : ℝ) : ℂ) := by
  have hcheb : ∀ k : Nat, Kpm.inner r (chebVec (scaledMat s H) r k) = ((∑ j, overlap U r j * (Chebyshev.T ℝ k).eval (s.apply (E j)) : ℝ) : ℂ) := by
    intro k
    have hq : scaledMat s H = Polynomial.aeval H (C (s.a : ℂ)⁻¹ * (X - C (s.b : ℂ))) := by
      unfold scaledMat
      simp only [map_mul, map_sub, aeval_X, aeval_C]
      rw [Algebra.algebraMap_eq_smul_one, Algebra.algebraMap_eq_smul_one, smul_mul_assoc, one_mul]
    unfold chebVec
    rw [hq, ← aeval_comp, h.inner]
    push_cast
    refine sum_congr rfl fun j _ => ?_
    congr 1
    rw [eval_comp]
    congr 1
    simp only [eval_mul, eval_sub, eval_C, eval_X, Scale.apply]
    push_cast
    ring
  unfold Kpm.momentList
  refine List.map_congr_left fun k _ => ?_
  unfold diagMoment
  by_cases hk : k = 0
  · subst hk
    rw [if_pos rfl, hcheb 0]
    simp
  · rw [if_neg hk, hcheb k]
    simp [hk]

/-! ## The integral over the energy in terms of the angle -/

/-- The integral of a density against a function `f` of the energy. -/
theorem density_against {s : Scale ℝ} (ha : 0 < s.a) (g : Nat → Nat → ℝ) (m : Nat → ℝ) (num : Nat) (f density : ℝ → ℝ)
    (hd : ∀ e, s.b - s.a < e → e < s.b + s.a → spectralDensity s (damp g ((List.range num).map fun k => ((m k : ℝ) : ℂ))) e = .ok (density e)) :
    ∫ e in (s.b - s.a)..(s.b + s.a), f e * density e =
      2 / Real.pi * ∫ t in (0 : ℝ)..Real.pi, f (s.a * Real.cos t + s.b) * ∑ k ∈ range num, g num k * m k * Real.cos (k * t) := by
  have ha' := ha.ne'
  let P : ℝ → ℝ := fun E => ∑ k ∈ range num, g num k * m k * (Chebyshev.T ℝ k).eval E
  let F : ℝ → ℝ := fun E => 2 / Real.pi / s.a * (f (s.a * E + s.b) * P E * Real.sqrt (1 - E ^ 2)⁻¹)
  have hF : ∫ e in (s.b - s.a)..(s.b + s.a), f e * density e = ∫ e in (s.b - s.a)..(s.b + s.a), F (e / s.a - s.b / s.a) := by
    refine intervalIntegral.integral_congr_ae ?_
    rw [Set.uIoc_of_le (by linarith)]
    refine (MeasureTheory.ae_iff.2 ?_)
    refine MeasureTheory.measure_mono_null (t := {s.b + s.a}) ?_ (by simp)
    intro e he
    simp only [Set.mem_ofPred_eq, Classical.not_imp] at he
    obtain ⟨⟨e1, e2⟩, hne⟩ := he
    by_contra hlast
    have e3 : e < s.b + s.a := lt_of_le_of_ne e2 hlast
    apply hne
    have hE : -1 < s.apply e ∧ s.apply e < 1 := by
      unfold Scale.apply
      rw [lt_div_iff₀ ha, div_lt_iff₀ ha]
      constructor <;> linarith
    have hd' := hd e e1 e3
    unfold spectralDensity at hd'
    simp only at hd'
    rw [if_pos hE, densityAt_form] at hd'
    have hd'' : _ = density e := Res.ok.inj hd'
    rw [← hd'', ← sub_div]
    show _ = F (s.apply e)
    simp only [F, P]
    have hback : s.a * s.apply e + s.b = e := by unfold Scale.apply; field_simp; ring
    rw [hback, sum_congr rfl fun k _ => by rw [← arccos_T hE.1 hE.2 k], Real.sqrt_inv, sq]
    ring
  rw [hF, intervalIntegral.integral_comp_div_sub _ ha',
    show (s.b - s.a) / s.a - s.b / s.a = -1 by field_simp; ring, show (s.b + s.a) / s.a - s.b / s.a = 1 by field_simp; ring]
  simp only [F]
  rw [intervalIntegral.integral_const_mul, ← Chebyshev.integral_measureT, Chebyshev.integral_measureT_eq_integral_cos, smul_eq_mul, ← mul_assoc]
  congr 1
  · field_simp
  · refine intervalIntegral.integral_congr fun t _ => ?_
    simp only [P]
    congr 1
    refine sum_congr rfl fun k _ => ?_
    have := Chebyshev.T_real_cos t k
    rw [show ((k : ℤ) : ℝ) = k by simp] at this
    rw [this]

/-- The integrals of products of cosines over half a period. -/
theorem cos_orth (k m : Nat) : ∫ t in (0 : ℝ)..Real.pi, Real.cos (m * t) * Real.cos (k * t) = if k = m then (if k = 0 then Real.pi else Real.pi / 2) else 0 := by
  have h : ∫ t in (0 : ℝ)..Real.pi, Real.cos (m * t) * Real.cos (k * t) = ∫ x, (Chebyshev.T ℝ m).eval x * (Chebyshev.T ℝ k).eval x ∂Chebyshev.measureT := by
    rw [Chebyshev.integral_measureT_eq_integral_cos]
    refine intervalIntegral.integral_congr fun t _ => ?_
    have h1 := Chebyshev.T_real_cos t m
    have h2 := Chebyshev.T_real_cos t k
    rw [show ((m : ℤ) : ℝ) = m by simp] at h1
    rw [show ((k : ℤ) : ℝ) = k by simp] at h2
    rw [h1, h2]
  rw [h]
  split
  · rename_i hkm
    subst hkm
    split
    · rename_i h0
      subst h0
      exact Chebyshev.integral_eval_T_real_mul_self_measureT_zero
    · rename_i h0
      exact Chebyshev.integral_T_real_mul_self_measureT_of_ne_zero h0
  · rename_i hkm
    exact Chebyshev.integral_eval_T_real_mul_eval_T_real_measureT_of_ne (Ne.symm hkm)

/-! ## The average -/

/-- The kernel at the angles `x` and `t`. -/
noncomputable def kern (g : Nat → Nat → ℝ) (num : Nat) (x t : ℝ) : ℝ :=
  ∑ k ∈ range num, g num k * ((if k = 0 then 1 / 2 else 1) * Real.cos (k * x)) * Real.cos (k * t)

theorem kern_continuous (g : Nat → Nat → ℝ) (num : Nat) (x : ℝ) : Continuous (kern g num x) := by
  unfold kern
  fun_prop

/-- The average of `f` over the angles, as the kernel sees it from the angle `x`. -/
noncomputable def average (g : Nat → Nat → ℝ) (num : Nat) (x : ℝ) (f : ℝ → ℝ) : ℝ := 2 / Real.pi * ∫ t in (0 : ℝ)..Real.pi, f t * kern g num x t

theorem average_cos (g : Nat → Nat → ℝ) (num : Nat) (x : ℝ) (m : Nat) :
    average g num x (fun t => Real.cos (m * t)) = if m < num then g num m * Real.cos (m * x) else 0 := by
  unfold average kern
  have h1 : ∀ t, Real.cos (m * t) * ∑ k ∈ range num, g num k * ((if k = 0 then 1 / 2 else 1) * Real.cos (k * x)) * Real.cos (k * t) =
      ∑ k ∈ range num, g num k * ((if k = 0 then 1 / 2 else 1) * Real.cos (k * x)) * (Real.cos (m * t) * Real.cos (k * t)) := by
    intro t
    rw [mul_sum]
    exact sum_congr rfl fun k _ => by ring
  simp only [h1]
  rw [intervalIntegral.integral_finsetSum fun k _ => Continuous.intervalIntegrable (by fun_prop) _ _]
  simp only [intervalIntegral.integral_const_mul, cos_orth]
  simp only [mul_ite, mul_zero]
  rw [sum_ite_eq' (range num) m]
  simp only [mem_range]
  have := Real.pi_ne_zero
  split
  · split
    · field_simp
    · field_simp
  · rw [mul_zero]

theorem average_add {g : Nat → Nat → ℝ} {num : Nat} {x : ℝ} {f1 f2 : ℝ → ℝ} (h1 : Continuous f1) (h2 : Continuous f2) :
    average g num x (fun t => f1 t + f2 t) = average g num x f1 + average g num x f2 := by
  unfold average
  have := kern_continuous g num x
  simp only [add_mul]
  rw [intervalIntegral.integral_add (Continuous.intervalIntegrable (by fun_prop) _ _) (Continuous.intervalIntegrable (by fun_prop) _ _), mul_add]

theorem average_smul {g : Nat → Nat → ℝ} {num : Nat} {x : ℝ} (c : ℝ) (f : ℝ → ℝ) : average g num x (fun t => c * f t) = c * average g num x f := by
  unfold average
  simp only [mul_assoc c]
  rw [intervalIntegral.integral_const_mul]
  ring

theorem average_const {g : Nat → Nat → ℝ} {num : Nat} (h1 : 1 ≤ num) (hg : g num 0 = 1) (x c : ℝ) : average g num x (fun _ => c) = c := by
  have h := average_cos g num x 0
  rw [if_pos (by omega)] at h
  simp only [Nat.cast_zero, zero_mul, Real.cos_zero, hg, mul_one] at h
  have := average_smul (g := g) (num := num) (x := x) c fun _ => 1
  rw [h] at this
  simpa using this

/-- The Jackson kernel is not negative. -/
theorem kern_nonneg {num : Nat} (h1 : 1 ≤ num) (x t : ℝ) : 0 ≤ kern jackson num x t := by
  have e : kern jackson num x t = 1 / 2 * (∑ k ∈ range num, (if k = 0 then 1 / 2 else 1) * jackson num k * Real.cos (k * (x + t)) +
      ∑ k ∈ range num, (if k = 0 then 1 / 2 else 1) * jackson num k * Real.cos (k * (x - t))) := by
    unfold kern
    rw [← sum_add_distrib, mul_sum]
    refine sum_congr rfl fun k _ => ?_
    rw [mul_add (k : ℝ), mul_sub (k : ℝ), Real.cos_add, Real.cos_sub]
    ring
  rw [e]
  have h2 := jackson_kernel_nonneg num h1 (x + t)
  have h3 := jackson_kernel_nonneg num h1 (x - t)
  linarith

theorem average_mono {num : Nat} (h1 : 1 ≤ num) (x : ℝ) {f1 f2 : ℝ → ℝ} (hc1 : Continuous f1) (hc2 : Continuous f2) (h : ∀ t, f1 t ≤ f2 t) :
    average jackson num x f1 ≤ average jackson num x f2 := by
  unfold average
  have := kern_continuous jackson num x
  refine mul_le_mul_of_nonneg_left (intervalIntegral.integral_mono_on Real.pi_pos.le (Continuous.intervalIntegrable (by fun_prop) _ _)
    (Continuous.intervalIntegrable (by fun_prop) _ _) fun t _ => mul_le_mul_of_nonneg_right (h t) (kern_nonneg h1 x t)) ?_
  have := Real.pi_pos
  positivity

/-! ## The width of the Jackson kernel -/

theorem jackson_one (num : Nat) (h1 : 1 ≤ num) : jackson num 1 = Real.cos (Real.pi / (num + 1)) := by
  have hM : (0 : ℝ) < num + 1 := by positivity
  have hs : Real.sin (Real.pi / ((num : ℝ) + 1)) ≠ 0 := by
    refine (Real.sin_pos_of_pos_of_lt_pi (by positivity) ?_).ne'
    rw [div_lt_iff₀ hM]
    have : (1 : ℝ) ≤ num := by exact_mod_cast h1
    have := Real.pi_pos
    nlinarith
  unfold jackson
  simp only [Nat.cast_one, mul_one]
  rw [Real.tan_eq_sin_div_cos]
  field_simp
  ring

theorem jackson_two (num : Nat) (h1 : 1 ≤ num) : jackson num 2 = (2 * num * Real.cos (Real.pi / (num + 1)) ^ 2 - num + 1) / (num + 1) := by
  have hM : (0 : ℝ) < num + 1 := by positivity
  have hs : Real.sin (Real.pi / ((num : ℝ) + 1)) ≠ 0 := by
    refine (Real.sin_pos_of_pos_of_lt_pi (by positivity) ?_).ne'
    rw [div_lt_iff₀ hM]
    have : (1 : ℝ) ≤ num := by exact_mod_cast h1
    have := Real.pi_pos
    nlinarith
  unfold jackson
  simp only [Nat.cast_ofNat]
  rw [show Real.pi * 2 / ((num : ℝ) + 1) = 2 * (Real.pi / (num + 1)) by ring, Real.cos_two_mul, Real.sin_two_mul, Real.tan_eq_sin_div_cos]
  congr 1
  field_simp
  ring

/-- The mean square distance (of the cosines) of the kernel is at most the square of `pi / (num + 1)`. -/
theorem average_sq {num : Nat} (h2 : 2 ≤ num) (x : ℝ) :
    average jackson num x (fun t => (Real.cos t - Real.cos x) ^ 2) ≤ (Real.pi / (num + 1)) ^ 2 := by
  have h1 : 1 ≤ num := by omega
  have hM : (0 : ℝ) < num + 1 := by positivity
  set q := Real.pi / ((num : ℝ) + 1) with hq
  have e : (fun t => (Real.cos t - Real.cos x) ^ 2) = fun t => (1 / 2 * Real.cos ((2 : Nat) * t) + (-2 * Real.cos x) * Real.cos ((1 : Nat) * t)) + (1 / 2 + Real.cos x ^ 2) := by
    funext t
    push_cast
    rw [Real.cos_two_mul, one_mul]
    ring
  have hj2 : average jackson num x (fun t => Real.cos ((2 : Nat) * t)) = jackson num 2 * Real.cos ((2 : Nat) * x) := by
    rw [average_cos]
    split
    · rfl
    · have : num = 2 := by omega
      subst this
      rw [jackson_two 2 (by norm_num)]
      have : Real.pi / (((2 : Nat) : ℝ) + 1) = Real.pi / 3 := by norm_num
      rw [this, Real.cos_pi_div_three]
      norm_num
  rw [e, average_add (by fun_prop) (by fun_prop), average_add (by fun_prop) (by fun_prop), average_smul, average_smul, hj2, average_cos, if_pos (by omega),
    average_const h1 (jackson_zero num)]
  push_cast
  rw [Real.cos_two_mul, one_mul, jackson_one num h1, jackson_two num h1, ← hq]
  have hN : (2 : ℝ) ≤ num := by exact_mod_cast h2
  have hpi := Real.pi_pos
  have hq0 : 0 < q := by positivity
  have hq3 : q ≤ Real.pi / 3 := by
    rw [hq]
    exact div_le_div_of_nonneg_left hpi.le (by norm_num) (by linarith)
  have hc : 1 / 2 ≤ Real.cos q := by
    rw [← Real.cos_pi_div_three]
    exact Real.cos_le_cos_of_nonneg_of_le_pi hq0.le (by linarith) hq3
  have hc1 := Real.cos_le_one q
  have hsin : Real.sin q ^ 2 ≤ q ^ 2 := by
    have h3 := Real.sin_le hq0.le
    have h4 := Real.sin_nonneg_of_nonneg_of_le_pi hq0.le (by linarith)
    nlinarith
  have hcs := Real.sin_sq_add_cos_sq q
  set c := Real.cos q
  set y := Real.cos x
  have hform : 1 / 2 * ((2 * num * c ^ 2 - num + 1) / (num + 1) * (2 * y ^ 2 - 1)) + -2 * y * (c * y) + (1 / 2 + y ^ 2) =
      num / (num + 1) * (1 - c ^ 2) + y ^ 2 * (2 * (1 - c) * (1 - num * c) / (num + 1)) := by
    field_simp
    ring
  rw [hform]
  have ha : (num : ℝ) / (num + 1) * (1 - c ^ 2) ≤ q ^ 2 := by
    have h5 : (num : ℝ) / (num + 1) ≤ 1 := by rw [div_le_one hM]; linarith
    have h6 : 0 ≤ 1 - c ^ 2 := by nlinarith
    calc (num : ℝ) / (num + 1) * (1 - c ^ 2) ≤ 1 * (1 - c ^ 2) := mul_le_mul_of_nonneg_right h5 h6
      _ ≤ q ^ 2 := by linarith
  have hb : y ^ 2 * (2 * (1 - c) * (1 - num * c) / (num + 1)) ≤ 0 := by
    refine mul_nonpos_of_nonneg_of_nonpos (sq_nonneg _) (div_nonpos_of_nonpos_of_nonneg ?_ hM.le)
    refine mul_nonpos_of_nonneg_of_nonpos (by linarith) ?_
    nlinarith
  linarith

/-- The mean distance of the kernel is at most `pi / (num + 1)`. -/
theorem average_abs {num : Nat} (h2 : 2 ≤ num) (x : ℝ) : average jackson num x (fun t => |Real.cos t - Real.cos x|) ≤ Real.pi / (num + 1) := by
  set q := Real.pi / ((num : ℝ) + 1) with hq
  have hq0 : 0 < q := by have := Real.pi_pos; positivity
  have h1 : 1 ≤ num := by omega
  have h := average_mono (num := num) h1 x (f1 := fun t => |Real.cos t - Real.cos x|) (f2 := fun t => 1 / (2 * q) * (Real.cos t - Real.cos x) ^ 2 + q / 2)
    (by fun_prop) (by fun_prop) (fun t => by
      have h3 : 0 ≤ (|Real.cos t - Real.cos x| - q) ^ 2 := sq_nonneg _
      have h4 := sq_abs (Real.cos t - Real.cos x)
      rw [← h4]
      have : 1 / (2 * q) * |Real.cos t - Real.cos x| ^ 2 + q / 2 - |Real.cos t - Real.cos x| = (|Real.cos t - Real.cos x| - q) ^ 2 / (2 * q) := by
        field_simp
        ring
      have h5 : 0 ≤ (|Real.cos t - Real.cos x| - q) ^ 2 / (2 * q) := by positivity
      linarith)
  refine h.trans ?_
  rw [average_add (by fun_prop) (by fun_prop), average_smul, average_const h1 (jackson_zero num)]
  have h6 := average_sq h2 x
  rw [← hq] at h6
  have : 1 / (2 * q) * average jackson num x (fun t => (Real.cos t - Real.cos x) ^ 2) ≤ 1 / (2 * q) * q ^ 2 := mul_le_mul_of_nonneg_left h6 (by positivity)
  have e : 1 / (2 * q) * q ^ 2 + q / 2 = q := by field_simp; norm_num
  linarith

/-- A function which changes by at most `L` times the distance changes by at most `L pi / (num + 1)` in the average. -/
theorem average_lipschitz {num : Nat} (h2 : 2 ≤ num) (x : ℝ) {f : ℝ → ℝ} (hf : Continuous f) {L : ℝ} (hL : ∀ t, |f t - f x| ≤ L * |Real.cos t - Real.cos x|)
    (hL0 : 0 ≤ L) : |average jackson num x f - f x| ≤ L * (Real.pi / (num + 1)) := by
  have h1 : 1 ≤ num := by omega
  have hup := average_mono (num := num) h1 x (f1 := f) (f2 := fun t => L * |Real.cos t - Real.cos x| + f x) hf (by fun_prop) (fun t => by
    have := (abs_le.1 (hL t)).2
    linarith)
  have hlo := average_mono (num := num) h1 x (f1 := fun t => (-L) * |Real.cos t - Real.cos x| + f x) (f2 := f) (by fun_prop) hf (fun t => by
    have := (abs_le.1 (hL t)).1
    linarith)
  rw [average_add (by fun_prop) (by fun_prop), average_smul, average_const h1 (jackson_zero num)] at hup hlo
  have h3 := mul_le_mul_of_nonneg_left (average_abs h2 x) hL0
  rw [abs_le]
  constructor <;> linarith

end Verif.Kpm
