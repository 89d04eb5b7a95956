import Verif.Kpm.Resolvent
import Verif.Kpm.PropsGreens
import Verif.Kpm.PropsConvergence
import Mathlib.LinearAlgebra.Matrix.NonsingularInverse

/-!
# KPM Green's functions approximate the exact one (C91)

The exact Green's function at the complex energy `z` is the inverse of `z - H`.
-/

namespace Verif.Kpm

open Finset Polynomial
open Verif.Hopping (Csr)

variable {n : Nat}

/-- Specification: the complex energy to which the Lorentz kernel with width `η` belongs (scaled energy `x`): half an ellipse above the energy range. -/
noncomputable def broadened (s : Scale ℝ) (η energy : ℝ) : ℂ :=
  let x := s.apply energy
  ⟨s.b + s.a * (x * Real.cosh η), s.a * (Real.sqrt (1 - x * x) * Real.sinh η)⟩

/-- Specification: the factor by which the result differs from the Green's function at this energy. -/
noncomputable def distortion (s : Scale ℝ) (η energy : ℝ) : ℂ :=
  let x := s.apply energy
  ⟨Real.cosh η, -(x / Real.sqrt (1 - x * x) * Real.sinh η)⟩

/-- Specification: `G` is the Green's function of `H` at the energy `z`. -/
def IsGreens (H : Matrix (Fin n) (Fin n) ℂ) (z : ℂ) (G : Matrix (Fin n) (Fin n) ℂ) : Prop := (z • 1 - H) * G = 1

variable {H U : Matrix (Fin n) (Fin n) ℂ} {E : Fin n → ℝ}

/-- The Green's function as a sum over the eigenstates. -/
theorem Eigen.greens (h : Eigen H U E) {z : ℂ} (hz : ∀ m, z ≠ E m) :
    IsGreens H z (U * Matrix.diagonal (fun m => (z - E m)⁻¹) * star U) := by
  have h1 : z • (1 : Matrix (Fin n) (Fin n) ℂ) - H = U * Matrix.diagonal (fun m => z - E m) * star U := by
    have hd : Matrix.diagonal (fun m => z - (E m : ℂ)) = z • (1 : Matrix (Fin n) (Fin n) ℂ) - Matrix.diagonal fun m => (E m : ℂ) := by
      rw [← Matrix.diagonal_one, ← Matrix.diagonal_smul, Matrix.diagonal_sub]
      congr 1
      funext m
      simp
    rw [hd, mul_sub, sub_mul, Matrix.mul_smul, mul_one, smul_mul_assoc, h.orth', ← h.eq]
  unfold IsGreens
  rw [h1]
  calc U * Matrix.diagonal (fun m => z - ↑(E m)) * star U * (U * Matrix.diagonal (fun m => (z - ↑(E m))⁻¹) * star U)
      = U * (Matrix.diagonal (fun m => z - ↑(E m)) * (star U * U) * Matrix.diagonal (fun m => (z - ↑(E m))⁻¹)) * star U := by
        simp only [mul_assoc]
    _ = 1 := by
        rw [h.orth, mul_one, Matrix.diagonal_mul_diagonal]
        have : (fun m => (z - (E m : ℂ)) * (z - (E m : ℂ))⁻¹) = fun _ => 1 := by
          funext m
          exact mul_inv_cancel₀ (sub_ne_zero.2 (hz m))
        rw [this, Matrix.diagonal_one, mul_one, h.orth']

/-- There is only one. -/
theorem IsGreens.unique {z : ℂ} {G G' : Matrix (Fin n) (Fin n) ℂ} (h : IsGreens H z G) (h' : IsGreens H z G') : G = G' := by
  have h2 : G * (z • 1 - H) = 1 := mul_eq_one_comm.1 h
  calc G = G * ((z • 1 - H) * G') := by rw [h', mul_one]
    _ = G' := by rw [← mul_assoc, h2, one_mul]

theorem spread (V : Matrix (Fin n) (Fin n) ℂ) (d : Fin n → ℂ) (i j : Fin n) :
    (V * Matrix.diagonal d * star V) i j = ∑ m, V i m * star (V j m) * d m := by
  rw [Matrix.mul_apply]
  refine sum_congr rfl fun m _ => ?_
  rw [Matrix.mul_diagonal, Matrix.star_apply]
  ring

/-- The elements of the Chebyshev polynomials as sums over the eigenstates. -/
theorem Eigen.cheb (h : Eigen H U E) (s : Scale ℝ) (k : Nat) (i j : Fin n) :
    chebOf s H k i j = ∑ m, U i m * star (U j m) * (((Chebyshev.T ℝ k).eval (s.apply (E m)) : ℝ) : ℂ) := by
  have hq : (s.a : ℂ)⁻¹ • (H - (s.b : ℂ) • 1) = Polynomial.aeval H (C (s.a : ℂ)⁻¹ * (X - C (s.b : ℂ))) := by
    simp only [map_mul, map_sub, aeval_X, aeval_C]
    rw [Algebra.algebraMap_eq_smul_one, Algebra.algebraMap_eq_smul_one, smul_mul_assoc, one_mul]
  unfold chebOf
  rw [hq, ← aeval_comp, h.aeval, spread]
  refine sum_congr rfl fun m _ => ?_
  congr 1
  rw [eval_comp]
  push_cast
  congr 1
  simp only [eval_mul, eval_sub, eval_C, eval_X, Scale.apply]
  push_cast
  ring

theorem Eigen.row_norm (h : Eigen H U E) (i : Fin n) : ∑ m, ‖U i m‖ ^ 2 = 1 := by
  have h1 := congrFun (congrFun h.orth' i) i
  rw [Matrix.mul_apply, Matrix.one_apply_eq] at h1
  have h2 : ((∑ m, ‖U i m‖ ^ 2 : ℝ) : ℂ) = 1 := by
    rw [← h1]
    push_cast
    refine sum_congr rfl fun m _ => ?_
    rw [Matrix.star_apply, ← Complex.ofReal_pow, ← Complex.normSq_eq_norm_sq, Complex.normSq_eq_conj_mul_self, mul_comm]
    rfl
  exact_mod_cast h2

/-- The amplitudes of two rows. -/
theorem Eigen.amplitudes (h : Eigen H U E) (i j : Fin n) : ∑ m, ‖U i m * star (U j m)‖ ≤ 1 := by
  have h1 : ∀ m ∈ univ, ‖U i m * star (U j m)‖ ≤ (‖U i m‖ ^ 2 + ‖U j m‖ ^ 2) / 2 := by
    intro m _
    rw [norm_mul, norm_star]
    nlinarith [sq_nonneg (‖U i m‖ - ‖U j m‖)]
  refine (sum_le_sum h1).trans (le_of_eq ?_)
  rw [← sum_div, sum_add_distrib, h.row_norm, h.row_norm]
  norm_num

/-- The expansion of the Green's function as a sum over the eigenstates. -/
theorem greensSpec_eigen (h : Eigen H U E) {s : Scale ℝ} (hin : ∀ m, -1 < s.apply (E m) ∧ s.apply (E m) < 1) (g : Nat → Nat → ℝ) (num : Nat) (i j : Fin n)
    (energy : ℝ) :
    greensSpec s H g num i j energy = ∑ m, U i m * star (U j m) *
      (-2 * Complex.I / s.a / Real.sqrt (1 - s.apply energy * s.apply energy) *
        ∑ k ∈ range num, (g num k : ℂ) * (((if k = 0 then 1 / 2 else 1 : ℝ) : ℂ) * (Real.cos (k * Real.arccos (s.apply (E m))) : ℂ)) *
          Complex.exp (-Complex.I * Real.arccos (s.apply energy)) ^ k) := by
  unfold greensSpec
  have hk : ∀ k ∈ range num, (g num k : ℂ) * (weight (1 / 2) k * chebOf s H k i j) * Complex.exp (-Complex.I * k * Real.arccos (s.apply energy)) =
      ∑ m, U i m * star (U j m) * ((g num k : ℂ) * (((if k = 0 then 1 / 2 else 1 : ℝ) : ℂ) * (Real.cos (k * Real.arccos (s.apply (E m))) : ℂ)) *
          Complex.exp (-Complex.I * Real.arccos (s.apply energy)) ^ k) := by
    intro k _
    rw [h.cheb, mul_sum, mul_sum, sum_mul]
    refine sum_congr rfl fun m _ => ?_
    rw [arccos_T (hin m).1 (hin m).2, ← Complex.exp_nat_mul]
    have hw : (weight (1 / 2) k : ℂ) = ((if k = 0 then 1 / 2 else 1 : ℝ) : ℂ) := by
      unfold weight
      split <;> simp
    rw [hw, show (k : ℂ) * (-Complex.I * (Real.arccos (s.apply energy) : ℂ)) = -Complex.I * k * Real.arccos (s.apply energy) by ring]
    ring
  rw [sum_congr rfl hk, sum_comm, mul_sum]
  refine sum_congr rfl fun m _ => ?_
  rw [← mul_sum]
  ring

/-- The angle of a scaled energy. -/
theorem angle_facts {x : ℝ} (hx : -1 < x ∧ x < 1) : Real.cos (Real.arccos x) = x ∧ Real.sin (Real.arccos x) = Real.sqrt (1 - x * x) ∧ 0 < Real.sqrt (1 - x * x) := by
  refine ⟨Real.cos_arccos hx.1.le hx.2.le, ?_, Real.sqrt_pos.2 (by nlinarith [hx.1, hx.2])⟩
  rw [Real.sin_arccos, sq]

/-- The generating function at a complex angle `φ - i η` is a Green's function. -/
theorem generating (φ η θ : ℝ) :
    let ζ : ℂ := φ - Complex.I * η
    let w : ℂ := (Real.exp (-η) : ℝ) * Complex.exp (-Complex.I * φ)
    genDen θ w = 2 * w * (Complex.cos ζ - Real.cos θ) ∧ 1 - w ^ 2 = 2 * Complex.I * w * Complex.sin ζ ∧ w ≠ 0 := by
  intro ζ w
  have hw : w = Complex.exp (-Complex.I * ζ) := by
    simp only [w, ζ]
    rw [Complex.ofReal_exp, ← Complex.exp_add]
    congr 1
    push_cast
    ring_nf
    rw [Complex.I_sq]
    ring
  have hw0 : w ≠ 0 := by rw [hw]; exact Complex.exp_ne_zero _
  have hinv : Complex.exp (Complex.I * ζ) = w⁻¹ := by rw [hw, ← Complex.exp_neg]; congr 1; ring
  have hc : Complex.cos ζ = (w⁻¹ + w) / 2 := by
    rw [Complex.cos, ← hinv, hw]
    congr 2
    · rw [mul_comm]
    · congr 1; ring
  have hs : Complex.sin ζ = (w - w⁻¹) * Complex.I / 2 := by
    rw [Complex.sin, ← hinv, hw]
    congr 3
    · congr 1; ring
    · rw [mul_comm]
  refine ⟨?_, ?_, hw0⟩
  · unfold genDen
    rw [hc]
    field_simp
    ring
  · rw [hs]
    field_simp
    rw [Complex.I_sq]
    ring

theorem complexAngle {s : Scale ℝ} {energy : ℝ} (hx : -1 < s.apply energy ∧ s.apply energy < 1) (η : ℝ) :
    (s.b : ℂ) + s.a * Complex.cos (Real.arccos (s.apply energy) - Complex.I * η) = broadened s η energy ∧
      Complex.sin (Real.arccos (s.apply energy) - Complex.I * η) = Real.sqrt (1 - s.apply energy * s.apply energy) * distortion s η energy := by
  obtain ⟨h1, h2, h3⟩ := angle_facts hx
  rw [mul_comm Complex.I, Complex.cos_sub, Complex.sin_sub, Complex.cos_mul_I, Complex.sin_mul_I]
  simp only [← Complex.ofReal_cos, ← Complex.ofReal_sin, ← Complex.ofReal_cosh, ← Complex.ofReal_sinh, h1, h2]
  constructor
  · apply Complex.ext
    · simp [broadened]
    · simp [broadened, Complex.sinh_ofReal_re]
  · apply Complex.ext
    · simp [distortion]
    · simp [distortion, Complex.sinh_ofReal_re]
      rw [← mul_assoc, mul_div_cancel₀ _ h3.ne']

/-- The complex energy is above the real axis. -/
theorem broadened_im {s : Scale ℝ} (ha : 0 < s.a) {η energy : ℝ} (hη : 0 < η) (hx : -1 < s.apply energy ∧ s.apply energy < 1) : 0 < (broadened s η energy).im := by
  obtain ⟨-, -, h3⟩ := angle_facts hx
  have := Real.sinh_pos_iff.2 hη
  show 0 < s.a * (Real.sqrt (1 - s.apply energy * s.apply energy) * Real.sinh η)
  positivity

/-- **C91** (any number of moments).  With the Lorentz kernel of any `lambda > 0` and any number `N` of moments, the KPM approximation of every element of the Green's function is the element of the
exact Green's function at the complex energy `broadened` above the given one, times the factor `distortion`, up to an error which is `exp(-lambda)` times about `2 N / lambda`. -/
theorem C91_lorentz (h : Eigen H U E) {s : Scale ℝ} (ha : 0 < s.a) (hin : ∀ m, -1 < s.apply (E m) ∧ s.apply (E m) < 1) {lambda : ℝ} (hl : 0 < lambda) {g : Nat → Nat → ℝ}
    (hg : lorentz lambda = .ok g) {num : Nat} (h1 : 1 ≤ num) {energy : ℝ} (hx : -1 < s.apply energy ∧ s.apply energy < 1) :
    ∃ G, IsGreens H (broadened s (lambda / num) energy) G ∧
      ∀ i j, ‖greensSpec s H g num i j energy - distortion s (lambda / num) energy * G i j‖
        ≤ 2 / (s.a * Real.sqrt (1 - s.apply energy * s.apply energy)) * (Real.exp (-lambda) / Real.tanh (lambda / num / 2)) := by
  have hN : (0 : ℝ) < num := by exact_mod_cast h1
  set η := lambda / num with hη
  have hη0 : 0 < η := by positivity
  rw [lorentz_eq hl, Res.ok.injEq] at hg
  subst hg
  have hz : ∀ m, broadened s η energy ≠ E m := by
    intro m h0
    have := broadened_im ha hη0 hx
    rw [h0, Complex.ofReal_im] at this
    exact lt_irrefl _ this
  refine ⟨_, h.greens hz, fun i j => ?_⟩
  obtain ⟨f1, f2, f3⟩ := angle_facts hx
  obtain ⟨c1, c2⟩ := complexAngle hx η
  set x := s.apply energy with hxdef
  set φ := Real.arccos x with hφ
  set ζ : ℂ := φ - Complex.I * η with hζ
  set u : ℂ := Complex.exp (-Complex.I * φ) with hu
  have hun : ‖u‖ = 1 := by
    rw [hu, show -Complex.I * (φ : ℂ) = ((-φ : ℝ) : ℂ) * Complex.I by push_cast; ring]
    exact Complex.norm_exp_ofReal_mul_I _
  have ha' : (s.a : ℂ) ≠ 0 := by exact_mod_cast ha.ne'
  have hr' : ((Real.sqrt (1 - x * x) : ℝ) : ℂ) ≠ 0 := by exact_mod_cast f3.ne'
  have hcosE : ∀ m, (s.a : ℂ) * (Complex.cos ζ - (Real.cos (Real.arccos (s.apply (E m))) : ℂ)) = broadened s η energy - E m := by
    intro m
    rw [(angle_facts (hin m)).1, ← c1]
    unfold Scale.apply
    push_cast
    field_simp
    ring
  rw [greensSpec_eigen h hin, spread, mul_sum, ← sum_sub_distrib]
  refine (norm_sum_le _ _).trans ?_
  have hterm : ∀ m ∈ univ, ‖U i m * star (U j m) *
        (-2 * Complex.I / s.a / Real.sqrt (1 - x * x) *
          ∑ k ∈ range num, (lorentzCoeff lambda num k : ℂ) * (((if k = 0 then 1 / 2 else 1 : ℝ) : ℂ) * (Real.cos (k * Real.arccos (s.apply (E m))) : ℂ)) * u ^ k)
        - distortion s η energy * (U i m * star (U j m) * (broadened s η energy - E m)⁻¹)‖
      ≤ ‖U i m * star (U j m)‖ * (2 / (s.a * Real.sqrt (1 - x * x)) * (Real.exp (-lambda) / Real.tanh (η / 2))) := by
    intro m _
    set θ := Real.arccos (s.apply (E m)) with hθ
    obtain ⟨g1, g2, g3⟩ := generating φ η θ
    rw [← hu, ← hζ] at g1
    rw [← hu, ← hζ] at g2
    rw [← hu] at g3
    have hne : Complex.cos ζ - (Real.cos θ : ℂ) ≠ 0 := by
      intro h0
      have := hcosE m
      rw [h0, mul_zero] at this
      exact hz m (sub_eq_zero.1 this.symm)
    have hd : genDen θ ((Real.exp (-η) : ℝ) * u) ≠ 0 := by
      rw [g1]
      exact mul_ne_zero (mul_ne_zero two_ne_zero g3) hne
    have hmain := lorentz_sum hl h1 θ hun (by rw [← hη]; exact hd)
    rw [← hη] at hmain
    have hval : -2 * Complex.I / s.a / Real.sqrt (1 - x * x) * ((1 - ((Real.exp (-η) : ℝ) * u) ^ 2) / 2 / genDen θ ((Real.exp (-η) : ℝ) * u))
        = distortion s η energy * (broadened s η energy - E m)⁻¹ := by
      rw [g1, g2, c2, ← hcosE m]
      generalize ((Real.exp (-η) : ℝ) : ℂ) * u = w at g3
      generalize Complex.cos ζ - (Real.cos θ : ℂ) = q at hne
      generalize ((Real.sqrt (1 - x * x) : ℝ) : ℂ) = r at hr'
      generalize distortion s η energy = d
      field_simp
      rw [Complex.I_sq]
      ring
    have e : U i m * star (U j m) *
        (-2 * Complex.I / s.a / Real.sqrt (1 - x * x) *
          ∑ k ∈ range num, (lorentzCoeff lambda num k : ℂ) * (((if k = 0 then 1 / 2 else 1 : ℝ) : ℂ) * (Real.cos (k * θ) : ℂ)) * u ^ k)
        - distortion s η energy * (U i m * star (U j m) * (broadened s η energy - E m)⁻¹) =
        U i m * star (U j m) * (-2 * Complex.I / s.a / Real.sqrt (1 - x * x) *
          (∑ k ∈ range num, (lorentzCoeff lambda num k : ℂ) * (((if k = 0 then 1 / 2 else 1 : ℝ) : ℂ) * (Real.cos (k * θ) : ℂ)) * u ^ k
            - (1 - ((Real.exp (-η) : ℝ) * u) ^ 2) / 2 / genDen θ ((Real.exp (-η) : ℝ) * u))) := by
      rw [mul_sub (-2 * Complex.I / s.a / Real.sqrt (1 - x * x) : ℂ), hval]
      ring
    rw [e, norm_mul (U i m * star (U j m)), norm_mul (-2 * Complex.I / s.a / Real.sqrt (1 - x * x) : ℂ)]
    refine mul_le_mul_of_nonneg_left ?_ (norm_nonneg _)
    have hp : ‖-2 * Complex.I / (s.a : ℂ) / (Real.sqrt (1 - x * x) : ℂ)‖ = 2 / (s.a * Real.sqrt (1 - x * x)) := by
      rw [norm_div, norm_div, norm_mul, Complex.norm_I, Complex.norm_real, Complex.norm_real, Real.norm_eq_abs, Real.norm_eq_abs, abs_of_pos ha, abs_of_pos f3]
      norm_num
      rw [div_div]
    rw [hp]
    exact mul_le_mul_of_nonneg_left hmain (by positivity)
  refine (sum_le_sum hterm).trans ?_
  rw [← sum_mul]
  have ht : 0 < Real.tanh (η / 2) := by
    rw [Real.tanh_eq_sinh_div_cosh]
    exact div_pos (Real.sinh_pos_iff.2 (by positivity)) (Real.cosh_pos _)
  exact mul_le_of_le_one_left (by positivity) (h.amplitudes i j)

/-- **C91** (size of the broadening).  The complex energy lies above the given one, no farther away than `a (exp(eta) - 1)`, and the factor is close to 1. -/
theorem C91_closeness {s : Scale ℝ} (ha : 0 < s.a) {η energy : ℝ} (hη : 0 < η) (hx : -1 < s.apply energy ∧ s.apply energy < 1) :
    0 < (broadened s η energy).im ∧ ‖broadened s η energy - energy‖ ≤ s.a * (Real.exp η - 1) ∧
      ‖distortion s η energy - 1‖ ≤ (Real.exp η - 1) / Real.sqrt (1 - s.apply energy * s.apply energy) := by
  obtain ⟨-, -, h3⟩ := angle_facts hx
  have hback : energy = s.b + s.a * s.apply energy := by
    unfold Scale.apply
    have := ha.ne'
    field_simp
    ring
  have hch : 1 ≤ Real.cosh η := Real.one_le_cosh η
  have hsh : 0 < Real.sinh η := Real.sinh_pos_iff.2 hη
  have hexp : Real.exp η = Real.cosh η + Real.sinh η := (Real.cosh_add_sinh η).symm
  have hr1 : Real.sqrt (1 - s.apply energy * s.apply energy) ≤ 1 := by
    rw [Real.sqrt_le_one]
    nlinarith [mul_self_nonneg (s.apply energy)]
  have hxa : |s.apply energy| ≤ 1 := abs_le.2 ⟨hx.1.le, hx.2.le⟩
  refine ⟨broadened_im ha hη hx, ?_, ?_⟩
  · have hre : (broadened s η energy - energy).re = s.a * (s.apply energy * (Real.cosh η - 1)) := by
      show s.b + s.a * (s.apply energy * Real.cosh η) - energy = _
      linear_combination -hback
    have him : (broadened s η energy - energy).im = s.a * (Real.sqrt (1 - s.apply energy * s.apply energy) * Real.sinh η) := by
      rw [Complex.sub_im, Complex.ofReal_im, sub_zero]
      rfl
    refine (Complex.norm_le_abs_re_add_abs_im _).trans ?_
    rw [hre, him, abs_mul, abs_mul, abs_mul, abs_mul, abs_of_pos ha, abs_of_pos h3, abs_of_pos hsh, abs_of_nonneg (by linarith : 0 ≤ Real.cosh η - 1), hexp, ← mul_add]
    refine mul_le_mul_of_nonneg_left ?_ ha.le
    have h1 : |s.apply energy| * (Real.cosh η - 1) ≤ 1 * (Real.cosh η - 1) := mul_le_mul_of_nonneg_right hxa (by linarith)
    have h2 : Real.sqrt (1 - s.apply energy * s.apply energy) * Real.sinh η ≤ 1 * Real.sinh η := mul_le_mul_of_nonneg_right hr1 hsh.le
    linarith
  · have hre : (distortion s η energy - 1).re = Real.cosh η - 1 := rfl
    have him : (distortion s η energy - 1).im = -(s.apply energy / Real.sqrt (1 - s.apply energy * s.apply energy) * Real.sinh η) := by
      rw [Complex.sub_im, Complex.one_im, sub_zero]
      rfl
    refine (Complex.norm_le_abs_re_add_abs_im _).trans ?_
    rw [hre, him, abs_neg, abs_mul, abs_div, abs_of_pos h3, abs_of_pos hsh, abs_of_nonneg (by linarith : 0 ≤ Real.cosh η - 1), hexp, le_div_iff₀ h3]
    have e : |s.apply energy| / Real.sqrt (1 - s.apply energy * s.apply energy) * Real.sinh η * Real.sqrt (1 - s.apply energy * s.apply energy)
        = |s.apply energy| * Real.sinh η := by
      generalize Real.sqrt (1 - s.apply energy * s.apply energy) = r at h3
      have := h3.ne'
      field_simp
    rw [add_mul, e]
    have h1 : |s.apply energy| * Real.sinh η ≤ 1 * Real.sinh η := mul_le_mul_of_nonneg_right hxa hsh.le
    have h2 : (Real.cosh η - 1) * Real.sqrt (1 - s.apply energy * s.apply energy) ≤ (Real.cosh η - 1) * 1 := mul_le_mul_of_nonneg_left hr1 (by linarith)
    linarith

/-- **C91** (convergence).  At every energy in the range which is not an eigenvalue, every element converges to the element of the exact Green's function (without any broadening) when the
number of moments grows, for every `lambda`. -/
theorem C91_converges (h : Eigen H U E) {s : Scale ℝ} (ha : 0 < s.a) (hin : ∀ m, -1 < s.apply (E m) ∧ s.apply (E m) < 1) {lambda : ℝ} (hl : 0 < lambda) {g : Nat → Nat → ℝ}
    (hg : lorentz lambda = .ok g) {energy : ℝ} (hx : -1 < s.apply energy ∧ s.apply energy < 1) (hne : ∀ m, E m ≠ energy) :
    ∃ G, IsGreens H energy G ∧ ∀ i j, Filter.Tendsto (fun num => greensSpec s H g num i j energy) Filter.atTop (nhds (G i j)) := by
  rw [lorentz_eq hl, Res.ok.injEq] at hg
  subst hg
  have hz : ∀ m, (energy : ℂ) ≠ E m := fun m h0 => hne m (by exact_mod_cast h0.symm)
  refine ⟨_, h.greens hz, fun i j => ?_⟩
  obtain ⟨f1, f2, f3⟩ := angle_facts hx
  have hfun : (fun num => greensSpec s H (lorentzCoeff lambda) num i j energy) = _ := funext fun num => greensSpec_eigen h hin (lorentzCoeff lambda) num i j energy
  rw [hfun, spread]
  refine tendsto_finsetSum _ fun m _ => ?_
  refine Filter.Tendsto.const_mul _ ?_
  set x := s.apply energy with hxdef
  set φ := Real.arccos x with hφ
  set θ := Real.arccos (s.apply (E m)) with hθ
  set u : ℂ := Complex.exp (-Complex.I * φ) with hu
  have hun : ‖u‖ = 1 := by
    rw [hu, show -Complex.I * (φ : ℂ) = ((-φ : ℝ) : ℂ) * Complex.I by push_cast; ring]
    exact Complex.norm_exp_ofReal_mul_I _
  obtain ⟨g1, g2, g3⟩ := generating φ 0 θ
  rw [← hu] at g1 g2 g3
  simp only [neg_zero, Real.exp_zero, Complex.ofReal_one, one_mul, Complex.ofReal_zero, mul_zero, sub_zero] at g1 g2 g3
  have ha' : (s.a : ℂ) ≠ 0 := by exact_mod_cast ha.ne'
  have hr' : ((Real.sqrt (1 - x * x) : ℝ) : ℂ) ≠ 0 := by exact_mod_cast f3.ne'
  have hcosE : (s.a : ℂ) * (Complex.cos φ - (Real.cos θ : ℂ)) = energy - E m := by
    rw [← Complex.ofReal_cos, f1, (angle_facts (hin m)).1, hxdef]
    unfold Scale.apply
    push_cast
    field_simp
    ring
  have hq : Complex.cos φ - (Real.cos θ : ℂ) ≠ 0 := by
    intro h0
    rw [h0, mul_zero] at hcosE
    exact hz m (sub_eq_zero.1 hcosE.symm)
  have hd : genDen θ u ≠ 0 := by
    rw [g1]
    exact mul_ne_zero (mul_ne_zero two_ne_zero g3) hq
  have hlim := (lorentz_limit hl θ hun hd).const_mul (-2 * Complex.I / s.a / Real.sqrt (1 - x * x))
  have hval : -2 * Complex.I / s.a / Real.sqrt (1 - x * x) * ((1 - u ^ 2) / 2 / genDen θ u) = ((energy : ℂ) - E m)⁻¹ := by
    rw [g1, g2, ← hcosE, ← Complex.ofReal_sin, f2]
    generalize Complex.cos φ - (Real.cos θ : ℂ) = q at hq
    generalize ((Real.sqrt (1 - x * x) : ℝ) : ℂ) = r at hr'
    field_simp
    rw [Complex.I_sq]
    ring
  rw [hval] at hlim
  exact hlim

/-- **C91** (`calc_greens`).  For a broadening the program takes a number `N` of moments with `lambda / N < broadening / a`.  What it returns for `row` and `cols`, for every storage format and
choice of algorithms, are the elements `(col, row)` (see C59) of the exact Green's function at a complex energy above the given one, no farther away than `a (exp(broadening / a) - 1)`, times a
factor close to 1, up to the error of C91_lorentz. -/
theorem C91_greens [DecidableEq ℂ] {s : Scale ℝ} {h : Csr ℂ} {cfg : AlgorithmConfig} {row : Fin n} (R : ComplexSetup s h cfg row) (hE : Eigen (matrixOf n h) U E)
    (hin : ∀ m, -1 < s.apply (E m) ∧ s.apply (E m) < 1) {f : Format ℂ n ℂ} (hf : f.Aligned) {lambda : ℝ} (hl : 0 < lambda) {g : Nat → Nat → ℝ} (hg : lorentz lambda = .ok g)
    {broadening : ℝ} (hb : 0 < broadening) (fuel : Nat) (hfuel : 4 ≤ fuel) :
    ∃ N : Nat, requiredNumMoments fuel lambda (broadening / s.a) = .ok (some N) ∧ lambda / N < broadening / s.a ∧
      ∀ (cols : List (Fin n)), cols ≠ [] → ∀ (junk : Nat → ℂ) (energy : ℝ), -1 < s.apply energy ∧ s.apply energy < 1 →
        ∃ (z d : ℂ) (G : Matrix (Fin n) (Fin n) ℂ) (v : Fin n → ℂ), IsGreens (matrixOf n h) z G ∧ 0 < z.im ∧
          ‖z - energy‖ ≤ s.a * (Real.exp (broadening / s.a) - 1) ∧
          ‖d - 1‖ ≤ (Real.exp (broadening / s.a) - 1) / Real.sqrt (1 - s.apply energy * s.apply energy) ∧
          coreGreens f cfg g s h N row (cols.map (·.val)) junk energy = .ok (cols.map v) ∧
          ∀ c, ‖v c - d * G c row‖ ≤ 2 / (s.a * Real.sqrt (1 - s.apply energy * s.apply energy)) * (Real.exp (-lambda) / Real.tanh (lambda / N / 2)) := by
  have ha := R.1
  obtain ⟨N, h1, h2, h3, -⟩ := C52_resolution fuel hfuel hl (broadening := broadening / s.a) (by positivity)
  obtain ⟨m, rfl⟩ : ∃ m : Nat, N = m := ⟨N.toNat, by have := h2.1; omega⟩
  have hm : 2 ≤ m := by have := h2.1; omega
  push_cast at h3
  refine ⟨m, h1, h3, fun cols hcols junk energy hx => ?_⟩
  have hm0 : (0 : ℝ) < m := by exact_mod_cast (by omega : 0 < m)
  have hη : 0 < lambda / m := by positivity
  obtain ⟨G, g1, g2⟩ := C91_lorentz hE ha hin hl hg (num := m) (by omega) hx
  obtain ⟨c1, c2, c3⟩ := C91_closeness ha hη hx
  have hexp : Real.exp (lambda / m) - 1 ≤ Real.exp (broadening / s.a) - 1 := by
    have := Real.exp_le_exp.2 h3.le
    linarith
  obtain ⟨-, -, f3⟩ := angle_facts hx
  refine ⟨broadened s (lambda / m) energy, distortion s (lambda / m) energy, G, fun c => greensSpec s (matrixOf n h) g m c row energy, g1, c1,
    c2.trans (mul_le_mul_of_nonneg_left hexp ha.le), c3.trans (div_le_div_of_nonneg_right hexp f3.le), ?_, fun c => g2 c row⟩
  exact coreGreens_eq R hf g hm (by have := h2.2.2; omega) cols hcols junk energy hx

/-- **C91** (local density of states).  With the Lorentz kernel the local density of states is `-1/pi` times the imaginary part of the exact diagonal element at the complex energy, times the same
factor and up to the same error divided by `pi`. -/
theorem C91_ldos {s : Scale ℝ} (ha : 0 < s.a) {h : Csr ℂ} (hE : Eigen (matrixOf n h) U E) (hin : ∀ m, -1 < s.apply (E m) ∧ s.apply (E m) < 1) {lambda : ℝ} (hl : 0 < lambda)
    {g : Nat → Nat → ℝ} (hg : lorentz lambda = .ok g) {num : Nat} (h1 : 1 ≤ num) (i : Fin n) {energy : ℝ} (hx : -1 < s.apply energy ∧ s.apply energy < 1) :
    ∃ G v, IsGreens (matrixOf n h) (broadened s (lambda / num) energy) G ∧
      ldosValue g s (.ok ((List.range num).map fun k => weight (1 / 2) k * chebMat n (1 / 2 : ℂ) h (2 / s.a) s.b k i i)) energy = .ok v ∧
      |v - -(1 / Real.pi) * (distortion s (lambda / num) energy * G i i).im|
        ≤ 1 / Real.pi * (2 / (s.a * Real.sqrt (1 - s.apply energy * s.apply energy)) * (Real.exp (-lambda) / Real.tanh (lambda / num / 2))) := by
  obtain ⟨G, g1, g2⟩ := C91_lorentz hE ha hin hl hg h1 hx
  refine ⟨G, _, g1, C51_ldos_value hE.hermitian g num i energy hx, ?_⟩
  have him : 2 / Real.pi / s.a / Real.sqrt (1 - s.apply energy * s.apply energy) *
        ∑ k ∈ range num, g num k * ((if k = 0 then 1 / 2 else 1) * (chebOf s (matrixOf n h) k i i).re) * Real.cos (k * Real.arccos (s.apply energy))
      = -(1 / Real.pi) * (greensSpec s (matrixOf n h) g num i i energy).im := by
    unfold greensSpec
    have hk : -2 * Complex.I / (s.a : ℂ) / (Real.sqrt (1 - s.apply energy * s.apply energy) : ℂ)
        = ((-2 / s.a / Real.sqrt (1 - s.apply energy * s.apply energy) : ℝ) : ℂ) * Complex.I := by
      push_cast; ring
    rw [hk, mul_assoc, Complex.im_ofReal_mul, Complex.I_mul_im, Complex.re_sum]
    have hterm : ∀ k ∈ range num, ((g num k : ℂ) * (weight (1 / 2) k * chebOf s (matrixOf n h) k i i) * Complex.exp (-Complex.I * k * Real.arccos (s.apply energy))).re =
        g num k * ((if k = 0 then 1 / 2 else 1) * (chebOf s (matrixOf n h) k i i).re) * Real.cos (k * Real.arccos (s.apply energy)) := by
      intro k _
      have hr : chebOf s (matrixOf n h) k i i = ((chebOf s (matrixOf n h) k i i).re : ℂ) :=
        (Complex.conj_eq_iff_re.1 (chebOf_star hE.hermitian k i i)).symm
      have hw : (weight (1 / 2) k : ℂ) = ((if k = 0 then 1 / 2 else 1 : ℝ) : ℂ) := by
        unfold weight
        split <;> simp
      have he : -Complex.I * k * (Real.arccos (s.apply energy) : ℂ) = ((-(k * Real.arccos (s.apply energy)) : ℝ) : ℂ) * Complex.I := by push_cast; ring
      rw [hr, hw, he, ← Complex.ofReal_mul, ← Complex.ofReal_mul, Complex.re_ofReal_mul, Complex.exp_ofReal_mul_I_re, Real.cos_neg, Complex.ofReal_re]
    rw [sum_congr rfl hterm]
    ring
  rw [him, ← mul_sub, abs_mul, abs_neg, abs_of_pos (by positivity : (0 : ℝ) < 1 / Real.pi), ← Complex.sub_im]
  exact mul_le_mul_of_nonneg_left ((Complex.abs_im_le_norm _).trans (g2 i i)) (by positivity)

/-! ## Examples -/

/-- Two sites with an imaginary hopping, for a broadening of 1/10. -/
noncomputable example [DecidableEq ℂ] := C91_greens imagPair_ready (exists_eigen imagPair_ready.2.2.1) imagPair_inside (f := .csr fun _ => 0) trivial (lambda := 4) (by norm_num)
  (lorentz_eq (by norm_num)) (broadening := 1 / 10) (by norm_num) 4 (by norm_num)

/-- Convergence in the middle of the gap. -/
example : ∃ G, IsGreens pair2 (0 : ℝ) G ∧ ∀ i j, Filter.Tendsto (fun num => greensSpec ⟨2, 0⟩ pair2 (lorentzCoeff 4) num i j 0) Filter.atTop (nhds (G i j)) :=
  C91_converges (s := ⟨2, 0⟩) pair2_eigen (by norm_num) (fun j => by fin_cases j <;> (simp [Scale.apply]; try norm_num)) (lambda := 4) (by norm_num) (lorentz_eq (by norm_num))
    (by simp [Scale.apply]) (fun m => by fin_cases m <;> simp)

example (i : Fin 2) := C91_ldos (s := ⟨2, 0⟩) (by norm_num) (exists_eigen imagPair_ready.2.2.1) imagPair_inside (lambda := 4) (by norm_num) (lorentz_eq (by norm_num)) (num := 100)
  (by norm_num) i (energy := 1 / 2) (by unfold Scale.apply; norm_num)

end Verif.Kpm
