import Verif.Kpm.Convergence
import Mathlib.Analysis.SpecificLimits.Basic
import Mathlib.Analysis.SpecialFunctions.Trigonometric.DerivHyp

/-!
# Sums of Chebyshev polynomials with geometric weights

Lemmas about the Lorentz kernel of `Kpm/Config`.
-/

namespace Verif.Kpm

open Finset

/-- Specification: the first terms of the generating function of the cosines (the sums of reconstruct.hpp:57-84). -/
noncomputable def genSum (θ : ℝ) (w : ℂ) (num : Nat) : ℂ :=
  ∑ k ∈ range num, ((if k = 0 then 1 / 2 else 1 : ℝ) : ℂ) * (Real.cos (k * θ) : ℂ) * w ^ k

/-- Specification: the denominator of the generating function. -/
noncomputable def genDen (θ : ℝ) (w : ℂ) : ℂ := 1 - 2 * (Real.cos θ : ℂ) * w + w ^ 2

theorem cos_succ (θ : ℝ) (k : Nat) : Real.cos ((k + 2 : Nat) * θ) = 2 * Real.cos θ * Real.cos ((k + 1 : Nat) * θ) - Real.cos (k * θ) := by
  have e1 : ((k + 2 : Nat) : ℝ) * θ = (k + 1 : Nat) * θ + θ := by push_cast; ring
  have e2 : (k : ℝ) * θ = (k + 1 : Nat) * θ - θ := by push_cast; ring
  rw [e1, e2, Real.cos_add, Real.cos_sub]
  ring

/-- The generating function, cut off. -/
theorem genSum_closed (θ : ℝ) (w : ℂ) (num : Nat) :
    genDen θ w * genSum θ w (num + 1) =
      (1 - w ^ 2) / 2 - w ^ (num + 1) * ((Real.cos ((num + 1 : Nat) * θ) : ℂ) - w * (Real.cos (num * θ) : ℂ)) := by
  induction num with
  | zero =>
    unfold genSum genDen
    simp
    ring
  | succ num ih =>
    unfold genSum at ih ⊢
    rw [sum_range_succ, mul_add, ih, cos_succ]
    unfold genDen
    push_cast
    simp
    ring

theorem norm_term_le (θ : ℝ) (k : Nat) : ‖((if k = 0 then 1 / 2 else 1 : ℝ) : ℂ) * (Real.cos (k * θ) : ℂ)‖ ≤ 1 := by
  rw [norm_mul, Complex.norm_real, Complex.norm_real, Real.norm_eq_abs, Real.norm_eq_abs]
  have h1 := Real.abs_cos_le_one (k * θ)
  have h2 : |(if k = 0 then 1 / 2 else 1 : ℝ)| ≤ 1 := by split <;> norm_num
  have h3 := abs_nonneg (Real.cos (k * θ))
  calc |(if k = 0 then 1 / 2 else 1 : ℝ)| * |Real.cos (k * θ)| ≤ 1 * 1 := mul_le_mul h2 h1 h3 (by norm_num)
    _ = 1 := by norm_num

/-- The generating function. -/
theorem genSum_tendsto (θ : ℝ) {w : ℂ} (hw : ‖w‖ < 1) (hd : genDen θ w ≠ 0) :
    Filter.Tendsto (genSum θ w) Filter.atTop (nhds ((1 - w ^ 2) / 2 / genDen θ w)) := by
  have hpow : Filter.Tendsto (fun num : Nat => w ^ (num + 1)) Filter.atTop (nhds 0) :=
    (tendsto_pow_atTop_nhds_zero_of_norm_lt_one hw).comp (Filter.tendsto_add_atTop_nat 1)
  have hbound : ∀ num : Nat, ‖(Real.cos ((num + 1 : Nat) * θ) : ℂ) - w * (Real.cos (num * θ) : ℂ)‖ ≤ 2 := by
    intro num
    refine (norm_sub_le _ _).trans ?_
    rw [norm_mul, Complex.norm_real, Complex.norm_real, Real.norm_eq_abs, Real.norm_eq_abs]
    have h1 := Real.abs_cos_le_one ((num + 1 : Nat) * θ)
    have h2 := Real.abs_cos_le_one (num * θ)
    have h3 := abs_nonneg (Real.cos (num * θ))
    have h4 := norm_nonneg w
    nlinarith
  have hsmall : Filter.Tendsto (fun num : Nat => w ^ (num + 1) * ((Real.cos ((num + 1 : Nat) * θ) : ℂ) - w * (Real.cos (num * θ) : ℂ)))
      Filter.atTop (nhds 0) := by
    rw [tendsto_zero_iff_norm_tendsto_zero] at hpow ⊢
    have h2 := hpow.mul_const 2
    rw [zero_mul] at h2
    refine squeeze_zero (fun _ => norm_nonneg _) (fun num => ?_) h2
    rw [norm_mul]
    exact mul_le_mul_of_nonneg_left (hbound num) (norm_nonneg _)
  rw [← Filter.tendsto_add_atTop_iff_nat 1]
  have e : (fun num => genSum θ w (num + 1)) = fun num : Nat => ((1 - w ^ 2) / 2 -
      w ^ (num + 1) * ((Real.cos ((num + 1 : Nat) * θ) : ℂ) - w * (Real.cos (num * θ) : ℂ))) / genDen θ w := by
    funext num
    rw [← genSum_closed, mul_div_cancel_left₀ _ hd]
  rw [e]
  have := (tendsto_const_nhds (x := (1 - w ^ 2) / 2)).sub hsmall |>.div_const (genDen θ w)
  rwa [sub_zero] at this

/-- What is cut off. -/
theorem genSum_tail (θ : ℝ) {w : ℂ} (hw : ‖w‖ < 1) (hd : genDen θ w ≠ 0) (num : Nat) :
    ‖genSum θ w num - (1 - w ^ 2) / 2 / genDen θ w‖ ≤ ‖w‖ ^ num / (1 - ‖w‖) := by
  have h := dist_le_of_le_geometric_of_tendsto ‖w‖ 1 hw (f := genSum θ w) (fun num => ?_) (genSum_tendsto θ hw hd) num
  · rw [dist_eq_norm, one_mul] at h
    exact h
  · rw [dist_comm, dist_eq_norm]
    unfold genSum
    rw [sum_range_succ, add_sub_cancel_left, norm_mul, norm_pow]
    exact mul_le_mul_of_nonneg_right (norm_term_le θ num) (by positivity)

/-! ## The Lorentz kernel -/

/-- Specification: the coefficients of the Lorentz kernel (`lorentz_eq`: those of Kernel.cpp:24-41). -/
noncomputable def lorentzCoeff (lambda : ℝ) (num k : Nat) : ℝ := Real.sinh (lambda * (1 - k / num)) / Real.sinh lambda

theorem lorentz_eq {lambda : ℝ} (hl : 0 < lambda) : lorentz lambda = .ok (lorentzCoeff lambda) := by
  unfold lorentz
  rw [if_neg (not_le.2 hl)]
  rfl

/-- The Lorentz kernel is an exponential, up to terms of the size `exp(-lambda)`. -/
theorem lorentzCoeff_exp {lambda : ℝ} (hl : 0 < lambda) (num k : Nat) :
    lorentzCoeff lambda num k = Real.exp (-(lambda / num)) ^ k - Real.exp (-lambda) * Real.sinh (k * (lambda / num)) / Real.sinh lambda := by
  have hs : Real.sinh lambda ≠ 0 := (Real.sinh_pos_iff.2 hl).ne'
  unfold lorentzCoeff
  rw [← Real.exp_nat_mul, div_eq_iff hs, sub_mul, div_mul_cancel₀ _ hs]
  have e1 : lambda * (1 - k / num) = lambda - k * (lambda / num) := by ring
  rw [e1]
  generalize hx : (k : ℝ) * (lambda / num) = x
  rw [show (k : ℝ) * -(lambda / num) = -x by rw [← hx]; ring]
  rw [Real.sinh_eq, Real.sinh_eq, Real.sinh_eq]
  have h1 : Real.exp (lambda - x) = Real.exp lambda * Real.exp (-x) := by rw [← Real.exp_add]; ring_nf
  have h2 : Real.exp (-(lambda - x)) = Real.exp (-lambda) * Real.exp x := by rw [← Real.exp_add]; ring_nf
  rw [h1, h2]
  ring

theorem sum_sinh_le {η : ℝ} (hη : 0 < η) (num : Nat) : ∑ k ∈ range num, Real.sinh (k * η) ≤ Real.sinh (num * η) / (Real.exp η - 1) := by
  have he : 0 < Real.exp η - 1 := by have := Real.add_one_lt_exp hη.ne'; linarith
  rw [le_div_iff₀ he]
  induction num with
  | zero => simp
  | succ num ih =>
    rw [sum_range_succ, add_mul]
    have e : Real.sinh (((num + 1 : Nat) : ℝ) * η) - Real.sinh (num * η) * Real.exp η = Real.exp (-(num * η)) * Real.sinh η := by
      rw [show ((num + 1 : Nat) : ℝ) * η = num * η + η by push_cast; ring, Real.sinh_add, Real.sinh_eq, Real.cosh_eq, Real.sinh_eq, Real.cosh_eq]
      ring
    have h2 : 0 < Real.exp (-(num * η)) * Real.sinh η := mul_pos (Real.exp_pos _) (Real.sinh_pos_iff.2 hη)
    nlinarith

/-- The sum over the moments of one eigenstate with the Lorentz kernel: the generating function, up to `exp(-lambda)`. -/
theorem lorentz_sum {lambda : ℝ} (hl : 0 < lambda) {num : Nat} (h1 : 1 ≤ num) (θ : ℝ) {u : ℂ} (hu : ‖u‖ = 1)
    (hd : genDen θ ((Real.exp (-(lambda / num)) : ℝ) * u) ≠ 0) :
    ‖∑ k ∈ range num, (lorentzCoeff lambda num k : ℂ) * (((if k = 0 then 1 / 2 else 1 : ℝ) : ℂ) * (Real.cos (k * θ) : ℂ)) * u ^ k
      - (1 - ((Real.exp (-(lambda / num)) : ℝ) * u) ^ 2) / 2 / genDen θ ((Real.exp (-(lambda / num)) : ℝ) * u)‖
      ≤ Real.exp (-lambda) / Real.tanh (lambda / num / 2) := by
  have hN : (0 : ℝ) < num := by exact_mod_cast h1
  set η := lambda / num with hη
  have hη0 : 0 < η := by positivity
  have hNη : num * η = lambda := by rw [hη]; field_simp
  have hs : 0 < Real.sinh lambda := Real.sinh_pos_iff.2 hl
  set w : ℂ := (Real.exp (-η) : ℝ) * u with hw
  have hwn : ‖w‖ = Real.exp (-η) := by rw [hw, norm_mul, hu, mul_one, Complex.norm_real, Real.norm_eq_abs, abs_of_pos (Real.exp_pos _)]
  have hlt : ‖w‖ < 1 := by rw [hwn]; exact Real.exp_lt_one_iff.2 (by linarith)
  have hsplit : ∑ k ∈ range num, (lorentzCoeff lambda num k : ℂ) * (((if k = 0 then 1 / 2 else 1 : ℝ) : ℂ) * (Real.cos (k * θ) : ℂ)) * u ^ k
      = genSum θ w num - ∑ k ∈ range num, ((Real.exp (-lambda) * Real.sinh (k * η) / Real.sinh lambda : ℝ) : ℂ)
        * ((((if k = 0 then 1 / 2 else 1 : ℝ) : ℂ) * (Real.cos (k * θ) : ℂ)) * u ^ k) := by
    unfold genSum
    rw [← sum_sub_distrib]
    refine sum_congr rfl fun k _ => ?_
    rw [lorentzCoeff_exp hl, ← hη, hw, mul_pow]
    push_cast
    ring
  rw [hsplit]
  have hA : ‖∑ k ∈ range num, ((Real.exp (-lambda) * Real.sinh (k * η) / Real.sinh lambda : ℝ) : ℂ)
        * ((((if k = 0 then 1 / 2 else 1 : ℝ) : ℂ) * (Real.cos (k * θ) : ℂ)) * u ^ k)‖ ≤ Real.exp (-lambda) / (Real.exp η - 1) := by
    refine (norm_sum_le _ _).trans ?_
    have h : ∀ k ∈ range num, ‖((Real.exp (-lambda) * Real.sinh (k * η) / Real.sinh lambda : ℝ) : ℂ)
        * ((((if k = 0 then 1 / 2 else 1 : ℝ) : ℂ) * (Real.cos (k * θ) : ℂ)) * u ^ k)‖ ≤ Real.exp (-lambda) / Real.sinh lambda * Real.sinh (k * η) := by
      intro k _
      have hsk : 0 ≤ Real.sinh (k * η) := Real.sinh_nonneg_iff.2 (by positivity)
      rw [norm_mul, norm_mul _ (u ^ k), norm_pow, hu, one_pow, mul_one, Complex.norm_real, Real.norm_eq_abs, abs_of_nonneg (by positivity)]
      calc _ ≤ Real.exp (-lambda) * Real.sinh (k * η) / Real.sinh lambda * 1 := mul_le_mul_of_nonneg_left (norm_term_le θ k) (by positivity)
        _ = _ := by ring
    refine (sum_le_sum h).trans ?_
    rw [← mul_sum]
    refine (mul_le_mul_of_nonneg_left (sum_sinh_le hη0 num) (by positivity)).trans (le_of_eq ?_)
    rw [hNη]
    field_simp
  have hB := genSum_tail θ hlt hd num
  rw [hwn, ← Real.exp_nat_mul, show (num : ℝ) * -η = -lambda by rw [← hNη]; ring] at hB
  have e : ∀ a b c : ℂ, a - b - c = (a - c) - b := by intros; ring
  rw [e]
  refine (norm_sub_le _ _).trans ((add_le_add hB hA).trans (le_of_eq ?_))
  have he : 0 < Real.exp η - 1 := by have := Real.add_one_lt_exp hη0.ne'; linarith
  have ht : Real.tanh (η / 2) = (Real.exp η - 1) / (Real.exp η + 1) := by
    rw [Real.tanh_eq_sinh_div_cosh, Real.sinh_eq, Real.cosh_eq]
    have h3 : Real.exp η = Real.exp (η / 2) * Real.exp (η / 2) := by rw [← Real.exp_add]; ring_nf
    have h4 : Real.exp (-(η / 2)) = (Real.exp (η / 2))⁻¹ := Real.exp_neg _
    have h5 := Real.exp_pos (η / 2)
    rw [h3, h4]
    field_simp
  have h6 : Real.exp (-η) = (Real.exp η)⁻¹ := Real.exp_neg _
  rw [ht, h6]
  have h7 := Real.exp_pos η
  have h8 : 1 - (Real.exp η)⁻¹ = (Real.exp η - 1) / Real.exp η := by field_simp
  rw [h8]
  field_simp

/-- The Lorentz kernel as a difference of two exponentials. -/
theorem lorentzCoeff_two (lambda : ℝ) (num k : Nat) :
    lorentzCoeff lambda num k =
      (Real.exp lambda * Real.exp (-(lambda / num)) ^ k - Real.exp (-lambda) * Real.exp (lambda / num) ^ k) / (2 * Real.sinh lambda) := by
  unfold lorentzCoeff
  rw [← Real.exp_nat_mul, ← Real.exp_nat_mul, ← Real.exp_add, ← Real.exp_add, Real.sinh_eq (lambda * (1 - k / num))]
  rw [show lambda * (1 - k / num) = lambda + k * -(lambda / num) by ring, show -(lambda + k * -(lambda / num)) = -lambda + k * (lambda / num) by ring]
  rw [div_div]

/-- For a growing number of moments the sum over the moments converges to the undamped generating function, wherever this exists. -/
theorem lorentz_limit {lambda : ℝ} (hl : 0 < lambda) (θ : ℝ) {u : ℂ} (hu : ‖u‖ = 1) (hd : genDen θ u ≠ 0) :
    Filter.Tendsto (fun num : Nat => ∑ k ∈ range num, (lorentzCoeff lambda num k : ℂ) *
      (((if k = 0 then 1 / 2 else 1 : ℝ) : ℂ) * (Real.cos (k * θ) : ℂ)) * u ^ k) Filter.atTop (nhds ((1 - u ^ 2) / 2 / genDen θ u)) := by
  have hs : 0 < Real.sinh lambda := Real.sinh_pos_iff.2 hl
  have hs' : (2 * (Real.sinh lambda : ℂ)) ≠ 0 := by
    have : (2 * Real.sinh lambda : ℝ) ≠ 0 := by positivity
    exact_mod_cast this
  rw [← Filter.tendsto_add_atTop_iff_nat 1]
  let η : Nat → ℝ := fun num => lambda / ((num + 1 : Nat) : ℝ)
  let w : Nat → ℂ := fun num => (Real.exp (-η num) : ℝ) * u
  let w' : Nat → ℂ := fun num => (Real.exp (η num) : ℝ) * u
  have hη : Filter.Tendsto η Filter.atTop (nhds 0) := by
    have h1 := (tendsto_const_div_atTop_nhds_zero_nat lambda).comp (Filter.tendsto_add_atTop_nat 1)
    exact h1
  have hw : Filter.Tendsto w Filter.atTop (nhds u) := by
    have h1 : Continuous fun t : ℝ => ((Real.exp (-t) : ℝ) : ℂ) * u := by fun_prop
    have h2 := (h1.tendsto 0).comp hη
    rw [neg_zero, Real.exp_zero, Complex.ofReal_one, one_mul] at h2
    exact h2
  have hw' : Filter.Tendsto w' Filter.atTop (nhds u) := by
    have h1 : Continuous fun t : ℝ => ((Real.exp t : ℝ) : ℂ) * u := by fun_prop
    have h2 := (h1.tendsto 0).comp hη
    rw [Real.exp_zero, Complex.ofReal_one, one_mul] at h2
    exact h2
  have hD : Continuous (genDen θ) := by unfold genDen; fun_prop
  have hDw := (hD.tendsto u).comp hw
  have hDw' := (hD.tendsto u).comp hw'
  -- the main part
  let R : ℂ → ℂ := fun v => (1 - v ^ 2) / 2 / genDen θ v
  have hR : ContinuousAt R u := by
    have : ContinuousAt (fun v : ℂ => (1 - v ^ 2) / 2) u := by fun_prop
    exact this.div hD.continuousAt hd
  have hI : ContinuousAt (fun v => (genDen θ v)⁻¹) u := hD.continuousAt.inv₀ hd
  have hJ : ContinuousAt (fun v => v * (genDen θ v)⁻¹) u := continuousAt_id.mul hI
  have hmain : Filter.Tendsto (fun num => ((Real.exp lambda : ℝ) * R (w num) - (Real.exp (-lambda) : ℝ) * R (w' num)) / (2 * (Real.sinh lambda : ℂ)))
      Filter.atTop (nhds (R u)) := by
    have h1 := (((hR.tendsto.comp hw).const_mul ((Real.exp lambda : ℝ) : ℂ)).sub
      ((hR.tendsto.comp hw').const_mul ((Real.exp (-lambda) : ℝ) : ℂ))).div_const (2 * (Real.sinh lambda : ℂ))
    have e : (((Real.exp lambda : ℝ) : ℂ) * R u - ((Real.exp (-lambda) : ℝ) : ℂ) * R u) / (2 * (Real.sinh lambda : ℂ)) = R u := by
      rw [← sub_mul, Real.sinh_eq]
      rw [Real.sinh_eq] at hs'
      push_cast at hs' ⊢
      rw [mul_div_right_comm, mul_div_cancel₀ _ (two_ne_zero' ℂ), div_self, one_mul]
      rwa [mul_div_cancel₀ _ (two_ne_zero' ℂ)] at hs'
    rw [e] at h1
    exact h1
  -- the oscillating part
  let A : Nat → ℂ := fun num => (Real.cos ((num + 1 : Nat) * θ) : ℂ)
  let B : Nat → ℂ := fun num => (Real.cos (num * θ) : ℂ)
  let Q : Nat → ℂ → ℂ := fun num v => (A num - v * B num) / genDen θ v
  have hosc : Filter.Tendsto (fun num => u ^ (num + 1) * (Q num (w num) - Q num (w' num)) / (2 * (Real.sinh lambda : ℂ))) Filter.atTop (nhds 0) := by
    have d1 := (hI.tendsto.comp hw).sub (hI.tendsto.comp hw')
    have d2 := (hJ.tendsto.comp hw).sub (hJ.tendsto.comp hw')
    rw [sub_self] at d1 d2
    have d3 := (d1.norm.add d2.norm).div_const ‖2 * (Real.sinh lambda : ℂ)‖
    rw [norm_zero, add_zero, zero_div] at d3
    rw [tendsto_zero_iff_norm_tendsto_zero]
    refine squeeze_zero (fun _ => norm_nonneg _) (fun num => ?_) d3
    rw [norm_div, norm_mul, norm_pow, hu, one_pow, one_mul]
    refine div_le_div_of_nonneg_right ?_ (norm_nonneg _)
    have e : Q num (w num) - Q num (w' num) = A num * ((genDen θ (w num))⁻¹ - (genDen θ (w' num))⁻¹)
        - B num * (w num * (genDen θ (w num))⁻¹ - w' num * (genDen θ (w' num))⁻¹) := by
      simp only [Q, div_eq_mul_inv]
      ring
    rw [e]
    refine (norm_sub_le _ _).trans (add_le_add ?_ ?_)
    · rw [norm_mul]
      refine mul_le_of_le_one_left (norm_nonneg _) ?_
      rw [Complex.norm_real, Real.norm_eq_abs]
      exact Real.abs_cos_le_one _
    · rw [norm_mul]
      refine mul_le_of_le_one_left (norm_nonneg _) ?_
      rw [Complex.norm_real, Real.norm_eq_abs]
      exact Real.abs_cos_le_one _
  have htot := hmain.sub hosc
  rw [sub_zero] at htot
  refine htot.congr' ?_
  filter_upwards [hDw.eventually_ne hd, hDw'.eventually_ne hd] with num n1 n2
  have n1' : genDen θ (w num) ≠ 0 := n1
  have n2' : genDen θ (w' num) ≠ 0 := n2
  have hN : ((num + 1 : Nat) : ℝ) ≠ 0 := by positivity
  have hsum : ∑ k ∈ range (num + 1), (lorentzCoeff lambda (num + 1) k : ℂ) * (((if k = 0 then 1 / 2 else 1 : ℝ) : ℂ) * (Real.cos (k * θ) : ℂ)) * u ^ k
      = ((Real.exp lambda : ℝ) * genSum θ (w num) (num + 1) - (Real.exp (-lambda) : ℝ) * genSum θ (w' num) (num + 1)) / (2 * (Real.sinh lambda : ℂ)) := by
    unfold genSum
    rw [mul_sum, mul_sum, ← sum_sub_distrib, sum_div]
    refine sum_congr rfl fun k _ => ?_
    rw [lorentzCoeff_two]
    simp only [w, w', mul_pow, η]
    push_cast
    ring
  rw [hsum]
  have c1 : genSum θ (w num) (num + 1) = R (w num) - w num ^ (num + 1) * Q num (w num) := by
    have := genSum_closed θ (w num) num
    rw [mul_comm, ← eq_div_iff n1'] at this
    rw [this]
    simp only [R, Q, A, B]
    ring
  have c2 : genSum θ (w' num) (num + 1) = R (w' num) - w' num ^ (num + 1) * Q num (w' num) := by
    have := genSum_closed θ (w' num) num
    rw [mul_comm, ← eq_div_iff n2'] at this
    rw [this]
    simp only [R, Q, A, B]
    ring
  have p1 : ((Real.exp lambda : ℝ) : ℂ) * w num ^ (num + 1) = u ^ (num + 1) := by
    simp only [w, mul_pow]
    rw [← mul_assoc, ← Complex.ofReal_pow, ← Real.exp_nat_mul, ← Complex.ofReal_mul, ← Real.exp_add]
    rw [show lambda + ((num + 1 : Nat) : ℝ) * -η num = 0 by simp only [η]; field_simp; ring, Real.exp_zero, Complex.ofReal_one, one_mul]
  have p2 : ((Real.exp (-lambda) : ℝ) : ℂ) * w' num ^ (num + 1) = u ^ (num + 1) := by
    simp only [w', mul_pow]
    rw [← mul_assoc, ← Complex.ofReal_pow, ← Real.exp_nat_mul, ← Complex.ofReal_mul, ← Real.exp_add]
    rw [show -lambda + ((num + 1 : Nat) : ℝ) * η num = 0 by simp only [η]; field_simp; ring, Real.exp_zero, Complex.ofReal_one, one_mul]
  rw [c1, c2, ← sub_div]
  congr 1
  linear_combination (Q num (w num)) * p1 - (Q num (w' num)) * p2

end Verif.Kpm
