import Verif.Kpm.PropsStochastic
import Mathlib.MeasureTheory.Integral.Pi
import Mathlib.MeasureTheory.Integral.IntervalIntegral.FundThmCalculus
import Mathlib.Analysis.SpecialFunctions.Integrals.Basic

/-!
# Random vectors as random variables

The numbers which `std::uniform_real_distribution` makes from `std::mt19937` (numeric/random.hpp:24-33) are modelled by what they are meant to be: independent real numbers which are
equally distributed on `[0, 1)`.  (The generator of a calculation always starts with the same seed, Starter.cpp:51, so that a program sees one sequence.)
-/

namespace Verif.Kpm

open MeasureTheory Finset

/-- One random number, numeric/random.hpp:29. -/
noncomputable def uniform : Measure ℝ := volume.restrict (Set.Ico 0 1)

/-- Independent random numbers, one for each element of `P`, numeric/random.hpp:30-32. -/
noncomputable def draws (P : Type) [Fintype P] : Measure (P → ℝ) := Measure.pi fun _ => uniform

instance : IsProbabilityMeasure uniform := ⟨by simp [uniform]⟩

instance (P : Type) [Fintype P] : IsProbabilityMeasure (draws P) := by
  unfold draws
  infer_instance

/-- How an element of a random vector is made from a random number: modulus one, mean zero, and the mean of the square has at most the modulus `τ`. -/
structure Element (ξ : ℝ → ℂ) (τ : ℝ) : Prop where
  meas : Measurable ξ
  unit : ∀ x, star (ξ x) * ξ x = 1
  mean : ∫ x, ξ x ∂uniform = 0
  sq : ‖∫ x, ξ x ^ 2 ∂uniform‖ ≤ τ

theorem Element.norm {ξ : ℝ → ℂ} {τ : ℝ} (h : Element ξ τ) (x : ℝ) : ‖ξ x‖ = 1 := by
  have : ‖star (ξ x) * ξ x‖ = 1 := by rw [h.unit x, norm_one]
  rw [norm_mul, norm_star] at this
  nlinarith [norm_nonneg (ξ x)]

theorem Element.ne {ξ : ℝ → ℂ} {τ : ℝ} (h : Element ξ τ) (x : ℝ) : ξ x ≠ 0 := fun e => by
  have := h.norm x
  rw [e, norm_zero] at this
  exact zero_ne_one this

theorem Element.star_eq {ξ : ℝ → ℂ} {τ : ℝ} (h : Element ξ τ) (x : ℝ) : star (ξ x) = (ξ x)⁻¹ := eq_inv_of_mul_eq_one_left (h.unit x)

/-- The elements for real Hamiltonians. -/
theorem element_sign : Element (fun x => ((signOf x : ℝ) : ℂ)) 1 := by
  have hm : Measurable signOf := Measurable.ite measurableSet_Iio measurable_const measurable_const
  have hi : ∀ a b : ℝ, IntervalIntegrable signOf volume a b := fun a b =>
    (Measure.integrableOn_of_bounded (M := 1) (by simp) hm.aestronglyMeasurable (by
      refine .of_forall fun x => ?_
      unfold signOf; split <;> simp)).intervalIntegrable
  refine ⟨Complex.measurable_ofReal.comp hm, fun x => ?_, ?_, ?_⟩
  · have := (C60_unit_modulus x).1
    rw [show star ((signOf x : ℝ) : ℂ) = ((signOf x : ℝ) : ℂ) from Complex.conj_ofReal _, ← Complex.ofReal_mul, this]
    simp
  · rw [integral_complex_ofReal]
    unfold uniform
    rw [← integral_Icc_eq_integral_Ico, integral_Icc_eq_integral_Ioc, ← intervalIntegral.integral_of_le zero_le_one,
      ← intervalIntegral.integral_add_adjacent_intervals (hi 0 (1 / 2)) (hi (1 / 2) 1)]
    have h1 : ∫ x in (0 : ℝ)..(1 / 2), signOf x = -(1 / 2) := by
      rw [intervalIntegral.integral_congr_ae (g := fun _ => -1)]
      · simp
      · have : ∀ᵐ x : ℝ ∂volume, x ≠ 1 / 2 := by simp [ae_iff]
        filter_upwards [this] with x hx hx'
        rw [Set.uIoc_of_le (by norm_num)] at hx'
        unfold signOf
        rw [if_pos (lt_of_le_of_ne hx'.2 hx)]
    have h2 : ∫ x in (1 / 2 : ℝ)..1, signOf x = 1 / 2 := by
      rw [intervalIntegral.integral_congr_ae (g := fun _ => 1)]
      · simp; norm_num
      · refine .of_forall fun x hx' => ?_
        rw [Set.uIoc_of_le (by norm_num)] at hx'
        unfold signOf
        rw [if_neg (not_lt.2 hx'.1.le)]
    rw [h1, h2]
    simp
  · have : ∀ x, ((signOf x : ℝ) : ℂ) ^ 2 = 1 := fun x => by
      rw [sq, ← Complex.ofReal_mul, (C60_unit_modulus x).1]
      simp
    simp [this]

/-- The elements for complex Hamiltonians. -/
theorem element_phase : Element phaseOf 0 := by
  have hm : Measurable phaseOf := by unfold phaseOf; fun_prop
  have key : ∀ k : ℕ, 0 < k → ∫ x, phaseOf x ^ k ∂uniform = 0 := by
    intro k hk
    unfold uniform
    rw [← integral_Icc_eq_integral_Ico, integral_Icc_eq_integral_Ioc, ← intervalIntegral.integral_of_le zero_le_one]
    have hc : (2 * Real.pi * Complex.I * k : ℂ) ≠ 0 := by
      have : (k : ℂ) ≠ 0 := by exact_mod_cast hk.ne'
      simp [Real.pi_ne_zero, this]
    have e : ∀ x : ℝ, phaseOf x ^ k = Complex.exp ((2 * Real.pi * Complex.I * k) * x) := by
      intro x
      unfold phaseOf
      rw [← Complex.exp_nat_mul]
      congr 1
      ring
    simp only [e]
    rw [integral_exp_mul_complex hc]
    have : (2 * Real.pi * Complex.I * k : ℂ) * (1 : ℝ) = k * (2 * Real.pi * Complex.I) := by push_cast; ring
    rw [this, Complex.exp_nat_mul_two_pi_mul_I]
    simp
  exact ⟨hm, fun x => (C60_unit_modulus x).2, by simpa using key 1 one_pos, by rw [key 2 two_pos]; simp⟩

/-! ## Mean values of products -/

section products

variable {P : Type} [Fintype P] {ξ : ℝ → ℂ} {τ : ℝ}

/-- A product of powers of elements. -/
noncomputable def mono (ξ : ℝ → ℂ) (a : P → ℤ) (x : P → ℝ) : ℂ := ∏ p, ξ (x p) ^ a p

theorem mono_meas (h : Element ξ τ) (a : P → ℤ) : Measurable (mono ξ a) := by
  unfold mono
  refine Finset.measurable_prod _ fun p _ => ?_
  have : Measurable fun z : ℂ => z ^ a p := by
    cases a p with
    | ofNat k => simpa using (measurable_id (α := ℂ)).pow_const k
    | negSucc k =>
      have hk : Measurable fun z : ℂ => (z ^ (k + 1))⁻¹ := ((measurable_id (α := ℂ)).pow_const (k + 1)).inv
      simp only [zpow_negSucc]
      exact hk
  exact this.comp (h.meas.comp (measurable_pi_apply p))

theorem mono_norm (h : Element ξ τ) (a : P → ℤ) (x : P → ℝ) : ‖mono ξ a x‖ = 1 := by
  unfold mono
  rw [norm_prod]
  exact prod_eq_one fun p _ => by rw [norm_zpow, h.norm, one_zpow]

theorem mono_integrable (h : Element ξ τ) (a : P → ℤ) : Integrable (mono ξ a) (draws P) :=
  Integrable.of_bound (mono_meas h a).aestronglyMeasurable 1 (.of_forall fun x => (mono_norm h a x).le)

theorem mono_integral (a : P → ℤ) : ∫ x, mono ξ a x ∂draws P = ∏ p, ∫ y, ξ y ^ a p ∂uniform :=
  integral_fintype_prod_eq_prod (fun p y => ξ y ^ a p)

theorem power_le (h : Element ξ τ) (k : ℤ) : ‖∫ y, ξ y ^ k ∂uniform‖ ≤ 1 := by
  refine (norm_integral_le_of_norm_le_const (C := 1) (.of_forall fun y => ?_)).trans ?_
  · rw [norm_zpow, h.norm, one_zpow]
  · simp

/-- The exponents of `conj(ξ_p) ξ_q`. -/
def pairExp [DecidableEq P] (z : P × P) (r : P) : ℤ := (if r = z.2 then 1 else 0) - (if r = z.1 then 1 else 0)

theorem mono_pair [DecidableEq P] (h : Element ξ τ) (z : P × P) (x : P → ℝ) : star (ξ (x z.1)) * ξ (x z.2) = mono ξ (pairExp z) x := by
  unfold mono pairExp
  have e : ∀ p, ∏ r, ξ (x r) ^ (if r = p then (1 : ℤ) else 0) = ξ (x p) := fun p => by
    rw [prod_eq_single p (fun r _ hr => by rw [if_neg hr, zpow_zero]) (fun hp => absurd (mem_univ p) hp), if_pos rfl, zpow_one]
  rw [prod_congr rfl fun r _ => zpow_sub₀ (h.ne (x r)) _ _, prod_div_distrib, e, e, h.star_eq, div_eq_mul_inv, mul_comm]

theorem mono_mul (h : Element ξ τ) (a b : P → ℤ) (x : P → ℝ) : mono ξ a x * star (mono ξ b x) = mono ξ (a - b) x := by
  unfold mono
  rw [star_prod, ← prod_mul_distrib]
  refine prod_congr rfl fun p _ => ?_
  rw [star_zpow₀, h.star_eq, inv_zpow, Pi.sub_apply, zpow_sub₀ (h.ne _), div_eq_mul_inv]

theorem mono_le (h : Element ξ τ) (a : P → ℤ) : ‖∫ x, mono ξ a x ∂draws P‖ ≤ 1 := by
  rw [mono_integral, norm_prod]
  exact prod_le_one (fun _ _ => norm_nonneg _) fun p _ => power_le h _

theorem power_one (h : Element ξ τ) : ∫ y, ξ y ^ (1 : ℤ) ∂uniform = 0 := by simpa using h.mean

theorem power_neg (h : Element ξ τ) (k : ℤ) : ∫ y, ξ y ^ (-k) ∂uniform = star (∫ y, ξ y ^ k ∂uniform) := by
  rw [show star (∫ y, ξ y ^ k ∂uniform) = ∫ y, star (ξ y ^ k) ∂uniform from integral_conj.symm]
  refine integral_congr_ae (.of_forall fun y => ?_)
  show ξ y ^ (-k) = star (ξ y ^ k)
  rw [star_zpow₀, h.star_eq, inv_zpow, zpow_neg]

/-- A factor with exponent `1` or `-1` makes the mean value vanish. -/
theorem mono_zero (h : Element ξ τ) (a : P → ℤ) (p : P) (ha : a p = 1 ∨ a p = -1) : ∫ x, mono ξ a x ∂draws P = 0 := by
  rw [mono_integral]
  refine prod_eq_zero (mem_univ p) ?_
  rcases ha with ha | ha <;> rw [ha]
  · exact power_one h
  · rw [power_neg h, power_one h, star_zero]

theorem mono_two (h : Element ξ τ) (a : P → ℤ) (p : P) (ha : a p = 2) : ‖∫ x, mono ξ a x ∂draws P‖ ≤ τ := by
  classical
  rw [mono_integral, norm_prod, ← mul_prod_erase univ _ (mem_univ p), ha]
  have h1 : ‖∫ y, ξ y ^ (2 : ℤ) ∂uniform‖ ≤ τ := by simpa using h.sq
  have h2 : ∏ r ∈ univ.erase p, ‖∫ y, ξ y ^ a r ∂uniform‖ ≤ 1 := prod_le_one (fun _ _ => norm_nonneg _) fun p _ => power_le h _
  have h0 := norm_nonneg (∫ y, ξ y ^ (2 : ℤ) ∂uniform)
  calc _ ≤ ‖∫ y, ξ y ^ (2 : ℤ) ∂uniform‖ * 1 := mul_le_mul_of_nonneg_left h2 h0
    _ ≤ τ := by linarith

/-- The correlation of two products `conj(ξ_p) ξ_q` with different indices. -/
theorem pair_corr [DecidableEq P] (h : Element ξ τ) {z w : P × P} (hz : z.1 ≠ z.2) (hw : w.1 ≠ w.2) :
    ‖∫ x, mono ξ (pairExp z - pairExp w) x ∂draws P‖ ≤ (if w = z then 1 else 0) + (if w = z.swap then τ else 0) := by
  obtain ⟨p, q⟩ := z
  obtain ⟨p', q'⟩ := w
  simp only at hz hw
  have hτ : 0 ≤ τ := (norm_nonneg _).trans h.sq
  by_cases h1 : (p', q') = (p, q)
  · rw [if_pos h1]
    refine (mono_le h _).trans ?_
    split <;> linarith
  rw [if_neg h1, zero_add]
  by_cases h2 : (p', q') = (p, q).swap
  · rw [if_pos h2]
    simp only [Prod.swap_prod_mk, Prod.mk.injEq] at h2
    obtain ⟨rfl, rfl⟩ := h2
    refine mono_two h _ p' ?_
    simp [pairExp, hw]
  rw [if_neg h2]
  simp only [Prod.swap_prod_mk, Prod.mk.injEq, not_and_or] at h1 h2
  refine le_of_eq (norm_eq_zero.2 ?_)
  by_cases e1 : p' = p
  · have e2 : q' ≠ q := by tauto
    refine mono_zero h _ q (.inl ?_)
    subst e1
    simp [pairExp, hz.symm, e2.symm]
  by_cases e2 : p' = q
  · have e3 : q' ≠ p := by tauto
    refine mono_zero h _ p (.inr ?_)
    subst e2
    simp [pairExp, hz, e3.symm]
  refine mono_zero h _ p' (.inl ?_)
  simp [pairExp, e1, e2, hw]

end products

/-! ## Mean value and variance of a quadratic form -/

section form

variable {P : Type} [Fintype P] [DecidableEq P] {ξ : ℝ → ℂ} {τ : ℝ}

/-- `⟨r|B|r⟩` for the vector `r` made of the random numbers `x`. -/
noncomputable def form (ξ : ℝ → ℂ) (B : P → P → ℂ) (x : P → ℝ) : ℂ := ∑ p, ∑ q, star (ξ (x p)) * B p q * ξ (x q)

/-- The elements on the diagonal contribute the trace whatever the random numbers are. -/
theorem form_sub (h : Element ξ τ) (B : P → P → ℂ) (x : P → ℝ) :
    form ξ B x - ∑ p, B p p = ∑ z ∈ univ.filter (fun z : P × P => z.1 ≠ z.2), B z.1 z.2 * mono ξ (pairExp z) x := by
  unfold form
  rw [← Fintype.sum_prod_type' (f := fun p q => star (ξ (x p)) * B p q * ξ (x q)),
    ← sum_filter_add_sum_filter_not univ (fun z : P × P => z.1 ≠ z.2)]
  have hd : ∑ z ∈ univ.filter (fun z : P × P => ¬ z.1 ≠ z.2), star (ξ (x z.1)) * B z.1 z.2 * ξ (x z.2) = ∑ p, B p p := by
    refine (sum_bij (fun p _ => (p, p)) (fun p _ => by simp) (fun p _ q _ e => (Prod.mk.inj e).1) (fun z hz => ?_) (fun p _ => ?_)).symm
    · simp only [mem_filter, mem_univ, true_and, not_not] at hz
      exact ⟨z.1, mem_univ _, Prod.ext rfl hz⟩
    · show B p p = star (ξ (x p)) * B p p * ξ (x p)
      rw [mul_right_comm, h.unit, one_mul]
  rw [hd, add_sub_cancel_right]
  refine sum_congr rfl fun z _ => ?_
  rw [← mono_pair h]
  ring

theorem form_mean (h : Element ξ τ) (B : P → P → ℂ) : ∫ x, form ξ B x ∂draws P = ∑ p, B p p := by
  have e : ∀ x, form ξ B x = (∑ z ∈ univ.filter (fun z : P × P => z.1 ≠ z.2), B z.1 z.2 * mono ξ (pairExp z) x) + ∑ p, B p p := fun x => by
    rw [← form_sub h, sub_add_cancel]
  simp only [e]
  rw [integral_add (integrable_finsetSum _ fun z _ => (mono_integrable h _).const_mul _) (integrable_const _),
    integral_finsetSum _ fun z _ => (mono_integrable h _).const_mul _]
  simp only [integral_const, probReal_univ, one_smul]
  rw [sum_eq_zero, zero_add]
  intro z hz
  simp only [mem_filter, mem_univ, true_and] at hz
  rw [integral_const_mul, mono_zero h _ z.2 (.inl (by simp [pairExp, hz.symm])), mul_zero]

/-- The mean square of the deviation of a quadratic form from the trace. -/
theorem form_variance (h : Element ξ τ) (B : P → P → ℂ) :
    ∫ x, ‖form ξ B x - ∑ p, B p p‖ ^ 2 ∂draws P ≤ (1 + τ) * ∑ p, ∑ q, if p = q then 0 else ‖B p q‖ ^ 2 := by
  have hτ : 0 ≤ τ := (norm_nonneg _).trans h.sq
  set S := univ.filter (fun z : P × P => z.1 ≠ z.2) with hS
  have e : ∀ x, ((‖form ξ B x - ∑ p, B p p‖ ^ 2 : ℝ) : ℂ) =
      ∑ z ∈ S, ∑ w ∈ S, (B z.1 z.2 * star (B w.1 w.2)) * mono ξ (pairExp z - pairExp w) x := by
    intro x
    rw [form_sub h, Complex.ofReal_pow, ← Complex.mul_conj', show (starRingEnd ℂ) _ = star _ from rfl, star_sum, sum_mul_sum]
    refine sum_congr rfl fun z _ => sum_congr rfl fun w _ => ?_
    rw [star_mul', ← mono_mul h]
    ring
  have hi : ((∫ x, ‖form ξ B x - ∑ p, B p p‖ ^ 2 ∂draws P : ℝ) : ℂ) =
      ∑ z ∈ S, ∑ w ∈ S, (B z.1 z.2 * star (B w.1 w.2)) * ∫ x, mono ξ (pairExp z - pairExp w) x ∂draws P := by
    rw [← integral_complex_ofReal]
    simp only [e]
    rw [integral_finsetSum _ fun z _ => integrable_finsetSum _ fun w _ => (mono_integrable h _).const_mul _]
    refine sum_congr rfl fun z _ => ?_
    rw [integral_finsetSum _ fun w _ => (mono_integrable h _).const_mul _]
    exact sum_congr rfl fun w _ => integral_const_mul _ _
  have hn : ∫ x, ‖form ξ B x - ∑ p, B p p‖ ^ 2 ∂draws P ≤ ∑ z ∈ S, ∑ w ∈ S, (‖B z.1 z.2‖ * ‖B w.1 w.2‖) * ((if w = z then 1 else 0) + (if w = z.swap then τ else 0)) := by
    refine (le_abs_self _).trans ?_
    rw [← Real.norm_eq_abs, ← Complex.norm_real, hi]
    refine (norm_sum_le _ _).trans (sum_le_sum fun z hz => (norm_sum_le _ _).trans (sum_le_sum fun w hw => ?_))
    simp only [hS, mem_filter, mem_univ, true_and] at hz hw
    rw [norm_mul, norm_mul, norm_star]
    exact mul_le_mul_of_nonneg_left (pair_corr h hz hw) (by positivity)
  refine hn.trans ?_
  have hs : ∑ z ∈ S, ‖B z.2 z.1‖ ^ 2 = ∑ z ∈ S, ‖B z.1 z.2‖ ^ 2 :=
    sum_bij (fun z _ => z.swap) (fun z hz => by simp only [hS, mem_filter, mem_univ, true_and] at hz ⊢; exact hz.symm)
      (fun z _ w _ e => Prod.swap_injective e)
      (fun z hz => ⟨z.swap, by simp only [hS, mem_filter, mem_univ, true_and] at hz ⊢; exact hz.symm, Prod.swap_swap z⟩) (fun z _ => rfl)
  have ht : (∑ p, ∑ q, if p = q then (0 : ℝ) else ‖B p q‖ ^ 2) = ∑ z ∈ S, ‖B z.1 z.2‖ ^ 2 := by
    rw [hS, sum_filter, ← Fintype.sum_prod_type' (f := fun p q => if p = q then (0 : ℝ) else ‖B p q‖ ^ 2)]
    refine sum_congr rfl fun z _ => ?_
    by_cases hz : z.1 = z.2 <;> simp [hz]
  rw [ht]
  calc _ ≤ ∑ z ∈ S, (‖B z.1 z.2‖ ^ 2 + τ * ((‖B z.1 z.2‖ ^ 2 + ‖B z.2 z.1‖ ^ 2) / 2)) := by
        refine sum_le_sum fun z hz => ?_
        have hz' : z.swap ∈ S := by simp only [hS, mem_filter, mem_univ, true_and] at hz ⊢; exact hz.symm
        simp only [mul_add, sum_add_distrib, mul_ite, mul_one, mul_zero]
        rw [sum_ite_eq' S z, if_pos hz, sum_ite_eq' S z.swap, if_pos hz']
        simp only [Prod.fst_swap, Prod.snd_swap]
        have := mul_le_mul_of_nonneg_left (two_mul_le_add_sq ‖B z.1 z.2‖ ‖B z.2 z.1‖) hτ
        nlinarith
    _ = (1 + τ) * ∑ z ∈ S, ‖B z.1 z.2‖ ^ 2 := by
        rw [sum_add_distrib, ← mul_sum, ← sum_div, sum_add_distrib, hs]
        ring

end form

end Verif.Kpm
