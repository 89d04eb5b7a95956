import Verif.Kpm.PropsTrace
import Verif.Kpm.PropsConductivity

/-!
# Conductivities from random vectors (C107)
-/

namespace Verif.Kpm

open Verif.Numeric Finset Polynomial MeasureTheory
open Verif.Hopping (Csr)

variable {n R : Nat} {ξ : ℝ → ℂ} {τ : ℝ}

/-! ## Any matrix -/

/-- The average of `<r|A|r>` over the random vectors. -/
noncomputable def averageOf (ξ : ℝ → ℂ) (R : Nat) (A : Matrix (Fin n) (Fin n) ℂ) (x : Fin R × Fin n → ℝ) : ℂ :=
  (R : ℂ)⁻¹ * ∑ j ∈ range R, inner (vectors ξ x j) (act A (vectors ξ x j))

/-- The matrix of the average on all random numbers. -/
noncomputable def blockMat (R : Nat) (A : Matrix (Fin n) (Fin n) ℂ) (p q : Fin R × Fin n) : ℂ := if p.1 = q.1 then (R : ℂ)⁻¹ * A p.2 q.2 else 0

theorem averageOf_form (A : Matrix (Fin n) (Fin n) ℂ) (x : Fin R × Fin n → ℝ) : averageOf ξ R A x = form ξ (blockMat R A) x := by
  unfold averageOf form blockMat
  rw [sum_range, Fintype.sum_prod_type, mul_sum]
  refine sum_congr rfl fun j _ => ?_
  unfold inner act
  rw [mul_sum]
  refine sum_congr rfl fun a _ => ?_
  rw [Fintype.sum_prod_type, sum_eq_single j (fun k _ hk => ?_) (fun h => absurd (mem_univ j) h), mul_sum, mul_sum]
  · refine sum_congr rfl fun b _ => ?_
    have hv : ∀ c, vectors ξ x j.val c = ξ (x (j, c)) := fun c => by unfold vectors; rw [dif_pos j.isLt]
    rw [hv, hv, if_pos rfl, smul_eq_mul]
    ring
  · refine sum_eq_zero fun b _ => ?_
    rw [if_neg hk.symm]
    ring

theorem blockMat_trace (hR : 0 < R) (A : Matrix (Fin n) (Fin n) ℂ) : ∑ p, blockMat R A p p = A.trace := by
  unfold blockMat
  simp only [if_true]
  rw [Fintype.sum_prod_type]
  simp only [← mul_sum]
  rw [sum_const, card_univ, Fintype.card_fin, nsmul_eq_mul, mul_left_comm]
  have : (R : ℂ) ≠ 0 := by exact_mod_cast hR.ne'
  rw [show ∑ i, A i i = A.trace from rfl]
  field_simp

theorem blockMat_norm (hR : 0 < R) (A : Matrix (Fin n) (Fin n) ℂ) :
    (∑ p, ∑ q, if p = q then 0 else ‖blockMat R A p q‖ ^ 2) ≤ (R : ℝ)⁻¹ * ∑ a, ∑ b, ‖A a b‖ ^ 2 := by
  calc (∑ p, ∑ q, if p = q then 0 else ‖blockMat R A p q‖ ^ 2) ≤ ∑ p, ∑ q, ‖blockMat R A p q‖ ^ 2 :=
        sum_le_sum fun p _ => sum_le_sum fun q _ => by split <;> first | positivity | exact le_rfl
    _ = ∑ j : Fin R, ∑ a, ∑ b, ((R : ℝ)⁻¹) ^ 2 * ‖A a b‖ ^ 2 := by
        rw [Fintype.sum_prod_type]
        refine sum_congr rfl fun j _ => sum_congr rfl fun a _ => ?_
        rw [Fintype.sum_prod_type, sum_eq_single j (fun k _ hk => ?_) (fun h => absurd (mem_univ j) h)]
        · refine sum_congr rfl fun b _ => ?_
          unfold blockMat
          rw [if_pos rfl, norm_mul, mul_pow, norm_inv, Complex.norm_natCast]
        · refine sum_eq_zero fun b _ => ?_
          unfold blockMat
          rw [if_neg (fun e => hk e.symm)]
          simp
    _ = (R : ℝ)⁻¹ * ∑ a, ∑ b, ‖A a b‖ ^ 2 := by
        simp only [← mul_sum]
        rw [sum_const, card_univ, Fintype.card_fin, nsmul_eq_mul]
        have : (R : ℝ) ≠ 0 := by exact_mod_cast hR.ne'
        field_simp

/-- The real part of the average estimates the real part of the trace, for every matrix. -/
theorem averageOf_estimates (h : Element ξ τ) (hR : 0 < R) (A : Matrix (Fin n) (Fin n) ℂ) :
    Estimates R n (fun x => (averageOf ξ R A x).re) A.trace.re ((1 + τ) / R * ∑ a, ∑ b, ‖A a b‖ ^ 2) := by
  have hτ : 0 ≤ τ := (norm_nonneg _).trans h.sq
  simp only [averageOf_form]
  have hm := form_meas h (blockMat R A)
  have hb := form_bounded h (blockMat R A)
  have hi : Integrable (form ξ (blockMat R A)) (draws (Fin R × Fin n)) := Integrable.of_bound hm.aestronglyMeasurable _ (.of_forall hb)
  have hm' : Measurable fun x => (form ξ (blockMat R A) x).re := Complex.measurable_re.comp hm
  have hsq : Integrable (fun x => ‖form ξ (blockMat R A) x - A.trace‖ ^ 2) (draws (Fin R × Fin n)) := by
    refine Integrable.of_bound ((hm.sub_const _).norm.pow_const 2).aestronglyMeasurable ((∑ p, ∑ q, ‖blockMat R A p q‖ + ‖A.trace‖) ^ 2) (.of_forall fun x => ?_)
    rw [norm_pow, norm_norm]
    exact pow_le_pow_left₀ (norm_nonneg _) ((norm_sub_le _ _).trans (add_le_add_left (hb x) _)) 2
  have hle : ∀ x, ((form ξ (blockMat R A) x).re - A.trace.re) ^ 2 ≤ ‖form ξ (blockMat R A) x - A.trace‖ ^ 2 := fun x => by
    rw [← Complex.sub_re, ← sq_abs]
    exact pow_le_pow_left₀ (abs_nonneg _) (Complex.abs_re_le_norm _) 2
  have hsq' : Integrable (fun x => ((form ξ (blockMat R A) x).re - A.trace.re) ^ 2) (draws (Fin R × Fin n)) := by
    refine hsq.mono' ((hm'.sub_const _).pow_const 2).aestronglyMeasurable (.of_forall fun x => ?_)
    rw [Real.norm_eq_abs, abs_of_nonneg (sq_nonneg _)]
    exact hle x
  refine ⟨hi.re, ?_, hsq', ?_⟩
  · have := form_mean h (blockMat R A)
    rw [blockMat_trace hR] at this
    rw [← this]
    exact integral_re hi
  · have hv := form_variance h (blockMat R A)
    rw [blockMat_trace hR] at hv
    refine (integral_mono hsq' hsq hle).trans (hv.trans ((mul_le_mul_of_nonneg_left (blockMat_norm hR A) (by linarith)).trans (le_of_eq ?_)))
    ring

/-! ## The formula is linear in the moments -/

theorem trapezoid_linear {ι : Type} (S : Finset ι) (width : ℂ) (N : Nat) (m : ι → ℂ) (φ : ι → Nat → ℂ) :
    trapezoid width N (fun i => ∑ p ∈ S, m p * φ p i) = ∑ p ∈ S, m p * trapezoid width N (φ p) := by
  unfold trapezoid
  simp only [mul_sum]
  rw [sum_comm]
  refine sum_congr rfl fun i _ => ?_
  rw [← sum_add_distrib, sum_div, mul_sum]
  exact sum_congr rfl fun p _ => by ring

/-- The value of the conductivity for given moments before damping: the formula of C61_conductivity_partial. -/
noncomputable def kuboValue {num : Nat} (s : Scale ℝ) (min max : ℝ) (g : Nat → Nat → ℝ) (kbt mu : ℝ) (N : Nat) (m : Fin num → Fin num → ℂ) : ℂ :=
  4 / (s.a * s.a) * ((((N : ℂ) - 1) / N) * trapezoid (((max - min) / s.a : ℝ) : ℂ) N fun i =>
    integrand (num := num) s kbt mu (fun p q => (g num p * g num q) • m p q) (sample min max N i))

theorem kuboValue_linear {num : Nat} (s : Scale ℝ) (min max : ℝ) (g : Nat → Nat → ℝ) (kbt mu : ℝ) (N : Nat) :
    ∃ c : Fin num × Fin num → ℂ, ∀ m : Fin num → Fin num → ℂ, kuboValue s min max g kbt mu N m = ∑ p, m p.1 p.2 * c p := by
  let φ : Fin num × Fin num → Nat → ℂ := fun p i => occupation kbt mu (sample min max N i) *
    (((1 / (1 - s.apply (sample min max N i) ^ 2) ^ 2 : ℝ) : ℂ) * (((g num p.1 * g num p.2 : ℝ) : ℂ) * gammaSpec (s.apply (sample min max N i)) p.1 p.2))
  refine ⟨fun p => 4 / (s.a * s.a) * ((((N : ℂ) - 1) / N) * trapezoid (((max - min) / s.a : ℝ) : ℂ) N (φ p)), fun m => ?_⟩
  have e : ∀ i, integrand (num := num) s kbt mu (fun p q => (g num p * g num q) • m p q) (sample min max N i) = ∑ p, m p.1 p.2 * φ p i := by
    intro i
    unfold integrand
    rw [Fintype.sum_prod_type, mul_sum, mul_sum]
    refine sum_congr rfl fun p _ => ?_
    rw [mul_sum, mul_sum]
    refine sum_congr rfl fun q _ => ?_
    simp only [φ]
    rw [Complex.real_smul]
    ring
  unfold kuboValue
  simp only [e]
  rw [trapezoid_linear, mul_sum, mul_sum]
  exact sum_congr rfl fun p _ => by ring

/-! ## C107 -/

/-- **C107**.  For every Hermitian Hamiltonian, bounds, kernel, storage format, choice of algorithms, coordinates, chemical potential and temperature: there are numbers `σ` and `v`, the same for
all numbers of random vectors, such that `calc_conductivity` with `R` random vectors has the mean `σ` over the random numbers and a mean square deviation of at most `v / R`.  Here `σ` is the
result of the formula (C61) with the traces of the Kubo-Bastin formula in place of the averages over random vectors. -/
theorem C107_conductivity [DecidableEq ℂ] (hξ : Element ξ τ) {min max : ℝ} (hb : min < max) {s : Scale ℝ} (es : Scale.ofBounds min max = .ok s)
    {h : Csr ℂ} {cfg : AlgorithmConfig} (hn : 0 < n) (S : ComplexSetup s h cfg (⟨0, hn⟩ : Fin n)) {f : Format ℂ n ℂ} (hf : f.Aligned)
    (g : Nat → Nat → ℝ) {num : Nat} (h4 : num % 4 = 2) (left right : Fin n → ℂ) (hright : ∀ i, star (right i) = right i) {kbt : ℝ} (hk : kbt ≠ 0)
    {N : Nat} (h2 : 2 ≤ N) (junk : Nat → ℂ) (mu : ℝ) :
    ∃ v : ℝ, ∀ R : Nat, 0 < R → ∃ D : (Fin R × Fin n → ℝ) → ℝ,
      (∀ x, coreConductivity f cfg g min max h num (List.ofFn left) (List.ofFn right) kbt R N junk (vectors ξ x) mu = .ok (D x)) ∧
      Estimates R n D (kuboValue (num := num) s min max g kbt mu N fun p q => -(weight (1 / 2) p.val * weight (1 / 2) q.val *
        (chebOf s (matrixOf n h) q * commutator right h * chebOf s (matrixOf n h) p * commutator left h).trace)).re (v / R) := by
  obtain ⟨c, hc⟩ := kuboValue_linear (num := num) s min max g kbt mu N
  let A : Fin num × Fin num → Matrix (Fin n) (Fin n) ℂ := fun p =>
    chebOf s (matrixOf n h) p.2 * commutator right h * chebOf s (matrixOf n h) p.1 * commutator left h
  let w : Fin num × Fin num → ℂ := fun p => -(weight (1 / 2) p.1.val * weight (1 / 2) p.2.val) * c p
  let B : Matrix (Fin n) (Fin n) ℂ := ∑ p, w p • A p
  have hB : B.trace = kuboValue (num := num) s min max g kbt mu N fun p q => -(weight (1 / 2) p.val * weight (1 / 2) q.val *
        (chebOf s (matrixOf n h) q * commutator right h * chebOf s (matrixOf n h) p * commutator left h).trace) := by
    rw [hc]
    simp only [B]
    rw [Matrix.trace_sum]
    refine sum_congr rfl fun p _ => ?_
    rw [Matrix.trace_smul, smul_eq_mul]
    simp only [w, A]
    ring
  refine ⟨(1 + τ) * ∑ a, ∑ b, ‖B a b‖ ^ 2, fun R hR => ⟨fun x => (averageOf ξ R B x).re, fun x => ?_, ?_⟩⟩
  · rw [C61_conductivity_partial hb es hn S hf g h4 left right hk hR h2 junk (vectors ξ x) mu]
    congr 2
    show kuboValue (num := num) s min max g kbt mu N (fun p q => (∑ k ∈ range R, condTerm (1 / 2) h (2 / s.a) s.b left right (vectors ξ x k) p q) / R) = _
    rw [hc]
    unfold averageOf
    have hin : ∀ r : Fin n → ℂ, inner r (act B r) = ∑ p, w p * inner r (act (A p) r) := by
      intro r
      have e1 : act B r = fun i => ∑ p, w p * act (A p) r i := by
        funext i
        unfold act
        simp only [B, smul_eq_mul]
        rw [sum_congr rfl fun j _ => by rw [Matrix.sum_apply, sum_mul], sum_comm]
        refine sum_congr rfl fun p _ => ?_
        rw [mul_sum]
        refine sum_congr rfl fun j _ => ?_
        rw [Matrix.smul_apply, smul_eq_mul]
        ring
      rw [e1]
      unfold inner
      simp only [mul_sum]
      rw [sum_comm]
      exact sum_congr rfl fun p _ => sum_congr rfl fun i _ => by ring
    simp only [hin]
    rw [sum_comm, mul_sum]
    refine sum_congr rfl fun p _ => ?_
    rw [sum_congr rfl fun k _ => (C61_trace S.2.2.1 left right hright p.1.val p.2.val).1 (vectors ξ x k)]
    rw [← mul_sum, sum_neg_distrib, ← mul_sum]
    simp only [w, A]
    rw [div_eq_mul_inv]
    ring
  · rw [← hB]
    refine (averageOf_estimates hξ hR B).mono (le_of_eq ?_)
    ring

/-- The hypotheses of C107_conductivity: the pair with imaginary hopping, with random phases. -/
example [DecidableEq ℂ] : ∃ s, Scale.ofBounds (-3 : ℝ) 3 = .ok s ∧ ∃ v : ℝ, ∀ R : Nat, 0 < R → ∃ (D : (Fin R × Fin 2 → ℝ) → ℝ) (σ : ℝ),
    (∀ x, coreConductivity (n := 2) (.csr fun _ => 5) ⟨true, true⟩ jackson (-3) 3 imagPair 10 (List.ofFn ![0, 1]) (List.ofFn ![0, 1]) (1 / 40) R 100 (fun _ => 7)
      (vectors phaseOf x) 1 = .ok (D x)) ∧ Estimates R 2 D σ (v / R) := by
  obtain ⟨s, es, ha, -, -⟩ := C33_scaled_inside (show (-3 : ℝ) < 3 by norm_num)
  obtain ⟨v, hv⟩ := C107_conductivity C105_phases (by norm_num) es (by norm_num)
    ⟨ha, imagPair_ready.2.1, imagPair_ready.2.2.1, by
      intro h0
      have := congrFun (congrFun h0 0) 1
      rw [imagPair_mat] at this
      simp at this, imagPair_ready.2.2.2.2⟩ (f := .csr fun _ => 5) trivial jackson (num := 10) (by norm_num) ![0, 1] ![0, 1]
    (by intro i; fin_cases i <;> simp) (kbt := 1 / 40) (by norm_num) (N := 100) (by norm_num) (fun _ => 7) 1
  exact ⟨s, es, v, fun R hR => (hv R hR).imp fun D hD => ⟨_, hD⟩⟩

end Verif.Kpm
