import Verif.Kpm.RandomVectors
import Verif.Kpm.PropsConvergence

/-!
# How accurate densities of states from random vectors are (C105)

`calc_dos` replaces a trace over all states by an average over a few random vectors.  The theorems say what the mean of the result is and how far it is from there, for both kinds of random
vectors, every Hermitian Hamiltonian, every number of vectors and every kernel.
-/

namespace Verif.Kpm

open Verif.Numeric Finset Polynomial MeasureTheory
open Verif.Hopping (Csr)

variable {n R : Nat} {ξ : ℝ → ℂ} {τ : ℝ}

/-- The random vectors of a calculation: element `i` of vector `j` is made from a random number of its own, Starter.cpp:56-83.  Vectors from number `R` on are never used. -/
noncomputable def vectors (ξ : ℝ → ℂ) (x : Fin R × Fin n → ℝ) (j : Nat) (i : Fin n) : ℂ := if hj : j < R then ξ (x (⟨j, hj⟩, i)) else 1

/-- The average over the random vectors of `<r|A|r>`, where `A` has the value `F j` for eigenstate `j`. -/
noncomputable def averaged (ξ : ℝ → ℂ) (R : Nat) (U : Matrix (Fin n) (Fin n) ℂ) (F : Fin n → ℝ) (x : Fin R × Fin n → ℝ) : ℝ :=
  (R : ℝ)⁻¹ * ∑ j ∈ range R, ∑ i, overlap U (vectors ξ x j) i * F i

/-- The matrix of the average on all random numbers. -/
noncomputable def bigMat (R : Nat) (U : Matrix (Fin n) (Fin n) ℂ) (F : Fin n → ℝ) (p q : Fin R × Fin n) : ℂ :=
  if p.1 = q.1 then (R : ℂ)⁻¹ * (U * Matrix.diagonal (fun i => (F i : ℂ)) * star U) p.2 q.2 else 0

theorem entry (U : Matrix (Fin n) (Fin n) ℂ) (F : Fin n → ℝ) (a b : Fin n) :
    (U * Matrix.diagonal (fun i => (F i : ℂ)) * star U) a b = ∑ i, U a i * F i * star (U b i) := by
  rw [Matrix.mul_apply]
  refine sum_congr rfl fun i _ => ?_
  rw [Matrix.mul_diagonal, Matrix.star_apply]

theorem overlap_entry (U : Matrix (Fin n) (Fin n) ℂ) (F : Fin n → ℝ) (r : Fin n → ℂ) :
    ((∑ i, overlap U r i * F i : ℝ) : ℂ) = ∑ a, ∑ b, star (r a) * (U * Matrix.diagonal (fun i => (F i : ℂ)) * star U) a b * r b := by
  simp only [entry, mul_sum, sum_mul]
  push_cast
  rw [sum_congr rfl fun a _ => sum_comm, sum_comm]
  refine sum_congr rfl fun i _ => ?_
  unfold overlap
  rw [Complex.normSq_eq_conj_mul_self, map_sum, sum_mul_sum, sum_mul]
  refine sum_congr rfl fun a _ => ?_
  rw [sum_mul]
  refine sum_congr rfl fun b _ => ?_
  rw [map_mul, show (starRingEnd ℂ) (star (U a i)) = U a i from star_star _, show (starRingEnd ℂ) (r a) = star (r a) from rfl]
  ring

theorem averaged_form (U : Matrix (Fin n) (Fin n) ℂ) (F : Fin n → ℝ) (x : Fin R × Fin n → ℝ) : (averaged ξ R U F x : ℂ) = form ξ (bigMat R U F) x := by
  unfold averaged form bigMat
  rw [Complex.ofReal_mul, Complex.ofReal_inv, Complex.ofReal_natCast, Complex.ofReal_sum, sum_range, Fintype.sum_prod_type, mul_sum]
  refine sum_congr rfl fun j _ => ?_
  rw [overlap_entry, mul_sum]
  refine sum_congr rfl fun a _ => ?_
  rw [Fintype.sum_prod_type, sum_eq_single j (fun k _ hk => ?_) (fun h => absurd (mem_univ j) h), mul_sum]
  · refine sum_congr rfl fun b _ => ?_
    have hv : ∀ c, vectors ξ x j.val c = ξ (x (j, c)) := fun c => by unfold vectors; rw [dif_pos j.isLt]
    rw [hv, hv, if_pos rfl]
    ring
  · refine sum_eq_zero fun b _ => ?_
    rw [if_neg hk.symm]
    ring

theorem bigMat_trace {U : Matrix (Fin n) (Fin n) ℂ} (hU : star U * U = 1) (hR : 0 < R) (F : Fin n → ℝ) : ∑ p, bigMat R U F p p = ((∑ i, F i : ℝ) : ℂ) := by
  unfold bigMat
  simp only [if_true]
  rw [Fintype.sum_prod_type]
  simp only [← mul_sum]
  have ht : ∑ a, (U * Matrix.diagonal (fun i => (F i : ℂ)) * star U) a a = ((∑ i, F i : ℝ) : ℂ) := by
    show Matrix.trace _ = _
    rw [Matrix.trace_mul_comm, ← mul_assoc, hU, one_mul, Matrix.trace_diagonal]
    push_cast
    rfl
  rw [ht, sum_const, card_univ, Fintype.card_fin, nsmul_eq_mul, mul_left_comm]
  have : (R : ℂ) ≠ 0 := by exact_mod_cast hR.ne'
  field_simp

theorem frobenius {U : Matrix (Fin n) (Fin n) ℂ} (hU : star U * U = 1) (F : Fin n → ℝ) :
    ∑ a, ∑ b, ‖(U * Matrix.diagonal (fun i => (F i : ℂ)) * star U) a b‖ ^ 2 = ∑ i, F i ^ 2 := by
  set A := U * Matrix.diagonal (fun i => (F i : ℂ)) * star U with hA
  have h1 : ((∑ a, ∑ b, ‖A a b‖ ^ 2 : ℝ) : ℂ) = Matrix.trace (A * star A) := by
    unfold Matrix.trace
    push_cast
    refine sum_congr rfl fun a _ => ?_
    rw [Matrix.diag_apply, Matrix.mul_apply]
    refine sum_congr rfl fun b _ => ?_
    rw [Matrix.star_apply, ← Complex.mul_conj']
    rfl
  have h2 : star A = A := by
    rw [hA, star_mul, star_mul, star_star, ← mul_assoc]
    congr 2
    rw [Matrix.star_eq_conjTranspose, Matrix.diagonal_conjTranspose]
    congr 1
    funext i
    simp
  have h3 : A * A = U * Matrix.diagonal (fun i => ((F i ^ 2 : ℝ) : ℂ)) * star U := by
    calc A * A = U * Matrix.diagonal (fun i => (F i : ℂ)) * (star U * U) * Matrix.diagonal (fun i => (F i : ℂ)) * star U := by simp only [hA, mul_assoc]
      _ = U * (Matrix.diagonal (fun i => (F i : ℂ)) * Matrix.diagonal (fun i => (F i : ℂ))) * star U := by rw [hU, mul_one]; simp only [mul_assoc]
      _ = _ := by
        rw [Matrix.diagonal_mul_diagonal]
        congr 3
        funext i
        push_cast
        ring
  have h4 : ((∑ a, ∑ b, ‖A a b‖ ^ 2 : ℝ) : ℂ) = ((∑ i, F i ^ 2 : ℝ) : ℂ) := by
    rw [h1, h2, h3, Matrix.trace_mul_comm, ← mul_assoc, hU, one_mul, Matrix.trace_diagonal]
    push_cast
    rfl
  exact_mod_cast h4

theorem bigMat_norm {U : Matrix (Fin n) (Fin n) ℂ} (hU : star U * U = 1) (hR : 0 < R) (F : Fin n → ℝ) :
    (∑ p, ∑ q, if p = q then 0 else ‖bigMat R U F p q‖ ^ 2) ≤ (R : ℝ)⁻¹ * ∑ i, F i ^ 2 := by
  calc (∑ p, ∑ q, if p = q then 0 else ‖bigMat R U F p q‖ ^ 2) ≤ ∑ p, ∑ q, ‖bigMat R U F p q‖ ^ 2 :=
        sum_le_sum fun p _ => sum_le_sum fun q _ => by split <;> first | positivity | exact le_rfl
    _ = ∑ j : Fin R, ∑ a, ∑ b, ((R : ℝ)⁻¹) ^ 2 * ‖(U * Matrix.diagonal (fun i => (F i : ℂ)) * star U) a b‖ ^ 2 := by
        rw [Fintype.sum_prod_type]
        refine sum_congr rfl fun j _ => sum_congr rfl fun a _ => ?_
        rw [Fintype.sum_prod_type, sum_eq_single j (fun k _ hk => ?_) (fun h => absurd (mem_univ j) h)]
        · refine sum_congr rfl fun b _ => ?_
          unfold bigMat
          rw [if_pos rfl, norm_mul, mul_pow, norm_inv, Complex.norm_natCast]
        · refine sum_eq_zero fun b _ => ?_
          unfold bigMat
          rw [if_neg (fun e => hk e.symm)]
          simp
    _ = (R : ℝ)⁻¹ * ∑ i, F i ^ 2 := by
        simp only [← mul_sum]
        rw [frobenius hU, sum_const, card_univ, Fintype.card_fin, nsmul_eq_mul]
        have : (R : ℝ) ≠ 0 := by exact_mod_cast hR.ne'
        field_simp

theorem form_bounded {P : Type} [Fintype P] [DecidableEq P] (h : Element ξ τ) (B : P → P → ℂ) (x : P → ℝ) : ‖form ξ B x‖ ≤ ∑ p, ∑ q, ‖B p q‖ := by
  unfold form
  refine (norm_sum_le _ _).trans (sum_le_sum fun p _ => (norm_sum_le _ _).trans (sum_le_sum fun q _ => le_of_eq ?_))
  rw [norm_mul, norm_mul, norm_star, h.norm, h.norm, one_mul, mul_one]

theorem form_meas {P : Type} [Fintype P] [DecidableEq P] (h : Element ξ τ) (B : P → P → ℂ) : Measurable (form ξ B) := by
  unfold form
  have hm := h.meas
  refine Finset.measurable_sum _ fun p _ => Finset.measurable_sum _ fun q _ => ?_
  have h1 : Measurable fun x : P → ℝ => ξ (x p) := hm.comp (measurable_pi_apply p)
  have h2 : Measurable fun x : P → ℝ => ξ (x q) := hm.comp (measurable_pi_apply q)
  exact ((Complex.continuous_conj.measurable.comp h1).mul measurable_const).mul h2

/-- Specification: `D` is a random variable with mean `ρ` and mean square deviation at most `v`.  (Both integrals exist.) -/
structure Estimates (R n : Nat) (D : (Fin R × Fin n → ℝ) → ℝ) (ρ v : ℝ) : Prop where
  integrable : Integrable D (draws (Fin R × Fin n))
  mean : ∫ x, D x ∂draws (Fin R × Fin n) = ρ
  integrable_sq : Integrable (fun x => (D x - ρ) ^ 2) (draws (Fin R × Fin n))
  variance : ∫ x, (D x - ρ) ^ 2 ∂draws (Fin R × Fin n) ≤ v

theorem averaged_estimates (h : Element ξ τ) {U : Matrix (Fin n) (Fin n) ℂ} (hU : star U * U = 1) (hR : 0 < R) (F : Fin n → ℝ) :
    Estimates R n (averaged ξ R U F) (∑ i, F i) ((1 + τ) / R * ∑ i, F i ^ 2) := by
  have hτ : 0 ≤ τ := (norm_nonneg _).trans h.sq
  have hre : ∀ x, averaged ξ R U F x = (form ξ (bigMat R U F) x).re := fun x => by rw [← averaged_form, Complex.ofReal_re]
  have hm : Measurable (averaged ξ R U F) := by
    rw [funext hre]
    exact Complex.measurable_re.comp (form_meas h _)
  have hb : ∀ x, ‖averaged ξ R U F x‖ ≤ ∑ p, ∑ q, ‖bigMat R U F p q‖ := fun x => by
    rw [← Complex.norm_real, averaged_form]
    exact form_bounded h _ x
  have hi : Integrable (averaged ξ R U F) (draws (Fin R × Fin n)) := Integrable.of_bound hm.aestronglyMeasurable _ (.of_forall hb)
  refine ⟨hi, ?_, ?_, ?_⟩
  · have := form_mean h (bigMat R U F)
    rw [bigMat_trace hU hR] at this
    rw [← Complex.ofReal_inj, ← integral_complex_ofReal, ← this]
    exact integral_congr_ae (.of_forall fun x => averaged_form U F x)
  · refine Integrable.of_bound ((hm.sub_const _).pow_const 2).aestronglyMeasurable ((∑ p, ∑ q, ‖bigMat R U F p q‖ + ‖∑ i, F i‖) ^ 2) (.of_forall fun x => ?_)
    rw [norm_pow]
    exact pow_le_pow_left₀ (norm_nonneg _) ((norm_sub_le _ _).trans (add_le_add_left (hb x) _)) 2
  · have hv := form_variance h (bigMat R U F)
    rw [bigMat_trace hU hR] at hv
    have e : ∀ x, ‖form ξ (bigMat R U F) x - ((∑ i, F i : ℝ) : ℂ)‖ ^ 2 = (averaged ξ R U F x - ∑ i, F i) ^ 2 := fun x => by
      rw [← averaged_form, ← Complex.ofReal_sub, Complex.norm_real, Real.norm_eq_abs, sq_abs]
    simp only [e] at hv
    refine hv.trans ((mul_le_mul_of_nonneg_left (bigMat_norm hU hR F) (by linarith)).trans (le_of_eq ?_))
    ring

/-! ## Densities of states -/

/-- The density which the expansion gives at the energy `e` for a single state with the energy `E`. -/
noncomputable def lineShape (g : Nat → Nat → ℝ) (s : Scale ℝ) (num : Nat) (e E : ℝ) : ℝ :=
  2 / Real.pi / s.a / Real.sqrt (1 - s.apply e * s.apply e) *
    ∑ k ∈ range num, g num k * ((if k = 0 then 1 / 2 else 1) * (Chebyshev.T ℝ k).eval (s.apply E)) * Real.cos (k * Real.arccos (s.apply e))

theorem density_overlap {H U : Matrix (Fin n) (Fin n) ℂ} {E : Fin n → ℝ} (hE : Eigen H U E) (s : Scale ℝ) (g : Nat → Nat → ℝ) (r : Fin n → ℂ) (num : Nat) {e : ℝ}
    (he : -1 < s.apply e ∧ s.apply e < 1) :
    spectralDensity s (damp g (momentList s H r num)) e = .ok (∑ j, overlap U r j * lineShape g s num e (E j)) := by
  unfold spectralDensity
  simp only
  rw [if_pos he, hE.momentList, densityAt_form]
  congr 1
  unfold lineShape
  simp only [mul_sum, sum_mul]
  rw [sum_comm]
  exact sum_congr rfl fun j _ => sum_congr rfl fun k _ => by ring

theorem overlap_column {U : Matrix (Fin n) (Fin n) ℂ} (hU : star U * U = 1) (j i : Fin n) : overlap U (fun a => U a j) i = if i = j then 1 else 0 := by
  have h := congrFun (congrFun hU i) j
  rw [Matrix.mul_apply, Matrix.one_apply] at h
  unfold overlap
  simp only [Matrix.star_apply] at h
  rw [h]
  split <;> simp

theorem overlap_site (U : Matrix (Fin n) (Fin n) ℂ) (i j : Fin n) : overlap U (Pi.single i 1) j = Complex.normSq (U i j) := by
  unfold overlap
  rw [sum_eq_single i (fun a _ ha => by simp [ha]) (fun h => absurd (mem_univ i) h)]
  simp [Complex.normSq_apply]

theorem overlap_sites {U : Matrix (Fin n) (Fin n) ℂ} (hU : star U * U = 1) (j : Fin n) : ∑ i, overlap U (Pi.single i 1) j = 1 := by
  simp only [overlap_site]
  have h := congrFun (congrFun hU j) j
  rw [Matrix.mul_apply, Matrix.one_apply_eq] at h
  rw [← Complex.ofReal_inj, Complex.ofReal_sum, Complex.ofReal_one, ← h]
  exact sum_congr rfl fun i _ => by rw [Complex.normSq_eq_conj_mul_self]; rfl

/-- **C105** (mean and variance).  At every energy, the mean of the density of states over all random vectors is the sum of the local densities of states of all sites, which is the sum of the
densities of the single eigenstates; nothing else than the number of random vectors is an approximation.  The mean square of the deviation is at most `(1 + τ) / R` times the sum of the squares
of the densities of the single states, where `R` is the number of random vectors, and `τ` is 1 for real (C105_signs) and 0 for complex Hamiltonians (C105_phases). -/
theorem C105_mean (hξ : Element ξ τ) {h : Csr ℂ} {U : Matrix (Fin n) (Fin n) ℂ} {E : Fin n → ℝ} (hE : Eigen (matrixOf n h) U E) (s : Scale ℝ) (g : Nat → Nat → ℝ) (num : Nat)
    (hR : 0 < R) {e : ℝ} (he : -1 < s.apply e ∧ s.apply e < 1) :
    ∃ (D : (Fin R × Fin n → ℝ) → ℝ) (state site : Fin n → ℝ),
      (∀ x, dosValue g s (dosMoments s h num R (vectors ξ x)) e = .ok (D x)) ∧
      (∀ j, spectralDensity s (damp g (momentList s (matrixOf n h) (fun i => U i j) num)) e = .ok (state j)) ∧
      (∀ i, spectralDensity s (damp g (momentList s (matrixOf n h) (Pi.single i 1) num)) e = .ok (site i)) ∧
      ∑ j, state j = ∑ i, site i ∧ Estimates R n D (∑ i, site i) ((1 + τ) / R * ∑ j, state j ^ 2) := by
  have hs : ∑ j, lineShape g s num e (E j) = ∑ i, ∑ j, overlap U (Pi.single i 1) j * lineShape g s num e (E j) := by
    rw [sum_comm]
    exact sum_congr rfl fun j _ => by rw [← sum_mul, overlap_sites hE.orth, one_mul]
  refine ⟨averaged ξ R U fun j => lineShape g s num e (E j), fun j => lineShape g s num e (E j), fun i => ∑ j, overlap U (Pi.single i 1) j * lineShape g s num e (E j),
    fun x => ?_, fun j => ?_, fun i => density_overlap hE s g _ num he, hs, hs ▸ averaged_estimates hξ hE.orth hR _⟩
  · obtain ⟨d, h1, h2⟩ := C60_value (s := s) hE.hermitian g num R (vectors ξ x) e he
    rw [h2]
    unfold averaged
    congr 2
    refine sum_congr rfl fun j _ => ?_
    have := h1 j
    rw [density_overlap hE s g _ num he] at this
    exact (Res.ok.inj this).symm
  · rw [density_overlap hE s g _ num he]
    congr 1
    simp only [overlap_column hE.orth]
    simp

/-- **C105** (real Hamiltonians).  The elements of the random vectors are signs. -/
theorem C105_signs : Element (fun x => ((signOf x : ℝ) : ℂ)) 1 := element_sign

/-- **C105** (complex Hamiltonians).  The elements of the random vectors are phases. -/
theorem C105_phases : Element phaseOf 0 := element_phase

/-- **C105** (probability).  Large deviations are rare: the probability of a deviation of `t` or more is at most the variance divided by `t²`. -/
theorem C105_probability {D : (Fin R × Fin n → ℝ) → ℝ} {ρ v t : ℝ} (h : Estimates R n D ρ v) (ht : 0 < t) : (draws (Fin R × Fin n)).real {x | t ≤ |D x - ρ|} ≤ v / t ^ 2 := by
  have h1 := mul_meas_ge_le_integral_of_nonneg (.of_forall fun x => sq_nonneg (D x - ρ)) h.integrable_sq (t ^ 2)
  have h2 : {x | t ^ 2 ≤ (D x - ρ) ^ 2} = {x | t ≤ |D x - ρ|} := by
    ext x
    simp only [Set.mem_ofPred_eq]
    rw [← sq_abs (D x - ρ), pow_le_pow_iff_left₀ ht.le (abs_nonneg _) two_ne_zero]
  rw [h2] at h1
  rw [le_div_iff₀ (by positivity), mul_comm]
  exact h1.trans h.variance

theorem lineShape_le {g : Nat → Nat → ℝ} (hg : Damps g) {s : Scale ℝ} (ha : 0 < s.a) {num : Nat} (hnum : 1 ≤ num) (e : ℝ) {E : ℝ} (hE : -1 < s.apply E ∧ s.apply E < 1) :
    |lineShape g s num e E| ≤ 2 / Real.pi / s.a / Real.sqrt (1 - s.apply e * s.apply e) * num := by
  unfold lineShape
  rw [abs_mul, abs_of_nonneg (by positivity)]
  refine mul_le_mul_of_nonneg_left ((abs_sum_le_sum_abs _ _).trans ?_) (by positivity)
  have : ∀ k ∈ range num, |g num k * ((if k = 0 then 1 / 2 else 1) * (Chebyshev.T ℝ k).eval (s.apply E)) * Real.cos (k * Real.arccos (s.apply e))| ≤ 1 := by
    intro k hk
    obtain ⟨g1, g2⟩ := (hg num hnum).2 k (mem_range.1 hk)
    rw [abs_mul, abs_mul, abs_mul]
    have h1 : |g num k| ≤ 1 := by rw [abs_of_pos g1]; exact g2
    have h2 : |(if k = 0 then 1 / 2 else 1 : ℝ)| ≤ 1 := by split <;> norm_num [abs_le]
    have h3 : |(Chebyshev.T ℝ k).eval (s.apply E)| ≤ 1 := by rw [arccos_T hE.1 hE.2]; exact Real.abs_cos_le_one _
    have h4 := Real.abs_cos_le_one (k * Real.arccos (s.apply e))
    exact mul_le_one₀ (mul_le_one₀ h1 (by positivity) (mul_le_one₀ h2 (abs_nonneg _) h3)) (abs_nonneg _) h4
  refine (sum_le_sum this).trans ?_
  simp

theorem lineShape_nonneg {s : Scale ℝ} (ha : 0 < s.a) {num : Nat} (hnum : 1 ≤ num) (e : ℝ) {E : ℝ} (hE : -1 < s.apply E ∧ s.apply E < 1) : 0 ≤ lineShape jackson s num e E := by
  unfold lineShape
  refine mul_nonneg (by positivity) ?_
  have : ∀ k ∈ range num, jackson num k * ((if k = 0 then 1 / 2 else 1) * (Chebyshev.T ℝ k).eval (s.apply E)) * Real.cos (k * Real.arccos (s.apply e)) =
      1 / 2 * ((if k = 0 then 1 / 2 else 1) * jackson num k * Real.cos (k * (Real.arccos (s.apply E) + Real.arccos (s.apply e))) +
         (if k = 0 then 1 / 2 else 1) * jackson num k * Real.cos (k * (Real.arccos (s.apply E) - Real.arccos (s.apply e)))) := by
    intro k _
    rw [arccos_T hE.1 hE.2, mul_add (k : ℝ), mul_sub (k : ℝ), Real.cos_add, Real.cos_sub]
    ring
  rw [sum_congr rfl this, ← mul_sum, sum_add_distrib]
  exact mul_nonneg (by norm_num) (add_nonneg (jackson_kernel_nonneg num hnum _) (jackson_kernel_nonneg num hnum _))

theorem Estimates.mono {D : (Fin R × Fin n → ℝ) → ℝ} {ρ v v' : ℝ} (h : Estimates R n D ρ v) (hv : v ≤ v') : Estimates R n D ρ v' :=
  ⟨h.integrable, h.mean, h.integrable_sq, h.variance.trans hv⟩

/-- **C105** (Jackson kernel).  With bounds that enclose the spectrum, the mean square of the deviation is at most `M (1 + τ) / R` times the density of states itself, where `M` does not depend
on the system, only on the number of moments and the energy: relative to the density of states, the error becomes smaller when the density grows. -/
theorem C105_jackson (hξ : Element ξ τ) {h : Csr ℂ} {U : Matrix (Fin n) (Fin n) ℂ} {E : Fin n → ℝ} (hE : Eigen (matrixOf n h) U E) {s : Scale ℝ} (ha : 0 < s.a)
    (hin : ∀ j, -1 < s.apply (E j) ∧ s.apply (E j) < 1) {num : Nat} (hnum : 1 ≤ num) (hR : 0 < R) {e : ℝ} (he : -1 < s.apply e ∧ s.apply e < 1) :
    ∃ (D : (Fin R × Fin n → ℝ) → ℝ) (site : Fin n → ℝ),
      (∀ x, dosValue jackson s (dosMoments s h num R (vectors ξ x)) e = .ok (D x)) ∧
      (∀ i, spectralDensity s (damp jackson (momentList s (matrixOf n h) (Pi.single i 1) num)) e = .ok (site i)) ∧
      Estimates R n D (∑ i, site i) ((1 + τ) / R * (2 / Real.pi / s.a / Real.sqrt (1 - s.apply e * s.apply e) * num) * ∑ i, site i) := by
  have hτ : 0 ≤ τ := (norm_nonneg _).trans hξ.sq
  obtain ⟨D, state, site, h1, h2, h3, h4, h5⟩ := C105_mean (R := R) hξ hE s jackson num hR he
  have hst : ∀ j, state j = lineShape jackson s num e (E j) := by
    intro j
    have := h2 j
    rw [density_overlap hE s jackson _ num he] at this
    simp only [overlap_column hE.orth] at this
    simpa using (Res.ok.inj this).symm
  refine ⟨D, site, h1, h3, h5.mono ?_⟩
  rw [mul_assoc]
  refine mul_le_mul_of_nonneg_left ?_ (by positivity)
  rw [← h4, mul_sum]
  refine sum_le_sum fun j _ => ?_
  rw [hst, sq]
  exact mul_le_mul_of_nonneg_right ((le_abs_self _).trans (lineShape_le C44_jackson.1 ha hnum e (hin j))) (lineShape_nonneg ha hnum e (hin j))

/-- **C105** (moments).  The mean of every moment of the density of states is the sum over all states, and the mean square of the deviation is at most `(1 + τ) n / R`: relative to the number
of states `n`, the error is at most `sqrt((1 + τ) / (n R))`. -/
theorem C105_moments (hξ : Element ξ τ) {h : Csr ℂ} {U : Matrix (Fin n) (Fin n) ℂ} {E : Fin n → ℝ} (hE : Eigen (matrixOf n h) U E) (s : Scale ℝ)
    (hin : ∀ j, -1 < s.apply (E j) ∧ s.apply (E j) < 1) {num : Nat} (hR : 0 < R) (k : Fin num) :
    (∀ x : Fin R × Fin n → ℝ, (dosMoments s h num R (vectors ξ x) k).im = 0) ∧
    Estimates R n (fun x => (dosMoments s h num R (vectors ξ x) k).re) ((if k.val = 0 then 1 / 2 else 1) * ∑ j, Real.cos (k.val * Real.arccos (s.apply (E j)))) ((1 + τ) / R * n) := by
  have hτ : 0 ≤ τ := (norm_nonneg _).trans hξ.sq
  have key : ∀ x : Fin R × Fin n → ℝ, dosMoments s h num R (vectors ξ x) k =
      ((averaged ξ R U (fun j => (if k.val = 0 then 1 / 2 else 1) * Real.cos (k.val * Real.arccos (s.apply (E j)))) x : ℝ) : ℂ) := by
    intro x
    unfold dosMoments averaged
    rw [Complex.ofReal_mul, Complex.ofReal_inv, Complex.ofReal_natCast, Complex.ofReal_sum]
    congr 1
    refine sum_congr rfl fun j _ => ?_
    have hm := expectation_momentList s h num (vectors ξ x j)
    rw [hE.momentList] at hm
    have := (List.map_inj_left.1 hm) k.val (List.mem_range.2 k.isLt)
    rw [this, mul_sum]
    congr 1
    refine sum_congr rfl fun i _ => ?_
    rw [arccos_T (hin i).1 (hin i).2]
    ring
  refine ⟨fun x => by rw [key, Complex.ofReal_im], ?_⟩
  simp only [key, Complex.ofReal_re]
  rw [mul_sum]
  refine (averaged_estimates hξ hE.orth hR _).mono (mul_le_mul_of_nonneg_left ?_ (by positivity))
  refine (sum_le_sum (g := fun _ => (1 : ℝ)) fun j _ => ?_).trans (by simp)
  rw [sq_le_one_iff_abs_le_one, abs_mul]
  exact mul_le_one₀ (by split <;> norm_num [abs_le]) (abs_nonneg _) (Real.abs_cos_le_one _)

/-- **C105** (system size).  With the number of moments which `calc_dos` takes for a broadening and bounds which enclose the spectrum: for every function `f` of the energy with `|f| ≤ 1` at the
energies of the states and Lipschitz constant `L`, the integral of the density of states against `f` differs from the exact value, divided by the number of states, by `L` times the broadening
plus `δ` or more with a probability of at most `(1 + τ) / (n R δ²)`.  The larger the system is, the fewer random vectors are needed. -/
theorem C105_size (hξ : Element ξ τ) {h : Csr ℂ} {U : Matrix (Fin n) (Fin n) ℂ} {E : Fin n → ℝ} (hE : Eigen (matrixOf n h) U E) {s : Scale ℝ} (ha : 0 < s.a)
    (hin : ∀ j, -1 < s.apply (E j) ∧ s.apply (E j) < 1) (hR : 0 < R) (hn : 0 < n) {broadening : ℝ} (hb : 0 < broadening) (fuel : Nat) (hfuel : 4 ≤ fuel) :
    ∃ N : Nat, requiredNumMoments fuel Real.pi (broadening / s.a) = .ok (some N) ∧
      ∀ (L δ : ℝ) (f : ℝ → ℝ) (density : (Fin R × Fin n → ℝ) → ℝ → ℝ), 0 ≤ L → LipschitzOn s L f → (∀ j, |f (E j)| ≤ 1) → 0 < δ →
        (∀ x e, s.b - s.a < e → e < s.b + s.a → dosValue jackson s (dosMoments s h N R (vectors ξ x)) e = .ok (density x e)) →
        (draws (Fin R × Fin n)).real {x | n * (L * broadening + δ) ≤ |(∫ e in (s.b - s.a)..(s.b + s.a), f e * density x e) - ∑ j, f (E j)|} ≤ (1 + τ) / (n * R * δ ^ 2) := by
  have hτ : 0 ≤ τ := (norm_nonneg _).trans hξ.sq
  have hu : ∀ (x : Fin R × Fin n → ℝ) j i, star (vectors ξ x j i) * vectors ξ x j i = 1 := by
    intro x j i
    unfold vectors
    split
    · exact hξ.unit _
    · simp
  obtain ⟨N, hN, -⟩ := C85_dos (s := s) ha hE hin R hR (vectors ξ fun _ => 0) (hu _) hb fuel hfuel
  refine ⟨N, hN, fun L δ f density hL hf h1 hδ hd => ?_⟩
  have hnR : (0 : ℝ) < n := by exact_mod_cast hn
  have hRR : (0 : ℝ) < R := by exact_mod_cast hR
  have hest := averaged_estimates (R := R) hξ hE.orth hR fun j => f (E j)
  have hp := C105_probability hest (t := n * δ) (by positivity)
  have hsub : {x : Fin R × Fin n → ℝ | n * (L * broadening + δ) ≤ |(∫ e in (s.b - s.a)..(s.b + s.a), f e * density x e) - ∑ j, f (E j)|} ⊆
      {x | n * δ ≤ |averaged ξ R U (fun j => f (E j)) x - ∑ j, f (E j)|} := by
    intro x hx
    simp only [Set.mem_ofPred_eq] at hx ⊢
    obtain ⟨N', q1, q2⟩ := C85_dos (s := s) ha hE hin R hR (vectors ξ x) (hu x) hb fuel hfuel
    rw [hN] at q1
    obtain rfl : N = N' := by
      have := Option.some.inj (Res.ok.inj q1)
      exact_mod_cast this
    have q3 := q2 L f (density x) hL hf (hd x)
    have q4 : (R : ℝ)⁻¹ * ∑ q ∈ range R, exactValue U E (vectors ξ x q) f = averaged ξ R U (fun j => f (E j)) x := rfl
    rw [q4] at q3
    have q5 := abs_sub_le (∫ e in (s.b - s.a)..(s.b + s.a), f e * density x e) (averaged ξ R U (fun j => f (E j)) x) (∑ j, f (E j))
    nlinarith
  refine (measureReal_mono hsub).trans (hp.trans ?_)
  have hsq : ∑ j, f (E j) ^ 2 ≤ n := by
    refine (sum_le_sum (g := fun _ => (1 : ℝ)) fun j _ => ?_).trans (by simp)
    rw [sq_le_one_iff_abs_le_one]
    exact h1 j
  rw [div_le_div_iff₀ (by positivity) (by positivity)]
  have h2 : (1 + τ) / R * ∑ j, f (E j) ^ 2 ≤ (1 + τ) / R * n := mul_le_mul_of_nonneg_left hsq (by positivity)
  calc ((1 + τ) / R * ∑ j, f (E j) ^ 2) * (n * R * δ ^ 2) ≤ (1 + τ) / R * n * (n * R * δ ^ 2) := mul_le_mul_of_nonneg_right h2 (by positivity)
    _ = (1 + τ) * (n * δ) ^ 2 := by field_simp

/-! ## Examples -/

/-- The hypotheses of C105_mean, C105_jackson, C105_moments and C105_size: three random vectors for a pair of sites with imaginary hopping. -/
example := C105_mean (R := 3) C105_phases (exists_eigen imagPair_ready.2.2.1) ⟨2, 0⟩ jackson 10 (by norm_num) (e := 1) (by unfold Scale.apply; norm_num)

example := C105_jackson (R := 3) C105_phases (exists_eigen imagPair_ready.2.2.1) (s := ⟨2, 0⟩) (by norm_num) imagPair_inside (num := 10) (by norm_num) (by norm_num) (e := 1)
  (by unfold Scale.apply; norm_num)

example := C105_moments (R := 3) C105_signs (exists_eigen imagPair_ready.2.2.1) ⟨2, 0⟩ imagPair_inside (num := 10) (by norm_num) 4

example := C105_size (R := 3) C105_signs (exists_eigen imagPair_ready.2.2.1) (s := ⟨2, 0⟩) (by norm_num) imagPair_inside (by norm_num) (by norm_num) (broadening := 1 / 10) (by norm_num)
  10 (by norm_num)

end Verif.Kpm
