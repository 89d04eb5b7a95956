import Verif.Kpm.Spectral
import Verif.Kpm.PropsConfig
import Mathlib.LinearAlgebra.Eigenspace.Matrix
import Mathlib.MeasureTheory.Integral.IntervalIntegral.Basic

/-!
# Properties of the damping kernels and of reconstructed functions (C44, C53, C54)
-/

namespace Verif.Kpm

open Finset Polynomial

variable {n : Nat}

/-! ## C44: damping -/

/-- Specification: a sequence of damping factors that leaves the zeroth moment alone and otherwise only reduces the
magnitude of moments, without changing a sign. -/
def Damps (g : Nat → Nat → ℝ) : Prop := ∀ num, 1 ≤ num → g num 0 = 1 ∧ ∀ k < num, 0 < g num k ∧ g num k ≤ 1

/-- **C44** (Jackson).  The zeroth moment is unchanged, all others shrink strictly and keep their sign. -/
theorem C44_jackson : Damps jackson ∧ ∀ num k, 1 ≤ k → k < num → jackson num k < 1 := by
  refine ⟨fun num h => ⟨jackson_zero num, fun k hk => ⟨jackson_pos num k hk, ?_⟩⟩, fun num k h1 h2 => jackson_lt_one num k h1 h2.le⟩
  rcases Nat.eq_zero_or_pos k with h0 | h0
  · rw [h0, jackson_zero]
  · exact (jackson_lt_one num k h0 hk.le).le

/-- **C44** (Lorentz).  `lambda <= 0` is rejected; every other value gives factors that start at 1, decrease strictly
and stay positive. -/
theorem C44_lorentz (lambda : ℝ) :
    (lambda ≤ 0 → lorentz lambda = .err .invalidArgument) ∧
    (0 < lambda → ∃ g, lorentz lambda = .ok g ∧ Damps g ∧ ∀ num j k, j < k → k ≤ num → g num k < g num j) := by
  constructor
  · intro h
    unfold lorentz
    rw [if_pos h]
  · intro h
    unfold lorentz
    rw [if_neg (not_le.2 h)]
    have hs : 0 < Real.sinh lambda := Real.sinh_pos_iff.2 h
    have hdec : ∀ num j k : Nat, j < k → k ≤ num →
        Real.sinh (lambda * (1 - k / num)) / Real.sinh lambda < Real.sinh (lambda * (1 - j / num)) / Real.sinh lambda := by
      intro num j k hj hk
      have hn : (0 : ℝ) < num := by exact_mod_cast (show 0 < num by omega)
      refine div_lt_div_of_pos_right (Real.sinh_strictMono ?_) hs
      refine mul_lt_mul_of_pos_left ?_ h
      have : (j : ℝ) / num < k / num := div_lt_div_of_pos_right (by exact_mod_cast hj) hn
      linarith
    have h0 : ∀ num : Nat, Real.sinh (lambda * (1 - (0 : Nat) / num)) / Real.sinh lambda = 1 := by
      intro num
      simp [hs.ne']
    refine ⟨_, rfl, fun num h1 => ⟨h0 num, fun k hk => ⟨?_, ?_⟩⟩, hdec⟩
    · have hn : (0 : ℝ) < num := by exact_mod_cast (show 0 < num by omega)
      refine div_pos (Real.sinh_pos_iff.2 (mul_pos h ?_)) hs
      have : (k : ℝ) / num < 1 := (div_lt_one hn).2 (by exact_mod_cast hk)
      linarith
    · rcases Nat.eq_zero_or_pos k with hk0 | hk0
      · subst hk0; exact (h0 num).le
      · exact le_trans (hdec num 0 k hk0 hk.le).le (h0 num).le

/-- **C44** (Dirichlet).  Nothing changes. -/
theorem C44_dirichlet : Damps dirichlet ∧ ∀ moments : List ℂ, damp dirichlet moments = moments := by
  refine ⟨fun num _ => ⟨rfl, fun k _ => ⟨one_pos, le_refl _⟩⟩, fun moments => ?_⟩
  unfold damp dirichlet
  refine List.ext_getElem (by simp) fun i h1 h2 => ?_
  simp

/-- **C44** (application).  Damping multiplies moment `k` by factor `k` for this number of moments, and nothing else. -/
theorem C44_damp {V : Type} [SMul ℝ V] (g : Nat → Nat → ℝ) (moments : List V) :
    (damp g moments).length = moments.length ∧
      ∀ k (h : k < moments.length), (damp g moments)[k]? = some (g moments.length k • moments[k]) := by
  unfold damp
  refine ⟨by simp, fun k h => ?_⟩
  simp [h]

example : ∃ g, lorentz 4 = .ok g ∧ Damps g := by
  obtain ⟨g, h1, h2, -⟩ := (C44_lorentz 4).2 (by norm_num)
  exact ⟨g, h1, h2⟩

/-! ## The moments of a Hermitian matrix -/

/-- The scaled matrix `(H - b) / a`. -/
noncomputable def scaledMat (s : Scale ℝ) (H : Matrix (Fin n) (Fin n) ℂ) : Matrix (Fin n) (Fin n) ℂ :=
  (s.a : ℂ)⁻¹ • (H - (s.b : ℂ) • 1)

/-- The list of moments `<r|T_k((H - b) / a)|r>`, `k < num`, with the zeroth halved (C26). -/
noncomputable def momentList (s : Scale ℝ) (H : Matrix (Fin n) (Fin n) ℂ) (r : Fin n → ℂ) (num : Nat) : List ℂ :=
  (List.range num).map (diagMoment (1 / 2 : ℂ) (scaledMat s H) r)

theorem scaled_form {H : Matrix (Fin n) (Fin n) ℂ} (hH : H.IsHermitian) (s : Scale ℝ) (r : Fin n → ℂ) :
    ∃ w x : Fin n → ℝ, (∀ j, 0 ≤ w j) ∧ (∀ j, x j ∈ spectrum ℝ H) ∧
      ∀ k : Nat, inner r (chebVec (scaledMat s H) r k) = ((∑ j, w j * (Chebyshev.T ℝ k).eval (s.apply (x j)) : ℝ) : ℂ) := by
  obtain ⟨w, x, hw, hx, h⟩ := spectral_form hH r
  refine ⟨w, x, hw, hx, fun k => ?_⟩
  have hq : scaledMat s H = aeval H (C (s.a : ℂ)⁻¹ * (X - C (s.b : ℂ))) := by
    unfold scaledMat
    simp only [map_mul, map_sub, aeval_X, aeval_C]
    rw [Algebra.algebraMap_eq_smul_one, Algebra.algebraMap_eq_smul_one, smul_mul_assoc, one_mul]
  unfold chebVec
  rw [hq, ← aeval_comp, h]
  push_cast
  refine sum_congr rfl fun j _ => ?_
  congr 1
  rw [eval_comp]
  congr 1
  simp only [eval_mul, eval_sub, eval_C, eval_X, Scale.apply]
  push_cast
  ring

theorem diagMoment_form {H : Matrix (Fin n) (Fin n) ℂ} (hH : H.IsHermitian) (s : Scale ℝ) (r : Fin n → ℂ) :
    ∃ w x : Fin n → ℝ, (∀ j, 0 ≤ w j) ∧ (∀ j, x j ∈ spectrum ℝ H) ∧
      (inner r r = ((∑ j, w j : ℝ) : ℂ)) ∧
      ∀ k : Nat, diagMoment (1 / 2 : ℂ) (scaledMat s H) r k =
        (((if k = 0 then 1 / 2 else 1) * ∑ j, w j * (Chebyshev.T ℝ k).eval (s.apply (x j)) : ℝ) : ℂ) := by
  obtain ⟨w, x, hw, hx, h⟩ := scaled_form hH s r
  refine ⟨w, x, hw, hx, ?_, fun k => ?_⟩
  · have := h 0
    unfold chebVec at this
    simp only [Nat.cast_zero, Chebyshev.T_zero, map_one, eval_one, mul_one] at this
    rw [← this]
    congr 1
    funext i
    unfold act
    simp [Matrix.one_apply]
  · unfold diagMoment
    by_cases hk : k = 0
    · subst hk
      rw [if_pos rfl, h 0]
      simp
    · rw [if_neg hk, h k]
      simp [hk]

theorem sum_mapIdx_range {α β : Type} [AddCommMonoid β] (f : Nat → α) (g : Nat → α → β) (num : Nat) :
    (((List.range num).map f).mapIdx g).sum = ∑ k ∈ range num, g k (f k) := by
  have : ((List.range num).map f).mapIdx g = (List.range num).map fun k => g k (f k) :=
    List.ext_getElem (by simp) fun i h1 h2 => by simp
  rw [this]
  rfl

theorem damp_range {α : Type} [SMul ℝ α] (g : Nat → Nat → ℝ) (f : Nat → α) (num : Nat) :
    damp g ((List.range num).map f) = (List.range num).map fun k => g num k • f k := by
  unfold damp
  refine List.ext_getElem (by simp) fun i h1 h2 => by simp

/-- The density of damped moments as a sum over the spectrum. -/
theorem densityAt_form (s : Scale ℝ) (g : Nat → Nat → ℝ) (num : Nat) (m : Nat → ℝ) (E : ℝ) :
    densityAt s (damp g ((List.range num).map fun k => ((m k : ℝ) : ℂ))) E =
      2 / Real.pi / s.a / Real.sqrt (1 - E * E) * ∑ k ∈ range num, g num k * m k * Real.cos (k * Real.arccos E) := by
  unfold densityAt
  simp only
  rw [damp_range, sum_mapIdx_range]
  congr 1
  refine sum_congr rfl fun k _ => ?_
  simp

theorem arccos_T {x : ℝ} (h1 : -1 < x) (h2 : x < 1) (k : Nat) : (Chebyshev.T ℝ k).eval x = Real.cos (k * Real.arccos x) := by
  have := Chebyshev.T_real_cos (Real.arccos x) k
  rw [Real.cos_arccos h1.le h2.le] at this
  exact_mod_cast this

/-! ## C53: densities -/

/-- **C53**.  With the Jackson kernel, the local density of states of every Hermitian Hamiltonian (and of every
starting vector) is non-negative at every energy between the bounds, if the bounds enclose the spectrum. -/
theorem C53_nonnegative {H : Matrix (Fin n) (Fin n) ℂ} (hH : H.IsHermitian) {min max : ℝ} (hb : min < max)
    (hspec : spectrum ℝ H ⊆ Set.Icc min max) (r : Fin n → ℂ) (num : Nat) (h1 : 1 ≤ num) (e : ℝ) (he : min ≤ e ∧ e ≤ max) :
    ∃ s v, Scale.ofBounds min max = .ok s ∧ spectralDensity s (damp jackson (momentList s H r num)) e = .ok v ∧ 0 ≤ v := by
  obtain ⟨s, es, ha, hin, -⟩ := C33_scaled_inside hb
  obtain ⟨w, x, hw, hx, -, h⟩ := diagMoment_form hH s r
  have hE := hin e he.1 he.2
  refine ⟨s, _, es, by unfold spectralDensity; simp only; rw [if_pos hE], ?_⟩
  have hl : momentList s H r num = (List.range num).map fun k : Nat =>
      (((if k = 0 then 1 / 2 else 1) * ∑ j, w j * (Chebyshev.T ℝ k).eval (s.apply (x j)) : ℝ) : ℂ) := by
    unfold momentList
    exact List.map_congr_left fun k _ => h k
  rw [hl, densityAt_form]
  refine mul_nonneg (by positivity) ?_
  generalize s.apply e = E at hE
  have hx' : ∀ j, -1 < s.apply (x j) ∧ s.apply (x j) < 1 := fun j => by
    have := hspec (hx j)
    exact hin _ this.1 this.2
  have hterm : ∀ k ∈ range num, jackson num k * ((if k = 0 then 1 / 2 else 1) * ∑ j, w j * (Chebyshev.T ℝ k).eval (s.apply (x j))) *
      Real.cos (k * Real.arccos E) = ∑ j, w j / 2 *
        ((if k = 0 then 1 / 2 else 1) * jackson num k * Real.cos (k * (Real.arccos (s.apply (x j)) + Real.arccos E)) +
         (if k = 0 then 1 / 2 else 1) * jackson num k * Real.cos (k * (Real.arccos (s.apply (x j)) - Real.arccos E))) := by
    intro k _
    rw [mul_sum, mul_sum, sum_mul]
    refine sum_congr rfl fun j _ => ?_
    rw [arccos_T (hx' j).1 (hx' j).2, mul_add (k : ℝ), mul_sub (k : ℝ), Real.cos_add, Real.cos_sub]
    ring
  rw [sum_congr rfl hterm, sum_comm]
  refine sum_nonneg fun j _ => ?_
  rw [← mul_sum, sum_add_distrib]
  exact mul_nonneg (by have := hw j; positivity) (add_nonneg (jackson_kernel_nonneg num h1 _) (jackson_kernel_nonneg num h1 _))

/-- **C53** (bound).  No moment is larger than `<r|r>`, if the bounds enclose the spectrum. -/
theorem C53_bounded {H : Matrix (Fin n) (Fin n) ℂ} (hH : H.IsHermitian) {min max : ℝ} (hb : min < max)
    (hspec : spectrum ℝ H ⊆ Set.Icc min max) (r : Fin n → ℂ) (k : Nat) :
    ∃ s, Scale.ofBounds min max = .ok s ∧
      (inner r (chebVec (scaledMat s H) r k)).im = 0 ∧ |(inner r (chebVec (scaledMat s H) r k)).re| ≤ (inner r r).re := by
  obtain ⟨s, es, ha, hin, -⟩ := C33_scaled_inside hb
  obtain ⟨w, x, hw, hx, h0, h⟩ := diagMoment_form hH s r
  refine ⟨s, es, ?_⟩
  have hk : inner r (chebVec (scaledMat s H) r k) = ((∑ j, w j * (Chebyshev.T ℝ k).eval (s.apply (x j)) : ℝ) : ℂ) := by
    have hh := h k
    unfold diagMoment at hh
    by_cases hk : k = 0
    · subst hk
      rw [if_pos rfl, if_pos rfl, smul_eq_mul] at hh
      have h2 : (1 / 2 : ℂ) ≠ 0 := by norm_num
      refine mul_left_cancel₀ h2 (hh.trans ?_)
      push_cast
      ring
    · rw [if_neg hk, if_neg hk, one_mul] at hh
      exact hh
  rw [hk, h0, Complex.ofReal_im, Complex.ofReal_re, Complex.ofReal_re]
  refine ⟨rfl, (abs_sum_le_sum_abs _ _).trans (sum_le_sum fun j _ => ?_)⟩
  have hj := hspec (hx j)
  obtain ⟨h1, h2⟩ := hin _ hj.1 hj.2
  rw [arccos_T h1 h2, abs_mul, abs_of_nonneg (hw j)]
  exact mul_le_of_le_one_right (hw j) (Real.abs_cos_le_one _)

/-- The integral of the density for given real moments. -/
theorem density_integral {s : Scale ℝ} (ha : 0 < s.a) (g : Nat → Nat → ℝ) (m : Nat → ℝ) (num : Nat) (h1 : 1 ≤ num) (hg : g num 0 = 1)
    (density : ℝ → ℝ) (hd : ∀ e, s.b - s.a < e → e < s.b + s.a →
      spectralDensity s (damp g ((List.range num).map fun k => ((m k : ℝ) : ℂ))) e = .ok (density e)) :
    ∫ e in (s.b - s.a)..(s.b + s.a), density e = 2 * m 0 := by
  have ha' := ha.ne'
  -- the density in terms of polynomials
  let P : ℝ → ℝ := fun E => ∑ k ∈ range num, g num k * m k * (Chebyshev.T ℝ k).eval E
  let F : ℝ → ℝ := fun E => 2 / Real.pi / s.a * (P E * Real.sqrt (1 - E ^ 2)⁻¹)
  have hF : ∫ e in (s.b - s.a)..(s.b + s.a), density e = ∫ e in (s.b - s.a)..(s.b + s.a), F (e / s.a - s.b / s.a) := by
    refine intervalIntegral.integral_congr_ae ?_
    rw [Set.uIoc_of_le (by linarith)]
    refine (MeasureTheory.ae_iff.2 ?_)
    refine MeasureTheory.measure_mono_null (t := {s.b + s.a}) ?_ (by simp)
    intro e he
    simp only [Set.mem_setOf_eq, Classical.not_imp] at he
    obtain ⟨⟨e1, e2⟩, hne⟩ := he
    by_contra hlast
    have e3 : e < s.b + s.a := lt_of_le_of_ne e2 hlast
    apply hne
    have hE : -1 < s.apply e ∧ s.apply e < 1 := by
      unfold Scale.apply
      rw [lt_div_iff₀ ha, div_lt_iff₀ ha]
      constructor <;> linarith
    have hd' := hd e e1 e3
    unfold spectralDensity at hd'
    simp only at hd'
    rw [if_pos hE, densityAt_form] at hd'
    have hd'' : _ = density e := Res.ok.inj hd'
    rw [← hd'', ← sub_div]
    show _ = F (s.apply e)
    simp only [F, P]
    rw [sum_congr rfl fun k _ => by rw [← arccos_T hE.1 hE.2 k], Real.sqrt_inv, sq]
    ring
  rw [hF, intervalIntegral.integral_comp_div_sub _ ha',
    show (s.b - s.a) / s.a - s.b / s.a = -1 by field_simp; ring, show (s.b + s.a) / s.a - s.b / s.a = 1 by field_simp; ring]
  simp only [F]
  rw [intervalIntegral.integral_const_mul, ← Chebyshev.integral_measureT]
  have hint : ∀ k ∈ range num, MeasureTheory.Integrable (fun E => g num k * m k * (Chebyshev.T ℝ k).eval E) Chebyshev.measureT := fun k _ =>
    Chebyshev.integrable_measureT (by fun_prop)
  simp only [P]
  rw [MeasureTheory.integral_finset_sum _ hint]
  have hterm : ∀ k ∈ range num, ∫ E, g num k * m k * (Chebyshev.T ℝ k).eval E ∂Chebyshev.measureT =
      if k = 0 then Real.pi * m 0 else 0 := by
    intro k _
    rw [MeasureTheory.integral_const_mul]
    by_cases hk : k = 0
    · subst hk
      rw [if_pos rfl, Nat.cast_zero, Chebyshev.integral_eval_T_real_measureT_zero, hg]; ring
    · rw [if_neg hk, Chebyshev.integral_eval_T_real_measureT_of_ne_zero (by exact_mod_cast hk), mul_zero]
  rw [sum_congr rfl hterm, sum_ite_eq' (range num) 0, if_pos (mem_range.2 h1), smul_eq_mul]
  have := Real.pi_ne_zero
  field_simp

/-- **C53** (sum rule).  For every kernel that leaves the zeroth moment alone (all three do, C44), the integral of the
density over the whole range of energies is `<r|r>`: 1 for the local density of states of an orbital. -/
theorem C53_sum_rule {H : Matrix (Fin n) (Fin n) ℂ} (hH : H.IsHermitian) {s : Scale ℝ} (ha : 0 < s.a)
    (g : Nat → Nat → ℝ) (r : Fin n → ℂ) (num : Nat) (h1 : 1 ≤ num) (hg : g num 0 = 1) (density : ℝ → ℝ)
    (hd : ∀ e, s.b - s.a < e → e < s.b + s.a → spectralDensity s (damp g (momentList s H r num)) e = .ok (density e)) :
    ∫ e in (s.b - s.a)..(s.b + s.a), density e = (inner r r).re := by
  obtain ⟨w, x, hw, hx, h0, h⟩ := diagMoment_form hH s r
  set m : Nat → ℝ := fun k => (if k = 0 then 1 / 2 else 1) * ∑ j, w j * (Chebyshev.T ℝ k).eval (s.apply (x j)) with hm
  have hl : momentList s H r num = (List.range num).map fun k => ((m k : ℝ) : ℂ) := by
    unfold momentList
    exact List.map_congr_left fun k _ => h k
  rw [hl] at hd
  rw [density_integral ha g m num h1 hg density hd, h0, Complex.ofReal_re, hm]
  simp

/-! ## C54: the Green's function and the local density of states -/

/-- **C54**.  For the same number of moments and every kernel, the local density of states is `-1/pi` times the
imaginary part of the diagonal Green's function. -/
theorem C54_greens_ldos {H : Matrix (Fin n) (Fin n) ℂ} (hH : H.IsHermitian) (s : Scale ℝ) (g : Nat → Nat → ℝ) (r : Fin n → ℂ)
    (num : Nat) (e : ℝ) (he : -1 < s.apply e ∧ s.apply e < 1) :
    ∃ v G, spectralDensity s (damp g (momentList s H r num)) e = .ok v ∧
      greensFunction s (damp g (momentList s H r num)) e = .ok G ∧ v = -(1 / Real.pi) * G.im := by
  obtain ⟨w, x, -, -, -, h⟩ := diagMoment_form hH s r
  set m : Nat → ℝ := fun k => (if k = 0 then 1 / 2 else 1) * ∑ j, w j * (Chebyshev.T ℝ k).eval (s.apply (x j)) with hm
  have hl : momentList s H r num = (List.range num).map fun k => ((m k : ℝ) : ℂ) := by
    unfold momentList
    exact List.map_congr_left fun k _ => h k
  refine ⟨_, _, by unfold spectralDensity; simp only; rw [if_pos he], by unfold greensFunction; simp only; rw [if_pos he], ?_⟩
  rw [hl, densityAt_form, damp_range, sum_mapIdx_range]
  generalize s.apply e = E
  have hk : -2 * Complex.I / (s.a : ℂ) / (Real.sqrt (1 - E * E) : ℂ) = ((-2 / s.a / Real.sqrt (1 - E * E) : ℝ) : ℂ) * Complex.I := by
    push_cast; ring
  rw [hk, mul_assoc, Complex.re_ofReal_mul |> fun _ => Complex.im_ofReal_mul, Complex.I_mul_im, Complex.re_sum]
  have hterm : ∀ k ∈ range num, ((g num k • ((m k : ℝ) : ℂ)) * Complex.exp (-Complex.I * k * (Real.arccos E : ℂ))).re =
      g num k * m k * Real.cos (k * Real.arccos E) := by
    intro k _
    have : -Complex.I * k * (Real.arccos E : ℂ) = ((-(k * Real.arccos E) : ℝ) : ℂ) * Complex.I := by push_cast; ring
    rw [this, Complex.real_smul, ← Complex.ofReal_mul, Complex.re_ofReal_mul, Complex.exp_ofReal_mul_I_re, Real.cos_neg]
  rw [sum_congr rfl hterm]
  ring

/-! ## C55: integration over the energy -/

/-- Specification: the trapezoidal rule for `N` equidistant samples of a function over an interval of length `width`:
the areas of the `N - 1` trapezoids. -/
def trapezoid {K : Type} [Field K] (width : K) (N : Nat) (f : Nat → K) : K :=
  ∑ i ∈ range (N - 1), width / ((N : K) - 1) * ((f i + f (i + 1)) / 2)

theorem trapezoid_sum {K : Type} [Field K] [CharZero K] (width : K) (N : Nat) (f : Nat → K) :
    trapezoid width (N + 1) f = width / (2 * N) * (2 * ∑ i ∈ range (N + 1), f i - f 0 - f N) := by
  have h : ∀ M, ∑ i ∈ range M, (f i + f (i + 1)) = 2 * ∑ i ∈ range (M + 1), f i - f 0 - f M := by
    intro M
    induction M with
    | zero => simp; ring
    | succ M ih => rw [sum_range_succ, ih, sum_range_succ _ (M + 1)]; ring
  unfold trapezoid
  rw [Nat.add_sub_cancel, ← mul_sum, ← Finset.sum_div, h]
  push_cast
  rw [add_sub_cancel_right]
  ring

/-- **C55** (what holds).  The integral over the energy in the conductivity is the trapezoidal rule, times a factor
`(N - 1) / N` for `N` energy samples.  Missing: the factor should be 1. -/
theorem C55_integration_partial {K : Type} [Field K] [CharZero K] (width : K) (N : Nat) (h2 : 2 ≤ N) (f : Nat → K) :
    kuboIntegrate width ((List.range N).map f) = .ok (((N : K) - 1) / N * trapezoid width N f) := by
  obtain ⟨m, rfl⟩ : ∃ m, N = m + 2 := ⟨N - 2, by omega⟩
  rw [trapezoid_sum]
  unfold kuboIntegrate Numeric.rd
  have hs : ((List.range (m + 2)).map f).sum = ∑ i ∈ range (m + 2), f i := rfl
  have hl : ((List.range (m + 2)).map f)[(m + 2 - 1)]? = some (f (m + 1)) := by simp
  have h0 : ((List.range (m + 2)).map f)[0]? = some (f 0) := by simp
  simp only [List.length_map, List.length_range, hl, h0, hs]
  show Res.ok _ = Res.ok _
  congr 1
  have h1 : ((m : K) + 1) ≠ 0 := by exact_mod_cast Nat.succ_ne_zero m
  have h3 : ((m : K) + 2) ≠ 0 := by exact_mod_cast Nat.succ_ne_zero (m + 1)
  push_cast
  rw [show (m : K) + 2 - 1 = m + 1 by ring]
  field_simp

/-- **C55** (finding).  The integral of the constant 1 over an interval of positive length is too small, for every
number of samples. -/
theorem C55_constant_too_small (width : ℝ) (hw : 0 < width) (N : Nat) (h2 : 2 ≤ N) :
    ∃ v, kuboIntegrate width ((List.range N).map fun _ => (1 : ℝ)) = .ok v ∧ v < width := by
  refine ⟨_, C55_integration_partial width N h2 _, ?_⟩
  have hN : (2 : ℝ) ≤ N := by exact_mod_cast h2
  unfold trapezoid
  rw [sum_const, card_range, nsmul_eq_mul, Nat.cast_sub (by omega)]
  have h1 : ((N : ℝ) - 1) ≠ 0 := by intro h; linarith
  have e : ((N : ℝ) - 1) / N * (((N : ℝ) - (1 : Nat)) * (width / (N - 1) * ((1 + 1) / 2))) = width * ((N - 1) / N) := by
    push_cast
    field_simp
    ring
  rw [e]
  refine mul_lt_of_lt_one_right hw ?_
  rw [div_lt_one (by linarith)]
  linarith

example : kuboIntegrate (6 : ℚ) ((List.range 3).map fun i : Nat => (i : ℚ)) =
    .ok ((((3 : Nat) : ℚ) - 1) / (3 : Nat) * trapezoid 6 3 fun i : Nat => (i : ℚ)) :=
  C55_integration_partial 6 3 (by norm_num) _

/-! ## A concrete Hamiltonian -/

/-- Two orbitals with onsite energies 1 and -1. -/
noncomputable def pair2 : Matrix (Fin 2) (Fin 2) ℂ := Matrix.diagonal ![1, -1]

theorem pair2_hermitian : pair2.IsHermitian := by
  unfold pair2
  ext i j
  fin_cases i <;> fin_cases j <;> simp [Matrix.diagonal]

theorem pair2_spectrum : spectrum ℝ pair2 ⊆ Set.Icc (-1) 1 := by
  intro x hx
  unfold pair2 at hx
  rw [← spectrum.algebraMap_mem_iff ℂ, spectrum_diagonal] at hx
  obtain ⟨i, hi⟩ := hx
  fin_cases i
  · simp at hi
    have : x = 1 := by exact_mod_cast hi.symm
    rw [this]; constructor <;> norm_num
  · simp at hi
    have : x = -1 := by exact_mod_cast hi.symm
    rw [this]; constructor <;> norm_num

example : ∃ s v, Scale.ofBounds (-1 : ℝ) 1 = .ok s ∧ spectralDensity s (damp jackson (momentList s pair2 ![1, 0] 10)) 0 = .ok v ∧ 0 ≤ v :=
  C53_nonnegative pair2_hermitian (by norm_num) pair2_spectrum _ 10 (by norm_num) 0 (by norm_num)

example : ∃ v G, spectralDensity ⟨2, 0⟩ (damp jackson (momentList ⟨2, 0⟩ pair2 ![1, 0] 10)) 1 = .ok v ∧
      greensFunction ⟨2, 0⟩ (damp jackson (momentList ⟨2, 0⟩ pair2 ![1, 0] 10)) 1 = .ok G ∧ v = -(1 / Real.pi) * G.im :=
  C54_greens_ldos pair2_hermitian _ _ _ 10 1 (by unfold Scale.apply; norm_num)

end Verif.Kpm
