import Verif.Kpm.Convergence
import Verif.Kpm.PropsLdos
import Verif.Kpm.PropsStochastic

/-!
# KPM densities approximate the exact ones (C85)

The exact local density of states is a sum of delta functions at the energies of the eigenstates, with the probabilities of the eigenstates as weights; it is specified by its integrals against
functions of the energy (`exactValue`).
-/

namespace Verif.Kpm

open Finset Polynomial
open Verif.Hopping (Csr)
open Verif.Sublat

variable {n : Nat}

/-- Specification: the integral of the exact density of the vector `r` against `f`, i.e. `<r|f(H)|r>`: the values of `f` at the energies, weighted with the probabilities of the
eigenstates. -/
noncomputable def exactValue (U : Matrix (Fin n) (Fin n) ℂ) (E : Fin n → ℝ) (r : Fin n → ℂ) (f : ℝ → ℝ) : ℝ := ∑ j, overlap U r j * f (E j)

/-- Specification: `f` is Lipschitz with constant `L` between the limits of the scale. -/
def LipschitzOn (s : Scale ℝ) (L : ℝ) (f : ℝ → ℝ) : Prop :=
  ∀ e e', s.b - s.a ≤ e → e ≤ s.b + s.a → s.b - s.a ≤ e' → e' ≤ s.b + s.a → |f e - f e'| ≤ L * |e - e'|

variable {H U : Matrix (Fin n) (Fin n) ℂ} {E : Fin n → ℝ}

/-- The integral of the density against `f` as a sum of averages, one for each eigenstate. -/
theorem against_average (hE : Eigen H U E) {s : Scale ℝ} (ha : 0 < s.a) (hin : ∀ j, -1 < s.apply (E j) ∧ s.apply (E j) < 1) (g : Nat → Nat → ℝ) (r : Fin n → ℂ) (num : Nat)
    (f density : ℝ → ℝ) (hf : Continuous fun t => f (s.a * Real.cos t + s.b))
    (hd : ∀ e, s.b - s.a < e → e < s.b + s.a → spectralDensity s (damp g (momentList s H r num)) e = .ok (density e)) :
    ∫ e in (s.b - s.a)..(s.b + s.a), f e * density e =
      ∑ j, overlap U r j * average g num (Real.arccos (s.apply (E j))) fun t => f (s.a * Real.cos t + s.b) := by
  rw [hE.momentList] at hd
  rw [density_against ha g _ num f density hd]
  have hk : ∀ t, ∑ k ∈ range num, g num k * ((if k = 0 then 1 / 2 else 1) * ∑ j, overlap U r j * (Chebyshev.T ℝ k).eval (s.apply (E j))) * Real.cos (k * t) =
      ∑ j, overlap U r j * kern g num (Real.arccos (s.apply (E j))) t := by
    intro t
    unfold kern
    simp only [mul_sum, sum_mul]
    rw [sum_comm]
    refine sum_congr rfl fun j _ => sum_congr rfl fun k _ => ?_
    rw [arccos_T (hin j).1 (hin j).2]
    ring
  simp only [hk]
  simp only [mul_sum]
  have hc := fun j => kern_continuous g num (Real.arccos (s.apply (E j)))
  have hint : ∀ j, IntervalIntegrable (fun t => f (s.a * Real.cos t + s.b) * (overlap U r j * kern g num (Real.arccos (s.apply (E j))) t)) MeasureTheory.volume 0 Real.pi :=
    fun j => (hf.mul (continuous_const.mul (hc j))).intervalIntegrable _ _
  rw [intervalIntegral.integral_finsetSum fun j _ => hint j, mul_sum]
  refine sum_congr rfl fun j _ => ?_
  unfold average
  have : (fun t => f (s.a * Real.cos t + s.b) * (overlap U r j * kern g num (Real.arccos (s.apply (E j))) t)) =
      fun t => overlap U r j * (f (s.a * Real.cos t + s.b) * kern g num (Real.arccos (s.apply (E j))) t) := by funext t; ring
  rw [this, intervalIntegral.integral_const_mul]
  ring

theorem cos_arccos_back {s : Scale ℝ} (ha : 0 < s.a) {x : ℝ} (h : -1 < s.apply x ∧ s.apply x < 1) : s.a * Real.cos (Real.arccos (s.apply x)) + s.b = x := by
  rw [Real.cos_arccos h.1.le h.2.le]
  unfold Scale.apply
  have := ha.ne'
  field_simp
  ring

/-- `f` as a function of the angle. -/
theorem LipschitzOn.angle {s : Scale ℝ} (ha : 0 < s.a) {L : ℝ} {f : ℝ → ℝ} (hf : LipschitzOn s L f) (t u : ℝ) :
    |f (s.a * Real.cos t + s.b) - f (s.a * Real.cos u + s.b)| ≤ L * s.a * |Real.cos t - Real.cos u| := by
  have h1 := Real.neg_one_le_cos t
  have h2 := Real.cos_le_one t
  have h3 := Real.neg_one_le_cos u
  have h4 := Real.cos_le_one u
  refine (hf _ _ (by nlinarith) (by nlinarith) (by nlinarith) (by nlinarith)).trans (le_of_eq ?_)
  rw [show s.a * Real.cos t + s.b - (s.a * Real.cos u + s.b) = s.a * (Real.cos t - Real.cos u) by ring, abs_mul, abs_of_pos ha]
  ring

theorem LipschitzOn.continuous {s : Scale ℝ} (ha : 0 < s.a) {L : ℝ} (hL : 0 ≤ L) {f : ℝ → ℝ} (hf : LipschitzOn s L f) : Continuous fun t => f (s.a * Real.cos t + s.b) := by
  rw [Metric.continuous_iff]
  intro u ε hε
  have hK : 0 < L * s.a + 1 := by positivity
  obtain ⟨δ, hδ, hc⟩ := Metric.continuous_iff.1 Real.continuous_cos u (ε / (L * s.a + 1)) (by positivity)
  refine ⟨δ, hδ, fun t ht => ?_⟩
  have h1 := hc t ht
  rw [Real.dist_eq] at h1 ⊢
  refine lt_of_le_of_lt (hf.angle ha t u) ?_
  rw [lt_div_iff₀ hK] at h1
  have := abs_nonneg (Real.cos t - Real.cos u)
  nlinarith

/-- **C85** (Jackson kernel, any number of moments).  The integral of the reconstructed density against a function with Lipschitz constant `L` differs from the exact value by at most
`L pi a / (N + 1)` per unit of the norm, where `N >= 2` is the number of moments and `a` half of the width of the energy range. -/
theorem C85_jackson (hE : Eigen H U E) {s : Scale ℝ} (ha : 0 < s.a) (hin : ∀ j, -1 < s.apply (E j) ∧ s.apply (E j) < 1) (r : Fin n → ℂ) {num : Nat} (h2 : 2 ≤ num)
    {L : ℝ} (hL : 0 ≤ L) {f density : ℝ → ℝ} (hf : LipschitzOn s L f)
    (hd : ∀ e, s.b - s.a < e → e < s.b + s.a → spectralDensity s (damp jackson (momentList s H r num)) e = .ok (density e)) :
    |(∫ e in (s.b - s.a)..(s.b + s.a), f e * density e) - exactValue U E r f| ≤ L * (s.a * Real.pi / (num + 1)) * (inner r r).re := by
  have hc := hf.continuous ha hL
  rw [against_average hE ha hin jackson r num f density hc hd]
  unfold exactValue
  rw [← sum_sub_distrib, ← hE.overlap_sum r, Complex.ofReal_re, mul_sum]
  refine (abs_sum_le_sum_abs _ _).trans (sum_le_sum fun j _ => ?_)
  rw [← mul_sub, abs_mul, abs_of_nonneg (overlap_nonneg U r j), mul_comm]
  refine mul_le_mul_of_nonneg_right ?_ (overlap_nonneg U r j)
  have h := average_lipschitz h2 (Real.arccos (s.apply (E j))) hc (L := L * s.a) (fun t => hf.angle ha t _) (by positivity)
  rw [cos_arccos_back ha (hin j)] at h
  refine h.trans (le_of_eq ?_)
  ring

/-- **C85** (broadening).  With the number of moments which the Jackson kernel takes for a broadening, the integral of the density against a function with Lipschitz constant `L` differs from
the exact value by at most `L` times the broadening, per unit of the norm: no state is displaced by more than the broadening in the mean. -/
theorem C85_broadening (hE : Eigen H U E) {s : Scale ℝ} (ha : 0 < s.a) (hin : ∀ j, -1 < s.apply (E j) ∧ s.apply (E j) < 1) (r : Fin n → ℂ) {broadening : ℝ} (hb : 0 < broadening)
    (fuel : Nat) (hfuel : 4 ≤ fuel) :
    ∃ N : Nat, requiredNumMoments fuel Real.pi (broadening / s.a) = .ok (some N) ∧ N % 4 = 2 ∧
      ∀ (L : ℝ) (f density : ℝ → ℝ), 0 ≤ L → LipschitzOn s L f →
        (∀ e, s.b - s.a < e → e < s.b + s.a → spectralDensity s (damp jackson (momentList s H r N)) e = .ok (density e)) →
        |(∫ e in (s.b - s.a)..(s.b + s.a), f e * density e) - exactValue U E r f| ≤ L * broadening * (inner r r).re := by
  obtain ⟨N, h1, h2, h3, -⟩ := C52_resolution fuel hfuel Real.pi_pos (broadening := broadening / s.a) (by positivity)
  obtain ⟨m, rfl⟩ : ∃ m : Nat, N = m := ⟨N.toNat, by have := h2.1; omega⟩
  refine ⟨m, h1, by have := h2.2.2; omega, fun L f density hL hf hd => ?_⟩
  have hm : 2 ≤ m := by have := h2.1; omega
  refine (C85_jackson hE ha hin r hm hL hf hd).trans ?_
  have hr : 0 ≤ (inner r r).re := by
    rw [← hE.overlap_sum r, Complex.ofReal_re]
    exact sum_nonneg fun j _ => overlap_nonneg U r j
  refine mul_le_mul_of_nonneg_right (mul_le_mul_of_nonneg_left ?_ hL) hr
  have hm0 : (0 : ℝ) < m := by exact_mod_cast (by omega : 0 < m)
  push_cast at h3
  rw [div_lt_div_iff₀ hm0 ha] at h3
  rw [div_le_iff₀ (by positivity)]
  nlinarith

/-! ## All continuous functions -/

/-- The average of the Jackson kernel converges for every continuous function of the cosine. -/
theorem average_tendsto {F : ℝ → ℝ} (hF : ContinuousOn F (Set.Icc (-1) 1)) (x : ℝ) :
    Filter.Tendsto (fun num => average jackson num x fun t => F (Real.cos t)) Filter.atTop (nhds (F (Real.cos x))) := by
  have hmem : ∀ t, Real.cos t ∈ Set.Icc (-1 : ℝ) 1 := fun t => ⟨Real.neg_one_le_cos t, Real.cos_le_one t⟩
  have hcont : Continuous fun t => F (Real.cos t) := hF.comp_continuous Real.continuous_cos hmem
  obtain ⟨M, hM⟩ := isCompact_Icc.exists_bound_of_continuousOn hF
  have hM0 : 0 ≤ M := (norm_nonneg _).trans (hM _ (hmem x))
  rw [Metric.tendsto_atTop]
  intro ε hε
  obtain ⟨δ, hδ, hclose⟩ := Metric.continuousOn_iff.1 hF (Real.cos x) (hmem x) (ε / 2) (by positivity)
  have hbound : ∀ t, |F (Real.cos t) - F (Real.cos x)| ≤ 2 * M / δ ^ 2 * (Real.cos t - Real.cos x) ^ 2 + ε / 2 := by
    intro t
    rcases lt_or_ge |Real.cos t - Real.cos x| δ with h | h
    · have h1 := hclose _ (hmem t) (by rw [Real.dist_eq]; exact h)
      rw [Real.dist_eq] at h1
      have : 0 ≤ 2 * M / δ ^ 2 * (Real.cos t - Real.cos x) ^ 2 := by positivity
      linarith
    · have h1 := hM _ (hmem t)
      have h2 := hM _ (hmem x)
      rw [Real.norm_eq_abs] at h1 h2
      have h3 : |F (Real.cos t) - F (Real.cos x)| ≤ 2 * M := (abs_sub _ _).trans (by linarith)
      have h4 : 1 ≤ (Real.cos t - Real.cos x) ^ 2 / δ ^ 2 := by
        rw [one_le_div (by positivity), ← sq_abs (Real.cos t - Real.cos x)]
        exact pow_le_pow_left₀ hδ.le h 2
      have h5 : 2 * M * 1 ≤ 2 * M * ((Real.cos t - Real.cos x) ^ 2 / δ ^ 2) := mul_le_mul_of_nonneg_left h4 (by linarith)
      have h6 : 2 * M / δ ^ 2 * (Real.cos t - Real.cos x) ^ 2 = 2 * M * ((Real.cos t - Real.cos x) ^ 2 / δ ^ 2) := by ring
      rw [h6]
      linarith
  have hlim : Filter.Tendsto (fun num : Nat => 2 * M / δ ^ 2 * (Real.pi / (num + 1)) ^ 2) Filter.atTop (nhds 0) := by
    have h1 : Filter.Tendsto (fun num : Nat => Real.pi / ((num : ℝ) + 1)) Filter.atTop (nhds 0) := by
      have := (tendsto_one_div_add_atTop_nhds_zero_nat (𝕜 := ℝ)).const_mul Real.pi
      rw [mul_zero] at this
      refine this.congr fun num => ?_
      ring
    have h2 := (h1.pow 2).const_mul (2 * M / δ ^ 2)
    simpa using h2
  obtain ⟨N, hN⟩ := (Metric.tendsto_atTop.1 hlim) (ε / 2) (by positivity)
  refine ⟨max N 2, fun num hnum => ?_⟩
  have h1 : 1 ≤ num := by omega
  have hsmall := hN num (by omega)
  rw [Real.dist_eq, sub_zero] at hsmall
  have hsmall' := (abs_lt.1 hsmall).2
  have hsq := mul_le_mul_of_nonneg_left (average_sq (num := num) (by omega) x) (show 0 ≤ 2 * M / δ ^ 2 by positivity)
  have hup := average_mono h1 x (f1 := fun t => F (Real.cos t)) (f2 := fun t => 2 * M / δ ^ 2 * (Real.cos t - Real.cos x) ^ 2 + (ε / 2 + F (Real.cos x))) hcont
    (by fun_prop) (fun t => by have := (abs_le.1 (hbound t)).2; linarith)
  have hlo := average_mono h1 x (f1 := fun t => (-(2 * M / δ ^ 2)) * (Real.cos t - Real.cos x) ^ 2 + (-(ε / 2) + F (Real.cos x))) (f2 := fun t => F (Real.cos t))
    (by fun_prop) hcont (fun t => by have := (abs_le.1 (hbound t)).1; linarith)
  rw [average_add (by fun_prop) (by fun_prop), average_smul, average_const h1 (jackson_zero num)] at hup hlo
  rw [Real.dist_eq, abs_lt]
  constructor <;> linarith

/-- **C85** (convergence).  For every continuous function of the energy, the integral of the density against it converges to the exact value when the number of moments grows (Jackson
kernel): the densities converge weakly to the exact local density of states. -/
theorem C85_converges (hE : Eigen H U E) {s : Scale ℝ} (ha : 0 < s.a) (hin : ∀ j, -1 < s.apply (E j) ∧ s.apply (E j) < 1) (r : Fin n → ℂ) {f : ℝ → ℝ}
    (hf : ContinuousOn f (Set.Icc (s.b - s.a) (s.b + s.a))) (density : Nat → ℝ → ℝ)
    (hd : ∀ num e, s.b - s.a < e → e < s.b + s.a → spectralDensity s (damp jackson (momentList s H r num)) e = .ok (density num e)) :
    Filter.Tendsto (fun num => ∫ e in (s.b - s.a)..(s.b + s.a), f e * density num e) Filter.atTop (nhds (exactValue U E r f)) := by
  have hF : ContinuousOn (fun y => f (s.a * y + s.b)) (Set.Icc (-1) 1) := by
    refine hf.comp (by fun_prop) fun y hy => ?_
    obtain ⟨h1, h2⟩ := hy
    constructor <;> nlinarith
  have hc : Continuous fun t => f (s.a * Real.cos t + s.b) :=
    hF.comp_continuous Real.continuous_cos fun t => ⟨Real.neg_one_le_cos t, Real.cos_le_one t⟩
  have e : (fun num => ∫ e in (s.b - s.a)..(s.b + s.a), f e * density num e) = fun num =>
      ∑ j, overlap U r j * average jackson num (Real.arccos (s.apply (E j))) fun t => f (s.a * Real.cos t + s.b) := by
    funext num
    exact against_average hE ha hin jackson r num f (density num) hc (hd num)
  rw [e]
  unfold exactValue
  refine tendsto_finsetSum _ fun j _ => ?_
  have := (average_tendsto hF (Real.arccos (s.apply (E j)))).const_mul (overlap U r j)
  rwa [cos_arccos_back ha (hin j)] at this

/-! ## Polynomials -/

/-- Linear combinations of the first cosines. -/
def cosines (d : Nat) : Submodule ℝ (ℝ → ℝ) := Submodule.span ℝ {φ | ∃ k : Nat, k ≤ d ∧ φ = fun t => Real.cos (k * t)}

theorem cosines_mono {d d' : Nat} (h : d ≤ d') : cosines d ≤ cosines d' := Submodule.span_mono fun _ ⟨k, hk, e⟩ => ⟨k, hk.trans h, e⟩

theorem cosines_mul {d : Nat} {φ : ℝ → ℝ} (h : φ ∈ cosines d) (a b : ℝ) : (fun t => (a * Real.cos t + b) * φ t) ∈ cosines (d + 1) := by
  induction h using Submodule.span_induction with
  | mem φ hφ =>
    obtain ⟨k, hk, rfl⟩ := hφ
    have hm : ∀ i : Nat, i ≤ d + 1 → (fun t => Real.cos ((i : ℝ) * t)) ∈ cosines (d + 1) := fun i hi => Submodule.subset_span ⟨i, hi, rfl⟩
    rcases k with _ | k
    · have e : (fun t => (a * Real.cos t + b) * Real.cos (((0 : Nat) : ℝ) * t)) = a • (fun t => Real.cos (((1 : Nat) : ℝ) * t)) + b • fun t => Real.cos (((0 : Nat) : ℝ) * t) := by
        funext t
        simp
      rw [e]
      exact Submodule.add_mem _ (Submodule.smul_mem _ _ (hm 1 (by omega))) (Submodule.smul_mem _ _ (hm 0 (by omega)))
    · have e : (fun t => (a * Real.cos t + b) * Real.cos (((k + 1 : Nat) : ℝ) * t)) = (a / 2) • (fun t => Real.cos (((k + 2 : Nat) : ℝ) * t)) +
          ((a / 2) • (fun t => Real.cos (((k : Nat) : ℝ) * t)) + b • fun t => Real.cos (((k + 1 : Nat) : ℝ) * t)) := by
        funext t
        simp only [Pi.add_apply, Pi.smul_apply, smul_eq_mul]
        have h1 : (((k + 2 : Nat) : ℝ) * t) = ((k + 1 : Nat) : ℝ) * t + t := by push_cast; ring
        have h2 : (((k : Nat) : ℝ) * t) = ((k + 1 : Nat) : ℝ) * t - t := by push_cast; ring
        rw [h1, h2, Real.cos_add, Real.cos_sub]
        ring
      rw [e]
      exact Submodule.add_mem _ (Submodule.smul_mem _ _ (hm _ (by omega))) (Submodule.add_mem _ (Submodule.smul_mem _ _ (hm _ (by omega))) (Submodule.smul_mem _ _ (hm _ (by omega))))
  | zero =>
    have : (fun t => (a * Real.cos t + b) * (0 : ℝ → ℝ) t) = 0 := by funext t; simp
    rw [this]
    exact Submodule.zero_mem _
  | add φ ψ _ _ h1 h2 =>
    have : (fun t => (a * Real.cos t + b) * (φ + ψ) t) = (fun t => (a * Real.cos t + b) * φ t) + fun t => (a * Real.cos t + b) * ψ t := by
      funext t; simp [mul_add]
    rw [this]
    exact Submodule.add_mem _ h1 h2
  | smul c φ _ h1 =>
    have : (fun t => (a * Real.cos t + b) * (c • φ) t) = c • fun t => (a * Real.cos t + b) * φ t := by
      funext t; simp; ring
    rw [this]
    exact Submodule.smul_mem _ _ h1

/-- A polynomial of the energy is a combination of as many cosines as its degree tells. -/
theorem poly_cosines (a b : ℝ) (p : ℝ[X]) {d : Nat} (hp : p.natDegree ≤ d) : (fun t => p.eval (a * Real.cos t + b)) ∈ cosines d := by
  have hpow : ∀ k : Nat, (fun t => (a * Real.cos t + b) ^ k) ∈ cosines k := by
    intro k
    induction k with
    | zero => exact Submodule.subset_span ⟨0, le_refl _, by funext t; simp⟩
    | succ k ih =>
      have := cosines_mul ih a b
      convert this using 2
      ring
  have e : (fun t => p.eval (a * Real.cos t + b)) = ∑ k ∈ range (d + 1), p.coeff k • fun t => (a * Real.cos t + b) ^ k := by
    funext t
    rw [eval_eq_sum_range' (Nat.lt_succ_of_le hp), Finset.sum_apply]
    rfl
  rw [e]
  exact Submodule.sum_mem _ fun k hk => Submodule.smul_mem _ _ (cosines_mono (by have := mem_range.1 hk; omega) (hpow k))

theorem cosines_continuous {d : Nat} {φ : ℝ → ℝ} (h : φ ∈ cosines d) : Continuous φ := by
  induction h using Submodule.span_induction with
  | mem φ hφ =>
    obtain ⟨k, -, rfl⟩ := hφ
    fun_prop
  | zero => exact continuous_const
  | add _ _ _ _ h1 h2 => exact h1.add h2
  | smul c _ _ h1 => exact h1.const_smul c

/-- **C85** (Dirichlet kernel).  Without damping, the integral of the density of `num` moments against a polynomial of a degree below `num` is exact. -/
theorem C85_dirichlet (hE : Eigen H U E) {s : Scale ℝ} (ha : 0 < s.a) (hin : ∀ j, -1 < s.apply (E j) ∧ s.apply (E j) < 1) (r : Fin n → ℂ) {num : Nat} (p : ℝ[X])
    (hp : p.natDegree < num) (density : ℝ → ℝ)
    (hd : ∀ e, s.b - s.a < e → e < s.b + s.a → spectralDensity s (damp dirichlet (momentList s H r num)) e = .ok (density e)) :
    ∫ e in (s.b - s.a)..(s.b + s.a), p.eval e * density e = exactValue U E r fun e => p.eval e := by
  have hs := poly_cosines s.a s.b p (d := num - 1) (by omega)
  rw [against_average hE ha hin dirichlet r num (fun e => p.eval e) density (cosines_continuous hs) hd]
  unfold exactValue
  refine sum_congr rfl fun j _ => ?_
  have key : ∀ φ ∈ cosines (num - 1), ∀ x, average dirichlet num x φ = φ x := by
    intro φ hφ x
    induction hφ using Submodule.span_induction with
    | mem φ hφ =>
      obtain ⟨k, hk, rfl⟩ := hφ
      rw [average_cos, if_pos (by omega)]
      simp [dirichlet]
    | zero => unfold average; simp
    | add φ ψ h1 h2 e1 e2 =>
      have := average_add (g := dirichlet) (num := num) (x := x) (cosines_continuous h1) (cosines_continuous h2)
      rw [e1, e2] at this
      exact this
    | smul c φ h1 e1 =>
      have := average_smul (g := dirichlet) (num := num) (x := x) c φ
      rw [e1] at this
      exact this
  rw [key _ hs, cos_arccos_back ha (hin j)]

/-- **C85** (Lorentz kernel).  For every positive `lambda`, the integral of the density against any polynomial converges to the exact value when the number of moments grows. -/
theorem C85_lorentz (hE : Eigen H U E) {s : Scale ℝ} (ha : 0 < s.a) (hin : ∀ j, -1 < s.apply (E j) ∧ s.apply (E j) < 1) (r : Fin n → ℂ) {lambda : ℝ} (hl : 0 < lambda) (p : ℝ[X])
    (density : Nat → ℝ → ℝ) (g : Nat → Nat → ℝ) (hg : lorentz lambda = .ok g)
    (hd : ∀ num e, s.b - s.a < e → e < s.b + s.a → spectralDensity s (damp g (momentList s H r num)) e = .ok (density num e)) :
    Filter.Tendsto (fun num => ∫ e in (s.b - s.a)..(s.b + s.a), p.eval e * density num e) Filter.atTop (nhds (exactValue U E r fun e => p.eval e)) := by
  have hs := poly_cosines s.a s.b p (le_refl _)
  have e : (fun num => ∫ e in (s.b - s.a)..(s.b + s.a), p.eval e * density num e) = fun num =>
      ∑ j, overlap U r j * average g num (Real.arccos (s.apply (E j))) fun t => p.eval (s.a * Real.cos t + s.b) := by
    funext num
    exact against_average hE ha hin g r num (fun e => p.eval e) (density num) (cosines_continuous hs) (hd num)
  have hg1 : ∀ k : Nat, Filter.Tendsto (fun num => g num k) Filter.atTop (nhds 1) := by
    intro k
    unfold lorentz at hg
    rw [if_neg (not_le.2 hl)] at hg
    cases hg
    have h1 : Filter.Tendsto (fun num : Nat => (k : ℝ) / num) Filter.atTop (nhds 0) := tendsto_const_div_atTop_nhds_zero_nat _
    have h2 := (Real.continuous_sinh.tendsto lambda).comp (f := fun num : Nat => lambda * (1 - (k : ℝ) / num)) (by
      have := (h1.const_sub 1).const_mul lambda
      simpa using this)
    have h3 := h2.div_const (Real.sinh lambda)
    rw [div_self (Real.sinh_pos_iff.2 hl).ne'] at h3
    exact h3
  have key : ∀ φ ∈ cosines p.natDegree, ∀ x, Filter.Tendsto (fun num => average g num x φ) Filter.atTop (nhds (φ x)) := by
    intro φ hφ x
    induction hφ using Submodule.span_induction with
    | mem φ hφ =>
      obtain ⟨k, hk, rfl⟩ := hφ
      have h1 := (hg1 k).mul_const (Real.cos (k * x))
      rw [one_mul] at h1
      refine h1.congr' ?_
      filter_upwards [Filter.eventually_gt_atTop k] with num hnum
      rw [average_cos, if_pos hnum]
    | zero =>
      have : (fun num => average g num x (0 : ℝ → ℝ)) = fun _ => 0 := by funext num; unfold average; simp
      rw [this]
      exact tendsto_const_nhds
    | add φ ψ h1 h2 e1 e2 =>
      refine (e1.add e2).congr fun num => ?_
      exact (average_add (cosines_continuous h1) (cosines_continuous h2)).symm
    | smul c φ h1 e1 =>
      refine (e1.const_mul c).congr fun num => ?_
      exact (average_smul c φ).symm
  rw [e]
  unfold exactValue
  refine tendsto_finsetSum _ fun j _ => ?_
  have := (key _ hs (Real.arccos (s.apply (E j)))).const_mul (overlap U r j)
  rwa [cos_arccos_back ha (hin j)] at this

/-! ## What the user gets -/

theorem densitySpec_momentList {s : Scale ℝ} {h : Csr ℂ} (hH : (matrixOf n h).IsHermitian) (g : Nat → Nat → ℝ) (num : Nat) (i : Fin n) (e : ℝ) (he : -1 < s.apply e ∧ s.apply e < 1) :
    spectralDensity s (damp g (momentList s (matrixOf n h) (unitVec i) num)) e = .ok (densitySpec s (matrixOf n h) g num e i) := by
  have := C51_ldos_value (s := s) hH g num i e he
  unfold ldosValue at this
  rw [Res.bind_ok, momentList_unitVec] at this
  exact this

theorem overlap_unitVec (U : Matrix (Fin n) (Fin n) ℂ) (i j : Fin n) : overlap U (unitVec i) j = Complex.normSq (U i j) := by
  unfold overlap unitVec
  rw [sum_eq_single i]
  · simp only [if_true, mul_one]
    exact Complex.normSq_conj _
  · intro k _ hk
    rw [if_neg hk, mul_zero]
  · intro h
    exact absurd (mem_univ i) h

theorem inner_unitVec_re (i : Fin n) : (inner (unitVec i : Fin n → ℂ) (unitVec i)).re = 1 := by
  unfold inner unitVec
  rw [sum_eq_single i]
  · simp
  · intro k _ hk
    rw [if_neg hk, mul_zero]
  · intro h
    exact absurd (mem_univ i) h

theorem inside_iff {s : Scale ℝ} (ha : 0 < s.a) {e : ℝ} (h1 : s.b - s.a < e) (h2 : e < s.b + s.a) : -1 < s.apply e ∧ s.apply e < 1 := by
  unfold Scale.apply
  rw [lt_div_iff₀ ha, div_lt_iff₀ ha]
  constructor <;> linarith

theorem LipschitzOn.continuousOn {s : Scale ℝ} (ha : 0 < s.a) {L : ℝ} (hL : 0 ≤ L) {f : ℝ → ℝ} (hf : LipschitzOn s L f) :
    ContinuousOn f (Set.Icc (s.b - s.a) (s.b + s.a)) := by
  rw [Metric.continuousOn_iff]
  intro u hu ε hε
  refine ⟨ε / (L + 1), by positivity, fun t ht hd => ?_⟩
  rw [Real.dist_eq] at hd ⊢
  refine lt_of_le_of_lt (hf t u ht.1 ht.2 hu.1 hu.2) ?_
  rw [lt_div_iff₀ (by positivity)] at hd
  have := abs_nonneg (t - u)
  nlinarith

/-- Densities can be integrated, although they diverge at the ends of the energy range. -/
theorem density_integrable {s : Scale ℝ} (ha : 0 < s.a) {L : ℝ} (hL : 0 ≤ L) {f : ℝ → ℝ} (hf : LipschitzOn s L f) (H : Matrix (Fin n) (Fin n) ℂ) (num : Nat) (i : Fin n)
    {g : Nat → Nat → ℝ} : IntervalIntegrable (fun e => f e * densitySpec s H g num e i) MeasureTheory.volume (s.b - s.a) (s.b + s.a) := by
  have h1 := (Chebyshev.intervalIntegrable_sqrt_one_sub_sq_inv.comp_mul_right (c := s.a⁻¹)).comp_sub_right s.b
  have ha' := ha.ne'
  rw [show (-1) / s.a⁻¹ + s.b = s.b - s.a by field_simp; ring, show 1 / s.a⁻¹ + s.b = s.b + s.a by field_simp; ring] at h1
  have hcon : ContinuousOn (fun e => f e * (2 / Real.pi / s.a * ∑ k ∈ range num, g num k * ((if k = 0 then 1 / 2 else 1) * (chebOf s H k i i).re) *
      Real.cos (k * Real.arccos (s.apply e)))) (Set.uIcc (s.b - s.a) (s.b + s.a)) := by
    rw [Set.uIcc_of_le (by linarith)]
    refine (hf.continuousOn ha hL).mul (Continuous.continuousOn ?_)
    have hap : Continuous s.apply := by
      unfold Scale.apply
      fun_prop
    have := Real.continuous_arccos
    fun_prop
  have h2 := h1.continuousOn_mul hcon
  refine h2.congr fun e _ => ?_
  unfold densitySpec
  rw [show (e - s.b) * s.a⁻¹ = s.apply e from rfl, Real.sqrt_inv, sq]
  ring

/-- **C85** (`calc_ldos`).  For every system, position, label, storage format, choice of algorithms, number of threads and schedule: the result of `calc_ldos` for a broadening, with the
Jackson kernel and bounds which enclose the spectrum, is a function of the energy whose integral against any function with Lipschitz constant `L` differs by at most `L` times the broadening
(times the number of orbitals) from the sum over all eigenstates of their probability at the nearest site with the label, times the function at their energy. -/
theorem C85_ldos [DecidableEq ℂ] {R : Type} [LinearOrder R] (ops : List Spec.AddOp) (hops : Spec.Consistent ops)
    (hv : verify (runAdds ops) (Spec.norbs ops).length = .ok ()) (hpos : ∀ k ∈ Spec.norbs ops, 0 < k) (dist : Nat → R) (target : Option Int)
    (ht : ∀ t ∈ target, t ∈ Spec.labels ops) (hne : Spec.norbs ops ≠ []) {s : Scale ℝ} {h : Csr ℂ} {cfg : AlgorithmConfig}
    (hsize : n = (Spec.norbs ops).sum) (S : ∀ first : Fin n, ComplexSetup s h cfg first) {form : Format ℂ n ℂ} (hform : form.Aligned)
    {min max : ℝ} (hb : min < max) (hscale : Scale.ofBounds min max = .ok s) (hE : Eigen (matrixOf n h) U E) (hspec : ∀ j, min ≤ E j ∧ E j ≤ max)
    {broadening : ℝ} (hbr : 0 < broadening) (fuel : Nat) (hfuel : 4 ≤ fuel) :
    ∃ N : Nat, requiredNumMoments fuel Real.pi (broadening / s.a) = .ok (some N) ∧
      ∀ {W bs : Nat}, 0 < W → 0 < bs → ∀ (junk : Nat → ℂ) (result : ℝ → ℝ),
        (∀ e, s.b - s.a < e → e < s.b + s.a →
          CalcLdos form cfg jackson s h N W bs junk (runAdds ops) (Spec.norbs ops).length dist target true e (.ok [result e])) →
        ∃ i norb, ∃ orbital : Fin norb → Fin n, (Spec.norbs ops)[i]? = some norb ∧ (∀ t ∈ target, (Spec.labels ops)[i]? = some t) ∧
          (∀ j, j < (Spec.norbs ops).length → (∀ t ∈ target, (Spec.labels ops)[j]? = some t) → dist i ≤ dist j) ∧
          (∀ k, (orbital k).val = Spec.firstRow (Spec.norbs ops) i + k.val) ∧
          ∀ (L : ℝ) (f : ℝ → ℝ), 0 ≤ L → LipschitzOn s L f →
            |(∫ e in (s.b - s.a)..(s.b + s.a), f e * result e) - ∑ k, ∑ j, Complex.normSq (U (orbital k) j) * f (E j)| ≤ L * broadening * norb := by
  obtain ⟨s', es, ha, hins, -⟩ := C33_scaled_inside hb
  rw [hscale] at es
  cases es
  have hin : ∀ j, -1 < s.apply (E j) ∧ s.apply (E j) < 1 := fun j => hins _ (hspec j).1 (hspec j).2
  obtain ⟨N, h1, h2, -⟩ := C85_broadening (n := n) hE ha hin 0 hbr fuel hfuel
  refine ⟨N, h1, ?_⟩
  intro W bs hW hbs junk result hres
  have hcen : s.b - s.a < s.b ∧ s.b < s.b + s.a := ⟨by linarith, by linarith⟩
  obtain ⟨i, norb, orbital, a1, a2, a3, a4, -⟩ := C62_ldos ops hops hv hpos dist target ht hne hsize S hform jackson h2 hW hbs junk true s.b
    (inside_iff ha hcen.1 hcen.2) (hres s.b hcen.1 hcen.2)
  refine ⟨i, norb, orbital, a1, a2, fun j hj ht => (a3 j hj ht).1, a4, ?_⟩
  have hval : ∀ e, s.b - s.a < e → e < s.b + s.a → result e = ∑ k, densitySpec s (matrixOf n h) jackson N e (orbital k) := by
    intro e e1 e2
    obtain ⟨i', norb', orbital', b1, b2, b3, b4, b5⟩ := C62_ldos ops hops hv hpos dist target ht hne hsize S hform jackson h2 hW hbs junk true e
      (inside_iff ha e1 e2) (hres e e1 e2)
    have hlt : i < (Spec.norbs ops).length := (List.getElem?_eq_some_iff.1 a1).1
    have hlt' : i' < (Spec.norbs ops).length := (List.getElem?_eq_some_iff.1 b1).1
    have c1 := a3 i' hlt' b2
    have c2 := b3 i hlt a2
    have heq : dist i' = dist i := le_antisymm c2.1 c1.1
    obtain rfl : i' = i := le_antisymm (c2.2 heq.symm) (c1.2 heq)
    rw [a1] at b1
    obtain rfl : norb = norb' := Option.some.inj b1
    have ho : orbital' = orbital := by
      funext k
      apply Fin.ext
      rw [a4, b4]
    subst ho
    rw [Res.ok.injEq] at b5
    by_cases hn : norb = 1
    · subst hn
      rw [if_neg (by simp)] at b5
      simpa using b5
    · rw [if_pos ⟨rfl, hn⟩] at b5
      simpa using b5
  intro L f hL hf
  have hc := hf.continuous ha hL
  -- the densities of the orbitals
  have hden : ∀ k, |(∫ e in (s.b - s.a)..(s.b + s.a), f e * densitySpec s (matrixOf n h) jackson N e (orbital k)) -
      ∑ j, Complex.normSq (U (orbital k) j) * f (E j)| ≤ L * broadening := by
    intro k
    obtain ⟨N', q1, -, q3⟩ := C85_broadening hE ha hin (unitVec (orbital k)) hbr fuel hfuel
    rw [h1] at q1
    obtain rfl : N = N' := by
      have := Option.some.inj (Res.ok.inj q1)
      exact_mod_cast this
    have := q3 L f (fun e => densitySpec s (matrixOf n h) jackson N e (orbital k)) hL hf fun e e1 e2 =>
      densitySpec_momentList hE.hermitian jackson N (orbital k) e (inside_iff ha e1 e2)
    rw [inner_unitVec_re, mul_one] at this
    unfold exactValue at this
    simp only [overlap_unitVec] at this
    exact this
  have hint : ∀ k, IntervalIntegrable (fun e => f e * densitySpec s (matrixOf n h) jackson N e (orbital k)) MeasureTheory.volume (s.b - s.a) (s.b + s.a) := by
    intro k
    exact density_integrable ha hL hf _ N _
  have hsum : ∫ e in (s.b - s.a)..(s.b + s.a), f e * result e = ∑ k, ∫ e in (s.b - s.a)..(s.b + s.a), f e * densitySpec s (matrixOf n h) jackson N e (orbital k) := by
    rw [← intervalIntegral.integral_finsetSum fun k _ => hint k]
    refine intervalIntegral.integral_congr_ae ?_
    rw [Set.uIoc_of_le (by linarith)]
    refine (MeasureTheory.ae_iff.2 ?_)
    refine MeasureTheory.measure_mono_null (t := {s.b + s.a}) ?_ (by simp)
    intro e he
    simp only [Set.mem_ofPred_eq, Classical.not_imp] at he
    obtain ⟨⟨e1, e2⟩, hne⟩ := he
    by_contra hlast
    exact hne (by rw [hval e e1 (lt_of_le_of_ne e2 hlast), mul_sum])
  rw [hsum, ← sum_sub_distrib]
  refine (abs_sum_le_sum_abs _ _).trans ((sum_le_sum fun k _ => hden k).trans (le_of_eq ?_))
  rw [sum_const, card_univ, Fintype.card_fin, nsmul_eq_mul]
  ring

/-! ## Densities of states -/

/-- **C85** (`calc_dos`).  For any random vectors, the density of states for a broadening is within the broadening (times the number of rows) of the mean of the exact densities of the
random vectors, in the sense of C85_broadening. -/
theorem C85_dos {s : Scale ℝ} (ha : 0 < s.a) {h : Csr ℂ} (hE : Eigen (matrixOf n h) U E) (hin : ∀ j, -1 < s.apply (E j) ∧ s.apply (E j) < 1) (numRandom : Nat) (hR : 0 < numRandom)
    (rand : Nat → Fin n → ℂ) (hunit : ∀ j i, star (rand j i) * rand j i = 1) {broadening : ℝ} (hb : 0 < broadening) (fuel : Nat) (hfuel : 4 ≤ fuel) :
    ∃ N : Nat, requiredNumMoments fuel Real.pi (broadening / s.a) = .ok (some N) ∧
      ∀ (L : ℝ) (f density : ℝ → ℝ), 0 ≤ L → LipschitzOn s L f →
        (∀ e, s.b - s.a < e → e < s.b + s.a → dosValue jackson s (dosMoments s h N numRandom rand) e = .ok (density e)) →
        |(∫ e in (s.b - s.a)..(s.b + s.a), f e * density e) - (numRandom : ℝ)⁻¹ * ∑ q ∈ range numRandom, exactValue U E (rand q) f| ≤ L * broadening * n := by
  obtain ⟨N, h1, -, -⟩ := C85_broadening (n := n) hE ha hin 0 hb fuel hfuel
  refine ⟨N, h1, fun L f density hL hf hd => ?_⟩
  have hc := hf.continuous ha hL
  have hR0 : (numRandom : ℝ) ≠ 0 := by exact_mod_cast hR.ne'
  -- the densities of the single vectors
  let d : Nat → ℝ → ℝ := fun q e => densityAt s (damp jackson (momentList s (matrixOf n h) (rand q) N)) (s.apply e)
  have hsd : ∀ q e, s.b - s.a < e → e < s.b + s.a → spectralDensity s (damp jackson (momentList s (matrixOf n h) (rand q) N)) e = .ok (d q e) := by
    intro q e e1 e2
    unfold spectralDensity
    simp only
    rw [if_pos (inside_iff ha e1 e2)]
  have hval : ∀ e, s.b - s.a < e → e < s.b + s.a → density e = (numRandom : ℝ)⁻¹ * ∑ q ∈ range numRandom, d q e := by
    intro e e1 e2
    obtain ⟨d', b1, b2⟩ := C60_value (s := s) hE.hermitian jackson N numRandom rand e (inside_iff ha e1 e2)
    rw [hd e e1 e2, Res.ok.injEq] at b2
    rw [b2]
    congr 1
    refine sum_congr rfl fun q _ => ?_
    have := b1 q
    rw [hsd q e e1 e2] at this
    exact (Res.ok.inj this).symm
  have hform : ∀ q e, d q e = 2 / Real.pi / s.a / Real.sqrt (1 - s.apply e * s.apply e) * ∑ k ∈ range N, jackson N k *
      ((if k = 0 then 1 / 2 else 1) * ∑ j, overlap U (rand q) j * (Chebyshev.T ℝ k).eval (s.apply (E j))) * Real.cos (k * Real.arccos (s.apply e)) := by
    intro q e
    simp only [d]
    rw [hE.momentList, densityAt_form]
  have hint : ∀ q, IntervalIntegrable (fun e => f e * d q e) MeasureTheory.volume (s.b - s.a) (s.b + s.a) := by
    intro q
    have h1 := (Chebyshev.intervalIntegrable_sqrt_one_sub_sq_inv.comp_mul_right (c := s.a⁻¹)).comp_sub_right s.b
    have ha' := ha.ne'
    rw [show (-1) / s.a⁻¹ + s.b = s.b - s.a by field_simp; ring, show 1 / s.a⁻¹ + s.b = s.b + s.a by field_simp; ring] at h1
    have hcon : ContinuousOn (fun e => f e * (2 / Real.pi / s.a * ∑ k ∈ range N, jackson N k *
        ((if k = 0 then 1 / 2 else 1) * ∑ j, overlap U (rand q) j * (Chebyshev.T ℝ k).eval (s.apply (E j))) * Real.cos (k * Real.arccos (s.apply e))))
        (Set.uIcc (s.b - s.a) (s.b + s.a)) := by
      rw [Set.uIcc_of_le (by linarith)]
      refine (hf.continuousOn ha hL).mul (Continuous.continuousOn ?_)
      have hap : Continuous s.apply := by
        unfold Scale.apply
        fun_prop
      have := Real.continuous_arccos
      fun_prop
    have h2 := h1.continuousOn_mul hcon
    refine h2.congr fun e _ => ?_
    rw [hform, show (e - s.b) * s.a⁻¹ = s.apply e from rfl, Real.sqrt_inv, sq]
    ring
  have hsum : ∫ e in (s.b - s.a)..(s.b + s.a), f e * density e = (numRandom : ℝ)⁻¹ * ∑ q ∈ range numRandom, ∫ e in (s.b - s.a)..(s.b + s.a), f e * d q e := by
    rw [← intervalIntegral.integral_finsetSum fun q _ => hint q, ← intervalIntegral.integral_const_mul]
    refine intervalIntegral.integral_congr_ae ?_
    rw [Set.uIoc_of_le (by linarith)]
    refine (MeasureTheory.ae_iff.2 ?_)
    refine MeasureTheory.measure_mono_null (t := {s.b + s.a}) ?_ (by simp)
    intro e he
    simp only [Set.mem_ofPred_eq, Classical.not_imp] at he
    obtain ⟨⟨e1, e2⟩, hne⟩ := he
    by_contra hlast
    exact hne (by rw [hval e e1 (lt_of_le_of_ne e2 hlast), ← mul_sum]; ring)
  have hone : ∀ q, |(∫ e in (s.b - s.a)..(s.b + s.a), f e * d q e) - exactValue U E (rand q) f| ≤ L * broadening * n := by
    intro q
    obtain ⟨N', q1, -, q3⟩ := C85_broadening hE ha hin (rand q) hb fuel hfuel
    rw [h1] at q1
    obtain rfl : N = N' := by
      have := Option.some.inj (Res.ok.inj q1)
      exact_mod_cast this
    have := q3 L f (d q) hL hf (hsd q)
    have hn : (inner (rand q) (rand q)).re = n := by
      unfold inner
      rw [sum_congr rfl fun i _ => hunit q i]
      simp
    rwa [hn] at this
  rw [hsum, ← mul_sub, ← sum_sub_distrib, abs_mul, abs_of_pos (by positivity : (0 : ℝ) < (numRandom : ℝ)⁻¹)]
  have h3 := (abs_sum_le_sum_abs _ _).trans (sum_le_sum fun q (_ : q ∈ range numRandom) => hone q)
  rw [sum_const, card_range, nsmul_eq_mul] at h3
  refine (mul_le_mul_of_nonneg_left h3 (by positivity)).trans (le_of_eq ?_)
  field_simp

/-- **C85** (expectation of `calc_dos`).  Over all vectors of signs, which are equally likely for real Hamiltonians, the mean of the exact densities of the vectors is the exact density of
states: one per eigenstate. -/
theorem C85_expected (hE : Eigen H U E) (f : ℝ → ℝ) : ∑ c : Fin n → Bool, exactValue U E (signVec c) f = 2 ^ n * ∑ j, f (E j) := by
  have hout : ∀ (r : Fin n → ℂ) j, inner r (act (Matrix.of fun a b => U a j * star (U b j)) r) = (overlap U r j : ℂ) := by
    intro r j
    unfold inner act overlap
    rw [Complex.normSq_eq_conj_mul_self, map_sum, sum_mul]
    refine sum_congr rfl fun a _ => ?_
    simp only [Matrix.of_apply, map_mul]
    rw [show (starRingEnd ℂ) (star (U a j)) = U a j from star_star _, show (starRingEnd ℂ) (r a) = star (r a) from rfl]
    rw [mul_comm (U a j), mul_assoc]
    congr 1
    rw [mul_sum]
    exact sum_congr rfl fun b _ => mul_assoc _ _ _
  have hone : ∀ j, ∑ c : Fin n → Bool, overlap U (signVec c) j = 2 ^ n := by
    intro j
    have h1 := C60_unbiased (Matrix.of fun a b => U a j * star (U b j))
    rw [sum_congr rfl fun c _ => hout (signVec c) j] at h1
    have htr : (Matrix.of fun a b => U a j * star (U b j)).trace = 1 := by
      have h2 := congrFun (congrFun hE.orth j) j
      rw [Matrix.mul_apply, Matrix.one_apply_eq] at h2
      rw [← h2]
      unfold Matrix.trace
      refine sum_congr rfl fun a _ => ?_
      simp only [Matrix.diag_apply, Matrix.of_apply, Matrix.star_apply]
      ring
    rw [htr, mul_one] at h1
    exact_mod_cast h1
  unfold exactValue
  rw [sum_comm, mul_sum]
  refine sum_congr rfl fun j _ => ?_
  rw [← sum_mul, hone]

/-! ## Examples -/

/-- The eigenstates of two orbitals with the energies 1 and -1. -/
theorem pair2_eigen : Eigen pair2 1 ![1, -1] := by
  refine ⟨by simp, ?_⟩
  unfold pair2
  rw [mul_one, one_mul]
  congr 1
  funext j
  fin_cases j <;> simp

/-- The hypotheses of C85_jackson are met: the mean energy (`f e = e`) of the first orbital is 1 up to `2 pi / 11`. -/
example (density : ℝ → ℝ) (hd : ∀ e, (-2 : ℝ) < e → e < 2 → spectralDensity ⟨2, 0⟩ (damp jackson (momentList ⟨2, 0⟩ pair2 ![1, 0] 10)) e = .ok (density e)) :
    |(∫ e in (-2 : ℝ)..2, e * density e) - 1| ≤ 2 * Real.pi / 11 := by
  have h := C85_jackson (s := ⟨2, 0⟩) pair2_eigen (by norm_num) (fun j => by fin_cases j <;> (simp [Scale.apply]; try norm_num)) ![1, 0] (num := 10) (by norm_num) (L := 1) (by norm_num) (f := fun e => e)
    (density := density) (fun e e' _ _ _ _ => by simp) (fun e h1 h2 => hd e (by simpa using h1) (by simpa using h2))
  have hex : exactValue 1 ![1, -1] (![1, 0] : Fin 2 → ℂ) (fun e => e) = 1 := by
    unfold exactValue overlap
    simp [Fin.sum_univ_two, Matrix.one_apply]
  have hin : (inner (![1, 0] : Fin 2 → ℂ) ![1, 0]).re = 1 := by
    unfold inner
    simp [Fin.sum_univ_two]
  rw [hex, hin] at h
  simp only [zero_sub, zero_add] at h
  refine h.trans (le_of_eq ?_)
  push_cast
  ring

/-- The density of the example exists. -/
example : ∃ density : ℝ → ℝ, ∀ e, (-2 : ℝ) < e → e < 2 → spectralDensity ⟨2, 0⟩ (damp jackson (momentList ⟨2, 0⟩ pair2 ![1, 0] 10)) e = .ok (density e) :=
  ⟨_, fun e h1 h2 => by
    unfold spectralDensity
    simp only
    rw [if_pos (inside_iff (s := ⟨2, 0⟩) (by norm_num) (by simpa using h1) (by simpa using h2))]⟩

theorem imagPair_eigenvalues (j : Fin 2) : -1 ≤ imagPair_ready.2.2.1.eigenvalues j ∧ imagPair_ready.2.2.1.eigenvalues j ≤ 1 :=
  Set.mem_Icc.1 (imagPair_spectrum (imagPair_ready.2.2.1.eigenvalues_mem_spectrum_real j))

theorem imagPair_inside (j : Fin 2) : -1 < (⟨2, 0⟩ : Scale ℝ).apply (imagPair_ready.2.2.1.eigenvalues j) ∧ (⟨2, 0⟩ : Scale ℝ).apply (imagPair_ready.2.2.1.eigenvalues j) < 1 := by
  have := imagPair_eigenvalues j
  unfold Scale.apply
  constructor <;> (simp only; linarith)

/-- The hypotheses of C85_dos are met: an imaginary hopping between two orbitals, three random vectors of phases. -/
example := C85_dos (s := ⟨2, 0⟩) (by norm_num) (exists_eigen imagPair_ready.2.2.1) imagPair_inside 3 (by norm_num) (fun _ i => if i = 0 then 1 else Complex.I)
  (by intro j i; fin_cases i <;> simp) (broadening := 1 / 10) (by norm_num) 4 (by norm_num)

/-- The hypotheses of C85_ldos are met: an imaginary hopping between two sites of different sublattices; the second one is asked for. -/
noncomputable example [DecidableEq ℂ] := C85_ldos (n := 2) (R := ℚ) [⟨0, 1, 1⟩, ⟨1, 1, 1⟩] (by unfold Spec.Consistent; decide) (by decide) (by decide) (fun i => 3 - i)
  (some 1) (by decide) (by decide) rfl imagPair_all (form := .csr fun _ => 5) trivial (min := -(200 / 101)) (max := 200 / 101) (by norm_num)
  (by unfold Scale.ofBounds; norm_num) (exists_eigen imagPair_ready.2.2.1)
  (fun j => by have := imagPair_eigenvalues j; constructor <;> linarith) (broadening := 1 / 10) (by norm_num) 4 (by norm_num)

/-- The other theorems for these two orbitals. -/
example := C85_converges (s := ⟨2, 0⟩) (exists_eigen imagPair_ready.2.2.1) (by norm_num) imagPair_inside ![1, Complex.I] (f := fun e => |e|) (by fun_prop)

example := C85_dirichlet (s := ⟨2, 0⟩) (exists_eigen imagPair_ready.2.2.1) (by norm_num) imagPair_inside ![1, Complex.I] (num := 10) (Polynomial.X ^ 3) (by simp)

example := C85_lorentz (s := ⟨2, 0⟩) (exists_eigen imagPair_ready.2.2.1) (by norm_num) imagPair_inside ![1, Complex.I] (lambda := 4) (by norm_num) (Polynomial.X ^ 3)

end Verif.Kpm
