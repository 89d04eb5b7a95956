import Verif.Kpm.Config
import Mathlib.Analysis.SpecialFunctions.Trigonometric.Bounds
import Mathlib.Tactic.Linarith
import Mathlib.Tactic.Positivity
import Mathlib.Tactic.FieldSimp
import Mathlib.Algebra.BigOperators.Intervals
import Mathlib.Algebra.BigOperators.Field
import Mathlib.Algebra.Order.BigOperators.Group.Finset

/-!
# The damping kernels

Lemmas about the Jackson kernel: its coefficients are the autocorrelation of a sine arch, hence the kernel is
positive definite.
-/

namespace Verif.Kpm

open Finset

/-- The sine arch whose autocorrelation is the Jackson kernel: `sin(pi k / (N + 1))`. -/
noncomputable def arch (num k : Nat) : ℝ := Real.sin (Real.pi * k / (num + 1))

theorem arch_nonneg (num k : Nat) (h : k ≤ num + 1) : 0 ≤ arch num k := by
  unfold arch
  have hM : (0 : ℝ) < num + 1 := by positivity
  refine Real.sin_nonneg_of_nonneg_of_le_pi (by positivity) ?_
  rw [div_le_iff₀ hM]
  have : (k : ℝ) ≤ num + 1 := by exact_mod_cast h
  exact mul_le_mul_of_nonneg_left this Real.pi_pos.le

theorem arch_zero (num : Nat) : arch num 0 = 0 := by simp [arch]

theorem arch_last (num : Nat) : arch num (num + 1) = 0 := by
  unfold arch
  have hM : ((num : ℝ) + 1) ≠ 0 := by positivity
  rw [Nat.cast_add, Nat.cast_one, mul_div_cancel_right₀ _ hM, Real.sin_pi]

theorem cos_sum (α β : ℝ) (L : Nat) :
    2 * Real.sin α * ∑ k ∈ range L, Real.cos (2 * k * α + β) = Real.sin ((2 * L - 1) * α + β) - Real.sin (β - α) := by
  induction L with
  | zero => simp; ring_nf
  | succ L ih =>
    rw [sum_range_succ, mul_add, ih]
    have h : 2 * Real.sin α * Real.cos (2 * L * α + β) =
        Real.sin (α + (2 * L * α + β)) + Real.sin (α - (2 * L * α + β)) := by
      rw [Real.sin_add, Real.sin_sub]; ring
    rw [h]
    have h2 : Real.sin (α - (2 * L * α + β)) = -Real.sin ((2 * L - 1) * α + β) := by
      rw [← Real.sin_neg]; congr 1; ring
    rw [h2, show (2 * ((L + 1 : Nat) : ℝ) - 1) * α + β = α + (2 * L * α + β) by push_cast; ring]
    ring

/-- The coefficients of the Jackson kernel are an autocorrelation. -/
theorem jackson_autocorrelation (num n : Nat) (h1 : 1 ≤ num) (hn : n ≤ num + 1) :
    jackson num n = 2 / (num + 1) * ∑ k ∈ range (num + 1 - n), arch num k * arch num (k + n) := by
  have hM : (0 : ℝ) < num + 1 := by positivity
  have hM0 : (num : ℝ) + 1 ≠ 0 := hM.ne'
  set α := Real.pi / ((num : ℝ) + 1) with hα
  have hs : Real.sin α ≠ 0 := by
    refine (Real.sin_pos_of_pos_of_lt_pi (by positivity) ?_).ne'
    rw [hα, div_lt_iff₀ hM]
    have : (1 : ℝ) ≤ num := by exact_mod_cast h1
    have := Real.pi_pos
    nlinarith
  have harg : ∀ k : ℝ, Real.pi * k / (num + 1) = k * α := fun k => by rw [hα]; ring
  have hprod : ∀ k : Nat, arch num k * arch num (k + n) = (Real.cos (n * α) - Real.cos (2 * k * α + n * α)) / 2 := by
    intro k
    unfold arch
    rw [harg, harg]
    have e1 : (n : ℝ) * α = (((k + n : Nat) : ℝ) * α) - k * α := by push_cast; ring
    have e2 : 2 * (k : ℝ) * α + n * α = (((k + n : Nat) : ℝ) * α) + k * α := by push_cast; ring
    rw [e2, e1, Real.cos_sub, Real.cos_add]
    ring
  have hsum : ∑ k ∈ range (num + 1 - n), Real.cos (2 * k * α + n * α) = -(Real.sin (n * α) * Real.cos α / Real.sin α) := by
    have h := cos_sum α (n * α) (num + 1 - n)
    have hL : ((num + 1 - n : Nat) : ℝ) = num + 1 - n := by rw [Nat.cast_sub hn]; push_cast; ring
    have e1 : (2 * ((num + 1 - n : Nat) : ℝ) - 1) * α + n * α = -((n + 1) * α) + 2 * Real.pi := by
      rw [hL, hα]
      field_simp
      ring
    have e2 : (n : ℝ) * α - α = n * α - α := rfl
    rw [e1, Real.sin_add_two_pi, Real.sin_neg, show ((n : ℝ) + 1) * α = n * α + α by ring, Real.sin_add, Real.sin_sub] at h
    generalize ∑ k ∈ range (num + 1 - n), Real.cos (2 * k * α + n * α) = S at h ⊢
    rw [← neg_div, eq_div_iff hs]
    linarith
  rw [sum_congr rfl fun k _ => hprod k, ← Finset.sum_div, sum_sub_distrib, hsum, sum_const, card_range, nsmul_eq_mul,
    Nat.cast_sub hn]
  unfold jackson
  simp only
  rw [harg, Real.tan_eq_sin_div_cos, ← hα]
  push_cast
  field_simp
  ring

theorem jackson_zero (num : Nat) : jackson num 0 = 1 := by
  unfold jackson
  have hM0 : (num : ℝ) + 1 ≠ 0 := by positivity
  simp [hM0]

theorem jackson_nonneg (num n : Nat) (hn : n ≤ num) : 0 ≤ jackson num n := by
  rcases Nat.eq_zero_or_pos num with h | h1
  · subst h
    obtain rfl : n = 0 := by omega
    rw [jackson_zero]; norm_num
  rw [jackson_autocorrelation num n h1 (by omega)]
  refine mul_nonneg (by positivity) (sum_nonneg fun k hk => ?_)
  have := mem_range.1 hk
  exact mul_nonneg (arch_nonneg _ _ (by omega)) (arch_nonneg _ _ (by omega))

theorem arch_pos (num k : Nat) (h0 : 1 ≤ k) (h : k ≤ num) : 0 < arch num k := by
  unfold arch
  have hM : (0 : ℝ) < num + 1 := by positivity
  have hk : (0 : ℝ) < k := by exact_mod_cast h0
  refine Real.sin_pos_of_pos_of_lt_pi (div_pos (mul_pos Real.pi_pos hk) hM) ?_
  rw [div_lt_iff₀ hM]
  have : (k : ℝ) < num + 1 := by exact_mod_cast Nat.lt_succ_of_le h
  exact mul_lt_mul_of_pos_left this Real.pi_pos

theorem jackson_pos (num n : Nat) (hn : n < num) : 0 < jackson num n := by
  rw [jackson_autocorrelation num n (by omega) (by omega)]
  refine mul_pos (by positivity) (sum_pos' (fun k hk => ?_) ⟨1, by rw [mem_range]; omega, ?_⟩)
  · have := mem_range.1 hk
    exact mul_nonneg (arch_nonneg _ _ (by omega)) (arch_nonneg _ _ (by omega))
  · exact mul_pos (arch_pos _ _ (by omega) (by omega)) (arch_pos _ _ (by omega) (by omega))

theorem arch_sq_sum (num : Nat) (h1 : 1 ≤ num) : 2 / (num + 1 : ℝ) * ∑ k ∈ range (num + 1), arch num k * arch num k = 1 := by
  have := jackson_autocorrelation num 0 h1 (by omega)
  rw [jackson_zero] at this
  simpa using this.symm

theorem jackson_lt_one (num n : Nat) (h0 : 1 ≤ n) (hn : n ≤ num) : jackson num n < 1 := by
  have h1 : 1 ≤ num := by omega
  rw [jackson_autocorrelation num n h1 (by omega)]
  refine lt_of_lt_of_eq (mul_lt_mul_of_pos_left ?_ (by positivity)) (arch_sq_sum num h1)
  have hle : ∑ k ∈ range (num + 1 - n), arch num k * arch num (k + n) ≤
      ∑ k ∈ range (num + 1 - n), (arch num k * arch num k + arch num (k + n) * arch num (k + n)) / 2 := by
    refine sum_le_sum fun k _ => ?_
    nlinarith [sq_nonneg (arch num k - arch num (k + n))]
  refine lt_of_le_of_lt hle ?_
  rw [← Finset.sum_div, sum_add_distrib]
  have hA : ∑ k ∈ range (num + 1 - n), arch num k * arch num k < ∑ k ∈ range (num + 1), arch num k * arch num k :=
    sum_lt_sum_of_subset (range_subset_range.2 (by omega)) (mem_range.2 (Nat.lt_succ_self num))
      (by rw [mem_range]; omega) (mul_pos (arch_pos _ _ h1 le_rfl) (arch_pos _ _ h1 le_rfl)) fun k _ _ => mul_self_nonneg _
  have hB : ∑ k ∈ range (num + 1 - n), arch num (k + n) * arch num (k + n) ≤ ∑ k ∈ range (num + 1), arch num k * arch num k := by
    have e : ∑ k ∈ range (num + 1), arch num k * arch num k =
        ∑ k ∈ range n, arch num k * arch num k + ∑ k ∈ range (num + 1 - n), arch num (n + k) * arch num (n + k) := by
      have : num + 1 = n + (num + 1 - n) := by omega
      conv_lhs => rw [this]
      rw [sum_range_add]
    rw [e]
    have : (fun k => arch num (k + n) * arch num (k + n)) = fun k => arch num (n + k) * arch num (n + k) := by
      funext k; rw [Nat.add_comm]
    rw [this]
    exact le_add_of_nonneg_left (sum_nonneg fun k _ => mul_self_nonneg _)
  linarith

end Verif.Kpm
