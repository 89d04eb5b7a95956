import Verif.Kpm.Spec
import Mathlib.Tactic.Ring
import Mathlib.Tactic.Abel
import Mathlib.Tactic.Module
import Mathlib.Tactic.LinearCombination
import Mathlib.Algebra.BigOperators.Ring.Finset
import Mathlib.Algebra.Algebra.Pi

/-!
# Chebyshev vectors and their inner products
-/

namespace Verif.Kpm

open Verif.Numeric Polynomial

variable {K V α : Type} {n : Nat}

section action

variable [CommRing K] [AddCommGroup V] [Module K V]

theorem act_mul (A B : Matrix (Fin n) (Fin n) K) (x : Fin n → V) : act (A * B) x = act A (act B x) := by
  funext i
  simp only [act, Matrix.mul_apply, Finset.sum_smul, Finset.smul_sum, mul_smul]
  rw [Finset.sum_comm]

theorem act_one (x : Fin n → V) : act (1 : Matrix (Fin n) (Fin n) K) x = x := by
  funext i
  simp [act, Matrix.one_apply]

theorem act_add (A B : Matrix (Fin n) (Fin n) K) (x : Fin n → V) : act (A + B) x = act A x + act B x := by
  funext i
  simp [act, add_smul, Finset.sum_add_distrib]

theorem act_sub (A B : Matrix (Fin n) (Fin n) K) (x : Fin n → V) : act (A - B) x = act A x - act B x := by
  funext i
  simp [act, sub_smul, Finset.sum_sub_distrib]

theorem act_smul (a : K) (B : Matrix (Fin n) (Fin n) K) (x : Fin n → V) : act (a • B) x = a • act B x := by
  funext i
  simp [act, mul_smul, Finset.smul_sum]

/-- The recursion the program uses, `A = 2 H`. -/
theorem chebVec_zero (H : Matrix (Fin n) (Fin n) K) (r : Fin n → V) : chebVec H r 0 = r := by
  unfold chebVec
  simp [act_one]

theorem chebVec_one (H : Matrix (Fin n) (Fin n) K) (r : Fin n → V) : chebVec H r 1 = act H r := by
  unfold chebVec
  simp

theorem chebVec_add_two (H : Matrix (Fin n) (Fin n) K) (r : Fin n → V) (k : Nat) :
    chebVec H r (k + 2) = act ((2 : K) • H) (chebVec H r (k + 1)) - chebVec H r k := by
  unfold chebVec
  rw [← act_mul, ← act_sub]
  congr 1
  have h : Chebyshev.T K ((k + 2 : Nat) : Int) = 2 * X * Chebyshev.T K ((k + 1 : Nat) : Int) - Chebyshev.T K (k : Int) := by
    have := Chebyshev.T_add_two K (k : Int)
    push_cast
    exact this
  rw [h]
  simp only [map_sub, map_mul, aeval_X, map_ofNat]
  congr 2
  rw [two_smul, two_mul]

end action

section innerproduct

variable [CommRing K] [StarRing K] [CommRing V] [StarRing V] [Algebra K V] [StarModule K V]

theorem inner_act (H : Matrix (Fin n) (Fin n) K) (hH : H.IsHermitian) (a b : Fin n → V) :
    inner (act H a) b = inner a (act H b) := by
  unfold inner act
  simp only [star_sum, Finset.sum_mul, Finset.mul_sum, star_smul]
  rw [Finset.sum_comm]
  refine Finset.sum_congr rfl fun i _ => Finset.sum_congr rfl fun j _ => ?_
  rw [hH.apply]
  simp only [Algebra.smul_def]
  ring

theorem isHermitian_aeval_T (H : Matrix (Fin n) (Fin n) K) (hH : H.IsHermitian) (k : Nat) :
    (aeval H (Chebyshev.T K k)).IsHermitian := by
  induction k using Nat.twoStepInduction with
  | zero => simp
  | one => simpa using hH
  | more k h1 h2 =>
    have h : Chebyshev.T K ((k + 2 : Nat) : Int) = 2 * (X * Chebyshev.T K ((k + 1 : Nat) : Int)) - Chebyshev.T K (k : Int) := by
      have := Chebyshev.T_add_two K (k : Int)
      push_cast
      rw [this]; ring
    rw [h]
    simp only [map_sub, map_mul, aeval_X, map_ofNat]
    refine Matrix.IsHermitian.sub ?_ h1
    have hc : H * aeval H (Chebyshev.T K ((k + 1 : Nat) : Int)) = aeval H (Chebyshev.T K ((k + 1 : Nat) : Int)) * H := by
      have := congrArg (aeval H) (mul_comm (X : K[X]) (Chebyshev.T K ((k + 1 : Nat) : Int)))
      simpa using this
    have h3 : (H * aeval H (Chebyshev.T K ((k + 1 : Nat) : Int))).IsHermitian := by
      unfold Matrix.IsHermitian
      rw [Matrix.conjTranspose_mul, h2.eq, hH.eq, hc]
    rw [two_mul]
    exact h3.add h3

theorem inner_sub_right (a b c : Fin n → V) : inner a (b - c) = inner a b - inner a c := by
  unfold inner
  simp [mul_sub, Finset.sum_sub_distrib]

theorem inner_add_right (a b c : Fin n → V) : inner a (b + c) = inner a b + inner a c := by
  unfold inner
  simp [mul_add, Finset.sum_add_distrib]

omit [StarRing K] [StarModule K V] in
theorem inner_smul_right (k : K) (a b : Fin n → V) : inner a (k • b) = k • inner a b := by
  unfold inner
  simp [Finset.smul_sum]

/-- `2 <T_a r|T_b r> = <r|T_{a+b} r> + <r|T_{a-b} r>`. -/
theorem inner_chebVec (H : Matrix (Fin n) (Fin n) K) (hH : H.IsHermitian) (r : Fin n → V) (a b : Nat) (h : b ≤ a) :
    2 * inner (chebVec H r a) (chebVec H r b) =
      inner r (chebVec H r (a + b)) + inner r (chebVec H r (a - b)) := by
  have e1 : inner (chebVec H r a) (chebVec H r b)
      = inner r (act (aeval H (Chebyshev.T K a * Chebyshev.T K b)) r) := by
    unfold chebVec
    rw [inner_act _ (isHermitian_aeval_T H hH a), ← act_mul, ← map_mul]
  have e2 : act (aeval H (2 * Chebyshev.T K (a : Int) * Chebyshev.T K (b : Int))) r
      = chebVec H r (a + b) + chebVec H r (a - b) := by
    rw [Chebyshev.T_mul_T]
    unfold chebVec
    rw [map_add, act_add]
    push_cast [Nat.cast_sub h]
    rfl
  rw [e1, ← inner_add_right, ← e2, mul_assoc, two_mul (_ * _ : K[X]), map_add, act_add, inner_add_right,
    two_mul]

/-- The doubling formula for even moments. -/
theorem doubling_even (H : Matrix (Fin n) (Fin n) K) (hH : H.IsHermitian) (r : Fin n → V) (half : K)
    (hhalf : half * 2 = 1) (k : Nat) :
    2 * (inner (chebVec H r k) (chebVec H r k) - half • inner r r) = inner r (chebVec H r (2 * k)) := by
  have h := inner_chebVec H hH r k k (le_refl k)
  rw [Nat.sub_self, chebVec_zero] at h
  have h2 : 2 * (half • inner r r) = inner r r := by
    rw [Algebra.smul_def, ← mul_assoc]
    have : (2 : V) * algebraMap K V half = algebraMap K V (half * 2) := by
      rw [map_mul, map_ofNat, mul_comm]
    rw [this, hhalf, map_one, one_mul]
  rw [mul_sub, h, h2, two_mul k]
  ring

/-- The doubling formula for odd moments. -/
theorem doubling_odd (H : Matrix (Fin n) (Fin n) K) (hH : H.IsHermitian) (r : Fin n → V) (k : Nat) :
    2 * inner (chebVec H r (k + 1)) (chebVec H r k) - inner (chebVec H r 1) r = inner r (chebVec H r (2 * k + 1)) := by
  have h := inner_chebVec H hH r (k + 1) k (by omega)
  have h1 : inner (chebVec H r 1) r = inner r (chebVec H r 1) := by
    rw [chebVec_one, inner_act H hH]
  rw [h1, h, show k + 1 - k = 1 by omega, show k + 1 + k = 2 * k + 1 by omega]
  ring

end innerproduct

end Verif.Kpm
