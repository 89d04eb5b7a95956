import Verif.Lanczos.Vectors
import Verif.Lanczos.PropsTridiag

/-!
# The Lanczos vectors are orthonormal and make the matrix tridiagonal
-/

namespace Verif.Lanczos

open Verif.Numeric
open Matrix

variable {𝕜 : Type} [RCLike 𝕜] {n : Nat}

/-! ## Scalar products -/

theorem realDot_eq (a b : 𝕜) : realDot a b = RCLike.re (star a * b) := by
  unfold realDot
  rw [RCLike.star_def, RCLike.mul_re, RCLike.conj_re, RCLike.conj_im]
  ring

theorem square_eq (a : 𝕜) : square a = RCLike.re (star a * a) := realDot_eq a a

theorem square_nonneg (a : 𝕜) : 0 ≤ square a := by
  unfold square
  nlinarith [mul_self_nonneg (RCLike.re a), mul_self_nonneg (RCLike.im a)]

theorem square_pos {a : 𝕜} (h : a ≠ 0) : 0 < square a := by
  rcases (square_nonneg a).lt_or_eq with h1 | h1
  · exact h1
  · exfalso
    apply h
    unfold square at h1
    have h2 : RCLike.re a = 0 := by nlinarith [mul_self_nonneg (RCLike.re a), mul_self_nonneg (RCLike.im a)]
    have h3 : RCLike.im a = 0 := by nlinarith [mul_self_nonneg (RCLike.re a), mul_self_nonneg (RCLike.im a)]
    exact RCLike.ext (by simpa using h2) (by simpa using h3)

/-- The scalar product `<x|y>`. -/
def ip (x y : Fin n → 𝕜) : 𝕜 := star x ⬝ᵥ y

theorem ip_add (x y z : Fin n → 𝕜) : ip x (y + z) = ip x y + ip x z := dotProduct_add _ _ _
theorem ip_sub (x y z : Fin n → 𝕜) : ip x (y - z) = ip x y - ip x z := dotProduct_sub _ _ _
theorem ip_smul (c : 𝕜) (x y : Fin n → 𝕜) : ip x (c • y) = c * ip x y := by unfold ip; rw [dotProduct_smul, smul_eq_mul]
theorem ip_zero (x : Fin n → 𝕜) : ip x 0 = 0 := dotProduct_zero _
theorem ip_star (x y : Fin n → 𝕜) : star (ip x y) = ip y x := by
  unfold ip
  rw [star_dotProduct, star_star]
theorem ip_herm {A : Matrix (Fin n) (Fin n) 𝕜} (hA : A.IsHermitian) (x y : Fin n → 𝕜) : ip (A *ᵥ x) y = ip x (A *ᵥ y) := by
  unfold ip
  rw [star_mulVec, hA.eq, dotProduct_mulVec]

theorem ip_self_re (x : Fin n → 𝕜) : RCLike.re (ip x x) = ∑ i, square (x i) := by
  unfold ip dotProduct
  rw [map_sum]
  exact Finset.sum_congr rfl fun i _ => (square_eq (x i)).symm

theorem re_eq_of_star {z : 𝕜} (h : star z = z) : ((RCLike.re z : ℝ) : 𝕜) = z := by
  rw [RCLike.star_def] at h
  exact RCLike.conj_eq_iff_re.1 h

theorem ip_self (x : Fin n → 𝕜) : ip x x = ((∑ i, square (x i) : ℝ) : 𝕜) := by
  rw [← ip_self_re, re_eq_of_star (ip_star x x)]

theorem norm_nonneg' (x : Fin n → 𝕜) : 0 ≤ ∑ i, square (x i) := Finset.sum_nonneg fun i _ => square_nonneg _

theorem norm_pos' {x : Fin n → 𝕜} (h : x ≠ 0) : 0 < ∑ i, square (x i) := by
  obtain ⟨i, hi⟩ := Function.ne_iff.1 h
  exact Finset.sum_pos' (fun i _ => square_nonneg _) ⟨i, Finset.mem_univ _, square_pos hi⟩

/-! ## The recursion -/

/-- The vector before `q j`. -/
def prevVec (q : Nat → Fin n → 𝕜) (j : Nat) : Fin n → 𝕜 := if j = 0 then 0 else q (j - 1)

/-- The element of the subdiagonal before `beta j`. -/
def prevBeta (beta : List ℝ) (j : Nat) : ℝ := if j = 0 then 0 else beta.getD (j - 1) 0

/-- The first `m` Lanczos vectors: they are orthonormal, and the matrix maps each but the last to a combination of its
neighbours. -/
structure Krylov (A : Matrix (Fin n) (Fin n) 𝕜) (alpha beta : List ℝ) (q : Nat → Fin n → 𝕜) (m : Nat) : Prop where
  orth : ∀ i j, i < m → j < m → ip (q i) (q j) = if i = j then 1 else 0
  recur : ∀ j, j + 1 < m → A *ᵥ q j =
    ((prevBeta beta j : ℝ) : 𝕜) • prevVec q j + ((alpha.getD j 0 : ℝ) : 𝕜) • q j + ((beta.getD j 0 : ℝ) : 𝕜) • q (j + 1)

/-- What remains of the image of the last vector. -/
def residual (A : Matrix (Fin n) (Fin n) 𝕜) (beta : List ℝ) (q : Nat → Fin n → 𝕜) (a : ℝ) (j : Nat) : Fin n → 𝕜 :=
  A *ᵥ q j - ((prevBeta beta j : ℝ) : 𝕜) • prevVec q j - ((a : ℝ) : 𝕜) • q j

theorem Krylov.residual_orth {A : Matrix (Fin n) (Fin n) 𝕜} (hA : A.IsHermitian) {alpha beta : List ℝ} {q : Nat → Fin n → 𝕜} {j : Nat}
    (h : Krylov A alpha beta q (j + 1)) {a : ℝ} (ha : a = RCLike.re (ip (A *ᵥ q j) (q j))) {i : Nat} (hi : i < j + 1) :
    ip (q i) (residual A beta q a j) = 0 := by
  have hself : ip (q j) (A *ᵥ q j) = ((a : ℝ) : 𝕜) := by
    have hs : star (ip (q j) (A *ᵥ q j)) = ip (q j) (A *ᵥ q j) := by
      rw [ip_star, ip_herm hA]
    rw [ha, ip_herm hA, re_eq_of_star hs]
  unfold residual
  rw [ip_sub, ip_sub, ip_smul, ip_smul, h.orth i j hi (by omega)]
  by_cases hij : i = j
  · subst hij
    rw [hself, if_pos rfl, mul_one]
    by_cases h0 : i = 0
    · simp [prevVec, h0, ip_zero]
    · unfold prevVec
      rw [if_neg h0, h.orth i (i - 1) hi (by omega), if_neg (by omega)]
      ring
  · rw [if_neg hij, mul_zero, sub_zero, ← ip_herm hA, h.recur i (by omega)]
    have hj0 : j ≠ 0 := by omega
    have hexp : ip (((prevBeta beta i : ℝ) : 𝕜) • prevVec q i + ((alpha.getD i 0 : ℝ) : 𝕜) • q i + ((beta.getD i 0 : ℝ) : 𝕜) • q (i + 1)) (q j) =
        ((beta.getD i 0 : ℝ) : 𝕜) * ip (q (i + 1)) (q j) := by
      rw [← ip_star, ip_add, ip_add, ip_smul, ip_smul, ip_smul, h.orth j i (by omega) (by omega), if_neg (Ne.symm hij)]
      have hp : ip (q j) (prevVec q i) = 0 := by
        unfold prevVec
        by_cases h0 : i = 0
        · rw [if_pos h0, ip_zero]
        · rw [if_neg h0, h.orth j (i - 1) (by omega) (by omega), if_neg (by omega)]
      rw [hp, mul_zero, mul_zero, zero_add, zero_add, star_mul', ip_star]
      congr 1
      simp
    rw [hexp, h.orth (i + 1) j (by omega) (by omega)]
    unfold prevVec prevBeta
    rw [if_neg hj0, if_neg hj0, h.orth i (j - 1) hi (by omega)]
    by_cases h1 : i + 1 = j
    · rw [if_pos h1, if_pos (by omega)]
      rw [show j - 1 = i by omega]
      ring
    · rw [if_neg h1, if_neg (by omega)]
      ring

/-- The vectors grow by one. -/
theorem Krylov.extend {A : Matrix (Fin n) (Fin n) 𝕜} (hA : A.IsHermitian) {alpha beta : List ℝ} {q : Nat → Fin n → 𝕜} {j : Nat}
    (h : Krylov A alpha beta q (j + 1)) (hla : alpha.length = j) (hlb : beta.length = j) {a b : ℝ}
    (ha : a = RCLike.re (ip (A *ᵥ q j) (q j))) (hb : b * b = ∑ i, square (residual A beta q a j i)) (hb0 : b ≠ 0) :
    Krylov A (alpha ++ [a]) (beta ++ [b]) (Function.update q (j + 1) (((1 / b : ℝ) : 𝕜) • residual A beta q a j)) (j + 2) := by
  set r := residual A beta q a j with hr
  set q' := Function.update q (j + 1) (((1 / b : ℝ) : 𝕜) • r) with hq
  have hold : ∀ i, i < j + 1 → q' i = q i := fun i hi => by rw [hq, Function.update_of_ne (by omega)]
  have hnew : q' (j + 1) = ((1 / b : ℝ) : 𝕜) • r := by rw [hq, Function.update_self]
  have horth : ∀ i, i < j + 1 → ip (q i) r = 0 := fun i hi => h.residual_orth hA ha hi
  have galpha : ∀ i, i < j → (alpha ++ [a]).getD i 0 = alpha.getD i 0 := fun i hi => by
    rw [List.getD_append _ _ _ _ (by omega)]
  have gbeta : ∀ i, i < j → (beta ++ [b]).getD i 0 = beta.getD i 0 := fun i hi => by
    rw [List.getD_append _ _ _ _ (by omega)]
  have ga : (alpha ++ [a]).getD j 0 = a := by
    rw [List.getD_append_right _ _ _ _ (by omega)]; simp [hla]
  have gb : (beta ++ [b]).getD j 0 = b := by
    rw [List.getD_append_right _ _ _ _ (by omega)]; simp [hlb]
  have pb : ∀ i, i ≤ j → prevBeta (beta ++ [b]) i = prevBeta beta i := by
    intro i hi
    unfold prevBeta
    by_cases h0 : i = 0
    · rw [if_pos h0, if_pos h0]
    · rw [if_neg h0, if_neg h0, gbeta _ (by omega)]
  have pv : ∀ i, i ≤ j → prevVec q' i = prevVec q i := by
    intro i hi
    unfold prevVec
    by_cases h0 : i = 0
    · rw [if_pos h0, if_pos h0]
    · rw [if_neg h0, if_neg h0, hold _ (by omega)]
  have hnn : ip (q' (j + 1)) (q' (j + 1)) = 1 := by
    rw [hnew, ip_smul, ← ip_star, ip_smul, ip_self, ← hb, star_mul']
    have : (b : 𝕜) ≠ 0 := by exact_mod_cast hb0
    simp
    field_simp
  constructor
  · intro i k hi hk
    by_cases h1 : i = j + 1
    · by_cases h2 : k = j + 1
      · rw [h1, h2, hnn, if_pos rfl]
      · rw [if_neg (by omega), h1, hold k (by omega), hnew, ← ip_star, ip_smul, horth k (by omega), mul_zero, star_zero]
    · by_cases h2 : k = j + 1
      · rw [if_neg (by omega), h2, hold i (by omega), hnew, ip_smul, horth i (by omega), mul_zero]
      · rw [hold i (by omega), hold k (by omega), h.orth i k (by omega) (by omega)]
  · intro i hi
    by_cases h1 : i = j
    · subst h1
      rw [hold i (by omega), pb i (Nat.le_refl _), pv i (Nat.le_refl _), ga, gb, hnew, smul_smul]
      have : ((b : ℝ) : 𝕜) * ((1 / b : ℝ) : 𝕜) = 1 := by
        rw [← RCLike.ofReal_mul, mul_one_div_cancel hb0, RCLike.ofReal_one]
      rw [this, one_smul, hr]
      unfold residual
      abel
    · rw [hold i (by omega), hold (i + 1) (by omega), pb i (by omega), pv i (by omega), galpha i (by omega), gbeta i (by omega)]
      exact h.recur i (by omega)

/-- Orthonormal vectors in which the matrix is the tridiagonal one. -/
structure Ritz (A : Matrix (Fin n) (Fin n) 𝕜) (alpha beta : List ℝ) (q : Nat → Fin n → 𝕜) (m : Nat) : Prop where
  lena : alpha.length = m
  lenb : beta.length = m
  orth : ∀ i j, i < m → j < m → ip (q i) (q j) = if i = j then 1 else 0
  elem : ∀ i j : Fin m, ip (q i) (A *ᵥ q j) = ((tridiag m alpha beta i j : ℝ) : 𝕜)

theorem Krylov.ritz {A : Matrix (Fin n) (Fin n) 𝕜} (hA : A.IsHermitian) {alpha beta : List ℝ} {q : Nat → Fin n → 𝕜} {j : Nat}
    (h : Krylov A alpha beta q (j + 1)) (hla : alpha.length = j) (hlb : beta.length = j) {a b : ℝ}
    (ha : a = RCLike.re (ip (A *ᵥ q j) (q j))) : Ritz A (alpha ++ [a]) (beta ++ [b]) q (j + 1) := by
  have horth : ∀ i, i < j + 1 → ip (q i) (residual A beta q a j) = 0 := fun i hi => h.residual_orth hA ha hi
  have galpha : ∀ i, i < j → (alpha ++ [a]).getD i 0 = alpha.getD i 0 := fun i hi => by
    rw [List.getD_append _ _ _ _ (by omega)]
  have gbeta : ∀ i, i < j → (beta ++ [b]).getD i 0 = beta.getD i 0 := fun i hi => by
    rw [List.getD_append _ _ _ _ (by omega)]
  have ga : (alpha ++ [a]).getD j 0 = a := by
    rw [List.getD_append_right _ _ _ _ (by omega)]; simp [hla]
  refine ⟨by simp [hla], by simp [hlb], h.orth, fun i k => ?_⟩
  have hprev : ip (q i) (((prevBeta beta k.val : ℝ) : 𝕜) • prevVec q k.val) =
      if i.val + 1 = k.val then ((beta.getD i.val 0 : ℝ) : 𝕜) else 0 := by
    rw [ip_smul]
    unfold prevVec prevBeta
    by_cases h0 : k.val = 0
    · rw [if_pos h0, if_pos h0, if_neg (by omega), ip_zero, mul_zero]
    · rw [if_neg h0, if_neg h0, h.orth i (k.val - 1) i.isLt (by have := k.isLt; omega)]
      by_cases h1 : i.val + 1 = k.val
      · rw [if_pos (by omega), if_pos h1, mul_one, show k.val - 1 = i.val by omega]
      · rw [if_neg (by omega), if_neg h1, mul_zero]
  have hik : (i = k) ↔ (i.val = k.val) := Fin.ext_iff
  unfold tridiag
  by_cases hk : k.val = j
  · have e : A *ᵥ q k = ((prevBeta beta k.val : ℝ) : 𝕜) • prevVec q k.val + ((a : ℝ) : 𝕜) • q k + residual A beta q a j := by
      unfold residual
      rw [hk]; abel
    rw [e, ip_add, ip_add, hprev, ip_smul, h.orth i k i.isLt k.isLt, horth i i.isLt, add_zero]
    by_cases h1 : i = k
    · rw [if_neg (by rw [h1]; omega), if_pos (hik.1 h1), if_pos h1, h1, hk, ga]; simp
    · have h1' : ¬ i.val = k.val := fun e => h1 (hik.2 e)
      rw [if_neg h1, if_neg h1', mul_zero, add_zero]
      by_cases h2 : i.val + 1 = k.val
      · rw [if_pos h2, if_pos h2, gbeta _ (by omega)]
      · rw [if_neg h2, if_neg h2, if_neg (by have := i.isLt; omega)]
        simp
  · have hk' : k.val < j := by have := k.isLt; omega
    rw [h.recur k (by omega), ip_add, ip_add, hprev, ip_smul, ip_smul, h.orth i k i.isLt k.isLt, h.orth i (k.val + 1) i.isLt (by omega)]
    by_cases h1 : i = k
    · rw [if_neg (by rw [h1]; omega), if_pos (hik.1 h1), if_pos h1, if_neg (by rw [h1]; omega), h1, galpha _ hk']; simp
    · have h1' : ¬ i.val = k.val := fun e => h1 (hik.2 e)
      rw [if_neg h1, if_neg h1', mul_zero, add_zero]
      by_cases h2 : i.val + 1 = k.val
      · rw [if_pos h2, if_pos h2, if_neg (by omega), mul_zero, add_zero, gbeta _ (by omega)]
      · rw [if_neg h2, if_neg h2, zero_add]
        by_cases h3 : k.val + 1 = i.val
        · rw [if_pos h3.symm, if_pos h3, gbeta _ hk', mul_one]
        · rw [if_neg (Ne.symm h3), if_neg h3]; simp

/-- A combination of the Lanczos vectors. -/
def combine {m : Nat} (q : Nat → Fin n → 𝕜) (y : Fin m → 𝕜) : Fin n → 𝕜 := ∑ i : Fin m, y i • q i

theorem ip_sum {m : Nat} (x : Fin n → 𝕜) (f : Fin m → Fin n → 𝕜) : ip x (∑ i, f i) = ∑ i, ip x (f i) := by
  unfold ip
  rw [dotProduct_sum]

theorem ip_combine {m : Nat} (q : Nat → Fin n → 𝕜) (y : Fin m → 𝕜) (z : Fin n → 𝕜) :
    ip (combine q y) z = ∑ i : Fin m, star (y i) * ip (q i) z := by
  rw [← ip_star]
  unfold combine
  rw [ip_sum, star_sum]
  refine Finset.sum_congr rfl fun i _ => ?_
  rw [ip_smul, star_mul', ip_star]

/-- The length of a combination. -/
theorem Ritz.length {A : Matrix (Fin n) (Fin n) 𝕜} {alpha beta : List ℝ} {q : Nat → Fin n → 𝕜} {m : Nat} (h : Ritz A alpha beta q m)
    (y : Fin m → 𝕜) : ∑ i, square (combine q y i) =
      (fun i => RCLike.re (y i)) ⬝ᵥ (fun i => RCLike.re (y i)) + (fun i => RCLike.im (y i)) ⬝ᵥ (fun i => RCLike.im (y i)) := by
  have e : ip (combine q y) (combine q y) = ∑ i, star (y i) * y i := by
    rw [ip_combine]
    refine Finset.sum_congr rfl fun i _ => ?_
    congr 1
    unfold combine
    rw [ip_sum, Finset.sum_eq_single i]
    · rw [ip_smul, h.orth i i i.isLt i.isLt, if_pos rfl, mul_one]
    · intro k _ hk
      rw [ip_smul, h.orth i k i.isLt k.isLt, if_neg (fun e => hk (Fin.ext e.symm)), mul_zero]
    · intro hn; exact absurd (Finset.mem_univ _) hn
  rw [← ip_self_re, e, map_sum]
  simp only [dotProduct]
  rw [← Finset.sum_add_distrib]
  refine Finset.sum_congr rfl fun i _ => ?_
  rw [← square_eq]
  rfl

/-- The expectation value of the matrix in a combination is that of the tridiagonal matrix. -/
theorem Ritz.value {A : Matrix (Fin n) (Fin n) 𝕜} {alpha beta : List ℝ} {q : Nat → Fin n → 𝕜} {m : Nat} (h : Ritz A alpha beta q m)
    (y : Fin m → 𝕜) : RCLike.re (ip (combine q y) (A *ᵥ combine q y)) =
      (fun i => RCLike.re (y i)) ⬝ᵥ tridiag m alpha beta *ᵥ (fun i => RCLike.re (y i)) +
      (fun i => RCLike.im (y i)) ⬝ᵥ tridiag m alpha beta *ᵥ (fun i => RCLike.im (y i)) := by
  have e : ip (combine q y) (A *ᵥ combine q y) = ∑ i, ∑ j, star (y i) * (y j * ((tridiag m alpha beta i j : ℝ) : 𝕜)) := by
    rw [ip_combine]
    refine Finset.sum_congr rfl fun i _ => ?_
    rw [← Finset.mul_sum]
    congr 1
    conv_lhs => rw [show combine q y = ∑ j : Fin m, y j • q j from rfl, mulVec_sum]
    rw [ip_sum]
    refine Finset.sum_congr rfl fun j _ => ?_
    rw [mulVec_smul, ip_smul, h.elem]
  rw [e]
  simp only [map_sum, dotProduct, mulVec, Finset.mul_sum]
  rw [← Finset.sum_add_distrib]
  refine Finset.sum_congr rfl fun i _ => ?_
  rw [← Finset.sum_add_distrib]
  refine Finset.sum_congr rfl fun j _ => ?_
  rw [RCLike.star_def]
  simp only [RCLike.mul_re, RCLike.mul_im, RCLike.conj_re, RCLike.conj_im, RCLike.ofReal_re, RCLike.ofReal_im]
  ring

end Verif.Lanczos
