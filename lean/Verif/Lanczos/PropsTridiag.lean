import Verif.Lanczos.QrLoop
import Mathlib.LinearAlgebra.Matrix.DotProduct
import Mathlib.LinearAlgebra.Matrix.Symmetric
import Mathlib.LinearAlgebra.Matrix.ToLin
import Mathlib.LinearAlgebra.Matrix.Charpoly.Basic
import Mathlib.LinearAlgebra.Matrix.Charpoly.Coeff
import Mathlib.Analysis.Matrix.Spectrum

/-!
# The eigenvalues of a symmetric tridiagonal matrix
-/

namespace Verif.Lanczos

open Verif.Numeric
open Matrix

/-- Specification: the symmetric tridiagonal matrix with the given diagonal and subdiagonal. -/
def tridiag (n : Nat) (alpha beta : List ℝ) : Matrix (Fin n) (Fin n) ℝ := fun i j =>
  if i = j then alpha.getD i 0
  else if i.val + 1 = j.val then beta.getD i 0
  else if j.val + 1 = i.val then beta.getD j 0
  else 0

/-- Specification: the diagonal matrix of an array. -/
def diagOf (n : Nat) (ev : List ℝ) : Matrix (Fin n) (Fin n) ℝ := Matrix.diagonal fun i => ev.getD i 0

/-! ## Vectors of a fixed size -/

/-- A vector as a sequence. -/
def ext {n : Nat} (x : Fin n → ℝ) (i : Nat) : ℝ := if h : i < n then x ⟨i, h⟩ else 0

theorem ext_fin {n : Nat} (x : Fin n → ℝ) (i : Fin n) : ext x i = x i := by simp [ext]

theorem ext_ge {n : Nat} (x : Fin n → ℝ) {i : Nat} (h : n ≤ i) : ext x i = 0 := by
  simp [ext, Nat.not_lt.2 h]

theorem sq_ext {n : Nat} (x : Fin n → ℝ) : sq n (ext x) = x ⬝ᵥ x := by
  unfold sq dotProduct
  rw [← Fin.sum_univ_eq_sum_range (fun i => ext x i ^ 2) n]
  refine Finset.sum_congr rfl fun i _ => ?_
  rw [ext_fin]; ring

theorem tridiag_symm (n : Nat) (a b : List ℝ) : (tridiag n a b).IsSymm := by
  ext i j
  rw [Matrix.transpose_apply]
  unfold tridiag
  by_cases h : i = j
  · subst h; rfl
  · rw [if_neg h, if_neg (Ne.symm h)]
    by_cases h1 : i.val + 1 = j.val
    · rw [if_pos h1, if_neg (by omega), if_pos h1]
    · rw [if_neg h1]
      by_cases h2 : j.val + 1 = i.val
      · rw [if_pos h2, if_neg h1]
      · rw [if_neg h2, if_neg h1]

theorem form_ext {n : Nat} (a b : List ℝ) (x : Fin n → ℝ) :
    form n (ofList a) (ofList b) (ext x) = x ⬝ᵥ tridiag n a b *ᵥ x := by
  have hup : ∀ i : Fin n, (∑ j : Fin n, (if i.val + 1 = j.val then b.getD i 0 else 0) * x j) = b.getD i 0 * ext x (i.val + 1) := by
    intro i
    by_cases h : i.val + 1 < n
    · rw [Finset.sum_eq_single (⟨i.val + 1, h⟩ : Fin n)]
      · simp [ext, h]
      · intro j _ hj
        rw [if_neg (fun e => hj (Fin.ext e.symm)), zero_mul]
      · intro h; exact absurd (Finset.mem_univ _) h
    · rw [ext_ge x (by omega), mul_zero]
      refine Finset.sum_eq_zero fun j _ => ?_
      rw [if_neg (by have := j.isLt; omega), zero_mul]
  have hT : ∀ i j : Fin n, tridiag n a b i j = (if i = j then a.getD i 0 else 0) + (if i.val + 1 = j.val then b.getD i 0 else 0) +
      (if j.val + 1 = i.val then b.getD j 0 else 0) := by
    intro i j
    unfold tridiag
    by_cases h : i = j
    · subst h; simp
    · rw [if_neg h, if_neg h]
      by_cases h1 : i.val + 1 = j.val
      · rw [if_pos h1, if_pos h1, if_neg (by omega)]; ring
      · rw [if_neg h1, if_neg h1]; ring
  have e : x ⬝ᵥ tridiag n a b *ᵥ x = (∑ i : Fin n, a.getD i 0 * x i ^ 2) + 2 * ∑ i : Fin n, b.getD i 0 * (x i * ext x (i.val + 1)) := by
    have h1 : x ⬝ᵥ tridiag n a b *ᵥ x = (∑ i : Fin n, ∑ j : Fin n, x i * ((if i = j then a.getD i 0 else 0) * x j)) +
        (∑ i : Fin n, ∑ j : Fin n, x i * ((if i.val + 1 = j.val then b.getD i 0 else 0) * x j)) +
        ∑ i : Fin n, ∑ j : Fin n, x i * ((if j.val + 1 = i.val then b.getD j 0 else 0) * x j) := by
      simp only [dotProduct, mulVec, Finset.mul_sum]
      rw [← Finset.sum_add_distrib, ← Finset.sum_add_distrib]
      refine Finset.sum_congr rfl fun i _ => ?_
      rw [← Finset.sum_add_distrib, ← Finset.sum_add_distrib]
      refine Finset.sum_congr rfl fun j _ => ?_
      rw [hT]; ring
    have h2 : (∑ i : Fin n, ∑ j : Fin n, x i * ((if i.val + 1 = j.val then b.getD i 0 else 0) * x j)) =
        ∑ i : Fin n, b.getD i 0 * (x i * ext x (i.val + 1)) := by
      refine Finset.sum_congr rfl fun i _ => ?_
      rw [← Finset.mul_sum, hup]; ring
    have h3 : (∑ i : Fin n, ∑ j : Fin n, x i * ((if j.val + 1 = i.val then b.getD j 0 else 0) * x j)) =
        ∑ i : Fin n, b.getD i 0 * (x i * ext x (i.val + 1)) := by
      rw [Finset.sum_comm, ← h2]
      refine Finset.sum_congr rfl fun i _ => Finset.sum_congr rfl fun j _ => ?_
      ring
    have h4 : (∑ i : Fin n, ∑ j : Fin n, x i * ((if i = j then a.getD i 0 else 0) * x j)) = ∑ i : Fin n, a.getD i 0 * x i ^ 2 := by
      refine Finset.sum_congr rfl fun i _ => ?_
      rw [Finset.sum_eq_single i]
      · rw [if_pos rfl]; ring
      · intro j _ hj; rw [if_neg (Ne.symm hj)]; ring
      · intro h; exact absurd (Finset.mem_univ _) h
    rw [h1, h2, h3, h4]; ring
  rw [e]
  unfold form
  congr 1
  · rw [← Fin.sum_univ_eq_sum_range (fun i => ofList a i * ext x i ^ 2) n]
    refine Finset.sum_congr rfl fun i _ => ?_
    rw [ext_fin]; rfl
  · congr 1
    rw [Fin.sum_univ_eq_sum_range (fun i => b.getD i 0 * (ext x i * ext x (i + 1))) n |>.symm.trans
      (Finset.sum_congr rfl fun i _ => by rw [ext_fin]) |>.symm]
    cases n with
    | zero => simp
    | succ n =>
      rw [Finset.sum_range_succ, ext_ge x (i := n + 1) (Nat.le_refl _)]
      simp [ofList]

theorem diagForm_ext {n : Nat} (ev : List ℝ) (x : Fin n → ℝ) : diagForm n (ofList ev) (ext x) = x ⬝ᵥ diagOf n ev *ᵥ x := by
  unfold diagForm diagOf
  rw [← Fin.sum_univ_eq_sum_range (fun i => ofList ev i * ext x i ^ 2) n]
  unfold dotProduct
  refine Finset.sum_congr rfl fun i _ => ?_
  rw [Matrix.mulVec_diagonal, ext_fin]
  unfold ofList; ring

/-- The restriction of a linear map of sequences to vectors of a fixed size. -/
def restrict {n : Nat} (P : (Nat → ℝ) ≃ₗ[ℝ] (Nat → ℝ)) : (Fin n → ℝ) →ₗ[ℝ] (Fin n → ℝ) where
  toFun x i := P (ext x) i.val
  map_add' x y := by
    have : ext (x + y) = ext x + ext y := by
      funext i
      unfold ext
      by_cases h : i < n <;> simp [h]
    funext i
    rw [this, map_add]; rfl
  map_smul' a x := by
    have : ext (a • x) = a • ext x := by
      funext i
      unfold ext
      by_cases h : i < n <;> simp [h]
    funext i
    rw [this, map_smul]; rfl

theorem ext_restrict {n : Nat} {P : (Nat → ℝ) ≃ₗ[ℝ] (Nat → ℝ)} (h : ∀ x i, n ≤ i → P x i = x i) (x : Fin n → ℝ) :
    ext (restrict P x) = P (ext x) := by
  funext i
  by_cases hi : i < n
  · simp only [ext, hi, dif_pos]; rfl
  · rw [ext_ge _ (by omega), h _ _ (by omega), ext_ge _ (by omega)]

/-- A linear map that preserves lengths is given by an orthogonal matrix. -/
theorem isometry_orthogonal {n : Nat} (f : (Fin n → ℝ) →ₗ[ℝ] (Fin n → ℝ)) (h : ∀ x, f x ⬝ᵥ f x = x ⬝ᵥ x) :
    ∃ P : Matrix (Fin n) (Fin n) ℝ, Pᵀ * P = 1 ∧ ∀ x, f x = P *ᵥ x := by
  have hf : ∀ x, f x = LinearMap.toMatrix' f *ᵥ x := fun x => (LinearMap.toMatrix'_mulVec f x).symm
  have hb : ∀ x y, f x ⬝ᵥ f y = x ⬝ᵥ y := by
    intro x y
    have a := h (x + y)
    rw [map_add, add_dotProduct, add_dotProduct, dotProduct_add, dotProduct_add, dotProduct_add, dotProduct_add, h, h,
      dotProduct_comm (f y) (f x), dotProduct_comm y x] at a
    linarith
  refine ⟨LinearMap.toMatrix' f, ?_, hf⟩
  ext i j
  have := hb (Pi.single i 1) (Pi.single j 1)
  rw [hf, hf] at this
  rw [Matrix.mul_apply]
  rw [dotProduct] at this
  simp only [Matrix.mulVec_single_one, Matrix.transpose_apply] at this ⊢
  have e : (Pi.single i (1 : ℝ) : Fin n → ℝ) ⬝ᵥ Pi.single j 1 = (1 : Matrix (Fin n) (Fin n) ℝ) i j := by
    rw [single_dotProduct, one_mul, Matrix.one_apply, Pi.single_apply]
  rw [e] at this
  exact this

/-! ## The result -/

/-- **C63.** What `tridiagonal_eigenvalues` returns, for every diagonal and subdiagonal: the diagonal of a matrix that
is the given one up to a rotation and a symmetric matrix of norm at most `B ((1 + 2 eps)^(n-1) - 1)`, where `B` is the
norm of the given matrix; the only other outcome is the exception. -/
theorem C63_rotation {n : Nat} {B eps : ℝ} {alpha beta : List ℝ} (ha : alpha.length = n) (hb : beta.length = n)
    (he : 0 ≤ eps) (hB0 : 0 ≤ B) (hB : ∀ x : Fin n → ℝ, |x ⬝ᵥ tridiag n alpha beta *ᵥ x| ≤ B * (x ⬝ᵥ x)) :
    (∃ ev, tridiagonalEigenvalues eps alpha beta = .ok ev ∧ ev.length = n ∧
      ∃ P : Matrix (Fin n) (Fin n) ℝ, Pᵀ * P = 1 ∧ ∀ x : Fin n → ℝ,
        |x ⬝ᵥ (diagOf n ev - Pᵀ * tridiag n alpha beta * P) *ᵥ x| ≤ B * ((1 + 2 * eps) ^ (n - 1) - 1) * (x ⬝ᵥ x)) ∨
      tridiagonalEigenvalues eps alpha beta = .err .runtimeError := by
  have hB' : ∀ x, |form n (ofList alpha) (ofList beta) x| ≤ B * sq n x := by
    intro x
    have e : ∀ i, i < n → ext (n := n) (fun i => x i.val) i = x i := fun i hi => by simp [ext, hi]
    have h1 : form n (ofList alpha) (ofList beta) x = form n (ofList alpha) (ofList beta) (ext (n := n) fun i => x i.val) := by
      unfold form
      congr 1
      · refine Finset.sum_congr rfl fun i hi => ?_
        rw [e i (Finset.mem_range.1 hi)]
      · congr 1
        refine Finset.sum_congr rfl fun i hi => ?_
        have := Finset.mem_range.1 hi
        rw [e i (by omega), e (i + 1) (by omega)]
    have h2 : sq n x = sq n (ext (n := n) fun i => x i.val) := by
      unfold sq
      refine Finset.sum_congr rfl fun i hi => ?_
      rw [e i (Finset.mem_range.1 hi)]
    rw [h1, h2, form_ext, sq_ext]
    exact hB _
  rcases eigenvalues_spec ha hb hB0 he hB' with ⟨ev, h1, h2, P, p1, p2, p4⟩ | h
  · left
    refine ⟨ev, h1, h2, ?_⟩
    obtain ⟨M, m1, m2⟩ := isometry_orthogonal (restrict (n := n) P) (fun x => by
      rw [← sq_ext, ext_restrict p2, p1, sq_ext])
    refine ⟨M, m1, fun x => ?_⟩
    have := p4 (ext x)
    rw [← ext_restrict p2, form_ext, diagForm_ext, sq_ext, m2] at this
    have e : x ⬝ᵥ (diagOf n ev - Mᵀ * tridiag n alpha beta * M) *ᵥ x = x ⬝ᵥ diagOf n ev *ᵥ x - (M *ᵥ x) ⬝ᵥ tridiag n alpha beta *ᵥ M *ᵥ x := by
      rw [Matrix.sub_mulVec, dotProduct_sub]
      congr 1
      rw [← Matrix.mulVec_mulVec, ← Matrix.mulVec_mulVec, Matrix.dotProduct_mulVec, Matrix.vecMul_transpose]
    rw [e]
    unfold err at this
    calc _ ≤ _ := this
      _ = _ := by rw [Nat.sub_zero]; ring
  · right; exact h

/-- A symmetric matrix whose quadratic form is small maps every vector to a short one. -/
theorem form_norm {n : Nat} {E : Matrix (Fin n) (Fin n) ℝ} (hE : E.IsSymm) {δ : ℝ} (hδ : 0 ≤ δ)
    (h : ∀ x : Fin n → ℝ, |x ⬝ᵥ E *ᵥ x| ≤ δ * (x ⬝ᵥ x)) (x : Fin n → ℝ) : (E *ᵥ x) ⬝ᵥ (E *ᵥ x) ≤ δ ^ 2 * (x ⬝ᵥ x) := by
  have hs : ∀ u v : Fin n → ℝ, u ⬝ᵥ E *ᵥ v = v ⬝ᵥ E *ᵥ u := by
    intro u v
    rw [Matrix.dotProduct_mulVec, dotProduct_comm, ← Matrix.mulVec_transpose, hE.eq]
  have hx : 0 ≤ x ⬝ᵥ x := by
    unfold dotProduct; exact Finset.sum_nonneg fun i _ => mul_self_nonneg _
  set y := E *ᵥ x with hy
  have hy0 : 0 ≤ y ⬝ᵥ y := by
    unfold dotProduct; exact Finset.sum_nonneg fun i _ => mul_self_nonneg _
  have key : ∀ t : ℝ, 2 * t * (y ⬝ᵥ y) ≤ δ * (x ⬝ᵥ x + t ^ 2 * (y ⬝ᵥ y)) := by
    intro t
    have a := (abs_le.1 (h (x + t • y))).2
    have b := (abs_le.1 (h (x - t • y))).1
    have hxy := hs x y
    rw [← hy] at hxy
    simp only [Matrix.mulVec_add, Matrix.mulVec_sub, Matrix.mulVec_smul, add_dotProduct, sub_dotProduct, dotProduct_add, dotProduct_sub,
      smul_dotProduct, dotProduct_smul, smul_eq_mul, ← hy, hxy, dotProduct_comm y x] at a b
    nlinarith
  by_cases h0 : δ = 0
  · have := key 1
    rw [h0] at this ⊢
    nlinarith
  · have hp : 0 < δ := lt_of_le_of_ne hδ (Ne.symm h0)
    have := key (1 / δ)
    have e1 : 2 * (1 / δ) * (y ⬝ᵥ y) = 2 * ((y ⬝ᵥ y) / δ) := by ring
    have e2 : δ * (x ⬝ᵥ x + (1 / δ) ^ 2 * (y ⬝ᵥ y)) = δ * (x ⬝ᵥ x) + (y ⬝ᵥ y) / δ := by field_simp
    rw [e1, e2] at this
    have h3 : (y ⬝ᵥ y) / δ ≤ δ * (x ⬝ᵥ x) := by linarith
    rw [div_le_iff₀ hp] at h3
    linarith [h3]

/-- The bound on the error of the returned eigenvalues. -/
noncomputable def qrError (B eps : ℝ) (n : Nat) : ℝ := B * ((1 + 2 * eps) ^ (n - 1) - 1)

theorem qrError_nonneg {B eps : ℝ} (hB : 0 ≤ B) (he : 0 ≤ eps) (n : Nat) : 0 ≤ qrError B eps n := by
  unfold qrError
  have : 1 ≤ (1 + 2 * eps) ^ (n - 1) := one_le_pow₀ (by linarith)
  nlinarith

/-- The matrix of the returned values, and how far it is from the given one. -/
theorem returned_spec {n : Nat} {B eps : ℝ} {alpha beta ev : List ℝ} (ha : alpha.length = n) (hb : beta.length = n)
    (he : 0 ≤ eps) (hB0 : 0 ≤ B) (hB : ∀ x : Fin n → ℝ, |x ⬝ᵥ tridiag n alpha beta *ᵥ x| ≤ B * (x ⬝ᵥ x))
    (h : tridiagonalEigenvalues eps alpha beta = .ok ev) :
    ev.length = n ∧ ∃ P E : Matrix (Fin n) (Fin n) ℝ, Pᵀ * P = 1 ∧ P * Pᵀ = 1 ∧ diagOf n ev = Pᵀ * tridiag n alpha beta * P + E ∧
      E.IsSymm ∧ (∀ x : Fin n → ℝ, |x ⬝ᵥ E *ᵥ x| ≤ qrError B eps n * (x ⬝ᵥ x)) ∧
      ∀ x : Fin n → ℝ, (E *ᵥ x) ⬝ᵥ (E *ᵥ x) ≤ qrError B eps n ^ 2 * (x ⬝ᵥ x) := by
  rcases C63_rotation ha hb he hB0 hB with ⟨ev', h1, h2, P, p1, p2⟩ | h'
  · rw [h] at h1
    cases h1
    have hs : (diagOf n ev - Pᵀ * tridiag n alpha beta * P).IsSymm := by
      unfold Matrix.IsSymm
      rw [Matrix.transpose_sub, Matrix.transpose_mul, Matrix.transpose_mul, Matrix.transpose_transpose, (tridiag_symm n alpha beta).eq,
        Matrix.mul_assoc]
      unfold diagOf
      rw [Matrix.diagonal_transpose]
    exact ⟨h2, P, diagOf n ev - Pᵀ * tridiag n alpha beta * P, p1, mul_eq_one_comm.1 p1, by abel, hs, p2,
      form_norm hs (qrError_nonneg hB0 he n) p2⟩
  · rw [h] at h'; cases h'

theorem dot_pos {n : Nat} {x : Fin n → ℝ} (hx : x ≠ 0) : 0 < x ⬝ᵥ x := by
  obtain ⟨i, hi⟩ := Function.ne_iff.1 hx
  unfold dotProduct
  exact Finset.sum_pos' (fun i _ => mul_self_nonneg _) ⟨i, Finset.mem_univ _, mul_self_pos.2 hi⟩

theorem dot_orthogonal {n : Nat} {P : Matrix (Fin n) (Fin n) ℝ} (h : Pᵀ * P = 1) (x : Fin n → ℝ) : (P *ᵥ x) ⬝ᵥ (P *ᵥ x) = x ⬝ᵥ x := by
  rw [Matrix.dotProduct_mulVec, ← Matrix.mulVec_transpose, Matrix.mulVec_mulVec, h, Matrix.one_mulVec]

/-- A diagonal matrix that almost maps a vector to a multiple of itself has an element next to the factor. -/
theorem near_diag {n : Nat} {d : Fin n → ℝ} {mu δ : ℝ} {w : Fin n → ℝ} (hw : w ≠ 0) (hδ : 0 ≤ δ)
    (h : (fun i => (d i - mu) * w i) ⬝ᵥ (fun i => (d i - mu) * w i) ≤ δ ^ 2 * (w ⬝ᵥ w)) : ∃ i, |d i - mu| ≤ δ := by
  by_contra hcon
  push Not at hcon
  have : δ ^ 2 * (w ⬝ᵥ w) < (fun i => (d i - mu) * w i) ⬝ᵥ (fun i => (d i - mu) * w i) := by
    unfold dotProduct
    rw [Finset.mul_sum]
    have hlt : ∀ i : Fin n, δ ^ 2 < (d i - mu) ^ 2 := by
      intro i
      have := hcon i
      rw [← sq_abs (d i - mu)]
      nlinarith
    obtain ⟨i, hi⟩ := Function.ne_iff.1 hw
    refine Finset.sum_lt_sum (fun i _ => ?_) ⟨i, Finset.mem_univ _, ?_⟩
    · nlinarith [hlt i, mul_self_nonneg (w i)]
    · nlinarith [hlt i, mul_self_pos.2 hi]
  linarith

/-- **C63.** No eigenvalue is missed: every eigenvalue of the matrix is next to a returned value. -/
theorem C63_complete {n : Nat} {B eps : ℝ} {alpha beta ev : List ℝ} (ha : alpha.length = n) (hb : beta.length = n)
    (he : 0 ≤ eps) (hB0 : 0 ≤ B) (hB : ∀ x : Fin n → ℝ, |x ⬝ᵥ tridiag n alpha beta *ᵥ x| ≤ B * (x ⬝ᵥ x))
    (h : tridiagonalEigenvalues eps alpha beta = .ok ev) {lam : ℝ} {v : Fin n → ℝ} (hv : v ≠ 0)
    (hlam : tridiag n alpha beta *ᵥ v = lam • v) : ∃ mu ∈ ev, |lam - mu| ≤ B * ((1 + 2 * eps) ^ (n - 1) - 1) := by
  obtain ⟨hl, P, E, p1, p2, hD, _, _, hE⟩ := returned_spec ha hb he hB0 hB h
  change ∃ mu ∈ ev, |lam - mu| ≤ qrError B eps n
  by_contra hcon
  push Not at hcon
  -- the vector in the rotated frame
  set w := Pᵀ *ᵥ v with hw
  have hPw : P *ᵥ w = v := by rw [hw, Matrix.mulVec_mulVec, p2, Matrix.one_mulVec]
  have hw0 : w ≠ 0 := by
    intro h0
    rw [h0, Matrix.mulVec_zero] at hPw
    exact hv hPw.symm
  have hEw : E *ᵥ w = fun i : Fin n => (ev.getD i 0 - lam) * w i := by
    have : diagOf n ev *ᵥ w = lam • w + E *ᵥ w := by
      rw [hD, Matrix.add_mulVec, ← Matrix.mulVec_mulVec, hPw, ← Matrix.mulVec_mulVec, hlam, Matrix.mulVec_smul]
    funext i
    have h2 := congrFun this i
    unfold diagOf at h2
    rw [Matrix.mulVec_diagonal, Pi.add_apply, Pi.smul_apply, smul_eq_mul] at h2
    linear_combination -h2
  have hb := hE w
  rw [hEw] at hb
  obtain ⟨i, hi⟩ := near_diag (d := fun i => ev.getD i 0) hw0 (qrError_nonneg hB0 he n) hb
  have := hcon (ev.getD i 0) (by rw [List.getD_eq_getElem _ _ (by omega)]; exact List.getElem_mem _)
  rw [abs_sub_comm] at this
  linarith

/-- A real symmetric matrix in the frame of its eigenvectors. -/
theorem symm_diagonal {n : Nat} {A : Matrix (Fin n) (Fin n) ℝ} (hA : A.IsSymm) :
    ∃ (U : Matrix (Fin n) (Fin n) ℝ) (d : Fin n → ℝ), Uᵀ * U = 1 ∧ U * Uᵀ = 1 ∧ A * U = U * Matrix.diagonal d := by
  have hH : A.IsHermitian := by
    unfold Matrix.IsHermitian
    rw [Matrix.conjTranspose_eq_transpose_of_trivial]
    exact hA
  have hu : (hH.eigenvectorUnitary : Matrix (Fin n) (Fin n) ℝ)ᵀ * hH.eigenvectorUnitary = 1 := by
    have := Matrix.UnitaryGroup.star_mul_self hH.eigenvectorUnitary
    rw [Matrix.star_eq_conjTranspose, Matrix.conjTranspose_eq_transpose_of_trivial] at this
    exact this
  refine ⟨hH.eigenvectorUnitary, hH.eigenvalues, hu, mul_eq_one_comm.1 hu, ?_⟩
  ext i j
  have := congrFun (hH.mulVec_eigenvectorBasis j) i
  rw [Matrix.mul_apply, Matrix.mul_diagonal]
  rw [Pi.smul_apply, smul_eq_mul, Matrix.mulVec, dotProduct] at this
  rw [Matrix.IsHermitian.eigenvectorUnitary_apply, mul_comm, ← this]
  rfl

/-- **C63.** Nothing is invented: every returned value is next to an eigenvalue of the matrix. -/
theorem C63_sound {n : Nat} {B eps : ℝ} {alpha beta ev : List ℝ} (ha : alpha.length = n) (hb : beta.length = n)
    (he : 0 ≤ eps) (hB0 : 0 ≤ B) (hB : ∀ x : Fin n → ℝ, |x ⬝ᵥ tridiag n alpha beta *ᵥ x| ≤ B * (x ⬝ᵥ x))
    (h : tridiagonalEigenvalues eps alpha beta = .ok ev) {mu : ℝ} (hmu : mu ∈ ev) :
    ∃ (lam : ℝ) (v : Fin n → ℝ), v ≠ 0 ∧ tridiag n alpha beta *ᵥ v = lam • v ∧ |lam - mu| ≤ B * ((1 + 2 * eps) ^ (n - 1) - 1) := by
  obtain ⟨hl, P, E, p1, p2, hD, _, _, hE⟩ := returned_spec ha hb he hB0 hB h
  obtain ⟨U, d, u1, u2, hU⟩ := symm_diagonal (tridiag_symm n alpha beta)
  obtain ⟨i, hi, rfl⟩ := List.getElem_of_mem hmu
  have hin : i < n := by omega
  set e : Fin n → ℝ := Pi.single ⟨i, hin⟩ 1 with hedef
  have he0 : e ≠ 0 := by
    intro h0
    have := congrFun h0 ⟨i, hin⟩
    simp [hedef] at this
  -- the rotated unit vector is almost an eigenvector
  have hT : tridiag n alpha beta *ᵥ P *ᵥ e = ev[i] • (P *ᵥ e) - P *ᵥ E *ᵥ e := by
    have h1 : diagOf n ev *ᵥ e = ev[i] • e := by
      unfold diagOf
      funext j
      rw [Matrix.mulVec_diagonal, Pi.smul_apply, smul_eq_mul]
      by_cases hj : j = ⟨i, hin⟩
      · subst hj
        rw [List.getD_eq_getElem _ _ hi]
      · simp [hedef, hj]
    rw [hD, Matrix.add_mulVec, ← Matrix.mulVec_mulVec, ← Matrix.mulVec_mulVec] at h1
    have h2 := congrArg (fun x => P *ᵥ x) h1
    simp only [Matrix.mulVec_add, Matrix.mulVec_smul] at h2
    rw [Matrix.mulVec_mulVec (tridiag n alpha beta *ᵥ P *ᵥ e), p2, Matrix.one_mulVec] at h2
    rw [← h2]; abel
  set w := Uᵀ *ᵥ P *ᵥ e with hw
  have hUw : U *ᵥ w = P *ᵥ e := by rw [hw, Matrix.mulVec_mulVec (P *ᵥ e), u2, Matrix.one_mulVec]
  have hww : w ⬝ᵥ w = e ⬝ᵥ e := by rw [← dot_orthogonal u1 w, hUw, dot_orthogonal p1]
  have hw0 : w ≠ 0 := by
    intro h0
    rw [h0, zero_dotProduct] at hww
    have := dot_pos he0
    linarith
  have hres : (fun j => (d j - ev[i]) * w j) = -(Uᵀ *ᵥ P *ᵥ E *ᵥ e) := by
    have h1 : U *ᵥ (Matrix.diagonal d *ᵥ w) = ev[i] • (U *ᵥ w) - P *ᵥ E *ᵥ e := by
      rw [Matrix.mulVec_mulVec w, ← hU, ← Matrix.mulVec_mulVec, hUw, hT]
    have h2 := congrArg (fun x => Uᵀ *ᵥ x) h1
    simp only [Matrix.mulVec_sub, Matrix.mulVec_smul] at h2
    have hUU : ∀ x : Fin n → ℝ, Uᵀ *ᵥ U *ᵥ x = x := fun x => by rw [Matrix.mulVec_mulVec, u1, Matrix.one_mulVec]
    rw [hUU, hUU] at h2
    funext j
    have h3 := congrFun h2 j
    rw [Matrix.mulVec_diagonal, Pi.sub_apply, Pi.smul_apply, smul_eq_mul] at h3
    rw [Pi.neg_apply]
    linear_combination h3
  have hbound : (fun j => (d j - ev[i]) * w j) ⬝ᵥ (fun j => (d j - ev[i]) * w j) ≤ qrError B eps n ^ 2 * (w ⬝ᵥ w) := by
    have u3 : (Uᵀ)ᵀ * Uᵀ = 1 := by rw [Matrix.transpose_transpose]; exact u2
    rw [hres, neg_dotProduct, dotProduct_neg, neg_neg, dot_orthogonal u3, dot_orthogonal p1, hww]
    exact hE e
  obtain ⟨k, hk⟩ := near_diag hw0 (qrError_nonneg hB0 he n) hbound
  refine ⟨d k, U *ᵥ Pi.single k 1, ?_, ?_, hk⟩
  · intro h0
    have h1 := congrArg (fun x => Uᵀ *ᵥ x) h0
    simp only [Matrix.mulVec_zero] at h1
    rw [Matrix.mulVec_mulVec (Pi.single k 1), u1, Matrix.one_mulVec] at h1
    have := congrFun h1 k
    simp at this
  · rw [Matrix.mulVec_mulVec, hU, ← Matrix.mulVec_mulVec, Matrix.diagonal_mulVec_single, mul_one, ← Matrix.mulVec_smul]
    congr 1
    funext j
    by_cases hj : j = k
    · subst hj; simp
    · simp [hj]

open Polynomial in
/-- **C63.** Where nothing is rounded to zero the returned values are the eigenvalues with their multiplicities: the
characteristic polynomial of the matrix is the product of the `X - ev_i`. -/
theorem C63_exact {n : Nat} {alpha beta ev : List ℝ} (ha : alpha.length = n) (hb : beta.length = n)
    (h : tridiagonalEigenvalues 0 alpha beta = .ok ev) :
    (tridiag n alpha beta).charpoly = (ev.map fun mu => (X - C mu : ℝ[X])).prod := by
  -- a bound of the matrix
  obtain ⟨B, hB0, hB⟩ : ∃ B : ℝ, 0 ≤ B ∧ ∀ x : Fin n → ℝ, |x ⬝ᵥ tridiag n alpha beta *ᵥ x| ≤ B * (x ⬝ᵥ x) := by
    obtain ⟨U, d, u1, u2, hU⟩ := symm_diagonal (tridiag_symm n alpha beta)
    refine ⟨∑ i, |d i|, Finset.sum_nonneg fun i _ => abs_nonneg _, fun x => ?_⟩
    have hx : U *ᵥ (Uᵀ *ᵥ x) = x := by rw [Matrix.mulVec_mulVec, u2, Matrix.one_mulVec]
    have h1 : x ⬝ᵥ tridiag n alpha beta *ᵥ x = (Uᵀ *ᵥ x) ⬝ᵥ Matrix.diagonal d *ᵥ (Uᵀ *ᵥ x) := by
      conv_lhs => rw [← hx]
      rw [Matrix.mulVec_mulVec (Uᵀ *ᵥ x), hU, ← Matrix.mulVec_mulVec, Matrix.dotProduct_mulVec, ← Matrix.mulVec_transpose, Matrix.mulVec_mulVec, u1,
        Matrix.one_mulVec]
    have h2 : x ⬝ᵥ x = (Uᵀ *ᵥ x) ⬝ᵥ (Uᵀ *ᵥ x) := by
      rw [← dot_orthogonal u1 (Uᵀ *ᵥ x), hx]
    rw [h1, h2]
    unfold dotProduct
    refine (Finset.abs_sum_le_sum_abs _ _).trans ?_
    rw [Finset.mul_sum]
    refine Finset.sum_le_sum fun i _ => ?_
    rw [Matrix.mulVec_diagonal, show ∀ a b : ℝ, a * (b * a) = b * (a * a) by intros; ring, abs_mul, abs_mul_self]
    refine mul_le_mul_of_nonneg_right ?_ (mul_self_nonneg _)
    exact Finset.single_le_sum (f := fun i => |d i|) (fun i _ => abs_nonneg _) (Finset.mem_univ i)
  obtain ⟨hl, P, E, p1, p2, hD, _, _, hE⟩ := returned_spec ha hb (le_refl 0) hB0 hB h
  have hE0 : E = 0 := by
    have hz : ∀ x : Fin n → ℝ, E *ᵥ x = 0 := by
      intro x
      by_contra hne
      have h1 := hE x
      have h2 := dot_pos hne
      have : qrError B 0 n = 0 := by simp [qrError]
      rw [this] at h1
      simp at h1
      linarith
    ext i j
    have := congrFun (hz (Pi.single j 1)) i
    rw [Matrix.mulVec_single_one] at this
    exact this
  rw [hE0, add_zero] at hD
  have hc : (tridiag n alpha beta).charpoly = (diagOf n ev).charpoly := by
    have hT : tridiag n alpha beta = P * diagOf n ev * Pᵀ := by
      rw [hD]
      have : P * (Pᵀ * tridiag n alpha beta * P) * Pᵀ = (P * Pᵀ) * tridiag n alpha beta * (P * Pᵀ) := by
        simp only [Matrix.mul_assoc]
      rw [this, p2, Matrix.one_mul, Matrix.mul_one]
    rw [hT, Matrix.charpoly_mul_comm, ← Matrix.mul_assoc, p1, Matrix.one_mul]
  rw [hc]
  unfold diagOf
  rw [Matrix.charpoly_diagonal]
  subst hl
  rw [← List.prod_ofFn]
  congr 1
  refine List.ext_getElem (by simp) fun i h1 h2 => ?_
  simp only [List.getElem_ofFn, List.getElem_map]
  rw [List.getD_eq_getElem]

/-! ## Two by two matrices -/

theorem shift_eigenvalue (d0 d1 e : ℝ) : (d0 - shift d0 d1 e) * (d1 - shift d0 d1 e) = e * e := by
  unfold shift
  simp only
  by_cases h : (d0 - d1) * (1 / 2) = 0
  · rw [if_pos h]
    have : d0 = d1 := by linarith
    subst this
    rw [← abs_mul_abs_self e]; ring
  · rw [if_neg h]
    by_cases h2 : e * e = 0
    · rw [if_pos h2]
      have : e = 0 := by simpa using h2
      subst this
      simp
    · rw [if_neg h2]
      set td := (d0 - d1) * (1 / 2) with htd
      have hd0 : d0 = d1 + 2 * td := by rw [htd]; ring
      set h := √(td * td + e * e) with hh
      have hsq : h * h = td * td + e * e := Real.mul_self_sqrt (by nlinarith [mul_self_nonneg td, mul_self_nonneg e])
      have hpos : 0 < h := Real.sqrt_pos.2 (by have := mul_self_pos.2 (show e ≠ 0 by rintro rfl; simp at h2); nlinarith [mul_self_nonneg td])
      rw [hd0]
      by_cases hp : td > 0
      · rw [if_pos hp]
        have hne : td + h ≠ 0 := by linarith
        field_simp
        have : e ^ 2 = h * h - td * td := by rw [hsq]; ring
        rw [this]; ring
      · rw [if_neg hp]
        have hn : td < 0 := lt_of_le_of_ne (not_lt.1 hp) ‹_›
        have hne : td + -h ≠ 0 := by linarith
        field_simp
        have : e ^ 2 = h * h - td * td := by rw [hsq]; ring
        rw [this]; ring

/-- **C63.** For a matrix of size two the first step already gives the eigenvalues; there is no exception. -/
theorem C63_two {eps a0 a1 b0 b1 : ℝ} (hb : (|a0| + |a1|) * eps ≤ |b0|) (hb0 : b0 ≠ 0) :
    ∃ mu nu, tridiagonalEigenvalues eps [a0, a1] [b0, b1] = .ok [mu, nu] ∧ mu + nu = a0 + a1 ∧ mu * nu = a0 * a1 - b0 * b0 := by
  obtain ⟨g1, g2⟩ := makeGivens_spec (a0 - shift a0 a1 b0) b0
  have hmu := shift_eigenvalue a0 a1 b0
  have hx : a0 - shift a0 a1 b0 ≠ 0 := by
    intro h0
    rw [h0, zero_mul] at hmu
    exact hb0 (by simpa using hmu.symm)
  have hsub : (makeGivens (a0 - shift a0 a1 b0) b0).c * ((makeGivens (a0 - shift a0 a1 b0) b0).s * a0 + (makeGivens (a0 - shift a0 a1 b0) b0).c * b0) -
      (makeGivens (a0 - shift a0 a1 b0) b0).s * ((makeGivens (a0 - shift a0 a1 b0) b0).s * b0 + (makeGivens (a0 - shift a0 a1 b0) b0).c * a1) = 0 := by
    generalize makeGivens (a0 - shift a0 a1 b0) b0 = g at *
    generalize shift a0 a1 b0 = mu at *
    have h2 : g.s * b0 + g.c * (a1 - mu) = 0 := by
      have : (a0 - mu) * (g.s * b0 + g.c * (a1 - mu)) = 0 := by linear_combination b0 * g2 + g.c * hmu
      exact (mul_eq_zero.1 this).resolve_left hx
    linear_combination g.c * g2 - g.s * h2
  unfold tridiagonalEigenvalues
  simp only [List.length_cons, List.length_nil]
  unfold qrLoop
  simp only [Nat.reduceAdd, Nat.reduceSub, one_ne_zero, if_false]
  have hnd : ¬ |b0| < (|a0| + |a1|) * eps := not_lt.2 hb
  simp only [deflate, Nat.sub_zero, List.range'_one, List.foldlM_cons, List.foldlM_nil, deflateAt, rd, List.getElem?_cons_zero,
    List.getElem?_cons_succ, Nat.reduceAdd, Res.bind_ok, if_neg hnd, Res.pure_eq, lower, hb0, if_false, one_ne_zero, Nat.sub_self,
    findStart, qrStep, Nat.reduceSub, rotate, wr, List.length_cons, List.length_nil, List.set_cons_zero, List.set_cons_succ,
    rotatePrev, rotateNext, Nat.lt_irrefl, zero_add, Nat.reduceLT, if_true]
  rw [hsub]
  unfold qrLoop
  simp only [deflate, Nat.sub_zero, List.range'_one, List.foldlM_cons, List.foldlM_nil, deflateAt, rd, List.getElem?_cons_zero,
    List.getElem?_cons_succ, Nat.reduceAdd, Res.bind_ok, Res.pure_eq, one_ne_zero, if_false, zero_add]
  generalize makeGivens (a0 - shift a0 a1 b0) b0 = g at *
  generalize shift a0 a1 b0 = mu at *
  refine ⟨g.c * (g.c * a0 - g.s * b0) - g.s * (g.c * b0 - g.s * a1), g.s * (g.s * a0 + g.c * b0) + g.c * (g.s * b0 + g.c * a1), ?_, ?_, ?_⟩
  · split_ifs
    · simp only [wr, List.length_cons, List.length_nil, Nat.zero_lt_succ, if_true, List.set_cons_zero, Res.bind_ok, lower, rd, List.getElem?_cons_zero, if_true]
    · simp only [Res.bind_ok, lower, rd, List.getElem?_cons_zero, if_true]
  · linear_combination (a0 + a1) * g1
  · linear_combination (a0 * a1 - b0 * b0) * (g.c * g.c + g.s * g.s + 1) * g1 +
      (g.c * (g.s * a0 + g.c * b0) - g.s * (g.s * b0 + g.c * a1)) * hsub

/-- A matrix that meets the hypotheses: the eigenvalues of `[[1, 1], [1, 1]]` are found. -/
example : ∃ mu nu, tridiagonalEigenvalues 0 [1, 1] [1, 5] = .ok [mu, nu] ∧ mu + nu = 2 ∧ mu * nu = 0 := by
  obtain ⟨mu, nu, h1, h2, h3⟩ := C63_two (eps := 0) (a0 := 1) (a1 := 1) (b0 := 1) (b1 := 5) (by norm_num) (by norm_num)
  exact ⟨mu, nu, h1, by linarith, by linarith⟩

/-- The bound on the matrix in the theorems above, for the same matrix. -/
example (x : Fin 2 → ℝ) : |x ⬝ᵥ tridiag 2 [1, 1] [1, 5] *ᵥ x| ≤ 2 * (x ⬝ᵥ x) := by
  have e : x ⬝ᵥ tridiag 2 [1, 1] [1, 5] *ᵥ x = (x 0 + x 1) ^ 2 := by
    simp [dotProduct, mulVec, tridiag, Fin.sum_univ_two]
    ring
  rw [e, abs_of_nonneg (sq_nonneg _)]
  simp only [dotProduct, Fin.sum_univ_two]
  nlinarith [sq_nonneg (x 0 - x 1)]

end Verif.Lanczos
