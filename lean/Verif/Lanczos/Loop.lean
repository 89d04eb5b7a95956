import Verif.Lanczos.Ritz

/-!
# The loop of the Lanczos procedure
-/

namespace Verif.Lanczos

open Verif.Numeric
open Matrix

variable {𝕜 : Type} [RCLike 𝕜] {n : Nat}

/-- The state before iteration `i`, when the first vector is `q0`. -/
structure Inv (A : Matrix (Fin n) (Fin n) 𝕜) (eps : ℝ) (q0 : Fin n → 𝕜) (s : St 𝕜 n) (i : Nat) : Prop where
  lena : s.alpha.length = i
  lenb : s.beta.length = i
  prev : i ≠ 0 → ∃ ev, tridiagonalEigenvalues eps s.alpha s.beta = .ok ev ∧ minCoeff ev = .ok s.prevMin ∧ maxCoeff ev = .ok s.prevMax
  vecs : ∀ v1, s.v1 = some v1 → ∃ q, Krylov A s.alpha s.beta q (i + 1) ∧ q 0 = q0 ∧ v1 = q i ∧ s.v0 = prevVec q i

theorem getLastD_eq (beta : List ℝ) : beta.getLastD 0 = prevBeta beta beta.length := by
  unfold prevBeta
  cases beta with
  | nil => rfl
  | cons b l =>
    rw [if_neg (by simp), List.getLastD_cons, List.getLastD_eq_getLast?, List.getLast?_eq_getElem?]
    cases l with
    | nil => simp
    | cons c l => simp

/-- What one iteration does to the state. -/
structure Step (A : Matrix (Fin n) (Fin n) 𝕜) (q0 : Fin n → 𝕜) (s t : St 𝕜 n) (i : Nat) : Prop where
  prevMin : t.prevMin = s.prevMin
  prevMax : t.prevMax = s.prevMax
  alpha : ∃ a, t.alpha = s.alpha ++ [a]
  beta : ∃ b, t.beta = s.beta ++ [b]
  ritz : ∃ q, Ritz A t.alpha t.beta q (i + 1) ∧ q 0 = q0
  vecs : ∀ v1, t.v1 = some v1 → ∃ q, Krylov A t.alpha t.beta q (i + 2) ∧ q 0 = q0 ∧ v1 = q (i + 1) ∧ t.v0 = prevVec q (i + 1)

theorem extend_spec {f : Axpy} (hf : f.Valid) {m : Raw 𝕜} (hm : m.WF) (hr : m.rows = n) (hc : m.cols = n)
    (hA : (m.toMatrix n).IsHermitian) {eps : ℝ} {q0 : Fin n → 𝕜} {s t : St 𝕜 n} {i : Nat} (h : Inv (m.toMatrix n) eps q0 s i)
    (he : extend f m s = .ok t) : Step (m.toMatrix n) q0 s t i := by
  unfold extend at he
  cases hv : s.v1 with
  | none => rw [hv] at he; simp at he
  | some v1 =>
    obtain ⟨q, hk, hq0, hv1, hv0⟩ := h.vecs v1 hv
    rw [hv] at he
    simp only at he
    rw [lanczosSpmv_eq hm hr hc, Res.bind_ok] at he
    simp only at he
    rw [Axpy.run_eq hf, Res.bind_ok] at he
    simp only [Res.pure_eq, Res.ok.injEq] at he
    have ha : ∑ k, realDot ((m.toMatrix n *ᵥ v1) k) (v1 k) = RCLike.re (ip (m.toMatrix n *ᵥ q i) (q i)) := by
      rw [hv1]
      unfold ip dotProduct
      rw [map_sum]
      exact Finset.sum_congr rfl fun k _ => realDot_eq _ _
    set a := ∑ k, realDot ((m.toMatrix n *ᵥ v1) k) (v1 k) with hadef
    have hres : (fun k => (m.toMatrix n *ᵥ v1) k - ((s.beta.getLastD 0 : ℝ) : 𝕜) * s.v0 k - (a : 𝕜) * v1 k) =
        residual (m.toMatrix n) s.beta q a i := by
      funext k
      unfold residual
      rw [getLastD_eq, h.lenb, hv0, hv1]
      rfl
    have hb : (axpySpec a v1 fun k => (m.toMatrix n *ᵥ v1) k - ((s.beta.getLastD 0 : ℝ) : 𝕜) * s.v0 k) =
        (√(∑ k, square (residual (m.toMatrix n) s.beta q a i k)), residual (m.toMatrix n) s.beta q a i) := by
      unfold axpySpec
      rw [← hres]
    rw [hb] at he
    simp only at he
    set b := √(∑ k, square (residual (m.toMatrix n) s.beta q a i k)) with hbdef
    have hbb : b * b = ∑ k, square (residual (m.toMatrix n) s.beta q a i k) := Real.mul_self_sqrt (norm_nonneg' _)
    subst he
    refine ⟨rfl, rfl, ⟨a, rfl⟩, ⟨b, rfl⟩, ⟨q, hk.ritz hA h.lena h.lenb ha, hq0⟩, ?_⟩
    intro w hw
    simp only at hw
    by_cases hb0 : b = 0
    · rw [if_pos hb0] at hw; cases hw
    · rw [if_neg hb0] at hw
      refine ⟨_, hk.extend hA h.lena h.lenb ha hbb hb0, ?_, ?_, ?_⟩
      · rw [Function.update_of_ne (by omega)]; exact hq0
      · rw [Function.update_self]
        injection hw with hw
        rw [← hw]
        funext k
        rw [Pi.smul_apply, smul_eq_mul, mul_comm]
      · simp only [prevVec, Nat.add_sub_cancel, Nat.add_eq_zero_iff, one_ne_zero, and_false, if_false]
        rw [Function.update_of_ne (by omega), hv1]

/-- What is known of the returned bounds: they are the extreme values of a tridiagonal matrix, and those of the matrix
one step before differ from them by less than the precision. -/
def Returned (A : Matrix (Fin n) (Fin n) 𝕜) (eps precision huge : ℝ) (q0 : Fin n → 𝕜) (r : LanczosBounds) : Prop :=
  ∃ (alpha beta : List ℝ) (q : Nat → Fin n → 𝕜) (ev : List ℝ) (prevMin prevMax : ℝ),
    Ritz A alpha beta q (r.loops + 1) ∧ q 0 = q0 ∧
    tridiagonalEigenvalues eps alpha beta = .ok ev ∧ minCoeff ev = .ok r.min ∧ maxCoeff ev = .ok r.max ∧
    (r.loops = 0 → prevMin = huge ∧ prevMax = -huge) ∧
    (r.loops ≠ 0 → ∃ ev', tridiagonalEigenvalues eps (alpha.take r.loops) (beta.take r.loops) = .ok ev' ∧
      minCoeff ev' = .ok prevMin ∧ maxCoeff ev' = .ok prevMax) ∧
    r.min ≠ 0 ∧ |(prevMin - r.min) / r.min| < precision ∧ r.max ≠ 0 ∧ |(prevMax - r.max) / r.max| < precision

theorem lanczosLoop_spec {f : Axpy} (hf : f.Valid) {m : Raw 𝕜} (hm : m.WF) (hr : m.rows = n) (hc : m.cols = n)
    (hA : (m.toMatrix n).IsHermitian) {eps precision huge : ℝ} {q0 : Fin n → 𝕜} :
    ∀ (left i : Nat) (s : St 𝕜 n), Inv (m.toMatrix n) eps q0 s i → (i = 0 → s.prevMin = huge ∧ s.prevMax = -huge) →
      ∀ r, lanczosLoop f eps precision m left i s = .ok r → Returned (m.toMatrix n) eps precision huge q0 r := by
  intro left
  induction left with
  | zero => intro i s _ _ r hx; simp [lanczosLoop] at hx
  | succ left ih =>
    intro i s h h0 r hx
    unfold lanczosLoop at hx
    cases he : extend f m s with
    | ok t =>
      obtain ⟨p1, p2, ⟨a, hta⟩, ⟨b, htb⟩, ⟨q, hritz, hq⟩, hvecs⟩ := extend_spec hf hm hr hc hA h he
      rw [he, Res.bind_ok] at hx
      cases hev : tridiagonalEigenvalues eps t.alpha t.beta with
      | ok ev =>
        rw [hev, Res.bind_ok] at hx
        cases hlo : minCoeff ev with
        | ok lo =>
          rw [hlo, Res.bind_ok] at hx
          cases hhi : maxCoeff ev with
          | ok hi =>
            rw [hhi, Res.bind_ok] at hx
            by_cases hconv : (converged t.prevMin lo precision && converged t.prevMax hi precision) = true
            · rw [if_pos hconv] at hx
              simp only [Res.pure_eq, Res.ok.injEq] at hx
              subst hx
              rw [Bool.and_eq_true] at hconv
              obtain ⟨c1, c2⟩ := hconv
              unfold converged at c1 c2
              rw [decide_eq_true_eq] at c1 c2
              refine ⟨t.alpha, t.beta, q, ev, s.prevMin, s.prevMax, hritz, hq, hev, hlo, hhi, h0, ?_, c1.1, p1 ▸ c1.2, c2.1, p2 ▸ c2.2⟩
              intro hi0
              simp only
              rw [hta, htb, List.take_append_of_le_length (Nat.le_of_eq h.lena.symm), List.take_append_of_le_length (Nat.le_of_eq h.lenb.symm),
                List.take_of_length_le (Nat.le_of_eq h.lena), List.take_of_length_le (Nat.le_of_eq h.lenb)]
              exact h.prev hi0
            · rw [if_neg hconv] at hx
              refine ih (i + 1) _ ⟨?_, ?_, ?_, ?_⟩ (fun h' => by omega) r hx
              · exact hritz.lena
              · exact hritz.lenb
              · intro _; exact ⟨ev, hev, hlo, hhi⟩
              · exact hvecs
          | err e => rw [hhi] at hx; simp at hx
          | ub => rw [hhi] at hx; simp at hx
        | err e => rw [hlo] at hx; simp at hx
        | ub => rw [hlo] at hx; simp at hx
      | err e => rw [hev] at hx; simp at hx
      | ub => rw [hev] at hx; simp at hx
    | err e => rw [he] at hx; simp at hx
    | ub => rw [he] at hx; simp at hx

theorem inv_sqrt_aux {z : ℝ} (h : 0 < z) : 1 / √z * (1 / √z * z) = 1 := by
  have hs : √z ≠ 0 := (Real.sqrt_pos.2 h).ne'
  have e := Real.mul_self_sqrt h.le
  have : 1 / √z * (1 / √z * (√z * √z)) = 1 := by field_simp
  rwa [e] at this

theorem normalize_unit {v : Fin n → 𝕜} (h : v ≠ 0) : ip (normalize v) (normalize v) = 1 := by
  have hz := norm_pos' h
  unfold normalize
  simp only
  rw [if_pos hz]
  have e : (fun i => v i * ((1 / √(∑ i, square (v i)) : ℝ) : 𝕜)) = ((1 / √(∑ i, square (v i)) : ℝ) : 𝕜) • v := by
    funext i
    rw [Pi.smul_apply, smul_eq_mul, mul_comm]
  rw [e, ip_smul, ← ip_star, ip_smul, ip_self, star_mul']
  rw [RCLike.star_def, RCLike.conj_ofReal, RCLike.conj_ofReal, ← RCLike.ofReal_mul, ← RCLike.ofReal_mul, inv_sqrt_aux hz,
    RCLike.ofReal_one]

theorem normalize_zero : normalize (0 : Fin n → 𝕜) = 0 := by
  unfold normalize
  simp [square]

/-- A matrix with one element is its own eigenvalue. -/
theorem eigenvalues_one (eps a b : ℝ) : tridiagonalEigenvalues eps [a] [b] = .ok [a] := by
  unfold tridiagonalEigenvalues
  simp [qrLoop]

/-- An iteration that starts with NaN. -/
theorem lanczosLoop_none {f : Axpy} {m : Raw 𝕜} {eps p : ℝ} {left i : Nat} {s : St 𝕜 n} (h : s.v1 = none) :
    lanczosLoop f eps p m (left + 1) i s = .ub := by
  unfold lanczosLoop extend
  rw [h]
  rfl

/-- When the image of the first vector is a multiple of it, the second iteration computes with NaN. -/
theorem breakdown {f : Axpy} (hf : f.Valid) {m : Raw 𝕜} (hm : m.WF) (hr : m.rows = n) (hc : m.cols = n)
    {eps huge p : ℝ} {v : Fin n → 𝕜} {c : ℝ}
    (hv : ∀ i, (m.toMatrix n *ᵥ normalize v) i = (c : 𝕜) * normalize v i)
    (hc' : ∑ i, realDot ((m.toMatrix n *ᵥ normalize v) i) (normalize v i) = c)
    (hconv : (converged huge c (p / 100) && converged (-huge) c (p / 100)) = false) :
    minmaxEigenvalues f eps huge m v p = .ub := by
  unfold minmaxEigenvalues lanczosLoop
  have he : extend f m ⟨fun _ => 0, some (normalize v), [], [], huge, -huge⟩ =
      .ok ⟨normalize v, none, [c], [0], huge, -huge⟩ := by
    unfold extend
    simp only
    rw [lanczosSpmv_eq hm hr hc, Res.bind_ok]
    simp only
    rw [Axpy.run_eq hf, Res.bind_ok, hc']
    have : axpySpec c (normalize v) (fun i => (m.toMatrix n *ᵥ normalize v) i - ((([] : List ℝ).getLastD 0 : ℝ) : 𝕜) * 0) = (0, fun _ => 0) := by
      unfold axpySpec
      simp only [hv, mul_zero, sub_zero, sub_self]
      simp [square]
    rw [this]
    simp
  rw [he, Res.bind_ok]
  simp only
  rw [eigenvalues_one, Res.bind_ok]
  simp only [minCoeff, maxCoeff, List.foldl_nil, Res.bind_ok]
  rw [hconv]
  exact lanczosLoop_none rfl

end Verif.Lanczos
