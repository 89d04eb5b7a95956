import Verif.Lanczos.PropsLanczos
import Verif.Kpm.PropsConfig

/-!
# What the automatic bounds do not promise

Bounds that enclose the spectrum are what the KPM calculations need.  The Lanczos procedure does not always find them.
-/

namespace Verif.Lanczos

open Verif.Numeric
open Matrix

variable {𝕜 : Type} [RCLike 𝕜] {n : Nat}

/-! ## The tolerance -/

/-- **C64.** The scaling factors leave room for bounds that are a little too narrow: if no eigenvalue is outside the
bounds by more than 0.49 percent of their distance then the scaled eigenvalues are inside `(-1, 1)`. -/
theorem C64_tolerance {min max : ℝ} (h : min < max) {delta : ℝ} (hd : delta ≤ 49 / 10000 * (max - min)) :
    ∃ s, Kpm.Scale.ofBounds min max = .ok s ∧ ∀ E, min - delta ≤ E → E ≤ max + delta → -1 < s.apply E ∧ s.apply E < 1 := by
  have hw : 0 < max - min := sub_pos.2 h
  have ha : 0 < 1 / 2 * (max - min) * (1 + 1 / 100 : ℝ) := by positivity
  unfold Kpm.Scale.ofBounds
  simp only
  rw [if_neg ha.ne']
  by_cases hb : |1 / 2 * (max + min) / (1 / 2 * (max - min) * (1 + 1 / 100 : ℝ))| < 1 / 100 * (1 / 100)
  · rw [if_pos hb]
    refine ⟨_, rfl, fun E h1 h2 => ?_⟩
    unfold Kpm.Scale.apply
    simp only [sub_zero]
    rw [abs_div, abs_of_pos ha, div_lt_iff₀ ha, abs_lt] at hb
    rw [div_lt_one ha, lt_div_iff₀ ha]
    constructor <;> nlinarith [hb.1, hb.2]
  · rw [if_neg hb]
    refine ⟨_, rfl, fun E h1 h2 => ?_⟩
    unfold Kpm.Scale.apply
    simp only
    rw [div_lt_one ha, lt_div_iff₀ ha]
    constructor <;> nlinarith

/-- The hypotheses are met by the bounds of a matrix with eigenvalues between -3 and 3 found up to 0.01. -/
example : ∃ s, Kpm.Scale.ofBounds (-2.99 : ℝ) 2.99 = .ok s ∧ ∀ E, -3 ≤ E → E ≤ 3 → -1 < s.apply E ∧ s.apply E < 1 := by
  obtain ⟨s, h1, h2⟩ := C64_tolerance (min := -2.99) (max := 2.99) (delta := 0.01) (by norm_num) (by norm_num)
  exact ⟨s, h1, fun E a b => h2 E (by linarith) (by linarith)⟩

/-! ## A matrix that is a multiple of the identity -/

/-- **C64.** The procedure does not work for a Hamiltonian that is a multiple of the identity (in particular for a
system of one site): the second iteration divides by zero and computes with NaN. -/
theorem C64_multiple_of_identity {f : Axpy} (hf : f.Valid) {m : Raw 𝕜} (hm : m.WF) (hr : m.rows = n) (hc : m.cols = n)
    {eps huge p c : ℝ} (hp : 0 ≤ p) (hhuge : |c| * (1 + p / 100) ≤ huge) (hmat : m.toMatrix n = (c : 𝕜) • 1) (random : Fin n → 𝕜) :
    minmaxEigenvalues f eps huge m random p = .ub := by
  by_cases h0 : random = 0
  · subst h0
    have hz : normalize (0 : Fin n → 𝕜) = 0 := normalize_zero
    exact breakdown hf hm hr hc (c := 0) (by intro i; rw [hz, mulVec_zero]; simp) (by rw [hz, mulVec_zero]; simp [realDot])
      (by simp [converged])
  · have hv : m.toMatrix n *ᵥ normalize random = (c : 𝕜) • normalize random := by rw [hmat, smul_mulVec, one_mulVec]
    refine breakdown hf hm hr hc (c := c) (fun i => by rw [hv]; rfl) ?_ ?_
    · have : RCLike.re (ip (m.toMatrix n *ᵥ normalize random) (normalize random)) = c := by
        rw [hv, ← ip_star, ip_smul, normalize_unit h0, mul_one, RCLike.star_def, RCLike.conj_ofReal, RCLike.ofReal_re]
      rw [← this]
      unfold ip dotProduct
      rw [map_sum]
      exact Finset.sum_congr rfl fun k _ => realDot_eq _ _
    · rw [Bool.and_eq_false_iff]
      left
      unfold converged
      rw [decide_eq_false_iff_not]
      rintro ⟨hc0, hlt⟩
      rw [abs_div, div_lt_iff₀ (abs_pos.2 hc0)] at hlt
      have h1 : huge - |c| ≤ |huge - c| := by
        have := le_abs_self c
        have := le_abs_self (huge - c)
        linarith
      nlinarith

/-- A single site with energy 2, double precision. -/
example (random : Fin 1 → ℝ) : minmaxEigenvalues .generic (1 / 2 ^ 52) (10 ^ 308) ⟨1, 1, [0, 1], [0], [2]⟩ random 0.002 = .ub := by
  have hwf : (⟨1, 1, [0, 1], [0], [2]⟩ : Raw ℝ).WF := by
    refine ⟨rfl, rfl, ?_, ?_, rfl, ?_⟩ <;> simp
  refine C64_multiple_of_identity (f := .generic) (c := 2) trivial hwf rfl rfl (by norm_num) ?_ ?_ random
  · rw [abs_of_pos (by norm_num)]
    exact le_trans (by norm_num : _ ≤ (10 : ℝ) ^ 1) (pow_le_pow_right₀ (by norm_num) (by norm_num))
  · ext i j
    have hi : i = 0 := Subsingleton.elim _ _
    have hj : j = 0 := Subsingleton.elim _ _
    subst hi hj
    simp [Raw.toMatrix, Raw.row]

/-! ## Eigenvalues that are missed -/

/-- A matrix of size three with all elements stored. -/
def dense3 (A : Matrix (Fin 3) (Fin 3) ℝ) : Raw ℝ :=
  ⟨3, 3, [0, 3, 6, 9], [0, 1, 2, 0, 1, 2, 0, 1, 2], [A 0 0, A 0 1, A 0 2, A 1 0, A 1 1, A 1 2, A 2 0, A 2 1, A 2 2]⟩

theorem dense3_wf (A : Matrix (Fin 3) (Fin 3) ℝ) : (dense3 A).WF := by
  refine ⟨rfl, rfl, ?_, ?_, rfl, ?_⟩ <;> simp [dense3]

theorem dense3_toMatrix (A : Matrix (Fin 3) (Fin 3) ℝ) : (dense3 A).toMatrix 3 = A := by
  ext i j
  fin_cases i <;> fin_cases j <;> simp [dense3, Raw.toMatrix, Raw.row]

/-- Two unit vectors that complete a unit vector to an orthonormal basis. -/
theorem complete_basis (q : Fin 3 → ℝ) (hq : q ⬝ᵥ q = 1) :
    ∃ u v : Fin 3 → ℝ, u ⬝ᵥ u = 1 ∧ v ⬝ᵥ v = 1 ∧ q ⬝ᵥ u = 0 ∧ q ⬝ᵥ v = 0 ∧ u ⬝ᵥ v = 0 := by
  simp only [dotProduct, Fin.sum_univ_three] at hq ⊢
  by_cases h : q 0 * q 0 + q 1 * q 1 = 0
  · have h0 : q 0 = 0 := by nlinarith [mul_self_nonneg (q 0), mul_self_nonneg (q 1)]
    have h1 : q 1 = 0 := by nlinarith [mul_self_nonneg (q 0), mul_self_nonneg (q 1)]
    refine ⟨![1, 0, 0], ![0, 1, 0], ?_, ?_, ?_, ?_, ?_⟩ <;> simp [h0, h1]
  · have hpos : 0 < q 0 * q 0 + q 1 * q 1 :=
      lt_of_le_of_ne (by nlinarith [mul_self_nonneg (q 0), mul_self_nonneg (q 1)]) (Ne.symm h)
    set r := √(q 0 * q 0 + q 1 * q 1) with hr
    have hrr : r * r = q 0 * q 0 + q 1 * q 1 := Real.mul_self_sqrt hpos.le
    have hr0 : r ≠ 0 := (Real.sqrt_pos.2 hpos).ne'
    set c := 1 / r with hcdef
    have hc : c * r = 1 := by rw [hcdef]; field_simp
    refine ⟨![-(q 1 * c), q 0 * c, 0], ![-(q 2 * q 0 * c), -(q 2 * q 1 * c), r], ?_, ?_, ?_, ?_, ?_⟩ <;>
      simp only [Matrix.cons_val]
    · linear_combination -c * c * hrr + (c * r + 1) * hc
    · linear_combination -(q 2 * q 2 * c * c) * hrr + q 2 * q 2 * (c * r + 1) * hc + hrr + hq
    · ring
    · linear_combination q 2 * c * hrr - q 2 * r * hc
    · ring

/-- The matrix of the witness. -/
noncomputable def trap (q u v : Fin 3 → ℝ) (b k : ℝ) : Matrix (Fin 3) (Fin 3) ℝ :=
  1 + b • (vecMulVec q u + vecMulVec u q) + k • (vecMulVec u v + vecMulVec v u)

theorem trap_mulVec (q u v : Fin 3 → ℝ) (b k : ℝ) (x : Fin 3 → ℝ) :
    trap q u v b k *ᵥ x = x + b • ((u ⬝ᵥ x) • q + (q ⬝ᵥ x) • u) + k • ((v ⬝ᵥ x) • u + (u ⬝ᵥ x) • v) := by
  unfold trap
  rw [add_mulVec, add_mulVec, one_mulVec, smul_mulVec, smul_mulVec, add_mulVec, add_mulVec]
  simp only [vecMulVec_mulVec, op_smul_eq_smul]

theorem trap_hermitian (q u v : Fin 3 → ℝ) (b k : ℝ) : (trap q u v b k).IsHermitian := by
  ext i j
  simp [trap, vecMulVec, Matrix.one_apply, eq_comm]
  split_ifs <;> ring

theorem square_real (x : ℝ) : square x = x * x := by simp [square]

theorem realDot_real (x y : ℝ) : realDot x y = x * y := by simp [realDot]

/-- One iteration for a real matrix, given its result. -/
theorem extend_real {f : Axpy} (hf : f.Valid) {m : Raw ℝ} (hm : m.WF) (hr : m.rows = n) (hc : m.cols = n) {s : St ℝ n}
    {v1 next : Fin n → ℝ} (h : s.v1 = some v1) {a b : ℝ} (ha : (m.toMatrix n *ᵥ v1) ⬝ᵥ v1 = a) (hb : 0 < b) (hn : next ⬝ᵥ next = 1)
    (hw : m.toMatrix n *ᵥ v1 = s.beta.getLastD 0 • s.v0 + a • v1 + b • next) :
    extend f m s = .ok { s with v0 := v1, v1 := some next, alpha := s.alpha ++ [a], beta := s.beta ++ [b] } := by
  unfold extend
  rw [h]
  simp only
  rw [lanczosSpmv_eq hm hr hc, Res.bind_ok]
  simp only
  have e1 : ∑ i, realDot ((m.toMatrix n *ᵥ v1) i) (v1 i) = a := by
    rw [← ha]
    exact Finset.sum_congr rfl fun i _ => realDot_real _ _
  rw [e1, Axpy.run_eq hf, Res.bind_ok]
  have e2 : (fun i => (m.toMatrix n *ᵥ v1) i - ((s.beta.getLastD 0 : ℝ) : ℝ) * s.v0 i - a * v1 i) = b • next := by
    funext i
    rw [hw]
    simp only [Pi.add_apply, Pi.smul_apply, smul_eq_mul]
    ring
  have e3 : axpySpec a v1 (fun i => (m.toMatrix n *ᵥ v1) i - ((s.beta.getLastD 0 : ℝ) : ℝ) * s.v0 i) = (b, b • next) := by
    unfold axpySpec
    simp only [RCLike.ofReal_real_eq_id, id_eq]
    have e4 : ∀ i, (m.toMatrix n *ᵥ v1) i - s.beta.getLastD 0 * s.v0 i - a * v1 i = (b • next) i := fun i => congrFun e2 i
    simp only [e4]
    have e5 : ∑ i, square ((b • next) i) = b ^ 2 := by
      calc ∑ i, square ((b • next) i) = (b • next) ⬝ᵥ (b • next) := Finset.sum_congr rfl fun i _ => square_real _
        _ = b ^ 2 := by rw [smul_dotProduct, dotProduct_smul, hn]; simp; ring
    rw [e5, Real.sqrt_sq hb.le]
  simp only [RCLike.ofReal_real_eq_id, id_eq] at e3 ⊢
  rw [e3]
  simp only
  rw [if_neg hb.ne']
  show Res.ok _ = Res.ok _
  congr 3
  funext i
  rw [Pi.smul_apply, smul_eq_mul]
  field_simp

/-- **C64** is not the enclosure of the spectrum.  For every starting vector, every precision and every `k` there is a
Hamiltonian (real symmetric, three sites) for which the procedure succeeds with bounds between 0 and 2 although there
is an eigenvalue above `k`. -/
theorem C64_missed {f : Axpy} (hf : f.Valid) {random : Fin 3 → ℝ} (hrand : random ≠ 0) {eps huge p : ℝ} (hp : 0 < p)
    (he : 8 * eps ≤ 1) (hep : 800 * eps ≤ p) (hhuge : 1 + p / 100 ≤ huge) {k : ℝ} (hk : 0 < k) :
    ∃ m : Raw ℝ, m.WF ∧ m.rows = 3 ∧ m.cols = 3 ∧ (m.toMatrix 3).IsHermitian ∧
      (∃ r, minmaxEigenvalues f eps huge m random p = .ok r ∧ 0 < r.min ∧ r.max < 2) ∧
      ∃ lam, Eigenvalue (m.toMatrix 3) lam ∧ k < lam := by
  set q := normalize random with hqdef
  have hq : q ⬝ᵥ q = 1 := by
    have := normalize_unit hrand
    unfold ip at this
    rwa [star_trivial] at this
  obtain ⟨u, v, hu, hv, hqu, hqv, huv⟩ := complete_basis q hq
  have huq : u ⬝ᵥ q = 0 := by rw [dotProduct_comm]; exact hqu
  have hvq : v ⬝ᵥ q = 0 := by rw [dotProduct_comm]; exact hqv
  have hvu : v ⬝ᵥ u = 0 := by rw [dotProduct_comm]; exact huv
  obtain ⟨b, hb0, hb1, hbp, hbe⟩ : ∃ b : ℝ, 0 < b ∧ b ≤ 1 / 4 ∧ b ≤ p / 400 ∧ 2 * eps ≤ b := by
    refine ⟨min (1 / 4) (p / 400), lt_min (by norm_num) (by linarith), min_le_left _ _, min_le_right _ _, le_min ?_ ?_⟩ <;> linarith
  set A := trap q u v b k with hA
  refine ⟨dense3 A, dense3_wf A, rfl, rfl, ?_, ?_, ?_⟩
  · rw [dense3_toMatrix]; exact trap_hermitian _ _ _ _ _
  · have hAq : A *ᵥ q = q + b • u := by
      rw [hA, trap_mulVec, huq, hvq, hq]; simp
    have hAu : A *ᵥ u = b • q + u + k • v := by
      rw [hA, trap_mulVec, hu, hvu, hqu]; simp; abel
    unfold minmaxEigenvalues
    rw [← hqdef]
    unfold lanczosLoop
    rw [extend_real (n := 3) hf (dense3_wf A) rfl rfl (s := ⟨fun _ => 0, some q, [], [], huge, -huge⟩) (v1 := q) (next := u) rfl (a := 1) (b := b)
      (by rw [dense3_toMatrix, hAq, add_dotProduct, smul_dotProduct, hq, huq]; simp) hb0 hu
      (by rw [dense3_toMatrix, hAq]; funext i; simp), Res.bind_ok]
    simp only [List.nil_append]
    rw [eigenvalues_one, Res.bind_ok]
    simp only [minCoeff, maxCoeff, List.foldl_nil, Res.bind_ok]
    have hnc : converged huge 1 (p / 100) = false := by
      unfold converged
      rw [decide_eq_false_iff_not]
      rintro ⟨_, hlt⟩
      rw [div_one, abs_lt] at hlt
      linarith [hlt.2]
    rw [hnc, Bool.false_and]
    simp only [Bool.false_eq_true, if_false]
    unfold lanczosLoop
    rw [extend_real (n := 3) hf (dense3_wf A) rfl rfl (s := ⟨q, some u, [1], [b], 1, 1⟩) (v1 := u) (next := v) rfl (a := 1) (b := k)
      (by rw [dense3_toMatrix, hAu, add_dotProduct, add_dotProduct, smul_dotProduct, smul_dotProduct, hqu, hu, hvu]; simp) hk hv
      (by rw [dense3_toMatrix, hAu]; simp), Res.bind_ok]
    simp only [List.cons_append, List.nil_append]
    obtain ⟨mu, nu, h1, h2, h3⟩ := C63_two (eps := eps) (a0 := 1) (a1 := 1) (b0 := b) (b1 := k)
      (by rw [abs_one, abs_of_pos hb0]; linarith) hb0.ne'
    rw [h1, Res.bind_ok]
    simp only [minCoeff, maxCoeff, List.foldl_cons, List.foldl_nil, Res.bind_ok]
    have hcases : (mu = 1 - b ∧ nu = 1 + b) ∨ (mu = 1 + b ∧ nu = 1 - b) := by
      have : (mu - (1 - b)) * (mu - (1 + b)) = 0 := by
        have : nu = 2 - mu := by linarith
        rw [this] at h3
        linear_combination -h3
      rcases mul_eq_zero.1 this with h | h
      · left; constructor <;> linarith
      · right; constructor <;> linarith
    have hmin : min mu nu = 1 - b := by
      rcases hcases with ⟨e1, e2⟩ | ⟨e1, e2⟩ <;> rw [e1, e2]
      · exact min_eq_left (by linarith)
      · exact min_eq_right (by linarith)
    have hmax : max mu nu = 1 + b := by
      rcases hcases with ⟨e1, e2⟩ | ⟨e1, e2⟩ <;> rw [e1, e2]
      · exact max_eq_right (by linarith)
      · exact max_eq_left (by linarith)
    rw [hmin, hmax]
    have hc1 : converged 1 (1 - b) (p / 100) = true := by
      unfold converged
      rw [decide_eq_true_eq]
      refine ⟨by linarith, ?_⟩
      have : (0 : ℝ) < 1 - b := by linarith
      rw [abs_of_nonneg (div_nonneg (by linarith) this.le), div_lt_iff₀ this]
      nlinarith
    have hc2 : converged 1 (1 + b) (p / 100) = true := by
      unfold converged
      rw [decide_eq_true_eq]
      refine ⟨by linarith, ?_⟩
      have : (0 : ℝ) < 1 + b := by linarith
      rw [abs_div, abs_of_pos this, div_lt_iff₀ this, abs_lt]
      constructor <;> nlinarith
    rw [hc1, hc2]
    exact ⟨_, rfl, by simp only; linarith, by simp only; linarith⟩
  · rw [dense3_toMatrix]
    by_contra hcon
    push Not at hcon
    have hle := rayleigh_le (trap_hermitian q u v b k) (fun lam hl => hcon lam hl) (u + v)
    have hval : RCLike.re (ip (u + v) (trap q u v b k *ᵥ (u + v))) = 2 + 2 * k := by
      unfold ip
      rw [star_trivial, trap_mulVec]
      simp only [dotProduct_add, add_dotProduct, dotProduct_smul, hu, hv, hqu, hqv, huv, huq, hvq, hvu, smul_eq_mul,
        RCLike.re_to_real]
      ring
    have hnorm : ∑ i, square ((u + v) i) = 2 := by
      calc ∑ i, square ((u + v) i) = (u + v) ⬝ᵥ (u + v) := Finset.sum_congr rfl fun i _ => square_real _
        _ = 2 := by simp only [dotProduct_add, add_dotProduct, hu, hv, huv, hvu]; norm_num
    rw [hval, hnorm] at hle
    linarith

/-- The default precision in double precision arithmetic, from the vector of three equal elements. -/
example : ∃ m : Raw ℝ, (m.toMatrix 3).IsHermitian ∧
    (∃ r, minmaxEigenvalues .generic (1 / 2 ^ 52) (10 ^ 308) m (fun _ : Fin 3 => 1) 0.002 = .ok r ∧ r.max < 2) ∧
    ∃ lam, Eigenvalue (m.toMatrix 3) lam ∧ 1000000 < lam := by
  obtain ⟨m, _, _, _, h1, ⟨r, h2, _, h3⟩, h4⟩ := C64_missed (f := .generic) trivial (random := fun _ => 1)
    (fun h => by simpa using congrFun h 0) (eps := 1 / 2 ^ 52) (huge := 10 ^ 308) (p := 0.002) (by norm_num) (by norm_num) (by norm_num)
    (le_trans (by norm_num : _ ≤ (10 : ℝ) ^ 1) (pow_le_pow_right₀ (by norm_num) (by norm_num))) (k := 1000000) (by norm_num)
  exact ⟨m, h1, ⟨r, h2, h3⟩, h4⟩

/-! ## A run that meets the hypotheses of `C64_inside`, `C64_full`, `C64_loops` and `C64_precision` -/

/-- The last iteration for a real matrix, when nothing remains. -/
theorem extend_last {f : Axpy} (hf : f.Valid) {m : Raw ℝ} (hm : m.WF) (hr : m.rows = n) (hc : m.cols = n) {s : St ℝ n}
    {v1 : Fin n → ℝ} (h : s.v1 = some v1) {a : ℝ} (ha : (m.toMatrix n *ᵥ v1) ⬝ᵥ v1 = a)
    (hw : m.toMatrix n *ᵥ v1 = s.beta.getLastD 0 • s.v0 + a • v1) :
    extend f m s = .ok { s with v0 := v1, v1 := none, alpha := s.alpha ++ [a], beta := s.beta ++ [0] } := by
  unfold extend
  rw [h]
  simp only
  rw [lanczosSpmv_eq hm hr hc, Res.bind_ok]
  simp only
  have e1 : ∑ i, realDot ((m.toMatrix n *ᵥ v1) i) (v1 i) = a := by
    rw [← ha]
    exact Finset.sum_congr rfl fun i _ => realDot_real _ _
  rw [e1, Axpy.run_eq hf, Res.bind_ok]
  have e3 : axpySpec a v1 (fun i => (m.toMatrix n *ᵥ v1) i - ((s.beta.getLastD 0 : ℝ) : ℝ) * s.v0 i) = (0, fun _ => 0) := by
    unfold axpySpec
    simp only [RCLike.ofReal_real_eq_id, id_eq]
    have e4 : ∀ i, (m.toMatrix n *ᵥ v1) i - s.beta.getLastD 0 * s.v0 i - a * v1 i = 0 := fun i => by
      rw [hw]
      simp only [Pi.add_apply, Pi.smul_apply, smul_eq_mul]
      ring
    simp only [e4]
    simp [square_real]
  simp only [RCLike.ofReal_real_eq_id, id_eq] at e3 ⊢
  rw [e3]
  simp

/-- The matrix `[[1, 1/4], [1/4, 1]]`. -/
noncomputable def dimer : Raw ℝ := ⟨2, 2, [0, 2, 4], [0, 1, 0, 1], [1, 1 / 4, 1 / 4, 1]⟩

theorem dimer_wf : dimer.WF := by refine ⟨rfl, rfl, ?_, ?_, rfl, ?_⟩ <;> simp [dimer]

theorem dimer_toMatrix : dimer.toMatrix 2 = !![1, 1 / 4; 1 / 4, 1] := by
  ext i j
  fin_cases i <;> fin_cases j <;> simp [dimer, Raw.toMatrix, Raw.row]

/-- The procedure finds the two eigenvalues 3/4 and 5/4. -/
theorem dimer_run : minmaxEigenvalues .generic 0 (10 ^ 3) dimer ![1, 0] 50 = .ok ⟨3 / 4, 5 / 4, 1⟩ := by
  have hn : normalize ![(1 : ℝ), 0] = ![1, 0] := by
    unfold normalize
    simp [square]
  have hA0 : dimer.toMatrix 2 *ᵥ ![1, 0] = ![1, 1 / 4] := by
    rw [dimer_toMatrix]; funext i; fin_cases i <;> simp [mulVec, dotProduct]
  have hA1 : dimer.toMatrix 2 *ᵥ ![0, 1] = ![1 / 4, 1] := by
    rw [dimer_toMatrix]; funext i; fin_cases i <;> simp [mulVec, dotProduct]
  unfold minmaxEigenvalues
  rw [hn]
  unfold lanczosLoop
  rw [extend_real (n := 2) (f := .generic) trivial dimer_wf rfl rfl (s := ⟨fun _ => 0, some ![1, 0], [], [], 10 ^ 3, -10 ^ 3⟩)
    (v1 := ![1, 0]) (next := ![0, 1]) rfl (a := 1) (b := 1 / 4)
    (by rw [hA0]; simp [dotProduct]) (by norm_num) (by simp [dotProduct])
    (by rw [hA0]; funext i; fin_cases i <;> simp), Res.bind_ok]
  simp only [List.nil_append]
  rw [eigenvalues_one, Res.bind_ok]
  simp only [minCoeff, maxCoeff, List.foldl_nil, Res.bind_ok]
  have hnc : converged (10 ^ 3) 1 (50 / 100) = false := by
    unfold converged
    rw [decide_eq_false_iff_not]
    rintro ⟨_, hlt⟩
    rw [div_one, abs_lt] at hlt
    linarith [hlt.2]
  rw [hnc, Bool.false_and]
  simp only [Bool.false_eq_true, if_false]
  unfold lanczosLoop
  rw [extend_last (n := 2) (f := .generic) trivial dimer_wf rfl rfl (s := ⟨![1, 0], some ![0, 1], [1], [1 / 4], 1, 1⟩)
    (v1 := ![0, 1]) rfl (a := 1) (by rw [hA1]; simp [dotProduct]) (by rw [hA1]; funext i; fin_cases i <;> simp), Res.bind_ok]
  simp only [List.cons_append, List.nil_append]
  obtain ⟨mu, nu, h1, h2, h3⟩ := C63_two (eps := 0) (a0 := 1) (a1 := 1) (b0 := 1 / 4) (b1 := 0) (by norm_num) (by norm_num)
  rw [h1, Res.bind_ok]
  simp only [minCoeff, maxCoeff, List.foldl_cons, List.foldl_nil, Res.bind_ok]
  have hcases : (mu = 3 / 4 ∧ nu = 5 / 4) ∨ (mu = 5 / 4 ∧ nu = 3 / 4) := by
    have : (mu - 3 / 4) * (mu - 5 / 4) = 0 := by
      have : nu = 2 - mu := by linarith
      rw [this] at h3
      linear_combination -h3
    rcases mul_eq_zero.1 this with h | h
    · left; constructor <;> linarith
    · right; constructor <;> linarith
  have hmin : min mu nu = 3 / 4 := by
    rcases hcases with ⟨e1, e2⟩ | ⟨e1, e2⟩ <;> rw [e1, e2] <;> norm_num
  have hmax : max mu nu = 5 / 4 := by
    rcases hcases with ⟨e1, e2⟩ | ⟨e1, e2⟩ <;> rw [e1, e2] <;> norm_num
  rw [hmin, hmax]
  have hc1 : converged 1 (3 / 4) (50 / 100) = true := by
    unfold converged
    rw [decide_eq_true_eq]
    norm_num [abs_of_pos]
  have hc2 : converged 1 (5 / 4) (50 / 100) = true := by
    unfold converged
    rw [decide_eq_true_eq]
    norm_num [abs_of_neg]
  rw [hc1, hc2]
  rfl

/-- All hypotheses of the theorems hold for this run, with `r.loops + 1 = n`. -/
example : Axpy.generic.Valid ∧ dimer.WF ∧ dimer.rows = 2 ∧ dimer.cols = 2 ∧ (dimer.toMatrix 2).IsHermitian ∧
    ∃ r, minmaxEigenvalues .generic 0 (10 ^ 3) dimer ![1, 0] 50 = .ok r ∧ r.loops + 1 = 2 := by
  refine ⟨trivial, dimer_wf, rfl, rfl, ?_, _, dimer_run, rfl⟩
  rw [dimer_toMatrix]
  ext i j
  fin_cases i <;> fin_cases j <;> simp

end Verif.Lanczos
