import Verif.Kpm.PropsCore
import Mathlib.LinearAlgebra.Matrix.Notation
import Mathlib.Analysis.Complex.Basic

/-!
# Densities and Green's functions as returned to the user (C51, C59)

The Hamiltonian is complex, as for a model with a magnetic field; real Hamiltonians are a special case.
-/

namespace Verif.Kpm

open Verif.Numeric Polynomial Finset
open Verif.Hopping (Csr)
open Verif.Hamiltonian (Sorted coeff)

variable {n : Nat}

/-- What the calculations need, for the scale `s`: see `Setup`. -/
def ComplexSetup (s : Scale ℝ) (h : Csr ℂ) (cfg : AlgorithmConfig) (first : Fin n) : Prop :=
  0 < s.a ∧ Sorted n h ∧ (matrixOf n h).IsHermitian ∧ matrixOf n h ≠ (s.b : ℂ) • 1 ∧
    (cfg.reorder = true → ∀ i : Fin n, Reach h first i)

theorem ComplexSetup.setup {s : Scale ℝ} {h : Csr ℂ} {cfg : AlgorithmConfig} {first : Fin n} (R : ComplexSetup s h cfg first) :
    Setup (1 / 2 : ℂ) h (2 / s.a) s.b cfg first := by
  obtain ⟨ha, h1, h2, h3, h4⟩ := R
  refine ⟨by norm_num, by simp, by simp, by simp, h1, h2, ?_, h4⟩
  unfold doubled
  intro h0
  have hne : (2 / s.a : ℂ) ≠ 0 := by
    refine div_ne_zero (by norm_num) ?_
    exact_mod_cast ha.ne'
  exact h3 (sub_eq_zero.1 ((smul_eq_zero.1 h0).resolve_left hne))

theorem scaled_complex (s : Scale ℝ) (h : Csr ℂ) : scaled n (1 / 2 : ℂ) h (2 / s.a) s.b = scaledMat s (matrixOf n h) := by
  unfold scaled doubled scaledMat
  rw [smul_smul]
  congr 1
  ring

/-- `T_k((H - b) / a)`, element by element. -/
noncomputable def chebOf (s : Scale ℝ) (H : Matrix (Fin n) (Fin n) ℂ) (k : Nat) : Matrix (Fin n) (Fin n) ℂ :=
  aeval ((s.a : ℂ)⁻¹ • (H - (s.b : ℂ) • 1)) (Chebyshev.T ℂ k)

theorem chebMat_complex (s : Scale ℝ) (h : Csr ℂ) (k : Nat) :
    chebMat n (1 / 2 : ℂ) h (2 / s.a) s.b k = chebOf s (matrixOf n h) k := by
  unfold chebMat chebOf
  rw [scaled_complex]
  rfl

theorem chebOf_star {s : Scale ℝ} {H : Matrix (Fin n) (Fin n) ℂ} (hH : H.IsHermitian) (k : Nat) (i j : Fin n) :
    star (chebOf s H k i j) = chebOf s H k j i := by
  have hS : ((s.a : ℂ)⁻¹ • (H - (s.b : ℂ) • (1 : Matrix (Fin n) (Fin n) ℂ))).IsHermitian := by
    unfold Matrix.IsHermitian
    rw [Matrix.conjTranspose_smul, Matrix.conjTranspose_sub, Matrix.conjTranspose_smul, Matrix.conjTranspose_one, hH.eq]
    simp
  have := isHermitian_aeval_T _ hS k
  exact this.apply j i

/-- The KPM approximation with kernel `g` and `num` moments of the element `(i, j)` of the Green's function of `H`. -/
noncomputable def greensSpec (s : Scale ℝ) (H : Matrix (Fin n) (Fin n) ℂ) (g : Nat → Nat → ℝ) (num : Nat) (i j : Fin n)
    (energy : ℝ) : ℂ :=
  -2 * Complex.I / s.a / Real.sqrt (1 - s.apply energy * s.apply energy) *
    ∑ k ∈ range num, (g num k : ℂ) * (weight (1 / 2) k * chebOf s H k i j) *
      Complex.exp (-Complex.I * k * Real.arccos (s.apply energy))

/-! ## C51: densities -/

/-- **C51** (value of the local density of states).  What the user gets for target `i` and an energy inside the bounds:
column `i` of C51_ldos, damped and reconstructed, is the expansion of the local density with the diagonal elements of
`T_k((H - b) / a)`. -/
theorem C51_ldos_value {s : Scale ℝ} {h : Csr ℂ} (hH : (matrixOf n h).IsHermitian) (g : Nat → Nat → ℝ)
    (num : Nat) (i : Fin n) (energy : ℝ) (he : -1 < s.apply energy ∧ s.apply energy < 1) :
    ldosValue g s (.ok ((List.range num).map fun k => weight (1 / 2) k * chebMat n (1 / 2 : ℂ) h (2 / s.a) s.b k i i)) energy =
      .ok (2 / Real.pi / s.a / Real.sqrt (1 - s.apply energy * s.apply energy) *
        ∑ k ∈ range num, g num k * ((if k = 0 then 1 / 2 else 1) * (chebOf s (matrixOf n h) k i i).re) *
          Real.cos (k * Real.arccos (s.apply energy))) := by
  unfold ldosValue spectralDensity
  rw [Res.bind_ok]
  simp only
  rw [if_pos he]
  have : (fun k => weight (1 / 2) k * chebMat n (1 / 2 : ℂ) h (2 / s.a) s.b k i i) = fun k : Nat =>
      (((if k = 0 then 1 / 2 else 1) * (chebOf s (matrixOf n h) k i i).re : ℝ) : ℂ) := by
    funext k
    rw [chebMat_complex]
    have hr : chebOf s (matrixOf n h) k i i = ((chebOf s (matrixOf n h) k i i).re : ℂ) :=
      (Complex.conj_eq_iff_re.1 (chebOf_star hH k i i)).symm
    rw [hr]
    unfold weight
    split <;> simp
  rw [this, densityAt_form]

/-- The moments of C51_ldos are those that C53 and C54 speak about. -/
theorem momentList_unitVec (s : Scale ℝ) (h : Csr ℂ) (num : Nat) (i : Fin n) :
    (List.range num).map (fun k => weight (1 / 2) k * chebMat n (1 / 2 : ℂ) h (2 / s.a) s.b k i i) =
      momentList s (matrixOf n h) (unitVec i) num := by
  unfold momentList
  refine List.map_congr_left fun k _ => ?_
  have := diagMoment_startVec (1 / 2 : ℂ) (scaledMat s (matrixOf n h)) [i] 0 k (by simp)
  simp only [List.getElem_cons_zero] at this
  rw [show (startVec [i] 0 : Fin n → ℂ) = unitVec i from rfl] at this
  rw [this]
  unfold chebMat
  rw [scaled_complex]

/-- **C51** (positive density).  With the Jackson kernel and bounds that enclose the spectrum, the local density of
states that is returned for a target is never negative. -/
theorem C51_ldos_nonnegative {h : Csr ℂ} (hH : (matrixOf n h).IsHermitian) {min max : ℝ} (hb : min < max)
    (hspec : spectrum ℝ (matrixOf n h) ⊆ Set.Icc min max) (num : Nat) (h1 : 1 ≤ num) (i : Fin n) (e : ℝ) (he : min ≤ e ∧ e ≤ max) :
    ∃ s v, Scale.ofBounds min max = .ok s ∧
      ldosValue jackson s (.ok ((List.range num).map fun k => weight (1 / 2) k * chebMat n (1 / 2 : ℂ) h (2 / s.a) s.b k i i)) e = .ok v ∧
      0 ≤ v := by
  obtain ⟨s, v, e1, e2, e3⟩ := C53_nonnegative hH hb hspec (unitVec i) num h1 e he
  refine ⟨s, v, e1, ?_, e3⟩
  unfold ldosValue
  rw [Res.bind_ok, momentList_unitVec]
  exact e2

/-! ## C59: which element of the Green's function -/

/-- The result of `calc_greens_vector(row, cols)`: the elements `(col, row)`. -/
theorem coreGreens_eq [DecidableEq ℂ] {s : Scale ℝ} {h : Csr ℂ} {cfg : AlgorithmConfig} {row : Fin n} (R : ComplexSetup s h cfg row)
    {f : Format ℂ n ℂ} (hf : f.Aligned) (g : Nat → Nat → ℝ) {num : Nat} (h2 : 2 ≤ num) (h4 : num % 4 = 2) (cols : List (Fin n))
    (hcols : cols ≠ []) (junk : Nat → ℂ) (energy : ℝ) (he : -1 < s.apply energy ∧ s.apply energy < 1) :
    coreGreens f cfg g s h num row (cols.map (·.val)) junk energy =
      .ok (cols.map fun c => greensSpec s (matrixOf n h) g num c row energy) := by
  unfold coreGreens
  rw [C51_greens R.setup hf h2 h4 cols hcols junk, Res.bind_ok, mapM_ok _ _ (fun m =>
    -2 * Complex.I / s.a / Real.sqrt (1 - s.apply energy * s.apply energy) *
      ((damp g m).mapIdx fun n m => m * Complex.exp (-Complex.I * n * Real.arccos (s.apply energy))).sum)
    fun m _ => by unfold greensFunction; simp only; rw [if_pos he], List.map_map]
  congr 1
  refine List.map_congr_left fun c _ => ?_
  simp only [Function.comp]
  unfold greensSpec
  rw [damp_range, sum_mapIdx_range]
  congr 1
  refine sum_congr rfl fun k _ => ?_
  rw [chebMat_complex]
  simp

/-- **C59** (real Hamiltonians).  For a real symmetric Hamiltonian, `calc_greens(i, j)` is the KPM approximation of the
element `(i, j)`, for every storage format and choice of algorithms. -/
theorem C59_real_partial [DecidableEq ℂ] {s : Scale ℝ} {h : Csr ℂ} {cfg : AlgorithmConfig} {row : Fin n} (R : ComplexSetup s h cfg row)
    (hreal : ∀ i j, (matrixOf n h i j).im = 0)
    {f : Format ℂ n ℂ} (hf : f.Aligned) (g : Nat → Nat → ℝ) {num : Nat} (h2 : 2 ≤ num) (h4 : num % 4 = 2) (cols : List (Fin n))
    (hcols : cols ≠ []) (junk : Nat → ℂ) (energy : ℝ) (he : -1 < s.apply energy ∧ s.apply energy < 1) :
    coreGreens f cfg g s h num row (cols.map (·.val)) junk energy =
      .ok (cols.map fun c => greensSpec s (matrixOf n h) g num row c energy) := by
  rw [coreGreens_eq R hf g h2 h4 cols hcols junk energy he]
  congr 1
  refine List.map_congr_left fun c _ => ?_
  unfold greensSpec
  congr 1
  refine sum_congr rfl fun k _ => ?_
  congr 3
  -- the transpose of the polynomial is the polynomial of the transpose
  have hT : (matrixOf n h).transpose = matrixOf n h := by
    ext i j
    rw [Matrix.transpose_apply, ← R.2.2.1.apply i j]
    exact (Complex.conj_eq_iff_im.2 (hreal j i)).symm
  have hS : ((s.a : ℂ)⁻¹ • (matrixOf n h - (s.b : ℂ) • (1 : Matrix (Fin n) (Fin n) ℂ))).transpose =
      (s.a : ℂ)⁻¹ • (matrixOf n h - (s.b : ℂ) • 1) := by
    rw [Matrix.transpose_smul, Matrix.transpose_sub, hT, Matrix.transpose_smul, Matrix.transpose_one]
  have key : (chebOf s (matrixOf n h) k).transpose = chebOf s (matrixOf n h) k := by
    unfold chebOf
    rw [Polynomial.aeval_eq_sum_range, Matrix.transpose_sum]
    refine sum_congr rfl fun m _ => ?_
    rw [Matrix.transpose_smul, Matrix.transpose_pow, hS]
  conv_lhs => rw [← key]
  rfl

/-- **C59** (complex Hamiltonians).  For a complex Hermitian Hamiltonian the element `(j, i)` is returned instead, the
expansion of which has the complex conjugated coefficients. -/
theorem C59_transposed [DecidableEq ℂ] {s : Scale ℝ} {h : Csr ℂ} {cfg : AlgorithmConfig} {row : Fin n} (R : ComplexSetup s h cfg row)
    {f : Format ℂ n ℂ} (hf : f.Aligned) (g : Nat → Nat → ℝ) {num : Nat} (h2 : 2 ≤ num) (h4 : num % 4 = 2) (col : Fin n)
    (junk : Nat → ℂ) (energy : ℝ) (he : -1 < s.apply energy ∧ s.apply energy < 1) :
    coreGreens f cfg g s h num row [col.val] junk energy = .ok [greensSpec s (matrixOf n h) g num col row energy] ∧
      ∀ k, chebOf s (matrixOf n h) k col row = star (chebOf s (matrixOf n h) k row col) :=
  ⟨coreGreens_eq R hf g h2 h4 [col] (by simp) junk energy he, fun k => (chebOf_star R.2.2.1 k row col).symm⟩

/-- Two sites with an imaginary hopping. -/
noncomputable def imagPair : Csr ℂ := [[(1, Complex.I)], [(0, -Complex.I)]]

theorem imagPair_mat : matrixOf 2 imagPair = !![0, Complex.I; -Complex.I, 0] := by
  ext i j
  fin_cases i <;> fin_cases j <;> simp [matrixOf, Verif.Hamiltonian.coeff, imagPair]

theorem imagPair_ready : ComplexSetup ⟨2, 0⟩ imagPair ⟨true, true⟩ (0 : Fin 2) := by
  refine ⟨by norm_num, ⟨rfl, ?_⟩, ?_, ?_, fun _ i => ?_⟩
  · intro r hr
    simp only [imagPair, List.mem_cons, List.not_mem_nil, or_false] at hr
    rcases hr with rfl | rfl <;> simp
  · rw [imagPair_mat]
    ext i j
    fin_cases i <;> fin_cases j <;> simp [Matrix.conjTranspose]
  · rw [imagPair_mat]
    intro h0
    have := congrFun (congrFun h0 0) 1
    simp at this
  · have h1 : Reach imagPair 0 1 := .single ⟨Complex.I, by simp [imagPair]⟩
    fin_cases i
    · exact .refl
    · exact h1

/-- **C59** (witness).  Two sites with an imaginary hopping: `calc_greens(0, 1)` is not the approximation of the
element `(0, 1)`, for any kernel that does not vanish. -/
theorem C59_witness [DecidableEq ℂ] (g : Nat → Nat → ℝ) (hg : g 2 1 ≠ 0) (junk : Nat → ℂ) :
    ∃ v, coreGreens (n := 2) (.csr fun _ => 0) ⟨true, true⟩ g ⟨2, 0⟩ imagPair 2 0 [1] junk 0 = .ok [v] ∧
      v ≠ greensSpec ⟨2, 0⟩ (matrixOf 2 imagPair) g 2 0 1 0 := by
  refine ⟨_, coreGreens_eq imagPair_ready (f := .csr fun _ => 0) trivial g (le_refl 2) rfl [1] (by simp) junk 0
    (by simp [Scale.apply]), ?_⟩
  unfold greensSpec
  intro h0
  have hne : -2 * Complex.I / ((2 : ℝ) : ℂ) / Real.sqrt (1 - (Scale.mk (2 : ℝ) 0).apply 0 * (Scale.mk (2 : ℝ) 0).apply 0) ≠ 0 := by
    simp [Scale.apply]
  have h1 := mul_left_cancel₀ hne h0
  have e0 : ∀ i j : Fin 2, chebOf ⟨2, 0⟩ (matrixOf 2 imagPair) 0 i j = (1 : Matrix (Fin 2) (Fin 2) ℂ) i j := by
    intro i j; simp [chebOf]
  have e1 : ∀ i j : Fin 2, chebOf ⟨2, 0⟩ (matrixOf 2 imagPair) 1 i j = (2 : ℂ)⁻¹ * matrixOf 2 imagPair i j := by
    intro i j; simp [chebOf]
  simp only [sum_range_succ, range_zero, sum_empty, zero_add, e0, e1] at h1
  rw [imagPair_mat] at h1
  have hg' : (g 2 1 : ℂ) ≠ 0 := by exact_mod_cast hg
  simp only [weight, Matrix.one_apply] at h1
  simp at h1
  have h2 : (g 2 1 : ℂ) * (2⁻¹ * Complex.I) *
      Complex.exp (-(Complex.I * (Real.arccos ((Scale.mk (2 : ℝ) 0).apply 0) : ℂ))) = 0 := by
    have h3 := neg_eq_iff_add_eq_zero.1 h1
    rw [← two_mul] at h3
    exact (mul_eq_zero.1 h3).resolve_left two_ne_zero
  have h4 : (g 2 1 : ℂ) * (2⁻¹ * Complex.I) ≠ 0 := mul_ne_zero hg' (mul_ne_zero (by norm_num) Complex.I_ne_zero)
  exact mul_ne_zero h4 (Complex.exp_ne_zero _) h2

/-! ## The hypotheses on the pair of sites -/

theorem imagPair_spectrum : spectrum ℝ (matrixOf 2 imagPair) ⊆ Set.Icc (-1) 1 := by
  intro x hx
  have h1 : x ^ 2 ∈ spectrum ℝ (matrixOf 2 imagPair ^ 2) := spectrum.pow_mem_pow _ 2 hx
  have h2 : matrixOf 2 imagPair ^ 2 = 1 := by
    rw [imagPair_mat, pow_two]
    ext i j
    fin_cases i <;> fin_cases j <;> simp [Matrix.mul_apply]
  rw [h2, spectrum.one_eq, Set.mem_singleton_iff] at h1
  rw [Set.mem_Icc]
  constructor <;> nlinarith

example (i : Fin 2) := C51_ldos_nonnegative imagPair_ready.2.2.1 (min := -1) (max := 1) (by norm_num) imagPair_spectrum 100 (by norm_num)
  i (1 / 2) (by norm_num)

example (i : Fin 2) := C51_ldos_value (s := ⟨2, 0⟩) imagPair_ready.2.2.1 jackson 100 i 1 (by unfold Scale.apply; norm_num)

/-- The moments of the operator `H` between the two sites. -/
noncomputable example [DecidableEq ℂ] := C51_moments (n := 2) (by norm_num) imagPair_ready.setup (f := .csr fun _ => 0) trivial jackson true
  (fun _ => false) 7 (fun _ => 1) (some fun i => if i = 0 then 1 else 0) (some imagPair) (by intro m hm; cases hm; exact imagPair_ready.2.1)
  (by simp) (fun _ => 3)

/-- Two sites with a real hopping meet the hypotheses of C59_real_partial. -/
example : ComplexSetup (n := 2) ⟨2, 0⟩ [[(1, 1)], [(0, 1)]] ⟨true, true⟩ 0 ∧ ∀ i j, (matrixOf 2 [[(1, (1 : ℂ))], [(0, 1)]] i j).im = 0 := by
  have hm : matrixOf 2 [[(1, (1 : ℂ))], [(0, 1)]] = !![0, 1; 1, 0] := by
    ext i j
    fin_cases i <;> fin_cases j <;> simp [matrixOf, Verif.Hamiltonian.coeff]
  refine ⟨⟨by norm_num, ⟨rfl, ?_⟩, ?_, ?_, fun _ i => ?_⟩, ?_⟩
  · intro r hr
    simp only [List.mem_cons, List.not_mem_nil, or_false] at hr
    rcases hr with rfl | rfl <;> simp
  · rw [hm]
    ext i j
    fin_cases i <;> fin_cases j <;> simp [Matrix.conjTranspose]
  · rw [hm]
    intro h0
    have := congrFun (congrFun h0 0) 1
    simp at this
  · have h1 : Reach [[(1, (1 : ℂ))], [(0, 1)]] 0 1 := .single ⟨1, by simp⟩
    fin_cases i
    · exact .refl
    · exact h1
  · rw [hm]
    intro i j
    fin_cases i <;> fin_cases j <;> simp

end Verif.Kpm
