import Verif.Lattice.Props
import Mathlib.Analysis.Complex.Basic
import Mathlib.Data.Complex.Basic
import Mathlib.Tactic.NormNum
import Mathlib.Tactic.Linarith

/-!
# Which onsite energies are accepted, and what they become (C106)

The check of onsite energies uses functions of Eigen which compare with a tolerance (`1e-12` for `double`).  `Verif.Lattice.Model` has the check without tolerance; here is the one with it.
-/

namespace Verif.Lattice

/-! ## Model -/

/-- The largest modulus on and above the diagonal, as `isUpperTriangular` of Eigen (called in Registry.cpp:117) finds it, starting with -1. -/
noncomputable def upperMax (m : Mat ℂ) : ℝ :=
  ((List.finRange m.cols).flatMap fun j => ((List.finRange m.rows).filter fun i => decide (i.val ≤ j.val)).map fun i => ‖m.e i j‖).foldl max (-1)

/-- `energy.diagonal().imag().isZero()`, Registry.cpp:114; Eigen compares every element with `ε` times one. -/
def diagRealTol (ε : ℝ) (m : Mat ℂ) : Prop := ∀ (i : Fin m.rows) (j : Fin m.cols), i.val = j.val → |(m.e i j).im| ≤ ε

/-- `energy.isUpperTriangular()`, Registry.cpp:117; Eigen compares with `ε` times the largest modulus on and above the diagonal. -/
def isUpperTol (ε : ℝ) (m : Mat ℂ) : Prop := ∀ (i : Fin m.rows) (j : Fin m.cols), j.val < i.val → ‖m.e i j‖ ≤ upperMax m * ε

open Classical in
/-- `detail::check_onsite_energy`, Registry.cpp:107-120, with the tolerance `ε`. -/
noncomputable def checkOnsiteTol (ε : ℝ) (m : Mat ℂ) : Res Unit :=
  if m.rows ≠ m.cols then .err .logicError
  else if m.rows = 0 then .err .logicError
  else if ¬ diagRealTol ε m then .err .logicError
  else if ¬ isUpperTol ε m ∧ isHermitian m = false then .err .logicError
  else .ok ()

/-- `detail::canonical_onsite_energy(VectorXd)`, Registry.cpp:126-131: a list of real numbers is a diagonal matrix. -/
def canonicalVector (v : List ℝ) : Mat ℂ := ⟨v.length, v.length, fun i j => if i.val = j.val then ((v[i.val]'i.isLt : ℝ) : ℂ) else 0⟩

/-! ## Lemmas -/

theorem maxFold_spec (l : List ℝ) (a : ℝ) : a ≤ l.foldl max a ∧ (∀ x ∈ l, x ≤ l.foldl max a) ∧ (l.foldl max a = a ∨ l.foldl max a ∈ l) := by
  induction l generalizing a with
  | nil => simp
  | cons b l ih =>
    obtain ⟨h1, h2, h3⟩ := ih (max a b)
    simp only [List.foldl_cons, List.mem_cons, forall_eq_or_imp]
    refine ⟨(le_max_left a b).trans h1, ⟨(le_max_right a b).trans h1, h2⟩, ?_⟩
    rcases h3 with h3 | h3
    · rw [h3]
      rcases le_total a b with h | h
      · rw [max_eq_right h]; exact .inr (.inl rfl)
      · rw [max_eq_left h]; exact .inl rfl
    · exact .inr (.inr h3)

theorem upperMax_mem {m : Mat ℂ} (x : ℝ) :
    (x ∈ ((List.finRange m.cols).flatMap fun j => ((List.finRange m.rows).filter fun i => decide (i.val ≤ j.val)).map fun i => ‖m.e i j‖)) ↔
      ∃ (i : Fin m.rows) (j : Fin m.cols), i.val ≤ j.val ∧ ‖m.e i j‖ = x := by
  simp only [List.mem_flatMap, List.mem_finRange, true_and, List.mem_map, List.mem_filter, decide_eq_true_eq]
  constructor
  · rintro ⟨j, i, h1, h2⟩; exact ⟨i, j, h1, h2⟩
  · rintro ⟨i, j, h1, h2⟩; exact ⟨j, i, h1, h2⟩

theorem upperMax_spec {m : Mat ℂ} (hsq : m.rows = m.cols) (h0 : m.rows ≠ 0) :
    (∀ (i : Fin m.rows) (j : Fin m.cols), i.val ≤ j.val → ‖m.e i j‖ ≤ upperMax m) ∧
      ∃ (i : Fin m.rows) (j : Fin m.cols), i.val ≤ j.val ∧ ‖m.e i j‖ = upperMax m := by
  obtain ⟨-, h2, h3⟩ := maxFold_spec ((List.finRange m.cols).flatMap fun j => ((List.finRange m.rows).filter fun i => decide (i.val ≤ j.val)).map fun i => ‖m.e i j‖) (-1)
  refine ⟨fun i j hij => h2 _ ((upperMax_mem _).2 ⟨i, j, hij, rfl⟩), ?_⟩
  rcases h3 with h3 | h3
  · exfalso
    have := h2 _ ((upperMax_mem _).2 ⟨⟨0, by omega⟩, ⟨0, by omega⟩, le_refl _, rfl⟩)
    rw [h3] at this
    linarith [norm_nonneg (m.e ⟨0, by omega⟩ ⟨0, by omega⟩)]
  · exact (upperMax_mem _).1 h3

theorem isHermitian_iff (m : Mat ℂ) : isHermitian m = true ↔ Hermitian m := by
  unfold isHermitian Hermitian
  by_cases h : m.rows = m.cols
  · rw [dif_pos h]
    simp only [decide_eq_true_eq]
    exact ⟨fun k => ⟨h, k⟩, fun ⟨_, k⟩ => k⟩
  · rw [dif_neg h]
    simp only [Bool.false_eq_true, false_iff]
    rintro ⟨h', -⟩
    exact h h'

/-! ## C106 -/

/-- Specification: what the documentation asks of an onsite matrix: square, not empty, a real diagonal, and either zero below the diagonal or Hermitian. -/
structure Valid (m : Mat ℂ) : Prop where
  square : m.rows = m.cols
  nonempty : 0 < m.rows
  real : ∀ (i : Fin m.rows) (j : Fin m.cols), i.val = j.val → (m.e i j).im = 0
  shape : (∀ (i : Fin m.rows) (j : Fin m.cols), j.val < i.val → m.e i j = 0) ∨ Hermitian m

/-- **C106** (exact comparison).  Without tolerance exactly the valid matrices are accepted, and all others are an error. -/
theorem C106_exact (m : Mat ℂ) : (checkOnsite m = .ok () ↔ Valid m) ∧ (¬ Valid m → checkOnsite m = .err .logicError) := by
  classical
  have hU : isUpper m = true ↔ ∀ (i : Fin m.rows) (j : Fin m.cols), j.val < i.val → m.e i j = 0 := by unfold isUpper; exact decide_eq_true_iff
  have hD : diagReal m = true ↔ ∀ (i : Fin m.rows) (j : Fin m.cols), i.val = j.val → (m.e i j).im = 0 := by
    unfold diagReal
    rw [decide_eq_true_iff]
    have : ∀ z : ℂ, star z = z ↔ z.im = 0 := fun z => Complex.conj_eq_iff_im
    simp only [this]
  have key : checkOnsite m = if Valid m then .ok () else .err .logicError := by
    unfold checkOnsite
    by_cases h1 : m.rows = m.cols
    · by_cases h2 : m.rows = 0
      · rw [if_neg (not_not.2 h1), if_pos h2, if_neg fun hv => by have := hv.nonempty; omega]
      · by_cases h3 : diagReal m = true
        · by_cases h4 : isUpper m = true ∨ isHermitian m = true
          · rw [if_neg (not_not.2 h1), if_neg h2, if_neg (by simp [h3]), if_neg (by simp only [Bool.eq_false_iff]; tauto),
              if_pos ⟨h1, by omega, hD.1 h3, h4.imp hU.1 (isHermitian_iff m).1⟩]
          · rw [if_neg (not_not.2 h1), if_neg h2, if_neg (by simp [h3]), if_pos (by simp only [Bool.eq_false_iff]; tauto),
              if_neg fun hv => h4 (hv.shape.imp hU.2 (isHermitian_iff m).2)]
        · rw [if_neg (not_not.2 h1), if_neg h2, if_pos (by simpa using h3), if_neg fun hv => h3 (hD.2 hv.real)]
    · rw [if_pos h1, if_neg fun hv => h1 hv.square]
  rw [key]
  by_cases hv : Valid m <;> simp [hv]

/-- **C106** (tolerance).  With a tolerance, a square matrix is accepted if the imaginary parts on the diagonal are at most `ε`, and if the matrix is exactly Hermitian or everything below the
diagonal is at most `ε` times some element on or above it.  Everything else is an error. -/
theorem C106_accepted (ε : ℝ) (hε : 0 ≤ ε) (m : Mat ℂ) :
    checkOnsiteTol ε m = (open Classical in if m.rows = m.cols ∧ 0 < m.rows ∧ (∀ (i : Fin m.rows) (j : Fin m.cols), i.val = j.val → |(m.e i j).im| ≤ ε) ∧
        ((∃ (a : Fin m.rows) (b : Fin m.cols), a.val ≤ b.val ∧ ∀ (i : Fin m.rows) (j : Fin m.cols), j.val < i.val → ‖m.e i j‖ ≤ ε * ‖m.e a b‖) ∨ Hermitian m)
      then .ok () else .err .logicError) := by
  unfold checkOnsiteTol
  by_cases h1 : m.rows = m.cols
  · by_cases h2 : m.rows = 0
    · rw [if_neg (not_not.2 h1), if_pos h2, if_neg (by omega)]
    · obtain ⟨u1, a, b, u2, u3⟩ := upperMax_spec h1 h2
      have hU : isUpperTol ε m ↔ ∃ (a : Fin m.rows) (b : Fin m.cols), a.val ≤ b.val ∧ ∀ (i : Fin m.rows) (j : Fin m.cols), j.val < i.val → ‖m.e i j‖ ≤ ε * ‖m.e a b‖ := by
        unfold isUpperTol
        constructor
        · intro h
          exact ⟨a, b, u2, fun i j hij => by rw [u3, mul_comm]; exact h i j hij⟩
        · rintro ⟨a', b', h3, h4⟩ i j hij
          rw [mul_comm]
          exact (h4 i j hij).trans (mul_le_mul_of_nonneg_left (u1 a' b' h3) hε)
      rw [if_neg (not_not.2 h1), if_neg h2]
      by_cases h3 : diagRealTol ε m
      · by_cases h4 : isUpperTol ε m ∨ Hermitian m
        · rw [if_neg (not_not.2 h3), if_neg (by rw [Bool.eq_false_iff, Ne, isHermitian_iff]; tauto), if_pos ⟨h1, by omega, h3, h4.imp_left hU.1⟩]
        · rw [if_neg (not_not.2 h3), if_pos (by rw [Bool.eq_false_iff, Ne, isHermitian_iff]; tauto), if_neg fun hv => h4 (hv.2.2.2.imp_left hU.2)]
      · rw [if_pos h3, if_neg fun hv => h3 hv.2.2.1]
  · rw [if_pos h1, if_neg fun hv => h1 hv.1]

/-- **C106** (valid matrices).  Every matrix which the documentation allows is accepted whatever the tolerance, and a matrix which is accepted with tolerance zero is valid. -/
theorem C106_valid (m : Mat ℂ) : (∀ ε, 0 ≤ ε → Valid m → checkOnsiteTol ε m = .ok ()) ∧ (checkOnsiteTol 0 m = .ok () → Valid m) := by
  constructor
  · intro ε hε hv
    rw [C106_accepted ε hε, if_pos]
    refine ⟨hv.square, hv.nonempty, fun i j hij => by rw [hv.real i j hij]; simpa using hε, hv.shape.imp_left fun h => ?_⟩
    have := hv.nonempty
    have := hv.square
    exact ⟨⟨0, by omega⟩, ⟨0, by omega⟩, le_refl _, fun i j hij => by rw [h i j hij, norm_zero]; positivity⟩
  · intro h
    rw [C106_accepted 0 le_rfl] at h
    split at h
    · rename_i hv
      refine ⟨hv.1, hv.2.1, fun i j hij => abs_eq_zero.1 (le_antisymm (hv.2.2.1 i j hij) (abs_nonneg _)), hv.2.2.2.imp_left ?_⟩
      rintro ⟨a, b, -, h⟩ i j hij
      have := h i j hij
      rw [zero_mul] at this
      exact norm_le_zero_iff.1 this
    · cases h

/-- **C106** (stored).  What is stored has the elements of the given matrix on and above the diagonal and their conjugates below; a Hermitian matrix is stored as it is.  An element below the
diagonal of a matrix which is not Hermitian is dropped; with the tolerance it is at most `ε` times some element above. -/
theorem C106_stored (ε : ℝ) (hε : 0 ≤ ε) (m : Mat ℂ) (h : checkOnsiteTol ε m = .ok ()) :
    ∃ hsq : m.rows = m.cols, ∃ e : Fin m.rows → Fin m.cols → ℂ, selfadjointUpper m = ⟨m.rows, m.cols, e⟩ ∧
      (∀ i j, i.val ≤ j.val → e i j = m.e i j) ∧ (∀ i j, j.val < i.val → e i j = star (m.e (j.cast hsq.symm) (i.cast hsq))) ∧
      (∀ i j, i.val ≠ j.val → e i j = star (e (j.cast hsq.symm) (i.cast hsq))) ∧
      (∀ i j, ‖e i j - star (e (j.cast hsq.symm) (i.cast hsq))‖ ≤ 2 * ε) ∧
      (Hermitian m → e = m.e) ∧ (¬ Hermitian m → ∃ a b, a.val ≤ b.val ∧ ∀ i j, j.val < i.val → ‖m.e i j‖ ≤ ε * ‖m.e a b‖) := by
  rw [C106_accepted ε hε] at h
  split at h
  · rename_i hv
    obtain ⟨h1, h2, h3, h4⟩ := hv
    refine ⟨h1, fun i j => if i.val ≤ j.val then m.e i j else star (m.e (j.cast h1.symm) (i.cast h1)), ?_, ?_, ?_, ?_, ?_, ?_, fun hn => h4.resolve_right hn⟩
    · unfold selfadjointUpper
      rw [dif_pos h1]
    · intro i j hij
      exact if_pos hij
    · intro i j hij
      exact if_neg (by omega)
    · intro i j hij
      simp only [Fin.val_cast]
      rcases Nat.lt_or_gt_of_ne hij with hlt | hgt
      · rw [if_pos (by omega), if_neg (by omega), star_star]
        rfl
      · rw [if_neg (by omega), if_pos (by omega)]
    · intro i j
      simp only [Fin.val_cast]
      rcases Nat.lt_trichotomy i.val j.val with hlt | heq | hgt
      · rw [if_pos (by omega), if_neg (by omega), star_star]
        simpa using hε
      · rw [if_pos (by omega), if_pos (by omega)]
        have e1 : m.e (Fin.cast h1.symm j) (Fin.cast h1 i) = m.e i j := by
          congr 1
          · exact Fin.ext heq.symm
          · exact Fin.ext heq
        rw [e1, show m.e i j - star (m.e i j) = ((2 * (m.e i j).im : ℝ) : ℂ) * Complex.I from by
          rw [show star (m.e i j) = (starRingEnd ℂ) (m.e i j) from rfl, Complex.sub_conj], norm_mul, Complex.norm_I, mul_one, Complex.norm_real, Real.norm_eq_abs, abs_mul]
        have := h3 i j heq
        rw [abs_of_pos (by norm_num : (0 : ℝ) < 2)]
        linarith
      · rw [if_neg (by omega), if_pos (by omega)]
        simpa using hε
    · rintro ⟨h5, h6⟩
      funext i j
      split
      · rfl
      · exact (h6 i j).symm
  · cases h

/-- **C106** (not Hermitian).  With the tolerance of Eigen, an onsite energy with a small imaginary part is accepted and stored as it is, so that the Hamiltonian is not Hermitian. -/
theorem C106_tolerance_witness : ∃ m : Mat ℂ, checkOnsiteTol (1 / 10 ^ 12) m = .ok () ∧ ¬ Hermitian (selfadjointUpper m) := by
  refine ⟨⟨1, 1, fun _ _ => 1 + (1 / 10 ^ 13 : ℝ) * Complex.I⟩, ?_, ?_⟩
  · rw [C106_accepted _ (by norm_num), if_pos]
    refine ⟨rfl, by norm_num, fun i j _ => ?_, .inl ⟨0, 0, le_refl _, fun i j hij => ?_⟩⟩
    · have : (1 + ((1 / 10 ^ 13 : ℝ) : ℂ) * Complex.I).im = 1 / 10 ^ 13 := by
        rw [Complex.add_im, Complex.one_im, Complex.im_ofReal_mul, Complex.I_im]
        ring
      simp only
      rw [this]
      norm_num [abs_of_pos]
    · have h1 := i.isLt
      simp only at h1
      omega
  · have e : selfadjointUpper (⟨1, 1, fun _ _ => 1 + (1 / 10 ^ 13 : ℝ) * Complex.I⟩ : Mat ℂ) = ⟨1, 1, fun _ _ => 1 + (1 / 10 ^ 13 : ℝ) * Complex.I⟩ := by
      unfold selfadjointUpper
      rw [dif_pos rfl]
      congr 1
      funext i j
      have h1 := i.isLt
      simp only at h1
      exact if_pos (by omega)
    rw [e]
    intro hh
    obtain ⟨h1, h2⟩ := hh
    have := congrArg Complex.im (h2 0 0)
    rw [show ∀ z : ℂ, (star z).im = -z.im from fun z => Complex.conj_im z] at this
    simp only [Complex.add_im, Complex.one_im, Complex.im_ofReal_mul, Complex.I_im] at this
    norm_num at this

/-- **C106** (one energy per orbital).  A list of real numbers which is not empty is accepted, and is stored as the diagonal matrix. -/
theorem C106_vector (ε : ℝ) (hε : 0 ≤ ε) (v : List ℝ) :
    (checkOnsiteTol ε (canonicalVector v) = .ok () ↔ v ≠ []) ∧ selfadjointUpper (canonicalVector v) = canonicalVector v := by
  have hr : ∀ (i j : Fin v.length), ((canonicalVector v).e i j) = if i.val = j.val then ((v[i.val]'i.isLt : ℝ) : ℂ) else 0 := fun i j => rfl
  have hH : Hermitian (canonicalVector v) := by
    have key : ∀ i j : Fin v.length, (if i.val = j.val then ((v[i.val]'i.isLt : ℝ) : ℂ) else 0) = star (if j.val = i.val then ((v[j.val]'j.isLt : ℝ) : ℂ) else 0) := by
      intro i j
      by_cases h : i = j
      · subst h
        rw [if_pos rfl]
        exact (Complex.conj_ofReal _).symm
      · have h' : i.val ≠ j.val := fun e => h (Fin.ext e)
        rw [if_neg h', if_neg h'.symm, star_zero]
    exact ⟨rfl, fun i j => key i j⟩
  constructor
  · rw [C106_accepted ε hε]
    constructor
    · intro h hv
      subst hv
      rw [if_neg (fun hc => absurd hc.2.1 (by simp [canonicalVector]))] at h
      cases h
    · intro hv
      rw [if_pos]
      refine ⟨rfl, List.length_pos_iff.2 hv, fun i j hij => ?_, .inr hH⟩
      rw [hr i j, if_pos hij, Complex.ofReal_im, abs_zero]
      exact hε
  · unfold selfadjointUpper
    rw [dif_pos (show (canonicalVector v).rows = (canonicalVector v).cols from rfl)]
    show Mat.mk _ _ _ = Mat.mk _ _ _
    congr 1
    funext i j
    by_cases h : i.val ≤ j.val
    · rw [if_pos h]
      rfl
    · rw [if_neg h]
      exact (hH.2 i j).symm

/-- The hypotheses of C106_stored: an upper triangular matrix with two orbitals. -/
example := C106_stored (1 / 10 ^ 12) (by norm_num) ⟨2, 2, fun i j => if i.val ≤ j.val then 1 else 0⟩ ((C106_valid _).1 _ (by norm_num)
  ⟨rfl, by norm_num, fun i j h => by simp only; split <;> simp, .inl fun i j h => by simp only; rw [if_neg (by omega)]⟩)

end Verif.Lattice
