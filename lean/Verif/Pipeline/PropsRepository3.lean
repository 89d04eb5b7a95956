import Verif.Pipeline.PropsRepository2

/-!
# Property C89, continued: Dirac points, phosphorene and transition metal dichalcogenides
-/

namespace Verif.Pipeline.Repository

open Verif.Lattice (CellSite Sublattice HoppingFamily HoppingTerm Registry optimizedUnitCell)
open Verif.Lattice.Lattice (run empty allTerms)
open Verif.Sublat (hamiltonianSize)
open Verif.Hamiltonian Verif.Pipeline

/-! ## Dirac points -/

/-- A corner of the first Brillouin zone of graphene. -/
noncomputable def corner (sign kz : ℝ) : Vec3 := ![sign * (4 * Real.pi / (3 * a)), 0, kz]

theorem a_ne_zero : a ≠ 0 := by unfold a; norm_num

theorem corner_dot (sign kz : ℝ) : corner sign kz ⬝ᵥ monolayerVectors 0 = sign * (4 * Real.pi / 3)
    ∧ corner sign kz ⬝ᵥ monolayerVectors 1 = sign * (2 * Real.pi / 3) := by
  have := a_ne_zero
  constructor <;> (simp [corner, monolayerVectors, dotProduct, Fin.sum_univ_three]; field_simp)
  norm_num

theorem cos_120 : Real.cos (2 * Real.pi / 3) = -1 / 2 := by
  rw [show 2 * Real.pi / 3 = Real.pi - Real.pi / 3 by ring, Real.cos_pi_sub, Real.cos_pi_div_three]
  norm_num

/-- A third root of unity. -/
theorem cis_120 (sign : ℝ) (hs : sign = 1 ∨ sign = -1) :
    cis (sign * (2 * Real.pi / 3)) ^ 2 = -1 - cis (sign * (2 * Real.pi / 3))
    ∧ cis (sign * (4 * Real.pi / 3)) = cis (sign * (2 * Real.pi / 3)) ^ 2 := by
  have h2 : cis (sign * (4 * Real.pi / 3)) = cis (sign * (2 * Real.pi / 3)) ^ 2 := by
    rw [pow_two, ← cis_add]
    congr 1
    ring
  have hc := cis_cos (sign * (2 * Real.pi / 3))
  have hcos : Real.cos (sign * (2 * Real.pi / 3)) = -1 / 2 := by
    rcases hs with rfl | rfl
    · rw [one_mul, cos_120]
    · rw [neg_one_mul, Real.cos_neg, cos_120]
  have hm := cis_mul_neg (sign * (2 * Real.pi / 3))
  rw [hcos] at hc
  push_cast at hc
  refine ⟨?_, h2⟩
  linear_combination cis (sign * (2 * Real.pi / 3)) * hc - hm

/-- **C89** (Dirac points): at both corners of the Brillouin zone the sums over the first and the third neighbours vanish. -/
theorem corner_zero (sign : ℝ) (hs : sign = 1 ∨ sign = -1) (kz : ℝ) :
    nearest (corner sign kz) = 0 ∧ thirdNearest (corner sign kz) = 0 ∧ wallace (corner sign kz) = 0 := by
  obtain ⟨h1, h2⟩ := cis_120 sign hs
  obtain ⟨d0, d1⟩ := corner_dot sign kz
  have hz := cis_ne_zero (sign * (2 * Real.pi / 3))
  have e1 : nearest (corner sign kz) = 0 := by
    rw [nearest_eq, d0, d1, h2]
    generalize cis (sign * (2 * Real.pi / 3)) = z at h1 hz
    rw [mul_eq_zero]
    right
    field_simp
    linear_combination h1
  refine ⟨e1, ?_, ?_⟩
  · rw [thirdNearest_eq, d0, d1, h2]
    generalize cis (sign * (2 * Real.pi / 3)) = z at h1 hz
    rw [mul_eq_zero]
    right
    field_simp
    linear_combination (z ^ 2 - z + 1) * h1
  · rw [← nearest_norm, e1, norm_zero]
    norm_num

/-- **C89** (Dirac points): at both corners of the Brillouin zone the bands of graphene are the two onsite energies, for
one, two and three shells of neighbours and any hopping energies; without a difference between the sublattices they meet. -/
theorem C89_dirac (neighbors : Int) (hn : neighbors ≤ 3) (onsite : ℝ × ℝ) (t : ℂ) (tNN : ℝ) (tNNN : ℂ) (sign : ℝ)
    (hs : sign = 1 ∨ sign = -1) (kz : ℝ) : ∃ calls, monolayer neighbors onsite t tNN tNNN = .ok calls ∧
      HasBands calls monolayerVectors (corner sign kz) fun E => E = onsite.1 ∨ E = onsite.2 := by
  obtain ⟨calls, h1, h2⟩ := monolayer_bands neighbors hn onsite t tNN tNNN
  refine ⟨calls, h1, (h2 (corner sign kz)).congr fun E => ?_⟩
  obtain ⟨e1, e2, e3⟩ := corner_zero sign hs kz
  rw [e1, e2, e3]
  simp [sub_eq_zero]

/-- **C89** (width): for nearest neighbours no band of graphene is farther than `3|t|` from equal onsite energies. -/
theorem C89_width (onsite : ℝ) (t : ℂ) (tNN : ℝ) (tNNN : ℂ) (k : Vec3) : ∃ calls bands, monolayer 1 (onsite, onsite) t tNN tNNN = .ok calls ∧
      HasBands calls monolayerVectors k bands ∧ ∀ E, bands E → ‖E - onsite‖ ≤ 3 * ‖t‖ := by
  obtain ⟨calls, h1, h2⟩ := (C89_monolayer 1 (onsite, onsite) t tNN tNNN).1 (by norm_num)
  refine ⟨calls, _, h1, h2 k, ?_⟩
  rintro E ⟨sign, hs, rfl⟩
  have hn : ‖nearest k‖ ≤ 3 := by
    unfold nearest
    refine (norm_add_le _ _).trans ?_
    refine (add_le_add (norm_add_le _ _) le_rfl).trans ?_
    simp only [norm_cis]
    norm_num
  have hsq : √(((onsite - onsite) / 2) ^ 2 + ‖t * nearest k‖ ^ 2) = ‖t * nearest k‖ := by
    rw [sub_self, zero_div, zero_pow (by norm_num), zero_add, Real.sqrt_sq (norm_nonneg _)]
  simp only [show (1 : Int) < 2 by norm_num, show (1 : Int) < 3 by norm_num, if_true, add_zero, hsq]
  rw [← Complex.ofReal_sub, Complex.norm_real, show (onsite + onsite) / 2 + sign * ‖t * nearest k‖ - onsite = sign * ‖t * nearest k‖ by ring,
    norm_mul, norm_norm, norm_mul]
  have : ‖sign‖ = 1 := by rcases hs with rfl | rfl <;> simp
  rw [this, one_mul, mul_comm]
  exact mul_le_mul_of_nonneg_right hn (norm_nonneg _)

/-! ## Phosphorene -/

/-- The Bloch matrix of phosphorene, `z = exp(i kx ax)` and `w = exp(i ky ay)`. -/
noncomputable def phosphoreneMatrix (t1 t2 t3 t4 t5 z w : ℂ) : Matrix (Fin 4) (Fin 4) ℂ :=
  Matrix.of ![![0, t2 + t5 * z, t4 * ((1 + w) * (1 + z)), (1 + w) * (t1 * z + t3)],
    ![t2 + t5 * z⁻¹, 0, (1 + w) * (t1 + t3 * z), t4 * ((1 + w) * (1 + z))],
    ![t4 * ((1 + w⁻¹) * (1 + z⁻¹)), (1 + w⁻¹) * (t1 + t3 * z⁻¹), 0, t2 + t5 * z],
    ![(1 + w⁻¹) * (t1 * z⁻¹ + t3), t4 * ((1 + w⁻¹) * (1 + z⁻¹)), t2 + t5 * z⁻¹, 0]]

theorem phosphorene_mirror (t1 t2 t3 t4 t5 z w E : ℂ) (hz : z ≠ 0) (hw : w ≠ 0) :
    (E • 1 - phosphoreneMatrix t1 t2 t3 t4 t5 z⁻¹ w).det = (E • 1 - phosphoreneMatrix t1 t2 t3 t4 t5 z w).det ∧
    (E • 1 - phosphoreneMatrix t1 t2 t3 t4 t5 z w⁻¹).det = (E • 1 - phosphoreneMatrix t1 t2 t3 t4 t5 z w).det := by
  unfold phosphoreneMatrix
  rw [det_shift, det_shift, det_shift]
  simp
  constructor <;> (field_simp; try ring)

theorem conj_t1 : (starRingEnd ℂ) 1.22 = 1.22 := by
  rw [show (1.22 : ℂ) = ((1.22 : ℝ) : ℂ) by norm_num]
  exact Complex.conj_ofReal _

theorem conj_t2 : (starRingEnd ℂ) 3.665 = 3.665 := by
  rw [show (3.665 : ℂ) = ((3.665 : ℝ) : ℂ) by norm_num]
  exact Complex.conj_ofReal _

theorem conj_t3 : (starRingEnd ℂ) 0.205 = 0.205 := by
  rw [show (0.205 : ℂ) = ((0.205 : ℝ) : ℂ) by norm_num]
  exact Complex.conj_ofReal _

theorem conj_t4 : (starRingEnd ℂ) 0.105 = 0.105 := by
  rw [show (0.105 : ℂ) = ((0.105 : ℝ) : ℂ) by norm_num]
  exact Complex.conj_ofReal _

theorem conj_t5 : (starRingEnd ℂ) 0.055 = 0.055 := by
  rw [show (0.055 : ℂ) = ((0.055 : ℝ) : ℂ) by norm_num]
  exact Complex.conj_ofReal _

/-- **C89** (phosphorene): for two to five hoppings the bands of `phosphorene.monolayer_4band` do not change when either
component of the wave vector changes its sign: the lattice has the two mirrors of the crystal.  Any other number of hoppings
raises. -/
theorem C89_phosphorene (n : Int) :
    (2 ≤ n → n ≤ 5 → ∃ calls, phosphorene n = .ok calls ∧ ∃ bands : ℝ → ℝ → ℂ → Prop,
      (∀ k, HasBands calls phosphoreneVectors k (bands (k 0) (k 1))) ∧
      ∀ kx ky E, (bands (-kx) ky E ↔ bands kx ky E) ∧ (bands kx (-ky) E ↔ bands kx ky E)) ∧
    (n < 2 ∨ n > 5 → phosphorene n = .err .runtimeError) := by
  refine ⟨fun h2 h5 => ?_, fun h => by unfold phosphorene; rw [if_pos h]⟩
  obtain ⟨calls, hc, hr⟩ := run_phosphorene n h2 h5
  refine ⟨calls, hc, fun kx ky E => (E • 1 - phosphoreneMatrix (-1.22) 3.665 (if n ≥ 3 then -0.205 else 0) (if n ≥ 4 then -0.105 else 0)
    (if n ≥ 5 then -0.055 else 0) (cis (0.438 * kx)) (cis (0.332 * ky))).det = 0, ?_, ?_⟩
  · intro k
    refine hasBands ?_ ?_ ?_ ?_ ?_
    · rw [hr]
      exact no_aliases (by simp)
    · rw [hr]; simp
    · rw [hr]
      have h : n = 2 ∨ n = 3 ∨ n = 4 ∨ n = 5 := by omega
      rcases h with rfl | rfl | rfl | rfl <;> simp [allTerms] <;> decide
    · rw [hr]; simp [Mat.size, Mat.scalar]
    · intro E
      have d0 : k ⬝ᵥ phosphoreneVectors 0 = 0.438 * k 0 := by
        simp [phosphoreneVectors, dotProduct, Fin.sum_univ_three]; ring
      have d1 : k ⬝ᵥ phosphoreneVectors 1 = 0.332 * k 1 := by
        simp [phosphoreneVectors, dotProduct, Fin.sum_univ_three]; ring
      rw [hr]
      apply isBand_scalar (N := 4) (by rfl) (by intro α hα; interval_cases α <;> rfl)
      intro u i
      have h : n = 2 ∨ n = 3 ∨ n = 4 ∨ n = 5 := by omega
      rcases h with rfl | rfl | rfl | rfl <;> fin_cases i <;>
        simp [blochRow, orbitals, onsiteOf, entry, Mat.scalar, phase2, phase2_neg, d0, d1, Fin.sum_univ_four, phosphoreneMatrix,
          conj_t1, conj_t2, conj_t3, conj_t4, conj_t5] <;>
        ring
  · intro kx ky E
    have e := fun x y => phosphorene_mirror (-1.22) 3.665 (if n ≥ 3 then -0.205 else 0) (if n ≥ 4 then -0.105 else 0)
      (if n ≥ 5 then -0.055 else 0) (cis x) (cis y) E (cis_ne_zero x) (cis_ne_zero y)
    constructor
    · show _ = _ ↔ _ = _
      rw [mul_neg, cis_inv, (e _ _).1]
    · show _ = _ ↔ _ = _
      rw [mul_neg, cis_inv, (e _ _).2]

/-! ## Transition metal dichalcogenides -/

/-- What the bands of a lattice with one sublattice are. -/
theorem isBand_orbitals {n N : Nat} {l : Lattice.Lattice ℂ Vec3} {a : Fin n → Vec3} {k : Vec3} (hl : l.subs.length = 1)
    (ho : orbitals l 0 = N) (H : Matrix (Fin N) (Fin N) ℂ)
    (hr : ∀ (u : Nat → Nat → ℂ) (i : Fin N), blochRow l id a k u 0 i = ∑ j, H i j * u 0 j) (E : ℂ) :
    IsBand l id a k E ↔ (E • (1 : Matrix (Fin N) (Fin N) ℂ) - H).det = 0 := by
  rw [← Matrix.exists_mulVec_eq_zero_iff]
  have hmul : ∀ (v : Fin N → ℂ) i, ((E • (1 : Matrix (Fin N) (Fin N) ℂ) - H).mulVec v) i = E * v i - ∑ j, H i j * v j := by
    intro v i
    rw [Matrix.sub_mulVec, Matrix.smul_mulVec, Matrix.one_mulVec]
    rfl
  constructor
  · rintro ⟨u, ⟨i, j, hi, hj, hu⟩, h⟩
    have : i = 0 := by omega
    subst this
    rw [ho] at hj
    refine ⟨fun j => u 0 j, fun h0 => hu (congrFun h0 ⟨j, hj⟩), ?_⟩
    funext i
    rw [hmul]
    have := h 0 i (by omega) (by rw [ho]; exact i.2)
    rw [hr] at this
    rw [this, sub_self]
    rfl
  · rintro ⟨v, hv, h⟩
    obtain ⟨i0, hi0⟩ := Function.ne_iff.1 hv
    let u : Nat → Nat → ℂ := fun _ j => if h : j < N then v ⟨j, h⟩ else 0
    have hu : ∀ j : Fin N, u 0 j = v j := fun j => dif_pos j.2
    refine ⟨u, ⟨0, i0, by omega, by rw [ho]; exact i0.2, by rw [hu]; exact hi0⟩, ?_⟩
    intro i j hi hj
    have : i = 0 := by omega
    subst this
    rw [ho] at hj
    have h2 := congrFun h ⟨j, hj⟩
    rw [hmul] at h2
    have h3 := hr u ⟨j, hj⟩
    simp only [hu] at h3
    rw [show blochRow l id a k u 0 j = _ from h3, show u 0 j = v ⟨j, hj⟩ from dif_pos hj]
    exact (sub_eq_zero.1 h2).symm

/-- A real matrix as a complex one. -/
noncomputable def cmat (m : Fin 3 → Fin 3 → ℝ) : Matrix (Fin 3) (Fin 3) ℂ := Matrix.of fun i j => ((m i j : ℝ) : ℂ)

/-- The Bloch matrix of a transition metal dichalcogenide; `z`, `w` and `v` are the phases of the three hoppings. -/
noncomputable def tmdMatrix (p : TmdParams) (z w v : ℂ) : Matrix (Fin 3) (Fin 3) ℂ :=
  cmat ![![p.eps1, 0, 0], ![0, p.eps2, 0], ![0, 0, p.eps2]]
    + (z⁻¹ • cmat (tmdH1 p) + z • (cmat (tmdH1 p)).transpose) + (w⁻¹ • cmat (tmdH2 p) + w • (cmat (tmdH2 p)).transpose)
    + (v⁻¹ • cmat (tmdH3 p) + v • (cmat (tmdH3 p)).transpose)

/-- The rotation of the orbitals which belongs to a rotation of the crystal by 120 degrees. -/
noncomputable def turn : Matrix (Fin 3) (Fin 3) ℂ :=
  cmat ![![1, 0, 0], ![0, -1 / 2, -√3 / 2], ![0, √3 / 2, -1 / 2]]

/-- A wave vector rotated by 120 degrees about the z axis. -/
noncomputable def rotated (k : Vec3) : Vec3 := ![-1 / 2 * k 0 - √3 / 2 * k 1, √3 / 2 * k 0 - 1 / 2 * k 1, k 2]

theorem sqrt3_sq : ((√3 : ℝ) : ℂ) ^ 2 = 3 := by
  rw [← Complex.ofReal_pow, Real.sq_sqrt (by norm_num)]
  norm_num

theorem sqrt3_cube : ((√3 : ℝ) : ℂ) ^ 3 = 3 * ((√3 : ℝ) : ℂ) := by
  rw [pow_succ, sqrt3_sq]

theorem turn_transpose : turn * turn.transpose = 1 := by
  ext i j
  fin_cases i <;> fin_cases j <;>
    simp [turn, cmat, Matrix.mul_apply, Fin.sum_univ_three] <;> ring_nf <;> simp [sqrt3_sq] <;> norm_num

theorem turn_onsite (x y : ℝ) : turn * cmat ![![x, 0, 0], ![0, y, 0], ![0, 0, y]] * turn.transpose
    = cmat ![![x, 0, 0], ![0, y, 0], ![0, 0, y]] := by
  ext i j
  fin_cases i <;> fin_cases j <;>
    simp [turn, cmat, Matrix.mul_apply, Fin.sum_univ_three] <;> ring_nf <;> simp [sqrt3_sq] <;> ring

theorem turn_h1 (p : TmdParams) : turn * cmat (tmdH1 p) * turn.transpose = (cmat (tmdH3 p)).transpose := by
  ext i j
  fin_cases i <;> fin_cases j <;>
    simp [turn, cmat, tmdH1, tmdH3, Matrix.mul_apply, Fin.sum_univ_three] <;> ring_nf <;> simp [sqrt3_sq, sqrt3_cube] <;> ring

theorem turn_h2 (p : TmdParams) : turn * cmat (tmdH2 p) * turn.transpose = cmat (tmdH1 p) := by
  ext i j
  fin_cases i <;> fin_cases j <;>
    simp [turn, cmat, tmdH1, tmdH2, Matrix.mul_apply, Fin.sum_univ_three] <;> ring_nf <;> simp [sqrt3_sq, sqrt3_cube] <;> ring

theorem turn_h3 (p : TmdParams) : turn * cmat (tmdH3 p) * turn.transpose = (cmat (tmdH2 p)).transpose := by
  ext i j
  fin_cases i <;> fin_cases j <;>
    simp [turn, cmat, tmdH3, tmdH2, Matrix.mul_apply, Fin.sum_univ_three] <;> ring_nf <;> simp [sqrt3_sq, sqrt3_cube] <;> ring

/-- The matrix of the mirror which changes the sign of x: only the second orbital is odd. -/
noncomputable def mirror : Matrix (Fin 3) (Fin 3) ℂ := cmat ![![1, 0, 0], ![0, -1, 0], ![0, 0, 1]]

theorem mirror_transpose : mirror * mirror.transpose = 1 := by
  ext i j
  fin_cases i <;> fin_cases j <;> simp [mirror, cmat, Matrix.mul_apply, Fin.sum_univ_three]

theorem mirror_onsite (x y : ℝ) : mirror * cmat ![![x, 0, 0], ![0, y, 0], ![0, 0, y]] * mirror.transpose
    = cmat ![![x, 0, 0], ![0, y, 0], ![0, 0, y]] := by
  ext i j
  fin_cases i <;> fin_cases j <;> simp [mirror, cmat, Matrix.mul_apply, Fin.sum_univ_three]

theorem mirror_h1 (p : TmdParams) : mirror * cmat (tmdH1 p) * mirror.transpose = (cmat (tmdH1 p)).transpose := by
  ext i j
  fin_cases i <;> fin_cases j <;> simp [mirror, cmat, tmdH1, Matrix.mul_apply, Fin.sum_univ_three]

theorem mirror_h2 (p : TmdParams) : mirror * cmat (tmdH2 p) * mirror.transpose = cmat (tmdH3 p) := by
  ext i j
  fin_cases i <;> fin_cases j <;> simp [mirror, cmat, tmdH2, tmdH3, Matrix.mul_apply, Fin.sum_univ_three] <;> ring

theorem mirror_h3 (p : TmdParams) : mirror * cmat (tmdH3 p) * mirror.transpose = cmat (tmdH2 p) := by
  ext i j
  fin_cases i <;> fin_cases j <;> simp [mirror, cmat, tmdH2, tmdH3, Matrix.mul_apply, Fin.sum_univ_three] <;> ring

theorem conj_transpose' {D A B : Matrix (Fin 3) (Fin 3) ℂ} (h : D * A * D.transpose = B) : D * A.transpose * D.transpose = B.transpose := by
  rw [← h, Matrix.transpose_mul, Matrix.transpose_mul, Matrix.transpose_transpose, Matrix.mul_assoc]

theorem det_conj {D H : Matrix (Fin 3) (Fin 3) ℂ} (hD : D * D.transpose = 1) (E : ℂ) :
    (E • 1 - D * H * D.transpose).det = (E • 1 - H).det := by
  have : E • (1 : Matrix (Fin 3) (Fin 3) ℂ) - D * H * D.transpose = D * (E • 1 - H) * D.transpose := by
    rw [Matrix.mul_sub, Matrix.sub_mul, Matrix.mul_smul, Matrix.mul_one, Matrix.smul_mul, hD]
  rw [this, Matrix.det_mul, Matrix.det_mul, mul_right_comm, ← Matrix.det_mul, hD, Matrix.det_one, one_mul]

theorem tmdMatrix_turn (p : TmdParams) (z w v : ℂ) : tmdMatrix p w v⁻¹ z⁻¹ = turn * tmdMatrix p z w v * turn.transpose := by
  unfold tmdMatrix
  simp only [Matrix.mul_add, Matrix.add_mul, Matrix.mul_smul, Matrix.smul_mul, turn_onsite, turn_h1, turn_h2, turn_h3,
    conj_transpose' (turn_h1 p), conj_transpose' (turn_h2 p), conj_transpose' (turn_h3 p), Matrix.transpose_transpose, inv_inv]
  abel

theorem tmdMatrix_mirror (p : TmdParams) (z w v : ℂ) : tmdMatrix p z⁻¹ v w = mirror * tmdMatrix p z w v * mirror.transpose := by
  unfold tmdMatrix
  simp only [Matrix.mul_add, Matrix.add_mul, Matrix.mul_smul, Matrix.smul_mul, mirror_onsite, mirror_h1, mirror_h2, mirror_h3,
    conj_transpose' (mirror_h1 p), conj_transpose' (mirror_h2 p), conj_transpose' (mirror_h3 p), Matrix.transpose_transpose, inv_inv]
  abel

/-- **C89** (transition metal dichalcogenides): for every set of parameters and every name of the metal, the bands of
`group6_tmd.monolayer_3band` do not change when the wave vector is rotated by 120 degrees or mirrored: the three hopping
matrices have the symmetry of the crystal. -/
theorem C89_tmd (metal : String) (hm : metal ≠ "") (p : TmdParams) (d : ℝ) : ∃ bands : Vec3 → ℂ → Prop,
    (∀ k, HasBands (tmd metal p) (tmdVectors d) k (bands k)) ∧
    ∀ k E, (bands (rotated k) E ↔ bands k E) ∧ (bands ![-k 0, k 1, k 2] E ↔ bands k E) := by
  obtain ⟨hops, h1, h2, h3, h4⟩ := run_tmd metal hm p
  refine ⟨fun k E => (E • 1 - tmdMatrix p (cis (k ⬝ᵥ tmdVectors d 0)) (cis (-(k ⬝ᵥ tmdVectors d 1)))
    (cis (k ⬝ᵥ tmdVectors d 0 - k ⬝ᵥ tmdVectors d 1))).det = 0, ?_, ?_⟩
  · intro k
    refine hasBands ?_ ?_ ?_ ?_ ?_
    · rw [h1]
      exact no_aliases (by simp)
    · rw [h1]; simp
    · rw [h1]
      intro q hq
      refine ⟨one_dvd _, one_dvd _, ?_⟩
      rw [h3 q hq]
      exact dvd_zero _
    · rw [h1]
      intro q hq
      exact (h4 q hq).le
    · intro E
      rw [h1]
      apply isBand_orbitals (N := 3) (by rfl) (by rfl)
      intro u i
      let L : Lattice.Lattice ℂ Vec3 := ⟨[(metal, ⟨![0, 0, 0], mat3 ![![p.eps1, 0, 0], ![0, p.eps2, 0], ![0, 0, p.eps2]], 0, 0⟩)], hops⟩
      have hsum := h2 fun e t =>
        (if t.src = 0 then ∑ j ∈ Finset.range (orbitals L t.dst),
          id (entry e i j) * Complex.exp (-(Complex.I * ((k ⬝ᵥ shiftVec (tmdVectors d) t.rel : ℝ) : ℂ))) * u t.dst j else 0)
        + (if t.dst = 0 then ∑ j ∈ Finset.range (orbitals L t.src),
          star (id (entry e j i)) * Complex.exp (Complex.I * ((k ⬝ᵥ shiftVec (tmdVectors d) t.rel : ℝ) : ℂ)) * u t.src j else 0)
      refine (congrArg (∑ j ∈ Finset.range (orbitals L 0), onsiteOf L id 0 i j * u 0 j + ·) hsum).trans ?_
      fin_cases i <;>
        simp [L, orbitals, onsiteOf, entry, mat3, phase2, phase2_neg, Fin.sum_univ_three, Finset.sum_range_succ, tmdMatrix, cmat, tmdH1, tmdH2, tmdH3,
          sub_eq_add_neg, cis_add, cis_inv, Complex.conj_ofNat] <;>
        ring
  · intro k E
    have r0 : rotated k ⬝ᵥ tmdVectors d 0 = -(k ⬝ᵥ tmdVectors d 1) := by
      simp [rotated, tmdVectors, dotProduct, Fin.sum_univ_three]; ring
    have r1 : rotated k ⬝ᵥ tmdVectors d 1 = k ⬝ᵥ tmdVectors d 0 - k ⬝ᵥ tmdVectors d 1 := by
      have h := Real.sq_sqrt (show (0 : ℝ) ≤ 3 by norm_num)
      simp [rotated, tmdVectors, dotProduct, Fin.sum_univ_three]
      linear_combination (1 / 4 * k 0 * d) * h
    have m0 : (![-k 0, k 1, k 2] : Vec3) ⬝ᵥ tmdVectors d 0 = -(k ⬝ᵥ tmdVectors d 0) := by
      simp [tmdVectors, dotProduct, Fin.sum_univ_three]
    have m1 : (![-k 0, k 1, k 2] : Vec3) ⬝ᵥ tmdVectors d 1 = k ⬝ᵥ tmdVectors d 1 - k ⬝ᵥ tmdVectors d 0 := by
      simp [tmdVectors, dotProduct, Fin.sum_univ_three]; ring
    constructor
    · show _ = _ ↔ _ = _
      rw [r0, r1, cis_inv (k ⬝ᵥ tmdVectors d 0 - k ⬝ᵥ tmdVectors d 1),
        show -(k ⬝ᵥ tmdVectors d 1) - (k ⬝ᵥ tmdVectors d 0 - k ⬝ᵥ tmdVectors d 1) = -(k ⬝ᵥ tmdVectors d 0) by ring,
        cis_inv (k ⬝ᵥ tmdVectors d 0), tmdMatrix_turn, det_conj turn_transpose]
    · show _ = _ ↔ _ = _
      rw [m0, m1, cis_inv (k ⬝ᵥ tmdVectors d 0),
        show -(k ⬝ᵥ tmdVectors d 1 - k ⬝ᵥ tmdVectors d 0) = k ⬝ᵥ tmdVectors d 0 - k ⬝ᵥ tmdVectors d 1 by ring,
        show -(k ⬝ᵥ tmdVectors d 0) - (k ⬝ᵥ tmdVectors d 1 - k ⬝ᵥ tmdVectors d 0) = -(k ⬝ᵥ tmdVectors d 1) by ring,
        tmdMatrix_mirror, det_conj mirror_transpose]

/-! ## Examples -/

/-- The hypotheses of `C88_bloch` hold for graphene with three shells of neighbours, whose hoppings are up to two cells long. -/
example (onsite : ℝ × ℝ) : ∃ calls, monolayer 3 onsite (-2.8) 0.1 0.05 = .ok calls ∧ AliasesOK (run calls empty) ∧
    (run calls empty).subs ≠ [] ∧ (∀ q ∈ allTerms (run calls empty).hops, IsPeriod (primitivePeriods 2) q.2.rel) ∧
    ∃ q ∈ allTerms (run calls empty).hops, q.2.rel = ⟨1, -2, 0⟩ := by
  obtain ⟨calls, h1, h2⟩ := run_monolayer3 onsite (-2.8) 0.1 0.05
  refine ⟨calls, h1, ?_⟩
  rw [h2]
  exact ⟨no_aliases (by simp), by simp, by simp [allTerms]; decide, by simp [allTerms]⟩

/-- MoS2 with the parameters of group6_tmd.py:8. -/
example : ∃ bands : Vec3 → ℂ → Prop,
    (∀ k, HasBands (tmd "Mo" ⟨1.046, 2.104, -0.184, 0.401, 0.507, 0.218, 0.338, 0.057⟩) (tmdVectors 0.319) k (bands k)) ∧
    ∀ E, bands (rotated ![1, 0, 0]) E ↔ bands ![1, 0, 0] E := by
  obtain ⟨bands, h1, h2⟩ := C89_tmd "Mo" (by decide) ⟨1.046, 2.104, -0.184, 0.401, 0.507, 0.218, 0.338, 0.057⟩ 0.319
  exact ⟨bands, h1, fun E => (h2 _ E).1⟩

example : (1 : Int) ≤ 3 ∧ ((1 : ℝ) = 1 ∨ (1 : ℝ) = -1) ∧ (2 : Int) ≤ 5 := ⟨by norm_num, Or.inl rfl, by norm_num⟩

end Verif.Pipeline.Repository
