import Verif.Pipeline.PropsRepository

/-!
# Property C89, continued: the other materials of the repository
-/

namespace Verif.Pipeline.Repository

open Verif.Lattice (CellSite Sublattice HoppingFamily HoppingTerm Registry optimizedUnitCell)
open Verif.Lattice.Lattice (run empty allTerms)
open Verif.Sublat (hamiltonianSize)
open Verif.Hamiltonian Verif.Pipeline

theorem HasBands.congr {calls : List Call} {n : Nat} {a : Fin n → Vec3} {k : Vec3} {p q : ℂ → Prop} (h : HasBands calls a k p)
    (hpq : ∀ E, p E ↔ q E) : HasBands calls a k q := by
  intro subs hops hs hh x0 mb simple hb
  obtain ⟨cell, s, g1, g2, m, g3, g4⟩ := h subs hops hs hh x0 mb simple hb
  exact ⟨cell, s, g1, g2, m, g3, fun E => (g4 E).trans (hpq E)⟩

/-- The two levels of a symmetric 2×2 matrix with the diagonal `α`, `β` and the square `w` of the other entry. -/
noncomputable def Levels (α β w : ℝ) (E : ℂ) : Prop :=
  ∃ sign : ℝ, (sign = 1 ∨ sign = -1) ∧ E = (((α + β) / 2 + sign * √(((α - β) / 2) ^ 2 + w) : ℝ) : ℂ)

theorem levels_iff (α β w : ℝ) (hw : 0 ≤ w) (E : ℂ) : (E - α) * (E - β) = (w : ℂ) ↔ Levels α β w E := by
  rw [two_levels α β w hw]
  constructor
  · rintro (h | h)
    · exact ⟨1, Or.inl rfl, by rw [h, one_mul]⟩
    · exact ⟨-1, Or.inr rfl, by rw [h]; congr 1; ring⟩
  · rintro ⟨_, rfl | rfl, h⟩
    · exact Or.inl (by rw [h, one_mul])
    · exact Or.inr (by rw [h]; congr 1; ring)

/-! ## `monolayer_alt` -/

theorem wallace_nonneg (k : Vec3) : 0 ≤ wallace k := by
  rw [← nearest_norm]
  exact sq_nonneg _

theorem alt_vectors (k : Vec3) : k ⬝ᵥ monolayerAltVectors 0 = k ⬝ᵥ monolayerVectors 1
    ∧ k ⬝ᵥ monolayerAltVectors 1 = k ⬝ᵥ monolayerVectors 0 - k ⬝ᵥ monolayerVectors 1 := by
  constructor <;> simp [monolayerVectors, monolayerAltVectors, dotProduct, Fin.sum_univ_three] <;> ring

/-- **C89** (other vectors): `graphene.monolayer_alt`, with its other pair of lattice vectors and other cell, has the bands
of `graphene.monolayer` with nearest neighbours. -/
theorem C89_monolayer_alt (onsite : ℝ × ℝ) (k : Vec3) :
    HasBands (monolayerAlt onsite) monolayerAltVectors k (Levels onsite.1 onsite.2 (t ^ 2 * wallace k)) := by
  refine hasBands ?_ ?_ ?_ ?_ ?_
  · rw [run_monolayerAlt]
    exact no_aliases (by simp)
  · rw [run_monolayerAlt]; simp
  · rw [run_monolayerAlt]; simp [allTerms]; decide
  · rw [run_monolayerAlt]; simp [Mat.size, Mat.scalar]
  · intro E
    rw [run_monolayerAlt, ← levels_iff _ _ _ (mul_nonneg (sq_nonneg _) (wallace_nonneg k))]
    have hw := wallace_cis k
    have hz0 := cis_ne_zero (k ⬝ᵥ monolayerVectors 0)
    have hz1 := cis_ne_zero (k ⬝ᵥ monolayerVectors 1)
    obtain ⟨d0, d1⟩ := alt_vectors k
    have c0 : cis (k ⬝ᵥ monolayerAltVectors 0) = cis (k ⬝ᵥ monolayerVectors 1) := by rw [d0]
    have c1 : cis (k ⬝ᵥ monolayerAltVectors 1) = cis (k ⬝ᵥ monolayerVectors 0) * (cis (k ⬝ᵥ monolayerVectors 1))⁻¹ := by
      rw [d1, sub_eq_add_neg, cis_add, cis_inv]
    set z0 := cis (k ⬝ᵥ monolayerVectors 0) with e0
    set z1 := cis (k ⬝ᵥ monolayerVectors 1) with e1
    rw [isBand_two (by rfl) (by rfl) (by rfl) (onsite.1 : ℂ) (onsite.2 : ℂ)
      (t * (1 + z0⁻¹ * z1 + z1)) (t * (1 + z0 * z1⁻¹ + z1⁻¹))]
    · push_cast
      rw [hw]
      constructor
      · intro h; rw [h]; ring
      · intro h; rw [h]; ring
    · intro u
      simp [blochRow, orbitals, onsiteOf, entry, Mat.scalar, phase2, phase2_neg, c0, c1]
      ring
    · intro u
      simp [blochRow, orbitals, onsiteOf, entry, Mat.scalar, phase2, phase2_neg, c0, c1]
      ring

/-! ## `monolayer_4atom` -/

theorem cos_half (x : ℝ) : ((4 * Real.cos (x / 2) ^ 2 : ℝ) : ℂ) = 2 + cis x + (cis x)⁻¹ := by
  have h : 4 * Real.cos (x / 2) ^ 2 = 2 + 2 * Real.cos x := by
    rw [Real.cos_sq]
    ring_nf
  rw [h]
  push_cast
  rw [show (Complex.cos (x : ℂ)) = ((Real.cos x : ℝ) : ℂ) by push_cast; rfl, cos_cis]
  ring

theorem det4 (M : Matrix (Fin 4) (Fin 4) ℂ) : M.det =
    M 0 0 * (M 1 1 * (M 2 2 * M 3 3 - M 2 3 * M 3 2) - M 1 2 * (M 2 1 * M 3 3 - M 2 3 * M 3 1) + M 1 3 * (M 2 1 * M 3 2 - M 2 2 * M 3 1))
    - M 0 1 * (M 1 0 * (M 2 2 * M 3 3 - M 2 3 * M 3 2) - M 1 2 * (M 2 0 * M 3 3 - M 2 3 * M 3 0) + M 1 3 * (M 2 0 * M 3 2 - M 2 2 * M 3 0))
    + M 0 2 * (M 1 0 * (M 2 1 * M 3 3 - M 2 3 * M 3 1) - M 1 1 * (M 2 0 * M 3 3 - M 2 3 * M 3 0) + M 1 3 * (M 2 0 * M 3 1 - M 2 1 * M 3 0))
    - M 0 3 * (M 1 0 * (M 2 1 * M 3 2 - M 2 2 * M 3 1) - M 1 1 * (M 2 0 * M 3 2 - M 2 2 * M 3 0) + M 1 2 * (M 2 0 * M 3 1 - M 2 1 * M 3 0)) := by
  rw [Matrix.det_succ_row_zero]
  simp [Fin.sum_univ_four, Matrix.det_fin_three, Matrix.submatrix_apply, Fin.succAbove]
  ring

/-- The determinant which decides whether `E` is a band, for the rows of a 4×4 matrix. -/
theorem det_shift (E : ℂ) (r0 r1 r2 r3 : Fin 4 → ℂ) :
    (E • (1 : Matrix (Fin 4) (Fin 4) ℂ) - Matrix.of ![r0, r1, r2, r3]).det =
    (E - r0 0) * ((E - r1 1) * ((E - r2 2) * (E - r3 3) - r2 3 * r3 2) + r1 2 * (-r2 1 * (E - r3 3) - r2 3 * r3 1)
        - r1 3 * (r2 1 * r3 2 + (E - r2 2) * r3 1))
    + r0 1 * (-r1 0 * ((E - r2 2) * (E - r3 3) - r2 3 * r3 2) + r1 2 * (-r2 0 * (E - r3 3) - r2 3 * r3 0)
        - r1 3 * (r2 0 * r3 2 + (E - r2 2) * r3 0))
    - r0 2 * (-r1 0 * (-r2 1 * (E - r3 3) - r2 3 * r3 1) - (E - r1 1) * (-r2 0 * (E - r3 3) - r2 3 * r3 0)
        - r1 3 * (r2 0 * r3 1 - r2 1 * r3 0))
    + r0 3 * (-r1 0 * (r2 1 * r3 2 + (E - r2 2) * r3 1) - (E - r1 1) * (r2 0 * r3 2 + (E - r2 2) * r3 0)
        - r1 2 * (r2 0 * r3 1 - r2 1 * r3 0)) := by
  rw [det4]
  simp [Matrix.one_apply]
  ring

/-- **C89** (rectangular cell): the four bands of `graphene.monolayer_4atom`, with two sublattices which are aliases of the
other two. -/
theorem C89_monolayer_4atom (onsite : ℝ × ℝ) (k : Vec3) :
    HasBands (monolayer4 onsite) monolayer4Vectors k fun E => ∃ sign : ℝ, (sign = 1 ∨ sign = -1) ∧
      Levels onsite.1 onsite.2 (t ^ 2 * (1 + 4 * Real.cos (a * k 0 / 2) ^ 2
        + sign * (4 * Real.cos (a * k 0 / 2) * Real.cos (3 * aCC * k 1 / 2)))) E := by
  refine hasBands ?_ ?_ ?_ ?_ ?_
  · rw [run_monolayer4]
    constructor
    · intro i j p q hp hq hne hne'
      match i, j with
      | 0, _ => simp at hp; subst hp; simp at hne
      | 1, _ => simp at hp; subst hp; simp at hne
      | 2, 0 => omega
      | 2, 1 => omega
      | 3, 0 => omega
      | 3, 1 => omega
      | _, 2 => simp at hq; subst hq; simp at hne'
      | _, 3 => simp at hq; subst hq; simp at hne'
      | i + 4, _ => simp at hp
      | _, j + 4 => simp at hq
    · intro p hp q hq
      simp at hp
      rcases hp with rfl | rfl | rfl | rfl <;> (simp at hq; subst hq; rfl)
  · rw [run_monolayer4]; simp
  · rw [run_monolayer4]; simp [allTerms]; decide
  · rw [run_monolayer4]; simp [Mat.size, Mat.scalar]
  · intro E
    rw [run_monolayer4]
    have d0 : k ⬝ᵥ monolayer4Vectors 0 = a * k 0 := by
      simp [monolayer4Vectors, dotProduct, Fin.sum_univ_three]; ring
    have d1 : k ⬝ᵥ monolayer4Vectors 1 = 3 * aCC * k 1 := by
      simp [monolayer4Vectors, dotProduct, Fin.sum_univ_three]; ring
    have hc0 := cos_half (a * k 0)
    have hc1 := cos_half (3 * aCC * k 1)
    have hz0 := cis_ne_zero (a * k 0)
    have hz1 := cis_ne_zero (3 * aCC * k 1)
    have hb1 := Real.cos_sq_le_one (3 * aCC * k 1 / 2)
    set z0 := cis (a * k 0) with e0
    set z1 := cis (3 * aCC * k 1) with e1
    set c0 := Real.cos (a * k 0 / 2)
    set c1 := Real.cos (3 * aCC * k 1 / 2)
    have hpos : ∀ sign : ℝ, (sign = 1 ∨ sign = -1) → 0 ≤ t ^ 2 * (1 + 4 * c0 ^ 2 + sign * (4 * c0 * c1)) := by
      rintro sign (rfl | rfl)
      · exact mul_nonneg (sq_nonneg _) (by nlinarith [sq_nonneg (2 * c0 + c1)])
      · exact mul_nonneg (sq_nonneg _) (by nlinarith [sq_nonneg (2 * c0 - c1)])
    rw [isBand_scalar (N := 4) (by rfl) (by intro α hα; interval_cases α <;> rfl)
      (Matrix.of ![![(onsite.1 : ℂ), t, 0, t * (z0 * z1 + z1)], ![(t : ℂ), onsite.2, t * (1 + z0), 0],
        ![0, t * (1 + z0⁻¹), onsite.1, t], ![t * (z0⁻¹ * z1⁻¹ + z1⁻¹), 0, t, onsite.2]])]
    · rw [det_shift]
      have key : ((E - onsite.1) * (E - onsite.2) - ((t ^ 2 * (1 + 4 * c0 ^ 2 + 1 * (4 * c0 * c1)) : ℝ) : ℂ))
          * ((E - onsite.1) * (E - onsite.2) - ((t ^ 2 * (1 + 4 * c0 ^ 2 + -1 * (4 * c0 * c1)) : ℝ) : ℂ))
          = ((E - onsite.1) * (E - onsite.2) - t ^ 2 * (1 + (4 * c0 ^ 2 : ℝ))) ^ 2
            - t ^ 4 * ((4 * c0 ^ 2 : ℝ) * (4 * c1 ^ 2 : ℝ)) := by
        push_cast
        ring
      rw [hc0, hc1] at key
      have hdet : ∀ x : ℂ, x = ((E - onsite.1) * (E - onsite.2) - ((t ^ 2 * (1 + 4 * c0 ^ 2 + 1 * (4 * c0 * c1)) : ℝ) : ℂ))
          * ((E - onsite.1) * (E - onsite.2) - ((t ^ 2 * (1 + 4 * c0 ^ 2 + -1 * (4 * c0 * c1)) : ℝ) : ℂ)) →
          (x = 0 ↔ ∃ sign : ℝ, (sign = 1 ∨ sign = -1) ∧ Levels onsite.1 onsite.2 (t ^ 2 * (1 + 4 * c0 ^ 2 + sign * (4 * c0 * c1))) E) := by
        rintro x rfl
        rw [mul_eq_zero, sub_eq_zero, sub_eq_zero, levels_iff _ _ _ (hpos 1 (Or.inl rfl)), levels_iff _ _ _ (hpos (-1) (Or.inr rfl))]
        constructor
        · rintro (h | h)
          · exact ⟨1, Or.inl rfl, h⟩
          · exact ⟨-1, Or.inr rfl, h⟩
        · rintro ⟨_, rfl | rfl, h⟩
          · exact Or.inl h
          · exact Or.inr h
      refine hdet _ ?_
      rw [key]
      simp
      field_simp
      ring
    · intro u i
      fin_cases i <;> simp [blochRow, orbitals, onsiteOf, entry, Mat.scalar, phase2, phase2_neg, d0, d1, ← e0, ← e1, Fin.sum_univ_four] <;>
        ring

/-! ## `bilayer` -/

/-- The sum of `exp(-i k·δ)` over the vectors from a site of sublattice A1 to its three neighbours in sublattice B2. -/
noncomputable def skew (k : Vec3) : ℂ :=
  cis (-(k ⬝ᵥ ![a / 2, 2 * aCC - √3 * a / 2, -0.335])) + cis (-(k ⬝ᵥ ![-a / 2, 2 * aCC - √3 * a / 2, -0.335]))
    + cis (-(k ⬝ᵥ ![0, 2 * aCC - √3 * a, -0.335]))

/-- The product of the sums over the neighbours around the loop A1, B1, A2, B2, A1. -/
noncomputable def loop (k : Vec3) : ℂ := nearest k * cis (-(k ⬝ᵥ ![0, 0, -0.335])) * nearest k * star (skew k)

theorem bilayer_vectors (k : Vec3) : k ⬝ᵥ bilayerVectors 0 = k ⬝ᵥ monolayerVectors 1
    ∧ k ⬝ᵥ bilayerVectors 1 = k ⬝ᵥ monolayerVectors 1 - k ⬝ᵥ monolayerVectors 0 := by
  constructor <;> simp [monolayerVectors, bilayerVectors, dotProduct, Fin.sum_univ_three] <;> ring

theorem nearest_bilayer (k : Vec3) : nearest k = cis (-(k ⬝ᵥ ![0, aCC, 0]))
    * (1 + cis (k ⬝ᵥ bilayerVectors 1) + cis (k ⬝ᵥ bilayerVectors 0)) := by
  rw [nearest_eq, (bilayer_vectors k).1, (bilayer_vectors k).2, sub_eq_add_neg, cis_add, cis_inv (k ⬝ᵥ monolayerVectors 0)]
  ring

theorem skew_eq (k : Vec3) : skew k = cis (-(k ⬝ᵥ ![0, 2 * aCC, -0.335]))
    * (cis (k ⬝ᵥ bilayerVectors 1) + cis (k ⬝ᵥ bilayerVectors 0) + cis (k ⬝ᵥ bilayerVectors 0) * cis (k ⬝ᵥ bilayerVectors 1)) := by
  unfold skew
  rw [mul_add, mul_add, ← cis_add, ← cis_add, ← cis_add, ← cis_add]
  congr 1
  · congr 1
    · congr 1
      simp [bilayerVectors, dotProduct, Fin.sum_univ_three]; ring
    · congr 1
      simp [bilayerVectors, dotProduct, Fin.sum_univ_three]; ring
  · congr 1
    simp [bilayerVectors, dotProduct, Fin.sum_univ_three]; ring

theorem loop_eq (k : Vec3) : loop k = (1 + cis (k ⬝ᵥ bilayerVectors 1) + cis (k ⬝ᵥ bilayerVectors 0)) ^ 2
    * ((cis (k ⬝ᵥ bilayerVectors 1))⁻¹ + (cis (k ⬝ᵥ bilayerVectors 0))⁻¹
      + (cis (k ⬝ᵥ bilayerVectors 0))⁻¹ * (cis (k ⬝ᵥ bilayerVectors 1))⁻¹) := by
  have h : cis (-(k ⬝ᵥ ![0, aCC, 0])) * cis (-(k ⬝ᵥ ![0, 0, -0.335])) * cis (-(k ⬝ᵥ ![0, aCC, 0]))
      * cis (k ⬝ᵥ ![0, 2 * aCC, -0.335]) = 1 := by
    rw [← cis_add, ← cis_add, ← cis_add, ← cis_zero]
    congr 1
    simp [dotProduct, Fin.sum_univ_three]
    ring
  unfold loop
  rw [nearest_bilayer, skew_eq]
  simp only [star_add, star_mul', star_one, star_inv₀, star_cis, cis_inv, inv_inv] at h ⊢
  linear_combination ((1 + cis (k ⬝ᵥ bilayerVectors 1) + cis (k ⬝ᵥ bilayerVectors 0)) ^ 2
    * ((cis (k ⬝ᵥ bilayerVectors 1))⁻¹ + (cis (k ⬝ᵥ bilayerVectors 0))⁻¹
      + (cis (k ⬝ᵥ bilayerVectors 0))⁻¹ * (cis (k ⬝ᵥ bilayerVectors 1))⁻¹)) * h

theorem wallace_bilayer (k : Vec3) : (wallace k : ℂ) = (1 + cis (k ⬝ᵥ bilayerVectors 1) + cis (k ⬝ᵥ bilayerVectors 0))
    * (1 + (cis (k ⬝ᵥ bilayerVectors 1))⁻¹ + (cis (k ⬝ᵥ bilayerVectors 0))⁻¹) := by
  rw [← nearest_norm, nearest_bilayer, norm_mul, norm_cis, one_mul, norm_sq_eq]
  simp only [star_add, star_one, star_cis, cis_inv]

theorem conj_04 : (starRingEnd ℂ) 0.4 = 0.4 := by
  rw [show (0.4 : ℂ) = ((0.4 : ℝ) : ℂ) by norm_num]
  exact Complex.conj_ofReal _

theorem conj_03 : (starRingEnd ℂ) 0.3 = 0.3 := by
  rw [show (0.3 : ℂ) = ((0.3 : ℝ) : ℂ) by norm_num]
  exact Complex.conj_ofReal _

theorem conj_004 : (starRingEnd ℂ) 0.04 = 0.04 := by
  rw [show (0.04 : ℂ) = ((0.04 : ℝ) : ℂ) by norm_num]
  exact Complex.conj_ofReal _

theorem two_re (z : ℂ) : ((2 * z.re : ℝ) : ℂ) = z + star z := by
  rw [Complex.star_def, Complex.add_conj]

/-- The equation of the bands of `graphene.bilayer` without `γ4`. -/
noncomputable def BilayerBands (gamma3 : Bool) (onsite : Fin 4 → ℝ) (k : Vec3) (E : ℂ) : Prop :=
  ((E - onsite 0) * (E - onsite 1) - t ^ 2 * wallace k) * ((E - onsite 2) * (E - onsite 3) - t ^ 2 * wallace k)
    - 0.4 ^ 2 * ((E - onsite 0) * (E - onsite 3))
    - (if gamma3 then 0.3 ^ 2 * wallace k * ((E - onsite 1) * (E - onsite 2) - 0.4 ^ 2)
        + t ^ 2 * 0.4 * 0.3 * ((2 * (loop k).re : ℝ) : ℂ) else 0) = 0

/-- **C89** (bilayer): for any onsite energies, with or without the skew hoppings between the outer sublattices (`γ3`), the
bands of `graphene.bilayer` are the solutions of the equation of the literature, where `w` is the function of Wallace and
`loop` the product of the sums over the neighbours around A1, B1, A2, B2. -/
theorem C89_bilayer (gamma3 : Bool) (onsite : Fin 4 → ℝ) (k : Vec3) :
    HasBands (bilayer gamma3 false onsite) bilayerVectors k (BilayerBands gamma3 onsite k) := by
  refine hasBands ?_ ?_ ?_ ?_ ?_
  · rw [run_bilayer]
    exact no_aliases (by simp)
  · rw [run_bilayer]; simp
  · rw [run_bilayer]; cases gamma3 <;> simp [allTerms] <;> decide
  · rw [run_bilayer]; simp [Mat.size, Mat.scalar]
  · intro E
    unfold BilayerBands
    rw [run_bilayer, wallace_bilayer, two_re, loop_eq]
    simp only [star_add, star_mul', star_one, star_inv₀, star_cis, cis_inv, inv_inv, star_pow]
    have hz0 := cis_ne_zero (k ⬝ᵥ bilayerVectors 0)
    have hz1 := cis_ne_zero (k ⬝ᵥ bilayerVectors 1)
    set z0 := cis (k ⬝ᵥ bilayerVectors 0) with e0
    set z1 := cis (k ⬝ᵥ bilayerVectors 1) with e1
    have h3 : ((if gamma3 then 0.3 ^ 2 * ((1 + z1 + z0) * (1 + z1⁻¹ + z0⁻¹)) * ((E - onsite 1) * (E - onsite 2) - 0.4 ^ 2)
        + t ^ 2 * 0.4 * 0.3 * ((1 + z1 + z0) ^ 2 * (z1⁻¹ + z0⁻¹ + z0⁻¹ * z1⁻¹) + (1 + z1⁻¹ + z0⁻¹) ^ 2 * (z1 + z0 + z0 * z1)) else 0 : ℂ))
        = (if gamma3 then (-0.3) else 0) ^ 2 * ((1 + z1 + z0) * (1 + z1⁻¹ + z0⁻¹)) * ((E - onsite 1) * (E - onsite 2) - (-0.4) ^ 2)
        + t ^ 2 * (-0.4) * (if gamma3 then (-0.3) else 0) * ((1 + z1 + z0) ^ 2 * (z1⁻¹ + z0⁻¹ + z0⁻¹ * z1⁻¹) + (1 + z1⁻¹ + z0⁻¹) ^ 2 * (z1 + z0 + z0 * z1)) := by
      cases gamma3 <;> simp <;> ring
    rw [h3]
    rw [isBand_scalar (N := 4) (by rfl) (by intro α hα; interval_cases α <;> rfl)
      (Matrix.of ![![(onsite 0 : ℂ), t * (1 + z1 + z0), 0, (if gamma3 then (-0.3) else 0) * (z1 + z0 + z0 * z1)],
        ![t * (1 + z1⁻¹ + z0⁻¹), (onsite 1 : ℂ), -0.4, 0],
        ![0, -0.4, (onsite 2 : ℂ), t * (1 + z1 + z0)],
        ![(if gamma3 then (-0.3) else 0) * (z1⁻¹ + z0⁻¹ + z0⁻¹ * z1⁻¹), 0, t * (1 + z1⁻¹ + z0⁻¹), (onsite 3 : ℂ)]])]
    · rw [det_shift]
      have hx : ∀ x y : ℂ, x = y → (x = 0 ↔ y = 0) := by rintro x y rfl; rfl
      refine hx _ _ ?_
      generalize (if gamma3 then (-0.3) else 0 : ℂ) = g3
      generalize (0.4 : ℂ) = g1
      simp
      field_simp
      ring
    · intro u i
      cases gamma3 <;> fin_cases i <;>
        simp [blochRow, orbitals, onsiteOf, entry, Mat.scalar, phase2, phase2_neg, ← e0, ← e1, Fin.sum_univ_four, conj_04, conj_03] <;>
        ring

theorem loop_neg (k : Vec3) : loop (-k) = star (loop k) := by
  rw [loop_eq, loop_eq]
  simp only [neg_dotProduct, cis_inv, star_add, star_mul', star_one, star_inv₀, star_cis, inv_inv, star_pow]

theorem wallace_neg (k : Vec3) : wallace (-k) = wallace k := by
  apply Complex.ofReal_injective
  rw [wallace_bilayer, wallace_bilayer]
  simp only [neg_dotProduct, cis_inv, inv_inv]
  ring

/-- **C89** (inversion): turning `graphene.bilayer` upside down, which exchanges A1 with B2 and B1 with A2, and reversing the
wave vector changes no band, with and without `γ3`. -/
theorem C89_bilayer_inversion (gamma3 : Bool) (onsite : Fin 4 → ℝ) (k : Vec3) :
    HasBands (bilayer gamma3 false ![onsite 3, onsite 2, onsite 1, onsite 0]) bilayerVectors (-k) (BilayerBands gamma3 onsite k) := by
  refine (C89_bilayer gamma3 _ (-k)).congr fun E => ?_
  unfold BilayerBands
  rw [loop_neg, wallace_neg, Complex.star_def, Complex.conj_re]
  simp
  ring_nf

/-- With `γ4` the statement is false: the function adds the hoppings from A1 to A2 and leaves out those from B1 to B2.  There
are onsite energies for which zero is a band of the bilayer at `k = 0`, and not of the same bilayer upside down. -/
theorem C89_bilayer_gamma4_witness : ∃ (onsite : Fin 4 → ℝ) (p q : ℂ → Prop),
    HasBands (bilayer false true onsite) bilayerVectors 0 p ∧
    HasBands (bilayer false true ![onsite 3, onsite 2, onsite 1, onsite 0]) bilayerVectors (-0) q ∧ p 0 ∧ ¬ q 0 := by
  have key : ∀ onsite : Fin 4 → ℝ, HasBands (bilayer false true onsite) bilayerVectors 0 fun E =>
      (E • (1 : Matrix (Fin 4) (Fin 4) ℂ) - Matrix.of ![![(onsite 0 : ℂ), t * 3, (-0.04) * 3, 0], ![(t : ℂ) * 3, (onsite 1 : ℂ), -0.4, 0],
        ![(-0.04) * 3, -0.4, (onsite 2 : ℂ), t * 3], ![0, 0, t * 3, (onsite 3 : ℂ)]]).det = 0 := by
    intro onsite
    refine hasBands ?_ ?_ ?_ ?_ ?_
    · rw [run_bilayer]
      exact no_aliases (by simp)
    · rw [run_bilayer]; simp
    · rw [run_bilayer]; simp [allTerms]; decide
    · rw [run_bilayer]; simp [Mat.size, Mat.scalar]
    · intro E
      rw [run_bilayer]
      apply isBand_scalar (N := 4) (by rfl) (by intro α hα; interval_cases α <;> rfl)
      intro u i
      fin_cases i <;>
        simp [blochRow, orbitals, onsiteOf, entry, Mat.scalar, Fin.sum_univ_four, conj_04, conj_004] <;> ring
  refine ⟨![9 * t ^ 2, 1, 0, 0], _, _, key _, by rw [neg_zero]; exact key _, ?_, ?_⟩
  · rw [det_shift]
    simp
    ring
  · rw [det_shift]
    simp [t]
    norm_num

/-! ## The lattices of the examples -/

theorem dot_shift1 (a : Fin 1 → Vec3) (k : Vec3) (x y z : Int) : k ⬝ᵥ shiftVec a ⟨x, y, z⟩ = x * (k ⬝ᵥ a 0) := by
  unfold shiftVec
  rw [Fin.sum_univ_one, dotProduct_smul]
  simp [Index3.comp]

theorem phase1 (a : Fin 1 → Vec3) (k : Vec3) (x y z : Int) :
    Complex.exp (Complex.I * ((k ⬝ᵥ shiftVec a ⟨x, y, z⟩ : ℝ) : ℂ)) = cis (k ⬝ᵥ a 0) ^ x := by
  rw [dot_shift1, ← cis_zpow]
  rfl

theorem phase1_neg (a : Fin 1 → Vec3) (k : Vec3) (x y z : Int) :
    Complex.exp (-(Complex.I * ((k ⬝ᵥ shiftVec a ⟨x, y, z⟩ : ℝ) : ℂ))) = cis (k ⬝ᵥ a 0) ^ (-x) := by
  rw [Complex.exp_neg, phase1, zpow_neg]

/-- What the band of a lattice with one orbital is. -/
theorem isBand_one {n : Nat} {l : Lattice.Lattice ℂ Vec3} {a : Fin n → Vec3} {k : Vec3} (hl : l.subs.length = 1)
    (ho : orbitals l 0 = 1) (h : ℂ) (hr : ∀ u : Nat → Nat → ℂ, blochRow l id a k u 0 0 = h * u 0 0) (E : ℂ) :
    IsBand l id a k E ↔ E = h := by
  rw [isBand_scalar hl (by intro α hα; interval_cases α; exact ho) (Matrix.of ![![h]])]
  · simp [Matrix.det_fin_one, sub_eq_zero]
  · intro u i
    fin_cases i
    simp [hr]

/-- **C89** (chain): the band of `chain_lattice(a, t, v)` is `v + 2t cos(ka)`. -/
theorem C89_chain (d t v : ℝ) (k : Vec3) :
    HasBands (chainLattice t v) (chainVectors d) k fun E => E = ((v + 2 * t * Real.cos (k 0 * d) : ℝ) : ℂ) := by
  refine hasBands ?_ ?_ ?_ ?_ ?_
  · rw [run_chain]
    exact no_aliases (by simp)
  · rw [run_chain]; simp
  · rw [run_chain]; simp [allTerms]; decide
  · rw [run_chain]; simp [Mat.size, Mat.scalar]
  · intro E
    rw [run_chain]
    have d0 : k ⬝ᵥ chainVectors d 0 = k 0 * d := by
      simp [chainVectors, dotProduct, Fin.sum_univ_three]
    rw [Complex.ofReal_add, Complex.ofReal_mul, cos_cis]
    apply isBand_one (by rfl) (by rfl)
    intro u
    simp [blochRow, orbitals, onsiteOf, entry, Mat.scalar, phase1, phase1_neg, d0]
    ring

/-- **C89** (square): the band of `square_lattice(d, t)` is `2t(cos(kx d) + cos(ky d) + 2 cos(kx d) cos(ky d))`: the function
also adds hoppings along both diagonals, with the same energy. -/
theorem C89_square (d t : ℝ) (k : Vec3) :
    HasBands (squareLattice t) (squareVectors d) k fun E =>
      E = ((2 * t * (Real.cos (k 0 * d) + Real.cos (k 1 * d) + 2 * (Real.cos (k 0 * d) * Real.cos (k 1 * d))) : ℝ) : ℂ) := by
  refine hasBands ?_ ?_ ?_ ?_ ?_
  · rw [run_square]
    exact no_aliases (by simp)
  · rw [run_square]; simp
  · rw [run_square]; simp [allTerms]; decide
  · rw [run_square]; simp [Mat.size, Mat.scalar]
  · intro E
    rw [run_square]
    have d0 : k ⬝ᵥ squareVectors d 0 = k 0 * d := by
      simp [squareVectors, dotProduct, Fin.sum_univ_three]
    have d1 : k ⬝ᵥ squareVectors d 1 = k 1 * d := by
      simp [squareVectors, dotProduct, Fin.sum_univ_three]
    simp only [Complex.ofReal_add, Complex.ofReal_mul, cos_cis]
    apply isBand_one (by rfl) (by rfl)
    intro u
    simp [blochRow, orbitals, onsiteOf, entry, Mat.scalar, phase2, phase2_neg, d0, d1]
    ring

end Verif.Pipeline.Repository
