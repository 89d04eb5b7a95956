import Verif.Shape.PropsHexagon
import Mathlib.Analysis.SpecialFunctions.Exp
import Mathlib.Analysis.Complex.ExponentialBounds

/-!
# Deformations and impurities of graphene (C114)

Source: `pybinding/repository/graphene/modifiers.py`, `pybinding/repository/graphene/constants.py`.

Arithmetic is exact.
-/

namespace Verif.GrapheneMod

open Verif.Hexagon

/-! ## Model -/

/-- A position. -/
@[ext] structure P3 where
  x : ℝ
  y : ℝ
  z : ℝ

/-- The distance computed in `strained_hopping` and `coulomb_potential`, modifiers.py:46 and 80. -/
noncomputable def dist (p q : P3) : ℝ := √((p.x - q.x) ^ 2 + (p.y - q.y) ^ 2 + (p.z - q.z) ^ 2)

/-- `beta`, constants.py:8. -/
noncomputable def beta : ℝ := 337 / 100

/-- `strained_hopping`, modifiers.py:76-82, for one hopping. -/
noncomputable def strainedHopping (energy : ℝ) (p q : P3) : ℝ :=
  let l := dist p q
  let w := l / acc - 1
  energy * Real.exp (-beta * w)

/-- `displacement` of `triaxial_strain`, modifiers.py:101-113, with `zigzag_direction = False`; `c` is
the strain. -/
noncomputable def triaxial (c : ℝ) (p : P3) : P3 :=
  let ux := 2 * c * p.x * p.y
  let uy := c * (p.x ^ 2 - p.y ^ 2)
  ⟨p.x + ux, p.y + uy, p.z⟩

/-- `field_to_strain`, modifiers.py:95-96; `hbar` is a parameter. -/
noncomputable def fieldToStrain (hbar field : ℝ) : ℝ := field * acc / (4 * hbar * beta) * (1 / 10 ^ 18)

/-- `displacement` of `gaussian_bump`, modifiers.py:131-135. -/
noncomputable def bump (height sigma x0 y0 : ℝ) (p : P3) : P3 :=
  let r2 := (p.x - x0) ^ 2 + (p.y - y0) ^ 2
  ⟨p.x, p.y, height * Real.exp (-r2 / sigma ^ 2)⟩

/-- `potential` of `coulomb_potential`, modifiers.py:43-48, for one site; `scaled` is `scaled_beta`.
`none`: the division by zero, which gives an infinite energy or none at all in NumPy. -/
noncomputable def coulomb (scaled cutoff : ℝ) (offset : P3) (energy : ℝ) (p : P3) : Option ℝ :=
  let r := dist p offset
  let r := if r < cutoff then cutoff else r
  if r = 0 then none else some (energy - scaled / r)

/-- `onsite` of `mass_term`, modifiers.py:20-24, for one site. -/
def massTerm (delta : ℝ) (sub : String) (energy : ℝ) : ℝ :=
  let energy := if sub = "A" then energy + delta else energy
  if sub = "B" then energy - delta else energy

/-- A site of `graphene.monolayer()` in the plane. -/
noncomputable def place (s : Site) : P3 := ⟨(position s).x, (position s).y, 0⟩

/-! ## Strain -/

/-- **C114**: the hopping from one site to another and the one back stay equal. -/
theorem C114_strain_symmetric (e : ℝ) (p q : P3) : strainedHopping e p q = strainedHopping e q p := by
  have h : dist p q = dist q p := by
    unfold dist
    congr 1
    ring
  simp only [strainedHopping, h]

/-- **C114**: the sign of a hopping is kept, and the longer of two hoppings is the weaker one. -/
theorem C114_strain_decay (e : ℝ) (he : e ≠ 0) (p q p' q' : P3) :
    0 < strainedHopping e p q / e ∧
    (|strainedHopping e p' q'| < |strainedHopping e p q| ↔ dist p q < dist p' q') := by
  have hp := acc_pos
  have hb : 0 < beta := by unfold beta; norm_num
  constructor
  · simp only [strainedHopping]
    rw [mul_div_right_comm, div_self he, one_mul]
    exact Real.exp_pos _
  · simp only [strainedHopping, abs_mul, Real.abs_exp]
    rw [mul_lt_mul_iff_right₀ (abs_pos.mpr he), Real.exp_lt_exp, neg_mul, neg_mul, neg_lt_neg_iff,
      mul_lt_mul_iff_right₀ hb, sub_lt_sub_iff_right, div_lt_div_iff_of_pos_right hp]

theorem neighbor_dist (s x : Site) (hx : x ∈ neighbors s) :
    acc * (1 - 3 / 200000) ≤ dist (place s) (place x) ∧ dist (place s) (place x) ≤ acc := by
  have r1 := ratio_le
  have r2 := ratio_ge
  have hp := acc_pos
  have q : √3 ^ 2 = (3 : ℝ) := Real.sq_sqrt (by norm_num)
  have key : ((place s).x - (place x).x) ^ 2 + ((place s).y - (place x).y) ^ 2 +
      ((place s).z - (place x).z) ^ 2 = acc ^ 2 ∨
      ((place s).x - (place x).x) ^ 2 + ((place s).y - (place x).y) ^ 2 +
      ((place s).z - (place x).z) ^ 2 = acc ^ 2 * (3 * ratio ^ 2 - 3 * ratio + 1) := by
    obtain ⟨b, i, j⟩ := s
    cases b <;> simp only [neighbors, List.map_cons, List.map_nil, Bool.false_eq_true, if_false,
      if_true, List.mem_cons, List.not_mem_nil, or_false] at hx <;> rcases hx with rfl | rfl | rfl
    · left
      simp only [place, position, Bool.false_eq_true, if_false, if_true]
      push_cast; ring
    · right
      simp only [place, position, Bool.false_eq_true, if_false, if_true, a_eq]
      push_cast; ring_nf; simp only [q, show √3 ^ 4 = (9 : ℝ) by rw [show (4 : ℕ) = 2 * 2 by rfl, pow_mul, q]; norm_num]; ring
    · right
      simp only [place, position, Bool.false_eq_true, if_false, if_true, a_eq]
      push_cast; ring_nf; simp only [q, show √3 ^ 4 = (9 : ℝ) by rw [show (4 : ℕ) = 2 * 2 by rfl, pow_mul, q]; norm_num]; ring
    · left
      simp only [place, position, Bool.false_eq_true, if_false, if_true]
      push_cast; ring
    · right
      simp only [place, position, Bool.false_eq_true, if_false, if_true, a_eq]
      push_cast; ring_nf; simp only [q, show √3 ^ 4 = (9 : ℝ) by rw [show (4 : ℕ) = 2 * 2 by rfl, pow_mul, q]; norm_num]; ring
    · right
      simp only [place, position, Bool.false_eq_true, if_false, if_true, a_eq]
      push_cast; ring_nf; simp only [q, show √3 ^ 4 = (9 : ℝ) by rw [show (4 : ℕ) = 2 * 2 by rfl, pow_mul, q]; norm_num]; ring
  unfold dist
  have hacc2 : 0 < acc ^ 2 := by positivity
  constructor
  · apply Real.le_sqrt_of_sq_le
    rw [mul_pow]
    rcases key with k | k <;> rw [k]
    · nlinarith
    · apply mul_le_mul_of_nonneg_left _ hacc2.le
      nlinarith
  · apply Real.sqrt_le_iff.mpr
    refine ⟨hp.le, ?_⟩
    rcases key with k | k <;> rw [k]
    have : 3 * ratio ^ 2 - 3 * ratio + 1 ≤ 1 := by nlinarith
    exact mul_le_of_le_one_right hacc2.le this

/-- **C114**: without strain the hoppings between neighbors are unchanged up to the error of the
lattice constant, less than one part in ten thousand. -/
theorem C114_strain_nearest (e : ℝ) (s x : Site) (hx : x ∈ neighbors s) :
    |strainedHopping e (place s) (place x) - e| ≤ |e| / 10000 := by
  obtain ⟨h1, h2⟩ := neighbor_dist s x hx
  have hp := acc_pos
  simp only [strainedHopping]
  obtain ⟨d, hd⟩ : ∃ d, d = dist (place s) (place x) / acc - 1 := ⟨_, rfl⟩
  have d1 : -(3 / 200000) ≤ d := by
    rw [hd]
    have : 1 - 3 / 200000 ≤ dist (place s) (place x) / acc := by
      rw [le_div_iff₀ hp]; linarith
    linarith
  have d2 : d ≤ 0 := by
    rw [hd]
    have : dist (place s) (place x) / acc ≤ 1 := by rw [div_le_one hp]; exact h2
    linarith
  rw [← hd]
  have e1 : 1 ≤ Real.exp (-beta * d) := by
    apply Real.one_le_exp
    unfold beta
    linarith
  have e2 : Real.exp (-beta * d) ≤ 1 + 1 / 10000 := by
    have hb : -beta * d ≤ 1 / 11000 := by unfold beta; linarith
    have k := Real.add_one_le_exp (-(-beta * d))
    rw [Real.exp_neg] at k
    have hpos := Real.exp_pos (-beta * d)
    have k2 : (1 - 1 / 11000) * Real.exp (-beta * d) ≤ 1 := by
      have : (1 - 1 / 11000 : ℝ) ≤ (Real.exp (-beta * d))⁻¹ := by linarith
      calc _ ≤ (Real.exp (-beta * d))⁻¹ * Real.exp (-beta * d) :=
            mul_le_mul_of_nonneg_right this hpos.le
        _ = 1 := inv_mul_cancel₀ hpos.ne'
    linarith
  rw [show e * Real.exp (-beta * d) - e = e * (Real.exp (-beta * d) - 1) by ring, abs_mul,
    abs_of_nonneg (by linarith : 0 ≤ Real.exp (-beta * d) - 1)]
  have := abs_nonneg e
  nlinarith

/-- **C114** (false in general): the hoppings between next-nearest neighbors fall below a tenth although
there is no strain, because all hoppings are compared with the distance of nearest neighbors. -/
theorem C114_strain_next_witness (e : ℝ) (he : 0 < e) (b : Bool) (i j : ℤ) :
    strainedHopping e (place ⟨b, i, j⟩) (place ⟨b, i + 1, j⟩) < e / 10 := by
  have hd : dist (place ⟨b, i, j⟩) (place ⟨b, i + 1, j⟩) = a := by
    have h : ((place ⟨b, i, j⟩).x - (place ⟨b, i + 1, j⟩).x) ^ 2 +
        ((place ⟨b, i, j⟩).y - (place ⟨b, i + 1, j⟩).y) ^ 2 +
        ((place ⟨b, i, j⟩).z - (place ⟨b, i + 1, j⟩).z) ^ 2 = a ^ 2 := by
      simp only [place, position]
      push_cast
      ring
    unfold dist
    rw [h]
    exact Real.sqrt_sq (by unfold a; norm_num)
  simp only [strainedHopping]
  rw [hd]
  have hx : -beta * (a / acc - 1) ≤ -(2 + 46 / 100) := by
    unfold beta a acc
    norm_num
  have k : Real.exp (-beta * (a / acc - 1)) ≤ Real.exp (-(2 + 46 / 100)) := Real.exp_le_exp.mpr hx
  have k2 : (10 : ℝ) < Real.exp (2 + 46 / 100) := by
    rw [Real.exp_add]
    have e1 := Real.exp_one_gt_d9
    have e2 : Real.exp 2 = Real.exp 1 * Real.exp 1 := by rw [← Real.exp_add]; norm_num
    have e3 := Real.add_one_le_exp (46 / 100 : ℝ)
    have e4 : (7.38 : ℝ) ≤ Real.exp 2 := by rw [e2]; nlinarith
    nlinarith
  have k3 : Real.exp (-(2 + 46 / 100)) < 1 / 10 := by
    rw [Real.exp_neg, ← one_div]
    exact one_div_lt_one_div_of_lt (by norm_num) k2
  nlinarith

/-- **C114**: without a field no site is moved. -/
theorem C114_triaxial_zero (hbar : ℝ) (p : P3) : triaxial (fieldToStrain hbar 0) p = p := by
  ext <;> simp [triaxial, fieldToStrain]

/-- A third of a turn about the vertical axis (specification). -/
noncomputable def third (p : P3) : P3 :=
  ⟨-p.x / 2 - √3 / 2 * p.y, √3 / 2 * p.x - p.y / 2, p.z⟩

/-- **C114**: the strain is triaxial: it looks the same after a third of a turn. -/
theorem C114_triaxial_symmetric (c : ℝ) (p : P3) : triaxial c (third p) = third (triaxial c p) := by
  have q : √3 ^ 2 = (3 : ℝ) := Real.sq_sqrt (by norm_num)
  ext
  · simp only [triaxial, third]
    linear_combination (-c * p.x * p.y / 2) * q
  · simp only [triaxial, third]
    linear_combination (c * (p.y ^ 2 - p.x ^ 2) / 4) * q
  · rfl

/-! ## Bump -/

/-- **C114**: the bump moves sites of the plane up only, by at most the height, which is reached at the
center. -/
theorem C114_bump (height sigma x0 y0 : ℝ) (p : P3) :
    (bump height sigma x0 y0 p).x = p.x ∧ (bump height sigma x0 y0 p).y = p.y ∧
    |(bump height sigma x0 y0 p).z| ≤ |height| ∧ 0 ≤ height * (bump height sigma x0 y0 p).z ∧
    (p.x = x0 → p.y = y0 → (bump height sigma x0 y0 p).z = height) := by
  refine ⟨rfl, rfl, ?_, ?_, ?_⟩
  · simp only [bump, abs_mul, Real.abs_exp]
    apply mul_le_of_le_one_right (abs_nonneg _)
    apply Real.exp_le_one_iff.mpr
    rw [neg_div, neg_nonpos]
    positivity
  · simp only [bump]
    rw [← mul_assoc]
    exact mul_nonneg (mul_self_nonneg _) (Real.exp_pos _).le
  · intro h1 h2
    simp [bump, h1, h2]

/-- **C114**: the height of a site before the deformation is lost: a bump without height leaves a site
in place exactly if it is in the plane `z = 0`. -/
theorem C114_bump_flat (sigma x0 y0 : ℝ) (p : P3) : bump 0 sigma x0 y0 p = p ↔ p.z = 0 := by
  constructor
  · intro h
    have := congrArg P3.z h
    simp only [bump, zero_mul] at this
    exact this.symm
  · intro h
    ext <;> simp [bump, h]

/-- **C114** (false in general): both layers of a bilayer end up at the same positions. -/
theorem C114_bump_witness (height sigma x0 y0 x y z z' : ℝ) :
    bump height sigma x0 y0 ⟨x, y, z⟩ = bump height sigma x0 y0 ⟨x, y, z'⟩ := rfl

/-- **C114** (false in general): also without any height, the hoppings between the layers of a bilayer
grow by a factor above twenty, because the sites they join have come to lie on each other. -/
theorem C114_bump_bilayer_witness (e : ℝ) (he : e ≠ 0) (sigma x0 y0 x y z z' : ℝ) :
    20 * |e| < |strainedHopping e (bump 0 sigma x0 y0 ⟨x, y, z⟩) (bump 0 sigma x0 y0 ⟨x, y, z'⟩)| := by
  rw [C114_bump_witness 0 sigma x0 y0 x y z z']
  have hd : ∀ p : P3, dist p p = 0 := by
    intro p
    simp [dist]
  simp only [strainedHopping, hd, zero_div, zero_sub, mul_neg, mul_one, neg_neg, abs_mul, Real.abs_exp]
  have e1 := Real.exp_one_gt_d9
  have e3 : Real.exp 3 = Real.exp 1 * Real.exp 1 * Real.exp 1 := by
    rw [← Real.exp_add, ← Real.exp_add]; norm_num
  have e4 : (20 : ℝ) < Real.exp 3 := by
    rw [e3]
    have : (7.38 : ℝ) ≤ Real.exp 1 * Real.exp 1 := by nlinarith
    nlinarith
  have e5 : Real.exp 3 ≤ Real.exp beta := Real.exp_le_exp.mpr (by unfold beta; norm_num)
  have := abs_pos.mpr he
  nlinarith

/-! ## Charge and mass -/

/-- **C114**: the potential of a charge is infinite exactly at the charge, and with a cutoff nowhere. -/
theorem C114_coulomb_finite (scaled cutoff : ℝ) (offset : P3) (energy : ℝ) (p : P3) :
    coulomb scaled cutoff offset energy p = none ↔ cutoff ≤ 0 ∧ p = offset := by
  have hr : 0 ≤ dist p offset := Real.sqrt_nonneg _
  have hz : dist p offset = 0 ↔ p = offset := by
    unfold dist
    rw [Real.sqrt_eq_zero (by positivity)]
    constructor
    · intro h
      have h1 := sq_nonneg (p.x - offset.x)
      have h2 := sq_nonneg (p.y - offset.y)
      have h3 := sq_nonneg (p.z - offset.z)
      ext
      · exact sub_eq_zero.mp (pow_eq_zero_iff (two_ne_zero) |>.mp (by linarith))
      · exact sub_eq_zero.mp (pow_eq_zero_iff (two_ne_zero) |>.mp (by linarith))
      · exact sub_eq_zero.mp (pow_eq_zero_iff (two_ne_zero) |>.mp (by linarith))
    · rintro rfl; ring
  simp only [coulomb]
  rw [← hz]
  by_cases hc : dist p offset < cutoff
  · rw [if_pos hc, if_neg (by linarith)]
    simp only [reduceCtorEq, false_iff]
    rintro ⟨h, _⟩
    linarith
  · rw [if_neg hc]
    push Not at hc
    by_cases h0 : dist p offset = 0
    · simp only [h0, if_true, and_true, true_iff]
      linarith
    · simp [h0]

/-- **C114**: an attractive charge lowers the energies: by `scaled / r` outside of the cutoff and by the
same `scaled / cutoff` everywhere inside, and less at larger distances. -/
theorem C114_coulomb (scaled cutoff : ℝ) (hs : 0 < scaled) (hc : 0 < cutoff) (offset : P3) (energy : ℝ) (p : P3) :
    (cutoff ≤ dist p offset → coulomb scaled cutoff offset energy p = some (energy - scaled / dist p offset)) ∧
    (dist p offset ≤ cutoff → coulomb scaled cutoff offset energy p = some (energy - scaled / cutoff)) ∧
    ∀ p' v v', coulomb scaled cutoff offset energy p = some v → coulomb scaled cutoff offset energy p' = some v' →
      dist p offset ≤ dist p' offset → v ≤ v' ∧ v' < energy := by
  have form : ∀ p, coulomb scaled cutoff offset energy p = some (energy - scaled / max (dist p offset) cutoff) := by
    intro p
    simp only [coulomb]
    by_cases h : dist p offset < cutoff
    · rw [if_pos h, if_neg hc.ne', max_eq_right h.le]
    · push Not at h
      rw [if_neg (not_lt.mpr h), if_neg (by linarith), max_eq_left h]
  refine ⟨fun h => ?_, fun h => ?_, ?_⟩
  · rw [form, max_eq_left h]
  · rw [form, max_eq_right h]
  · intro p' v v' h1 h2 hd
    rw [form, Option.some.injEq] at h1 h2
    subst h1 h2
    have m1 : 0 < max (dist p offset) cutoff := lt_max_of_lt_right hc
    have m2 : max (dist p offset) cutoff ≤ max (dist p' offset) cutoff := max_le_max_right _ hd
    have m3 := div_le_div_of_nonneg_left hs.le m1 m2
    have m4 := div_pos hs (m1.trans_le m2)
    constructor <;> linarith

/-- **C114**: the mass term separates the sublattices by twice its value and moves no other site. -/
theorem C114_mass (delta energy : ℝ) (sub : String) :
    massTerm delta "A" energy - massTerm delta "B" energy = 2 * delta ∧
    massTerm delta "A" energy + massTerm delta "B" energy = 2 * energy ∧
    (sub ≠ "A" → sub ≠ "B" → massTerm delta sub energy = energy) := by
  refine ⟨?_, ?_, ?_⟩
  · simp [massTerm]; ring
  · simp [massTerm]; ring
  · intro h1 h2
    simp [massTerm, h1, h2]

example : coulomb 1 0 ⟨0, 0, 0⟩ 5 ⟨0, 0, 0⟩ = none ∧ coulomb 1 2 ⟨0, 0, 0⟩ 5 ⟨0, 0, 0⟩ = some (5 - 1 / 2) :=
  ⟨(C114_coulomb_finite 1 0 _ 5 _).mpr ⟨le_rfl, rfl⟩,
    (C114_coulomb 1 2 (by norm_num) (by norm_num) _ 5 _).2.1 (by simp [dist])⟩

example : (⟨true, 0, 0⟩ : Site) ∈ neighbors ⟨false, 0, 0⟩ := by decide

end Verif.GrapheneMod
