import Verif.Basic
import Mathlib.Analysis.SpecialFunctions.Exp
import Mathlib.Analysis.Real.Sqrt
import Mathlib.Algebra.BigOperators.Fin
import Mathlib.Algebra.Order.BigOperators.Group.Finset
import Mathlib.Algebra.Order.Floor.Ring

/-!
# Smoothing of spatial maps (C110)

Source: `pybinding/results.py`.
-/

namespace Verif.Convolve

open Finset

variable {n : Nat}

/-! ## Model -/

/-- `r`, results.py:319-320. -/
noncomputable def radius (x y : Fin n → ℝ) (i : Fin n) : ℝ := √(x i ^ 2 + y i ^ 2)

/-- `np.exp(-0.5 * ((r[i] - r[j]) / sigma)**2)`, results.py:325-326. -/
noncomputable def weight (sigma : ℝ) (r : Fin n → ℝ) (i j : Fin n) : ℝ := Real.exp (-(1 / 2) * ((r i - r j) / sigma) ^ 2)

open Classical in
/-- The sum of the weights, results.py:324, 326. -/
noncomputable def norm (sigma : ℝ) (r : Fin n → ℝ) (i : Fin n) : ℝ := ∑ j ∈ univ.filter (fun j => |r j - r i| < sigma), weight sigma r i j

open Classical in
/-- The sum of data and weights, results.py:324-325. -/
noncomputable def weighted (sigma : ℝ) (r data : Fin n → ℝ) (i : Fin n) : ℝ := ∑ j ∈ univ.filter (fun j => |r j - r i| < sigma), data j * weight sigma r i j

/-- `SpatialMap.convolve`, results.py:317-328: the data after the call; `store` is the conversion to the type of the data (`np.empty_like`).  A division by zero (`nan` and a warning in numpy) is an error
here.  Arithmetic is exact. -/
noncomputable def convolve (store : ℝ → ℝ) (sigma : ℝ) (x y data : Fin n → ℝ) (i : Fin n) : Res ℝ :=
  let r := radius x y
  open Classical in
  if norm sigma r i = 0 then .err .invalidArgument else .ok (store (store (weighted sigma r data i) / norm sigma r i))

/-! ## Specification -/

/-- Distance in the plane. -/
noncomputable def distance (x y : Fin n → ℝ) (i j : Fin n) : ℝ := √((x i - x j) ^ 2 + (y i - y j) ^ 2)

open Classical in
/-- Smoothing with a Gaussian of the distance between sites, cut off at `sigma`. -/
noncomputable def gaussian (sigma : ℝ) (x y data : Fin n → ℝ) (i : Fin n) : ℝ :=
  (∑ j ∈ univ.filter (fun j => distance x y i j < sigma), data j * Real.exp (-(1 / 2) * (distance x y i j / sigma) ^ 2)) /
    ∑ j ∈ univ.filter (fun j => distance x y i j < sigma), Real.exp (-(1 / 2) * (distance x y i j / sigma) ^ 2)

/-! ## C110 -/

theorem norm_pos {sigma : ℝ} (hs : 0 < sigma) (r : Fin n → ℝ) (i : Fin n) : 0 < norm sigma r i := by
  classical
  refine sum_pos (fun j _ => Real.exp_pos _) ⟨i, ?_⟩
  simp [hs]

/-- **C110**: for every `sigma > 0` the result exists; it is between the smallest and the largest value of the data at the sites whose distance from the origin differs by less than `sigma`. -/
theorem C110_bounds {sigma : ℝ} (hs : 0 < sigma) (x y data : Fin n → ℝ) (i : Fin n) :
    ∃ v, convolve id sigma x y data i = .ok v ∧
      ∀ lo hi, (∀ j, |radius x y j - radius x y i| < sigma → lo ≤ data j ∧ data j ≤ hi) → lo ≤ v ∧ v ≤ hi := by
  classical
  have hn := norm_pos hs (radius x y) i
  refine ⟨weighted sigma (radius x y) data i / norm sigma (radius x y) i, by simp [convolve, hn.ne'], ?_⟩
  intro lo hi h
  rw [le_div_iff₀ hn, div_le_iff₀ hn]
  unfold norm weighted
  rw [mul_sum, mul_sum]
  constructor
  · refine sum_le_sum fun j hj => mul_le_mul_of_nonneg_right (h j ?_).1 (Real.exp_pos _).le
    simpa using hj
  · refine sum_le_sum fun j hj => mul_le_mul_of_nonneg_right (h j ?_).2 (Real.exp_pos _).le
    simpa using hj

/-- **C110**: constant data is not changed. -/
theorem C110_constant {sigma : ℝ} (hs : 0 < sigma) (x y : Fin n → ℝ) (c : ℝ) (i : Fin n) : convolve id sigma x y (fun _ => c) i = .ok c := by
  obtain ⟨v, hv, h⟩ := C110_bounds hs x y (fun _ => c) i
  obtain ⟨h1, h2⟩ := h c c (fun _ _ => ⟨le_rfl, le_rfl⟩)
  rw [hv, le_antisymm h2 h1]

/-- **C110**: the result is the Gaussian average over distances between sites if the sites are on a half-line from the origin. Missing: other positions, for which it is false. -/
theorem C110_gaussian_partial {sigma : ℝ} (hs : 0 < sigma) {x y : Fin n → ℝ} {u v : ℝ} (huv : u ^ 2 + v ^ 2 = 1) {t : Fin n → ℝ} (ht : ∀ i, 0 ≤ t i)
    (hx : ∀ i, x i = t i * u) (hy : ∀ i, y i = t i * v) (data : Fin n → ℝ) (i : Fin n) :
    convolve id sigma x y data i = .ok (gaussian sigma x y data i) := by
  classical
  have hr : ∀ j, radius x y j = t j := by
    intro j
    unfold radius
    have e : x j ^ 2 + y j ^ 2 = t j ^ 2 * (u ^ 2 + v ^ 2) := by rw [hx, hy]; ring
    rw [e, huv, mul_one, Real.sqrt_sq (ht j)]
  have hd : ∀ j, distance x y i j = |t i - t j| := by
    intro j
    unfold distance
    have e : (x i - x j) ^ 2 + (y i - y j) ^ 2 = (t i - t j) ^ 2 * (u ^ 2 + v ^ 2) := by rw [hx, hy, hx, hy]; ring
    rw [e, huv, mul_one, Real.sqrt_sq_eq_abs]
  have hw : ∀ j, weight sigma (radius x y) i j = Real.exp (-(1 / 2) * (distance x y i j / sigma) ^ 2) := by
    intro j
    unfold weight
    rw [hr, hr, hd, div_pow, div_pow, sq_abs]
  have hf : ∀ j, |radius x y j - radius x y i| < sigma ↔ distance x y i j < sigma := by
    intro j
    rw [hr, hr, hd, abs_sub_comm]
  have hn := norm_pos hs (radius x y) i
  simp only [convolve, hn.ne', if_false, id]
  unfold weighted norm gaussian
  simp only [hw, hf]

/-- **C110**: in general the result depends only on the distance from the origin: all sites on a circle around the origin get the same value, whatever the data. -/
theorem C110_rings (store : ℝ → ℝ) (sigma : ℝ) (x y data : Fin n → ℝ) {i k : Fin n} (h : x i ^ 2 + y i ^ 2 = x k ^ 2 + y k ^ 2) :
    convolve store sigma x y data i = convolve store sigma x y data k := by
  have hr : radius x y i = radius x y k := by unfold radius; rw [h]
  have h1 : norm sigma (radius x y) i = norm sigma (radius x y) k := by unfold norm weight; rw [hr]
  have h2 : weighted sigma (radius x y) data i = weighted sigma (radius x y) data k := by unfold weighted weight; rw [hr]
  unfold convolve
  simp only [h1, h2]

/-- Two sites at opposite positions. -/
def opposite : Fin 2 → ℝ := ![1, -1]

/-- The sites are two apart and `sigma` is a quarter, but their data is averaged. -/
theorem C110_distance_witness :
    convolve id (1 / 4) opposite (fun _ => 0) ![0, 1] 0 = .ok (1 / 2) ∧ gaussian (1 / 4) opposite (fun _ => 0) ![0, 1] 0 = 0 := by
  classical
  have hr : radius opposite (fun _ => 0) = fun _ => 1 := by
    funext j
    fin_cases j <;> simp [radius, opposite]
  constructor
  · have hn := norm_pos (show (0 : ℝ) < 1 / 4 by norm_num) (radius opposite (fun _ => 0)) 0
    simp only [convolve, hn.ne', if_false, id]
    rw [hr]
    norm_num [norm, weighted, weight, Finset.filter_true_of_mem, Fin.sum_univ_two]
  · have hd : distance opposite (fun _ => 0) 0 1 = 2 := by
      have e : (opposite 0 - opposite 1) ^ 2 + ((0 : ℝ) - 0) ^ 2 = 2 ^ 2 := by norm_num [opposite]
      unfold distance
      rw [e, Real.sqrt_sq (by norm_num)]
    unfold gaussian
    rw [Finset.sum_filter, Fin.sum_univ_two]
    norm_num [hd]

/-- Conversion to integers: towards zero; the values below are not negative. -/
noncomputable def toInt (v : ℝ) : ℝ := ⌊v⌋

/-- With data of an integer type the constant one becomes zero. -/
theorem C110_integer_witness : convolve toInt 1 (![0, 1 / 2] : Fin 2 → ℝ) (fun _ => 0) (fun _ => 1) 0 = .ok 0 := by
  classical
  have hr : radius (![0, 1 / 2] : Fin 2 → ℝ) (fun _ => 0) = ![0, 1 / 2] := by
    funext j
    fin_cases j
    · simp [radius]
    · have e : ((![0, 1 / 2] : Fin 2 → ℝ) 1) ^ 2 + (0 : ℝ) ^ 2 = (1 / 2) ^ 2 := by norm_num
      show √(((![0, 1 / 2] : Fin 2 → ℝ) 1) ^ 2 + (0 : ℝ) ^ 2) = 1 / 2
      rw [e, Real.sqrt_sq (by norm_num)]
  set w := Real.exp (-(1 / 2) * ((0 - 1 / 2) / 1) ^ 2) with hw
  have w0 : 0 < w := Real.exp_pos _
  have w1 : w < 1 := by rw [hw]; exact (Real.exp_lt_exp.2 (by norm_num : -(1 / 2) * (((0 : ℝ) - 1 / 2) / 1) ^ 2 < 0)).trans_eq Real.exp_zero
  have hN : norm 1 (![0, 1 / 2] : Fin 2 → ℝ) 0 = 1 + w := by
    unfold norm
    rw [Finset.sum_filter, Fin.sum_univ_two]
    norm_num [weight, hw, abs_of_pos]
  have hW : weighted 1 (![0, 1 / 2] : Fin 2 → ℝ) (fun _ => 1) 0 = 1 + w := by
    rw [← hN]; unfold weighted norm; simp
  simp only [convolve, hr, hN, hW]
  rw [if_neg (by linarith)]
  have f1 : toInt (1 + w) = 1 := by
    unfold toInt
    have : ⌊1 + w⌋ = 1 := Int.floor_eq_iff.2 ⟨by push_cast; linarith, by push_cast; linarith⟩
    rw [this]; simp
  have f2 : toInt (1 / (1 + w)) = 0 := by
    unfold toInt
    have : ⌊1 / (1 + w)⌋ = 0 := by
      rw [Int.floor_eq_iff]
      refine ⟨by push_cast; positivity, ?_⟩
      rw [div_lt_iff₀ (by linarith)]
      push_cast
      linarith
    rw [this]; simp
  rw [f1, f2]

/-! ## Non-vacuity -/

example : convolve id (1 / 4) (![1, 2] : Fin 2 → ℝ) (fun _ => 0) (fun _ => 7) 1 = .ok 7 := C110_constant (by norm_num) _ _ _ _

example (data : Fin 2 → ℝ) : convolve id 2 (![1, 2] : Fin 2 → ℝ) (fun _ => 0) data 1 = .ok (gaussian 2 (![1, 2] : Fin 2 → ℝ) (fun _ => 0) data 1) :=
  C110_gaussian_partial (by norm_num) (u := 1) (v := 0) (by norm_num) (t := ![1, 2]) (by intro i; fin_cases i <;> simp) (by intro i; simp) (by intro i; simp) data 1

end Verif.Convolve
