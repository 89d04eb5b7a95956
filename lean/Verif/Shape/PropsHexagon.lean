import Verif.Shape.Props
import Mathlib.Algebra.Order.Floor.Ring
import Mathlib.Analysis.SpecialFunctions.Sqrt
import Mathlib.Tactic.Linarith
import Mathlib.Tactic.Positivity
import Mathlib.Tactic.FieldSimp
import Mathlib.Tactic.NormNum

/-!
# The hexagon with armchair edges (C113)

Source: `pybinding/repository/graphene/shape.py`, `pybinding/repository/graphene/lattice.py`,
`pybinding/repository/graphene/constants.py`.

Arithmetic is exact.  The value of `a` in constants.py is not `√3 * a_cc` but smaller by about five
parts in a million; the theorems hold for this value.
-/

namespace Verif.Hexagon

open Verif.Shape

/-! ## Model -/

/-- `a`, constants.py:3. -/
noncomputable def a : ℝ := 24595 / 100000

/-- `a_cc`, constants.py:4. -/
noncomputable def acc : ℝ := 142 / 1000

/-- The number of atoms at a side, shape.py:21-22. -/
noncomputable def sideAtoms (width : ℝ) : ℤ :=
  let n := ⌈(width / acc + 1) * 2 / 3⌉
  n + n % 2

/-- The adjusted width, shape.py:24. -/
noncomputable def newWidth (n : ℤ) : ℝ := (3 / 2 * n - 1) * acc - acc / 2

/-- The vertices, shape.py:26-29. -/
noncomputable def vertices (w : ℝ) : List (Pt ℝ) :=
  let x0 := w * √3 / 2
  let y0 := w
  [⟨0, y0⟩, ⟨x0, y0 / 2⟩, ⟨x0, -y0 / 2⟩, ⟨0, -y0⟩, ⟨-x0, -y0 / 2⟩, ⟨-x0, y0 / 2⟩]

/-- A site of `graphene.monolayer()`: sublattice B or A, and the unit cell. -/
structure Site where
  b : Bool
  i : ℤ
  j : ℤ
deriving DecidableEq

/-- The position of a site of `graphene.monolayer()`, lattice.py:22 and 28-31, with the offset of the
shape, shape.py:8 and 30. -/
noncomputable def position (s : Site) : Pt ℝ :=
  ⟨s.i * a + s.j * (a / 2) + 0 + -a / 2,
   s.i * 0 + s.j * (a / 2 * √3) + (if s.b then acc / 2 else -acc / 2) + 0⟩

/-- The three neighbors of a site, lattice.py:39-43; a hopping to the unit cell at `d` from A to B is
also one to the unit cell at `-d` from B to A. -/
def neighbors (s : Site) : List Site :=
  let d : List (ℤ × ℤ) := [(0, 0), (1, -1), (0, -1)]
  d.map fun d => if s.b then ⟨false, s.i - d.1, s.j - d.2⟩ else ⟨true, s.i + d.1, s.j + d.2⟩

/-- The site is in the shape `hexagon_ac(width)`, shape.py:8-31. -/
noncomputable def kept (width : ℝ) (s : Site) : Bool :=
  within 0 0 (vertices (newWidth (sideAtoms width))) (position s)

/-- The number of neighbors in the shape. -/
noncomputable def degree (width : ℝ) (s : Site) : Nat := (neighbors s).countP (kept width)

/-! ## Points in a hexagon -/

theorem hex_within (x0 h s t : ℝ) (hx : 0 < x0) (hh : 0 < h) :
    within 0 0 [(⟨0, h⟩ : Pt ℝ), ⟨x0, h / 2⟩, ⟨x0, -h / 2⟩, ⟨0, -h⟩, ⟨-x0, -h / 2⟩, ⟨-x0, h / 2⟩]
      ⟨x0 * s, h * t⟩ = true ↔
    (1 / 2 ≤ t ∧ t < 1 ∧ 2 * (t - 1) < s ∧ s ≤ 2 * (1 - t)) ∨
    (-1 / 2 ≤ t ∧ t < 1 / 2 ∧ -1 < s ∧ s ≤ 1) ∨
    (-1 ≤ t ∧ t < -1 / 2 ∧ -2 * (1 + t) < s ∧ s ≤ 2 * (1 + t)) := by
  rw [C39_even_odd 0 0 le_rfl _ _ (resolved_exact _)]
  have hp : 0 < x0 * h := mul_pos hx hh
  have le1 : ∀ k : ℝ, k * h ≤ h * t ↔ k ≤ t := fun k => by
    rw [mul_comm k]; exact mul_le_mul_iff_right₀ hh
  have lt1 : ∀ k : ℝ, h * t < k * h ↔ t < k := fun k => by
    rw [mul_comm k]; exact mul_lt_mul_iff_right₀ hh
  have pos : ∀ z : ℝ, 0 < x0 * h * z ↔ 0 < z := fun z => by
    constructor
    · intro k; by_contra hz; push Not at hz; nlinarith
    · intro k; positivity
  have neg : ∀ z : ℝ, x0 * h * z < 0 ↔ z < 0 := fun z => by
    have := pos (-z)
    rw [mul_neg, neg_pos, neg_pos] at this
    exact this
  have w1 : h / 2 = (1 / 2) * h := by ring
  have w2 : -h / 2 = (-1 / 2) * h := by ring
  have w3 : -h = (-1) * h := by ring
  have w4 : h = 1 * h := by ring
  have down : ∀ (p q : Pt ℝ) (k l z : ℝ), p.y = k * h → q.y = l * h → l < k →
      turn p q ⟨x0 * s, h * t⟩ = x0 * h * z →
      (Crosses (⟨x0 * s, h * t⟩ : Pt ℝ) (p, q) ↔ l ≤ t ∧ t < k ∧ 0 < z) := by
    intro p q k l z hp1 hq1 hl ht
    rw [crosses_turn, ht, hp1, hq1]
    simp only [le1, lt1, pos, neg]
    constructor
    · rintro (⟨h1, h2, _⟩ | h)
      · linarith
      · exact h
    · exact Or.inr
  have up : ∀ (p q : Pt ℝ) (k l z : ℝ), p.y = k * h → q.y = l * h → k < l →
      turn p q ⟨x0 * s, h * t⟩ = x0 * h * z →
      (Crosses (⟨x0 * s, h * t⟩ : Pt ℝ) (p, q) ↔ k ≤ t ∧ t < l ∧ z < 0) := by
    intro p q k l z hp1 hq1 hl ht
    rw [crosses_turn, ht, hp1, hq1]
    simp only [le1, lt1, pos, neg]
    constructor
    · rintro (h | ⟨h1, h2, _⟩)
      · exact h
      · linarith
    · exact Or.inl
  have e1 := down ⟨0, h⟩ ⟨x0, h / 2⟩ 1 (1 / 2) (t - 1 + s / 2) w4 w1 (by norm_num)
    (by simp only [turn]; ring)
  have e2 := down ⟨x0, h / 2⟩ ⟨x0, -h / 2⟩ (1 / 2) (-1 / 2) (s - 1) w1 w2 (by norm_num)
    (by simp only [turn]; ring)
  have e3 := down ⟨x0, -h / 2⟩ ⟨0, -h⟩ (-1 / 2) (-1) (s / 2 - t - 1) w2 w3 (by norm_num)
    (by simp only [turn]; ring)
  have e4 := up ⟨0, -h⟩ ⟨-x0, -h / 2⟩ (-1) (-1 / 2) (-(t + 1 + s / 2)) w3 w2 (by norm_num)
    (by simp only [turn]; ring)
  have e5 := up ⟨-x0, -h / 2⟩ ⟨-x0, h / 2⟩ (-1 / 2) (1 / 2) (-(s + 1)) w2 w1 (by norm_num)
    (by simp only [turn]; ring)
  have e6 := up ⟨-x0, h / 2⟩ ⟨0, h⟩ (1 / 2) 1 (t - 1 - s / 2) w1 w4 (by norm_num)
    (by simp only [turn]; ring)
  have hs : sides [(⟨0, h⟩ : Pt ℝ), ⟨x0, h / 2⟩, ⟨x0, -h / 2⟩, ⟨0, -h⟩, ⟨-x0, -h / 2⟩, ⟨-x0, h / 2⟩] =
      [(⟨0, h⟩, ⟨x0, h / 2⟩), (⟨x0, h / 2⟩, ⟨x0, -h / 2⟩), (⟨x0, -h / 2⟩, ⟨0, -h⟩),
        (⟨0, -h⟩, ⟨-x0, -h / 2⟩), (⟨-x0, -h / 2⟩, ⟨-x0, h / 2⟩), (⟨-x0, h / 2⟩, ⟨0, h⟩)] := rfl
  unfold crossings
  rw [hs]
  simp only [List.countP_cons, List.countP_nil, decide_eq_true_eq, e1, e2, e3, e4, e5, e6]
  rcases lt_or_ge t (-1) with t1 | t1
  · rw [if_neg (by rintro ⟨p, q, r⟩; linarith), if_neg (by rintro ⟨p, q, r⟩; linarith),
      if_neg (by rintro ⟨p, q, r⟩; linarith), if_neg (by rintro ⟨p, q, r⟩; linarith),
      if_neg (by rintro ⟨p, q, r⟩; linarith), if_neg (by rintro ⟨p, q, r⟩; linarith)]
    constructor
    · intro h; exact absurd h (by decide)
    · rintro (⟨p, q, r⟩ | ⟨p, q, r⟩ | ⟨p, q, r⟩) <;> linarith
  rcases lt_or_ge t (-1 / 2) with t2 | t2
  · rw [if_neg (c := 1 / 2 ≤ t ∧ t < 1 ∧ 0 < t - 1 + s / 2) (by rintro ⟨p, q, r⟩; linarith),
      if_neg (c := -1 / 2 ≤ t ∧ t < 1 / 2 ∧ 0 < s - 1) (by rintro ⟨p, q, r⟩; linarith),
      if_neg (c := -1 / 2 ≤ t ∧ t < 1 / 2 ∧ -(s + 1) < 0) (by rintro ⟨p, q, r⟩; linarith),
      if_neg (c := 1 / 2 ≤ t ∧ t < 1 ∧ t - 1 - s / 2 < 0) (by rintro ⟨p, q, r⟩; linarith)]
    have g : ((1 / 2 ≤ t ∧ t < 1 ∧ 2 * (t - 1) < s ∧ s ≤ 2 * (1 - t)) ∨
        (-1 / 2 ≤ t ∧ t < 1 / 2 ∧ -1 < s ∧ s ≤ 1) ∨
        (-1 ≤ t ∧ t < -1 / 2 ∧ -2 * (1 + t) < s ∧ s ≤ 2 * (1 + t))) ↔
        (-2 * (1 + t) < s ∧ s ≤ 2 * (1 + t)) := by
      constructor
      · rintro (⟨p, q, r⟩ | ⟨p, q, r⟩ | ⟨p, q, r⟩)
        · linarith
        · linarith
        · exact r
      · intro h; exact Or.inr (Or.inr ⟨t1, t2, h⟩)
    rw [g]
    by_cases c1 : -2 * (1 + t) < s
    · rw [if_pos (c := -1 ≤ t ∧ t < -1 / 2 ∧ -(t + 1 + s / 2) < 0) ⟨t1, t2, by linarith⟩]
      by_cases c2 : s ≤ 2 * (1 + t)
      · rw [if_neg (by rintro ⟨p, q, r⟩; linarith)]
        exact iff_of_true (by decide) ⟨c1, c2⟩
      · push Not at c2
        rw [if_pos ⟨t1, t2, by linarith⟩]
        simp [not_le.mpr c2]
    · push Not at c1
      rw [if_neg (by rintro ⟨p, q, r⟩; linarith), if_neg (by rintro ⟨p, q, r⟩; linarith)]
      exact iff_of_false (by decide) (fun k => absurd k.1 (not_lt.mpr c1))
  rcases lt_or_ge t (1 / 2) with t3 | t3
  · rw [if_neg (c := 1 / 2 ≤ t ∧ t < 1 ∧ 0 < t - 1 + s / 2) (by rintro ⟨p, q, r⟩; linarith),
      if_neg (c := -1 ≤ t ∧ t < -1 / 2 ∧ 0 < s / 2 - t - 1) (by rintro ⟨p, q, r⟩; linarith),
      if_neg (c := -1 ≤ t ∧ t < -1 / 2 ∧ -(t + 1 + s / 2) < 0) (by rintro ⟨p, q, r⟩; linarith),
      if_neg (c := 1 / 2 ≤ t ∧ t < 1 ∧ t - 1 - s / 2 < 0) (by rintro ⟨p, q, r⟩; linarith)]
    have g : ((1 / 2 ≤ t ∧ t < 1 ∧ 2 * (t - 1) < s ∧ s ≤ 2 * (1 - t)) ∨
        (-1 / 2 ≤ t ∧ t < 1 / 2 ∧ -1 < s ∧ s ≤ 1) ∨
        (-1 ≤ t ∧ t < -1 / 2 ∧ -2 * (1 + t) < s ∧ s ≤ 2 * (1 + t))) ↔
        (-1 < s ∧ s ≤ 1) := by
      constructor
      · rintro (⟨p, q, r⟩ | ⟨p, q, r⟩ | ⟨p, q, r⟩)
        · linarith
        · exact r
        · linarith
      · intro h; exact Or.inr (Or.inl ⟨t2, t3, h⟩)
    rw [g]
    by_cases c1 : -1 < s
    · rw [if_pos (c := -1 / 2 ≤ t ∧ t < 1 / 2 ∧ -(s + 1) < 0) ⟨t2, t3, by linarith⟩]
      by_cases c2 : s ≤ 1
      · rw [if_neg (by rintro ⟨p, q, r⟩; linarith)]
        simp [c1, c2]
      · push Not at c2
        rw [if_pos ⟨t2, t3, by linarith⟩]
        simp [not_le.mpr c2]
    · push Not at c1
      rw [if_neg (by rintro ⟨p, q, r⟩; linarith), if_neg (by rintro ⟨p, q, r⟩; linarith)]
      simp [not_lt.mpr c1]
  rw [if_neg (c := -1 / 2 ≤ t ∧ t < 1 / 2 ∧ 0 < s - 1) (by rintro ⟨p, q, r⟩; linarith),
    if_neg (c := -1 / 2 ≤ t ∧ t < 1 / 2 ∧ -(s + 1) < 0) (by rintro ⟨p, q, r⟩; linarith),
    if_neg (c := -1 ≤ t ∧ t < -1 / 2 ∧ 0 < s / 2 - t - 1) (by rintro ⟨p, q, r⟩; linarith),
    if_neg (c := -1 ≤ t ∧ t < -1 / 2 ∧ -(t + 1 + s / 2) < 0) (by rintro ⟨p, q, r⟩; linarith)]
  have g : ((1 / 2 ≤ t ∧ t < 1 ∧ 2 * (t - 1) < s ∧ s ≤ 2 * (1 - t)) ∨
      (-1 / 2 ≤ t ∧ t < 1 / 2 ∧ -1 < s ∧ s ≤ 1) ∨
      (-1 ≤ t ∧ t < -1 / 2 ∧ -2 * (1 + t) < s ∧ s ≤ 2 * (1 + t))) ↔
      (t < 1 ∧ 2 * (t - 1) < s ∧ s ≤ 2 * (1 - t)) := by
    constructor
    · rintro (⟨p, q, r⟩ | ⟨p, q, r⟩ | ⟨p, q, r⟩)
      · exact ⟨q, r⟩
      · linarith
      · linarith
    · intro h; exact Or.inl ⟨t3, h⟩
  rw [g]
  by_cases t4 : t < 1
  · by_cases c1 : 2 * (t - 1) < s
    · rw [if_pos (c := 1 / 2 ≤ t ∧ t < 1 ∧ t - 1 - s / 2 < 0) ⟨t3, t4, by linarith⟩]
      by_cases c2 : s ≤ 2 * (1 - t)
      · rw [if_neg (by rintro ⟨p, q, r⟩; linarith)]
        simp [t4, c1, c2]
      · push Not at c2
        rw [if_pos ⟨t3, t4, by linarith⟩]
        simp [not_le.mpr c2]
    · push Not at c1
      rw [if_neg (by rintro ⟨p, q, r⟩; linarith), if_neg (by rintro ⟨p, q, r⟩; linarith)]
      simp [not_lt.mpr c1]
  · rw [if_neg (fun h => t4 h.2.1), if_neg (fun h => t4 h.2.1)]
    simp [t4]

/-- Points off the boundary. -/
theorem hex_inside (x0 h s t : ℝ) (hx : 0 < x0) (hh : 0 < h) (h1 : |s| < 1) (h2 : |t| + |s| / 2 < 1) :
    within 0 0 [(⟨0, h⟩ : Pt ℝ), ⟨x0, h / 2⟩, ⟨x0, -h / 2⟩, ⟨0, -h⟩, ⟨-x0, -h / 2⟩, ⟨-x0, h / 2⟩]
      ⟨x0 * s, h * t⟩ = true := by
  rw [hex_within x0 h s t hx hh]
  have s1 := neg_abs_le s
  have s2 := le_abs_self s
  have t1 := neg_abs_le t
  have t2 := le_abs_self t
  rcases lt_or_ge t (-1 / 2) with g | g
  · right; right
    refine ⟨?_, g, ?_, ?_⟩ <;> linarith [abs_nonneg s]
  rcases lt_or_ge t (1 / 2) with g' | g'
  · right; left
    refine ⟨g, g', ?_, ?_⟩ <;> linarith
  · left
    refine ⟨g', ?_, ?_, ?_⟩ <;> linarith [abs_nonneg s]

theorem hex_outside (x0 h s t : ℝ) (hx : 0 < x0) (hh : 0 < h)
    (h1 : 1 < |s| ∨ 1 < |t| + |s| / 2) :
    within 0 0 [(⟨0, h⟩ : Pt ℝ), ⟨x0, h / 2⟩, ⟨x0, -h / 2⟩, ⟨0, -h⟩, ⟨-x0, -h / 2⟩, ⟨-x0, h / 2⟩]
      ⟨x0 * s, h * t⟩ = false := by
  rw [← Bool.not_eq_true, hex_within x0 h s t hx hh]
  intro k
  rcases abs_cases s with ⟨a1, a2⟩ | ⟨a1, a2⟩ <;> rcases abs_cases t with ⟨b1, b2⟩ | ⟨b1, b2⟩ <;>
    rw [a1, b1] at h1 <;>
    rcases k with ⟨k1, k2, k3, k4⟩ | ⟨k1, k2, k3, k4⟩ | ⟨k1, k2, k3, k4⟩ <;>
    rcases h1 with h1 | h1 <;> linarith

/-! ## Sites in the hexagon -/

/-- The horizontal coordinate in units of `a / 2`. -/
def gridX (s : Site) : ℤ := 2 * s.i + s.j - 1

/-- The vertical coordinate in units of `a_cc / 2`. -/
def gridY (s : Site) : ℤ := 3 * s.j + if s.b then 1 else -1

/-- The hexagon on the grid. -/
def InHex (K X Y : ℤ) : Prop :=
  -K < 2 * X ∧ 2 * X < K ∧ -K < X + Y ∧ X + Y < K ∧ -K < X - Y ∧ X - Y < K

/-- How much smaller `a` is than `√3 * a_cc`. -/
noncomputable def ratio : ℝ := a / (√3 * acc)

theorem acc_pos : 0 < acc := by unfold acc; norm_num

theorem sqrt3_pos : (0 : ℝ) < √3 := Real.sqrt_pos.mpr (by norm_num)

theorem ratio_le : ratio ≤ 1 := by
  unfold ratio
  rw [div_le_one (mul_pos sqrt3_pos acc_pos)]
  have h : a / acc ≤ √3 := by
    apply Real.le_sqrt_of_sq_le
    unfold a acc
    norm_num
  rwa [div_le_iff₀ acc_pos] at h

theorem ratio_ge : 1 - 1 / 200000 ≤ ratio := by
  unfold ratio
  rw [le_div_iff₀ (mul_pos sqrt3_pos acc_pos)]
  have h : √3 ≤ a / acc / (1 - 1 / 200000) := by
    apply Real.sqrt_le_iff.mpr
    unfold a acc
    norm_num
  have p := acc_pos
  rw [le_div_iff₀ (by norm_num), le_div_iff₀ p] at h
  linarith

theorem a_eq : a = ratio * (√3 * acc) := by
  unfold ratio
  rw [div_mul_cancel₀]
  exact (mul_pos sqrt3_pos acc_pos).ne'

theorem even_atoms (w : ℝ) : sideAtoms w % 2 = 0 := by
  simp only [sideAtoms]
  omega

theorem atoms_ge (w : ℝ) (hw : 0 < w) : 2 ≤ sideAtoms w := by
  have h : 0 < ⌈(w / acc + 1) * 2 / 3⌉ := by
    apply Int.ceil_pos.mpr
    have := div_pos hw acc_pos
    positivity
  simp only [sideAtoms]
  omega

theorem atoms_le (w : ℝ) : (sideAtoms w : ℝ) < (w / acc + 1) * 2 / 3 + 2 := by
  have h := Int.ceil_lt_add_one ((w / acc + 1) * 2 / 3)
  have k : sideAtoms w ≤ ⌈(w / acc + 1) * 2 / 3⌉ + 1 := by
    simp only [sideAtoms]
    omega
  have k' : (sideAtoms w : ℝ) ≤ ⌈(w / acc + 1) * 2 / 3⌉ + 1 := by exact_mod_cast k
  linarith

theorem atoms_lower (w : ℝ) : (w / acc + 1) * 2 / 3 ≤ sideAtoms w := by
  have h := Int.le_ceil ((w / acc + 1) * 2 / 3)
  have k : ⌈(w / acc + 1) * 2 / 3⌉ ≤ sideAtoms w := by
    simp only [sideAtoms]
    omega
  have k' : (⌈(w / acc + 1) * 2 / 3⌉ : ℝ) ≤ sideAtoms w := by exact_mod_cast k
  linarith

theorem inHex_abs (K X Y : ℤ) : InHex K X Y ↔ 2 * |X| < K ∧ |X| + |Y| < K := by
  unfold InHex
  rcases abs_cases X with ⟨e, _⟩ | ⟨e, _⟩ <;> rcases abs_cases Y with ⟨f, _⟩ | ⟨f, _⟩ <;>
    rw [e, f] <;> omega

/-- Membership on the grid, also with the inaccurate `a`. -/
theorem kept_iff (w : ℝ) (hw : 0 < w) (hm : w ≤ 14000) (s : Site) :
    kept w s = true ↔ InHex (3 * (sideAtoms w - 1)) (gridX s) (gridY s) := by
  have hn := atoms_ge w hw
  have he := even_atoms w
  have hl := atoms_le w
  have hacc := acc_pos
  have h3 := sqrt3_pos
  have r1 := ratio_le
  have r2 := ratio_ge
  have hww : w / acc ≤ 98592 := by
    rw [div_le_iff₀ hacc]
    unfold acc
    linarith
  generalize hN : sideAtoms w = n at *
  obtain ⟨K, hK⟩ : ∃ K : ℤ, K = 3 * (n - 1) := ⟨_, rfl⟩
  have hKr : (K : ℝ) = 3 * (n - 1) := by rw [hK]; push_cast; ring
  have hK3 : 3 ≤ K := by omega
  have hK3r : (3 : ℝ) ≤ K := by exact_mod_cast hK3
  have hKu : (K : ℝ) < 199998 := by rw [hKr]; linarith
  have hwid : newWidth n = K * acc / 2 := by
    unfold newWidth
    rw [hKr]
    ring
  have hKp : (0 : ℝ) < K := by linarith
  have hh : 0 < newWidth n := by rw [hwid]; positivity
  have hx : 0 < newWidth n * √3 / 2 := by positivity
  obtain ⟨e, he1, he2⟩ : ∃ e : ℤ, (e = 1 ∨ e = -1) ∧ e = if s.b then 1 else -1 := by
    refine ⟨_, ?_, rfl⟩
    split <;> simp
  have hpos : position s = ⟨newWidth n * √3 / 2 * (2 * (gridX s : ℝ) * ratio / K),
      newWidth n * ((3 * s.j * ratio + e) / K)⟩ := by
    have he3 : (if s.b = true then acc / 2 else -acc / 2) = e * (acc / 2) := by
      rw [he2]
      split <;> push_cast <;> ring
    unfold position
    rw [he3, hwid, a_eq]
    have q : √3 * √3 = 3 := Real.mul_self_sqrt (by norm_num)
    congr 1
    · unfold gridX
      push_cast
      field_simp
      ring
    · field_simp
      rw [Real.sq_sqrt (by norm_num)]
      ring
  have hgy : gridY s = 3 * s.j + e := by unfold gridY; rw [he2]
  have hpar : (gridX s + gridY s) % 2 = 0 := by
    rw [hgy]; unfold gridX; omega
  rw [← hK, inHex_abs]
  have hr0 : 0 ≤ ratio := by linarith
  have s1 : |2 * (gridX s : ℝ) * ratio / K| = 2 * |(gridX s : ℝ)| * ratio / K := by
    rw [abs_div, abs_mul, abs_mul, abs_of_pos hKp, abs_of_nonneg hr0]
    norm_num
  have t1 : |(3 * s.j * ratio + e) / K| = |3 * s.j * ratio + e| / K := by
    rw [abs_div, abs_of_pos hKp]
  have eabs : |(e : ℝ)| = 1 := by
    rcases he1 with rfl | rfl <;> norm_num
  have d1 : (3 * s.j * ratio + e : ℝ) = ratio * (gridY s) + (1 - ratio) * e := by
    rw [hgy]; push_cast; ring
  have u1 : |(3 * s.j * ratio + e : ℝ)| ≤ ratio * |(gridY s : ℝ)| + (1 - ratio) := by
    rw [d1]
    refine (abs_add_le _ _).trans ?_
    rw [abs_mul, abs_mul, abs_of_nonneg hr0, eabs, abs_of_nonneg (by linarith : 0 ≤ 1 - ratio)]
    linarith
  have u2 : ratio * |(gridY s : ℝ)| - (1 - ratio) ≤ |(3 * s.j * ratio + e : ℝ)| := by
    have d2 : ratio * (gridY s : ℝ) = (3 * s.j * ratio + e) + -((1 - ratio) * e) := by
      rw [d1]; ring
    have : |ratio * (gridY s : ℝ)| ≤ |(3 * s.j * ratio + e : ℝ)| + (1 - ratio) := by
      rw [d2]
      refine (abs_add_le _ _).trans ?_
      rw [abs_neg, abs_mul (1 - ratio), eabs, abs_of_nonneg (by linarith : 0 ≤ 1 - ratio)]
      linarith
    rw [abs_mul, abs_of_nonneg hr0] at this
    linarith
  unfold kept vertices
  rw [hN, hpos]
  constructor
  · intro hin
    by_contra hcon
    have hout : 1 < |2 * (gridX s : ℝ) * ratio / K| ∨
        1 < |(3 * s.j * ratio + e) / K| + |2 * (gridX s : ℝ) * ratio / K| / 2 := by
      rw [s1, t1]
      by_cases c1 : 2 * |gridX s| < K
      · right
        have c2 : K + 1 ≤ |gridX s| + |gridY s| := by
          have : ¬ |gridX s| + |gridY s| < K := fun h => hcon ⟨c1, h⟩
          rcases abs_cases (gridX s) with ⟨q, _⟩ | ⟨q, _⟩ <;>
            rcases abs_cases (gridY s) with ⟨f, _⟩ | ⟨f, _⟩ <;> rw [q, f] at this ⊢ <;> omega
        have c2r : (K + 1 : ℝ) ≤ |(gridX s : ℝ)| + |(gridY s : ℝ)| := by exact_mod_cast c2
        have c3 : ratio * (K + 1) ≤ ratio * (|(gridX s : ℝ)| + |(gridY s : ℝ)|) :=
          mul_le_mul_of_nonneg_left c2r hr0
        have c4 : (K : ℝ) < |(3 * s.j * ratio + e : ℝ)| + |(gridX s : ℝ)| * ratio := by
          nlinarith
        have : |(3 * s.j * ratio + e : ℝ)| / K + 2 * |(gridX s : ℝ)| * ratio / K / 2 =
            (|(3 * s.j * ratio + e : ℝ)| + |(gridX s : ℝ)| * ratio) / K := by
          field_simp
        rw [this, lt_div_iff₀ hKp]
        linarith
      · left
        have c2 : K + 1 ≤ 2 * |gridX s| := by omega
        have c2r : (K + 1 : ℝ) ≤ 2 * |(gridX s : ℝ)| := by exact_mod_cast c2
        have c3 : ratio * (K + 1) ≤ ratio * (2 * |(gridX s : ℝ)|) :=
          mul_le_mul_of_nonneg_left c2r hr0
        rw [lt_div_iff₀ hKp]
        nlinarith
    rw [hex_outside _ _ _ _ hx hh hout] at hin
    exact Bool.false_ne_true hin
  · rintro ⟨c1, c2⟩
    apply hex_inside _ _ _ _ hx hh
    · rw [s1, div_lt_one hKp]
      have c1r : 2 * |(gridX s : ℝ)| < K := by exact_mod_cast c1
      have := mul_le_mul_of_nonneg_left r1 (by positivity : 0 ≤ 2 * |(gridX s : ℝ)|)
      linarith
    · rw [s1, t1]
      have : |(3 * s.j * ratio + e : ℝ)| / K + 2 * |(gridX s : ℝ)| * ratio / K / 2 =
          (|(3 * s.j * ratio + e : ℝ)| + |(gridX s : ℝ)| * ratio) / K := by
        field_simp
      rw [this, div_lt_one hKp]
      have c2' : |gridX s| + |gridY s| ≤ K - 1 := by omega
      have c2r : |(gridX s : ℝ)| + |(gridY s : ℝ)| ≤ K - 1 := by exact_mod_cast c2'
      have c3 := mul_le_mul_of_nonneg_left c2r hr0
      nlinarith

/-- One of three elements is missing, or none. -/
theorem count_three (p : Site → Bool) (x y z : Site) (h1 : p x = true ∨ p y = true)
    (h2 : p x = true ∨ p z = true) (h3 : p y = true ∨ p z = true) :
    (2 ≤ [x, y, z].countP p) ∧
    ([x, y, z].countP p = 2 ↔ p x = false ∨ p y = false ∨ p z = false) := by
  cases hx : p x <;> cases hy : p y <;> cases hz : p z <;> simp_all

theorem two_of_three (w : ℝ) (hw : 0 < w) (hm : w ≤ 14000) (s x y z : Site)
    (hn : neighbors s = [x, y, z]) (hs : kept w s = true) :
    (kept w x = true ∨ kept w y = true) ∧ (kept w x = true ∨ kept w z = true) ∧
    (kept w y = true ∨ kept w z = true) := by
  have hk := atoms_ge w hw
  have he := even_atoms w
  obtain ⟨b, i, j⟩ := s
  cases b <;> simp only [neighbors, List.map_cons, List.map_nil, Bool.false_eq_true, if_false, if_true,
    List.cons.injEq, and_true] at hn <;> obtain ⟨rfl, rfl, rfl⟩ := hn <;>
    simp only [kept_iff w hw hm, InHex, gridX, gridY, Bool.false_eq_true, if_false, if_true] at * <;>
    refine ⟨?_, ?_, ?_⟩ <;> omega

theorem degree_iff (w : ℝ) (hw : 0 < w) (hm : w ≤ 14000) (s : Site) (hs : kept w s = true) :
    2 ≤ degree w s ∧ (degree w s = 2 ↔ ∃ x ∈ neighbors s, kept w x = false) := by
  obtain ⟨x, y, z, h⟩ : ∃ x y z, neighbors s = [x, y, z] := ⟨_, _, _, rfl⟩
  obtain ⟨h1, h2, h3⟩ := two_of_three w hw hm s x y z h hs
  unfold degree
  rw [h]
  have := count_three (kept w) x y z h1 h2 h3
  simpa using this

/-! ## Properties -/

/-- **C113**: no site of the hexagon dangles: each has at least two of its three neighbors, for every
width up to 14 micrometers. -/
theorem C113_no_dangling (w : ℝ) (hw : 0 < w) (hm : w ≤ 14000) (s : Site) (hs : kept w s = true) :
    2 ≤ degree w s := (degree_iff w hw hm s hs).1

/-- **C113**: all edges are armchair edges: each site that lacks a neighbor is bound to another site
that lacks one.  At a zigzag edge such sites are bound to complete sites only. -/
theorem C113_armchair (w : ℝ) (hw : 0 < w) (hm : w ≤ 14000) (s : Site) (hs : kept w s = true)
    (hd : degree w s < 3) : ∃ x ∈ neighbors s, kept w x = true ∧ degree w x = 2 := by
  have hd2 : degree w s = 2 := by
    have := C113_no_dangling w hw hm s hs
    omega
  obtain ⟨q, hq, hqk⟩ := ((degree_iff w hw hm s hs).2).mp hd2
  obtain ⟨x, y, z, h⟩ : ∃ x y z, neighbors s = [x, y, z] := ⟨_, _, _, rfl⟩
  obtain ⟨h1, h2, h3⟩ := two_of_three w hw hm s x y z h hs
  suffices hh : ∃ x ∈ neighbors s, kept w x = true ∧ ∃ v ∈ neighbors x, kept w v = false by
    obtain ⟨x, hx, hxk, hv⟩ := hh
    exact ⟨x, hx, hxk, ((degree_iff w hw hm x hxk).2).mpr hv⟩
  rw [h] at hq ⊢
  have key : (kept w x = true ∧ ∃ v ∈ neighbors x, kept w v = false) ∨
      (kept w y = true ∧ ∃ v ∈ neighbors y, kept w v = false) ∨
      (kept w z = true ∧ ∃ v ∈ neighbors z, kept w v = false) := by
    have hk := atoms_ge w hw
    have he := even_atoms w
    obtain ⟨b, i, j⟩ := s
    cases b <;> simp only [neighbors, List.map_cons, List.map_nil, Bool.false_eq_true, if_false,
      if_true, List.cons.injEq, and_true] at h <;> obtain ⟨rfl, rfl, rfl⟩ := h <;>
      simp only [List.mem_cons, List.not_mem_nil, or_false] at hq <;>
      simp only [neighbors, List.map_cons, List.map_nil, Bool.false_eq_true, if_false,
        if_true, List.mem_cons, List.not_mem_nil, or_false, exists_eq_or_imp, exists_eq_left] <;>
      simp only [← Bool.not_eq_true] at hqk ⊢ <;>
      rcases hq with rfl | rfl | rfl <;>
      simp only [kept_iff w hw hm, InHex, gridX, gridY, Bool.false_eq_true, if_false, if_true] at * <;>
      omega
  rcases key with k | k | k
  · exact ⟨x, by simp, k⟩
  · exact ⟨y, by simp, k⟩
  · exact ⟨z, by simp, k⟩

/-- **C113**: the width is adjusted slightly: by less than five halves of the distance between
neighbors, and it is never less than the given width by more than half of it. -/
theorem C113_width (w : ℝ) :
    -acc / 2 ≤ newWidth (sideAtoms w) - w ∧ newWidth (sideAtoms w) - w < 5 / 2 * acc := by
  have h1 := atoms_lower w
  have h2 := atoms_le w
  have hp := acc_pos
  have e : w = w / acc * acc := by field_simp
  unfold newWidth
  generalize w / acc = q at *
  constructor <;> nlinarith

/-- **C113**: the shape is centered at a carbon hexagon, all of whose six sites are in the shape. -/
theorem C113_center (w : ℝ) (hw : 0 < w) (hm : w ≤ 14000) :
    ∀ s ∈ [(⟨false, 0, 0⟩ : Site), ⟨true, 0, 0⟩, ⟨false, 1, 0⟩, ⟨true, 1, 0⟩, ⟨true, 1, -1⟩,
      ⟨false, 0, 1⟩], kept w s = true := by
  have hk := atoms_ge w hw
  intro s hs
  rw [kept_iff w hw hm]
  simp only [List.mem_cons, List.not_mem_nil, or_false] at hs
  rcases hs with rfl | rfl | rfl | rfl | rfl | rfl <;>
    simp [InHex, gridX, gridY] <;> omega

example : kept 1 ⟨false, 0, 0⟩ = true ∧ 2 ≤ degree 1 ⟨false, 0, 0⟩ := by
  have h := C113_center 1 (by norm_num) (by norm_num) ⟨false, 0, 0⟩ (by simp)
  exact ⟨h, C113_no_dangling 1 (by norm_num) (by norm_num) _ h⟩

end Verif.Hexagon
