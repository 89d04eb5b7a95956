import Mathlib.Data.Int.Interval
import Mathlib.Data.Real.Basic
import Mathlib.Data.Fintype.Basic
import Mathlib.Tactic.Linarith
import Mathlib.Tactic.Ring
import Mathlib.Tactic.FinCases
import Mathlib.Tactic.IntervalCases
import Mathlib.Tactic.LinearCombination
import Mathlib.Data.Fin.VecNotation

/-!
# The lattices of graphene (C115)

Source: `pybinding/repository/graphene/lattice.py`.

Positions are given on a grid: horizontally in units of `a / 2`, vertically in units of `a_cc / 2`, with
`a = √3 * a_cc` (the value of `a` in constants.py is smaller by five parts in a million), so that
`a / 2 * √3` is three units.
-/

namespace Verif.GrapheneLattice

/-! ## Model -/

/-- A lattice on the grid: two vectors, the position of each sublattice, and its layer. -/
structure Lat (n : Nat) where
  a1 : ℤ × ℤ
  a2 : ℤ × ℤ
  pos : Fin n → ℤ × ℤ
  layer : Fin n → ℤ

/-- A hopping family: relative index, from, to. -/
abbrev Hop (n : Nat) := ℤ × ℤ × Fin n × Fin n

/-- `monolayer`, lattice.py:22 and 28-31; 0 is A, 1 is B. -/
def monolayer : Lat 2 := ⟨(2, 0), (1, 3), ![(0, -1), (0, 1)], ![0, 0]⟩

/-- The hoppings `t`, lattice.py:39-43. -/
def hopsT : List (Hop 2) := [(0, 0, 0, 1), (1, -1, 0, 1), (0, -1, 0, 1)]

/-- The hoppings `t_nn`, lattice.py:45-53. -/
def hopsTnn : List (Hop 2) :=
  [(0, -1, 0, 0), (0, -1, 1, 1), (1, -1, 0, 0), (1, -1, 1, 1), (1, 0, 0, 0), (1, 0, 1, 1)]

/-- The hoppings `t_nnn`, lattice.py:55-60. -/
def hopsTnnn : List (Hop 2) := [(1, -2, 0, 1), (1, 0, 0, 1), (-1, 0, 0, 1)]

/-- `monolayer(nearest_neighbors)`, lattice.py:39-60; the error for four and more is left out. -/
def monolayerHops (nearest : Nat) : List (Hop 2) :=
  hopsT ++ (if nearest ≥ 2 then hopsTnn else []) ++ (if nearest ≥ 3 then hopsTnnn else [])

/-- `monolayer_alt`, lattice.py:80-84. -/
def alt : Lat 2 := ⟨(1, 3), (1, -3), ![(0, 0), (0, 2)], ![0, 0]⟩

/-- The hoppings of `monolayer_alt`, lattice.py:86-88. -/
def altHops : List (Hop 2) := [(0, 0, 0, 1), (0, 1, 0, 1), (-1, 0, 0, 1)]

/-- `monolayer_4atom`, lattice.py:104-110; 0 is A, 1 is B, 2 is A2, 3 is B2. -/
def four : Lat 4 := ⟨(2, 0), (0, 6), ![(0, -1), (0, 1), (1, 2), (1, 4)], ![0, 0, 0, 0]⟩

/-- The hoppings of `monolayer_4atom`, lattice.py:112-121. -/
def fourHops : List (Hop 4) :=
  [(0, 0, 0, 1), (0, 0, 1, 2), (0, 0, 2, 3), (-1, -1, 0, 3), (0, -1, 0, 3), (-1, 0, 1, 2)]

/-- `bilayer`, lattice.py:147-158; 0 is A1, 1 is B1, 2 is A2, 3 is B2. -/
def bilayer : Lat 4 := ⟨(1, 3), (-1, 3), ![(0, -1), (0, 1), (0, 1), (0, 3)], ![0, 0, -1, -1]⟩

/-- The hoppings `gamma0`, lattice.py:169-175. -/
def gamma0 : List (Hop 4) :=
  [(0, 0, 0, 1), (0, -1, 0, 1), (-1, 0, 0, 1), (0, 0, 2, 3), (0, -1, 2, 3), (-1, 0, 2, 3)]

/-- The hoppings `gamma1`, lattice.py:177. -/
def gamma1 : List (Hop 4) := [(0, 0, 1, 2)]

/-- The hoppings `gamma3`, lattice.py:180-185. -/
def gamma3 : List (Hop 4) := [(0, 1, 3, 0), (1, 0, 3, 0), (1, 1, 3, 0)]

/-- The hoppings `gamma4`, lattice.py:187-192. -/
def gamma4 : List (Hop 4) := [(0, 0, 2, 0), (0, 1, 2, 0), (1, 0, 2, 0)]

/-! ## Specification -/

/-- A site: sublattice and unit cell. -/
structure Site (n : Nat) where
  sub : Fin n
  i : ℤ
  j : ℤ
deriving DecidableEq

/-- Where a site is on the grid. -/
def Lat.at {n : Nat} (L : Lat n) (s : Site n) : ℤ × ℤ :=
  ((L.pos s.sub).1 + s.i * L.a1.1 + s.j * L.a2.1, (L.pos s.sub).2 + s.i * L.a1.2 + s.j * L.a2.2)

/-- Two sites are joined by a hopping, in one direction or the other. -/
def Joined {n : Nat} (hops : List (Hop n)) (s x : Site n) : Prop :=
  (x.i - s.i, x.j - s.j, s.sub, x.sub) ∈ hops ∨ (s.i - x.i, s.j - x.j, x.sub, s.sub) ∈ hops

/-- Four times the square of the distance in the plane, in units of `a_cc`. -/
def Lat.square {n : Nat} (L : Lat n) (s x : Site n) : ℤ :=
  3 * ((L.at x).1 - (L.at s).1) ^ 2 + ((L.at x).2 - (L.at s).2) ^ 2

/-- **C115**: what the grid measures. -/
theorem C115_grid (a acc : ℝ) (h : a ^ 2 = 3 * acc ^ 2) {n : Nat} (L : Lat n) (s x : Site n) :
    (((L.at x).1 - (L.at s).1 : ℝ) * (a / 2)) ^ 2 + (((L.at x).2 - (L.at s).2 : ℝ) * (acc / 2)) ^ 2 =
      acc ^ 2 / 4 * (L.square s x : ℝ) := by
  unfold Lat.square
  push_cast
  linear_combination (((L.at x).1 - (L.at s).1 : ℝ)) ^ 2 / 4 * h

/-! ## Proofs -/

theorem small (X Y : ℤ) (h : 3 * X ^ 2 + Y ^ 2 ≤ 16) : -2 ≤ X ∧ X ≤ 2 ∧ -4 ≤ Y ∧ Y ≤ 4 := by
  refine ⟨?_, ?_, ?_, ?_⟩ <;> nlinarith [sq_nonneg X, sq_nonneg Y]

/-- A claim on joined sites is a claim on differences of cells that are not large. -/
theorem finite {n : Nat} (L : Lat n) (hops : List (Hop n)) (c : Fin n → Fin n → ℤ → Bool)
    (hc : ∀ u v q, 16 < q → c u v q = false)
    (hb : ∀ (u v : Fin n) (d e : ℤ),
      -2 ≤ (L.pos v).1 - (L.pos u).1 + d * L.a1.1 + e * L.a2.1 →
      (L.pos v).1 - (L.pos u).1 + d * L.a1.1 + e * L.a2.1 ≤ 2 →
      -4 ≤ (L.pos v).2 - (L.pos u).2 + d * L.a1.2 + e * L.a2.2 →
      (L.pos v).2 - (L.pos u).2 + d * L.a1.2 + e * L.a2.2 ≤ 4 → (-4 ≤ d ∧ d ≤ 4) ∧ -4 ≤ e ∧ e ≤ 4)
    (hh : ∀ h ∈ hops, (-4 ≤ h.1 ∧ h.1 ≤ 4) ∧ -4 ≤ h.2.1 ∧ h.2.1 ≤ 4)
    (hd : ∀ u v : Fin n, ∀ d ∈ Finset.Icc (-4 : ℤ) 4, ∀ e ∈ Finset.Icc (-4 : ℤ) 4,
      (((d, e, u, v) ∈ hops ∨ (-d, -e, v, u) ∈ hops) ↔
        c u v (3 * ((L.pos v).1 - (L.pos u).1 + d * L.a1.1 + e * L.a2.1) ^ 2 +
          ((L.pos v).2 - (L.pos u).2 + d * L.a1.2 + e * L.a2.2) ^ 2) = true))
    (s x : Site n) : Joined hops s x ↔ c s.sub x.sub (L.square s x) = true := by
  obtain ⟨u, i, j⟩ := s
  obtain ⟨v, i', j'⟩ := x
  have e1 : L.square ⟨u, i, j⟩ ⟨v, i', j'⟩ =
      3 * ((L.pos v).1 - (L.pos u).1 + (i' - i) * L.a1.1 + (j' - j) * L.a2.1) ^ 2 +
          ((L.pos v).2 - (L.pos u).2 + (i' - i) * L.a1.2 + (j' - j) * L.a2.2) ^ 2 := by
    simp only [Lat.square, Lat.at]
    ring
  rw [e1]
  unfold Joined
  simp only
  rw [show i - i' = -(i' - i) by ring, show j - j' = -(j' - j) by ring]
  generalize i' - i = d
  generalize j' - j = e
  constructor
  · intro k
    have r : (-4 ≤ d ∧ d ≤ 4) ∧ -4 ≤ e ∧ e ≤ 4 := by
      rcases k with k | k
      · exact hh _ k
      · have := hh _ k
        simp only at this
        omega
    exact (hd u v d (Finset.mem_Icc.mpr r.1) e (Finset.mem_Icc.mpr r.2)).mp k
  · intro k
    have hq : 3 * ((L.pos v).1 - (L.pos u).1 + d * L.a1.1 + e * L.a2.1) ^ 2 +
          ((L.pos v).2 - (L.pos u).2 + d * L.a1.2 + e * L.a2.2) ^ 2 ≤ 16 := by
      by_contra hn
      rw [hc u v _ (not_le.mp hn)] at k
      exact Bool.false_ne_true k
    obtain ⟨s1, s2, s3, s4⟩ := small _ _ hq
    have r := hb u v d e s1 s2 s3 s4
    exact (hd u v d (Finset.mem_Icc.mpr r.1) e (Finset.mem_Icc.mpr r.2)).mpr k

theorem bound_monolayer (u v : Fin 2) (d e : ℤ) :
      -2 ≤ (monolayer.pos v).1 - (monolayer.pos u).1 + d * monolayer.a1.1 + e * monolayer.a2.1 →
      (monolayer.pos v).1 - (monolayer.pos u).1 + d * monolayer.a1.1 + e * monolayer.a2.1 ≤ 2 →
      -4 ≤ (monolayer.pos v).2 - (monolayer.pos u).2 + d * monolayer.a1.2 + e * monolayer.a2.2 →
      (monolayer.pos v).2 - (monolayer.pos u).2 + d * monolayer.a1.2 + e * monolayer.a2.2 ≤ 4 →
      (-4 ≤ d ∧ d ≤ 4) ∧ -4 ≤ e ∧ e ≤ 4 := by
  fin_cases u <;> fin_cases v <;> simp [monolayer] <;> omega

theorem bound_alt (u v : Fin 2) (d e : ℤ) :
      -2 ≤ (alt.pos v).1 - (alt.pos u).1 + d * alt.a1.1 + e * alt.a2.1 →
      (alt.pos v).1 - (alt.pos u).1 + d * alt.a1.1 + e * alt.a2.1 ≤ 2 →
      -4 ≤ (alt.pos v).2 - (alt.pos u).2 + d * alt.a1.2 + e * alt.a2.2 →
      (alt.pos v).2 - (alt.pos u).2 + d * alt.a1.2 + e * alt.a2.2 ≤ 4 →
      (-4 ≤ d ∧ d ≤ 4) ∧ -4 ≤ e ∧ e ≤ 4 := by
  fin_cases u <;> fin_cases v <;> simp [alt] <;> omega

theorem bound_four (u v : Fin 4) (d e : ℤ) :
      -2 ≤ (four.pos v).1 - (four.pos u).1 + d * four.a1.1 + e * four.a2.1 →
      (four.pos v).1 - (four.pos u).1 + d * four.a1.1 + e * four.a2.1 ≤ 2 →
      -4 ≤ (four.pos v).2 - (four.pos u).2 + d * four.a1.2 + e * four.a2.2 →
      (four.pos v).2 - (four.pos u).2 + d * four.a1.2 + e * four.a2.2 ≤ 4 →
      (-4 ≤ d ∧ d ≤ 4) ∧ -4 ≤ e ∧ e ≤ 4 := by
  fin_cases u <;> fin_cases v <;> simp [four] <;> omega

theorem bound_bilayer (u v : Fin 4) (d e : ℤ) :
      -2 ≤ (bilayer.pos v).1 - (bilayer.pos u).1 + d * bilayer.a1.1 + e * bilayer.a2.1 →
      (bilayer.pos v).1 - (bilayer.pos u).1 + d * bilayer.a1.1 + e * bilayer.a2.1 ≤ 2 →
      -4 ≤ (bilayer.pos v).2 - (bilayer.pos u).2 + d * bilayer.a1.2 + e * bilayer.a2.2 →
      (bilayer.pos v).2 - (bilayer.pos u).2 + d * bilayer.a1.2 + e * bilayer.a2.2 ≤ 4 →
      (-4 ≤ d ∧ d ≤ 4) ∧ -4 ≤ e ∧ e ≤ 4 := by
  fin_cases u <;> fin_cases v <;> simp [bilayer] <;> omega

/-! ## Properties -/

/-- **C115**: `t` joins exactly the sites at the distance `a_cc`, and no two sites are closer. -/
theorem C115_nearest (s x : Site 2) :
    (Joined hopsT s x ↔ monolayer.square s x = 4) ∧ (monolayer.square s x < 4 → s = x) := by
  constructor
  · rw [finite monolayer hopsT (fun _ _ q => decide (q = 4)) (by intro u v q h; simp; omega)
      bound_monolayer (by decide) (by decide)]
    simp
  · intro h
    obtain ⟨u, i, j⟩ := s
    obtain ⟨v, i', j'⟩ := x
    simp only [Lat.square, Lat.at] at h
    obtain ⟨s1, s2, s3, s4⟩ := small _ _ (h.le.trans (by norm_num))
    generalize hX : ((monolayer.pos v).1 + i' * monolayer.a1.1 + j' * monolayer.a2.1 -
      ((monolayer.pos u).1 + i * monolayer.a1.1 + j * monolayer.a2.1)) = X at *
    generalize hY : ((monolayer.pos v).2 + i' * monolayer.a1.2 + j' * monolayer.a2.2 -
      ((monolayer.pos u).2 + i * monolayer.a1.2 + j * monolayer.a2.2)) = Y at *
    have hXY : (X = 0 ∧ -1 ≤ Y ∧ Y ≤ 1) ∨ (Y = 0 ∧ (X = 1 ∨ X = -1)) := by
      have x1 : -1 ≤ X := by nlinarith [sq_nonneg Y]
      have x2 : X ≤ 1 := by nlinarith [sq_nonneg Y]
      have y1 : -1 ≤ Y := by nlinarith [sq_nonneg X]
      have y2 : Y ≤ 1 := by nlinarith [sq_nonneg X]
      interval_cases X <;> interval_cases Y <;> simp_all
    fin_cases u <;> fin_cases v <;> simp [monolayer] at hX hY ⊢ <;> omega

/-- **C115**: `monolayer(2)` joins exactly the sites up to the distance `a`. -/
theorem C115_next_nearest (s x : Site 2) :
    (Joined hopsTnn s x ↔ monolayer.square s x = 12) ∧
    (Joined (monolayerHops 2) s x ↔ 4 ≤ monolayer.square s x ∧ monolayer.square s x ≤ 12) := by
  constructor
  · rw [finite monolayer hopsTnn (fun _ _ q => decide (q = 12)) (by intro u v q h; simp; omega)
      bound_monolayer (by decide) (by decide)]
    simp
  · rw [finite monolayer (monolayerHops 2) (fun _ _ q => decide (4 ≤ q ∧ q ≤ 12))
      (by intro u v q h; simp; omega) bound_monolayer (by decide) (by decide)]
    simp

/-- **C115**: `monolayer(3)` joins exactly the sites up to the distance `2 * a_cc`. -/
theorem C115_third_nearest (s x : Site 2) :
    (Joined hopsTnnn s x ↔ monolayer.square s x = 16) ∧
    (Joined (monolayerHops 3) s x ↔ 4 ≤ monolayer.square s x ∧ monolayer.square s x ≤ 16) := by
  constructor
  · rw [finite monolayer hopsTnnn (fun _ _ q => decide (q = 16)) (by intro u v q h; simp; omega)
      bound_monolayer (by decide) (by decide)]
    simp
  · rw [finite monolayer (monolayerHops 3) (fun _ _ q => decide (4 ≤ q ∧ q ≤ 16))
      (by intro u v q h; simp; omega) bound_monolayer (by decide) (by decide)]
    simp

/-- **C115**: the other two monolayers join exactly the sites at the distance `a_cc`. -/
theorem C115_same_neighbors :
    (∀ s x : Site 2, Joined altHops s x ↔ alt.square s x = 4) ∧
    (∀ s x : Site 4, Joined fourHops s x ↔ four.square s x = 4) := by
  constructor
  · intro s x
    rw [finite alt altHops (fun _ _ q => decide (q = 4)) (by intro u v q h; simp; omega)
      bound_alt (by decide) (by decide)]
    simp
  · intro s x
    rw [finite four fourHops (fun _ _ q => decide (q = 4)) (by intro u v q h; simp; omega)
      bound_four (by decide) (by decide)]
    simp

/-- **C115**: and they have their sites at the same places, the first one up to a shift by half a
distance; A2 and B2 of the second one are further sites of A and B. -/
theorem C115_same_places (p : ℤ × ℤ) (b : Fin 2) :
    ((∃ i j, monolayer.at ⟨b, i, j⟩ = p) ↔ ∃ i j, alt.at ⟨b, i, j⟩ = (p.1, p.2 + 1)) ∧
    ((∃ i j, monolayer.at ⟨b, i, j⟩ = p) ↔ ∃ (u : Fin 4) (i j : ℤ), (u : Nat) % 2 = b ∧ four.at ⟨u, i, j⟩ = p) := by
  obtain ⟨X, Y⟩ := p
  constructor
  · fin_cases b <;> simp only [Lat.at, monolayer, alt, Prod.mk.injEq] <;> simp <;> constructor
    · rintro ⟨i, j, h1, h2⟩; exact ⟨i + j, i, by omega, by omega⟩
    · rintro ⟨i, j, h1, h2⟩; exact ⟨j, i - j, by omega, by omega⟩
    · rintro ⟨i, j, h1, h2⟩; exact ⟨i + j, i, by omega, by omega⟩
    · rintro ⟨i, j, h1, h2⟩; exact ⟨j, i - j, by omega, by omega⟩
  · fin_cases b <;> simp only [Lat.at, monolayer, four, Prod.mk.injEq] <;> constructor
    · rintro ⟨i, j, h1, h2⟩
      simp at h1 h2
      rcases Int.emod_two_eq_zero_or_one j with h | h
      · exact ⟨0, i + j / 2, j / 2, by simp, by simp; omega, by simp; omega⟩
      · exact ⟨2, i + j / 2, j / 2, by simp, by simp; omega, by simp; omega⟩
    · rintro ⟨u, i, j, hu, h1, h2⟩
      fin_cases u <;> simp at hu h1 h2
      · exact ⟨i - j, 2 * j, by simp; omega, by simp; omega⟩
      · exact ⟨i - j, 2 * j + 1, by simp; omega, by simp; omega⟩
    · rintro ⟨i, j, h1, h2⟩
      simp at h1 h2
      rcases Int.emod_two_eq_zero_or_one j with h | h
      · exact ⟨1, i + j / 2, j / 2, by simp, by simp; omega, by simp; omega⟩
      · exact ⟨3, i + j / 2, j / 2, by simp, by simp; omega, by simp; omega⟩
    · rintro ⟨u, i, j, hu, h1, h2⟩
      fin_cases u <;> simp at hu h1 h2
      · exact ⟨i - j, 2 * j, by simp; omega, by simp; omega⟩
      · exact ⟨i - j, 2 * j + 1, by simp; omega, by simp; omega⟩

/-- **C115**: in a bilayer `gamma0` joins exactly the nearest neighbors of each layer, and `gamma1`
exactly the sites on top of each other. -/
theorem C115_bilayer (s x : Site 4) :
    (Joined gamma0 s x ↔ bilayer.layer s.sub = bilayer.layer x.sub ∧ bilayer.square s x = 4) ∧
    (Joined gamma1 s x ↔ bilayer.layer s.sub ≠ bilayer.layer x.sub ∧ bilayer.square s x = 0) := by
  constructor
  · rw [finite bilayer gamma0 (fun u v q => decide (bilayer.layer u = bilayer.layer v ∧ q = 4))
      (by intro u v q h; simp; omega) bound_bilayer (by decide) (by decide)]
    simp
  · rw [finite bilayer gamma1 (fun u v q => decide (bilayer.layer u ≠ bilayer.layer v ∧ q = 0))
      (by intro u v q h; simp; omega) bound_bilayer (by decide) (by decide)]
    simp

/-- **C115**: `gamma3` joins exactly A1 and B2, and `gamma4` exactly A1 and A2, at the smallest distance
next to sites on top of each other. -/
theorem C115_skew (s x : Site 4) :
    (Joined gamma3 s x ↔
      ((s.sub = 0 ∧ x.sub = 3) ∨ (s.sub = 3 ∧ x.sub = 0)) ∧ bilayer.square s x = 4) ∧
    (Joined gamma4 s x ↔
      ((s.sub = 0 ∧ x.sub = 2) ∨ (s.sub = 2 ∧ x.sub = 0)) ∧ bilayer.square s x = 4) := by
  constructor
  · rw [finite bilayer gamma3 (fun u v q => decide (((u = 0 ∧ v = 3) ∨ (u = 3 ∧ v = 0)) ∧ q = 4))
      (by intro u v q h; simp; omega) bound_bilayer (by decide) (by decide)]
    simp
  · rw [finite bilayer gamma4 (fun u v q => decide (((u = 0 ∧ v = 2) ∨ (u = 2 ∧ v = 0)) ∧ q = 4))
      (by intro u v q h; simp; omega) bound_bilayer (by decide) (by decide)]
    simp

/-- **C115** (false in general): B1 and B2 are as far from each other as A1 and A2 and in the same two
layers, but no hopping joins them. -/
theorem C115_gamma4_witness :
    let b1 : Site 4 := ⟨1, 0, 0⟩; let b2 : Site 4 := ⟨3, 0, 0⟩
    let a1 : Site 4 := ⟨0, 0, 0⟩; let a2 : Site 4 := ⟨2, 0, 0⟩
    bilayer.square b1 b2 = bilayer.square a1 a2 ∧ Joined gamma4 a1 a2 ∧
    bilayer.layer b1.sub = bilayer.layer a1.sub ∧ bilayer.layer b2.sub = bilayer.layer a2.sub ∧
    ¬ Joined (gamma0 ++ gamma1 ++ gamma3 ++ gamma4) b1 b2 := by
  refine ⟨by decide, ?_, by decide, by decide, ?_⟩
  · unfold Joined; decide
  · unfold Joined; decide

example : Joined hopsT ⟨0, 5, 7⟩ ⟨1, 6, 6⟩ ∧ Joined gamma3 ⟨3, 2, 2⟩ ⟨0, 3, 3⟩ := by
  unfold Joined; decide

end Verif.GrapheneLattice
