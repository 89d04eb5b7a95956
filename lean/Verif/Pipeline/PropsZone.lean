import Verif.Pipeline.PropsReciprocal

/-!
# Exactly when the Brillouin zone is right (C79)
-/

namespace Verif.Pipeline

open Matrix

/-- For two vectors with squares `A` and `E` and scalar product `s > 0` there is a combination with integer coefficients whose scalar products with them are less than their
squares. -/
theorem short_combination {A E s : ℝ} (hA : 0 < A) (hE : 0 < E) (hs : 0 < s) (hd : s * s < A * E) :
    ∃ m n : ℤ, (m ≠ 0 ∨ n ≠ 0) ∧ |m * A + n * s| < A ∧ |m * s + n * E| < E := by
  rcases le_or_gt A s with h | h
  · -- `s ≥ A`, so `s < E`
    have hsE : s < E := by nlinarith
    obtain ⟨h1, h2⟩ : s ≤ ⌈s / A⌉ * A ∧ ⌈s / A⌉ * A < s + A := by
      constructor
      · have := Int.le_ceil (s / A)
        rwa [div_le_iff₀ hA] at this
      · have := Int.ceil_lt_add_one (s / A)
        have := mul_lt_mul_of_pos_right this hA
        rwa [add_mul, div_mul_cancel₀ _ hA.ne', one_mul] at this
    generalize ⌈s / A⌉ = μ at h1 h2
    have hμ : (0 : ℝ) < μ := by
      by_contra hc
      rw [not_lt] at hc
      nlinarith
    refine ⟨-μ, 1, .inr one_ne_zero, ?_, ?_⟩ <;> push_cast <;> rw [abs_lt]
    · constructor <;> linarith
    · have h3 : 0 < μ * s := mul_pos hμ hs
      have h4 : μ * s < 2 * E := by
        by_contra hc
        rw [not_lt] at hc
        have e1 : μ * A * s < (s + A) * s := mul_lt_mul_of_pos_right h2 hs
        have e2 : 2 * E * A ≤ μ * s * A := mul_le_mul_of_nonneg_right hc hA.le
        have e3 : A * s < A * E := mul_lt_mul_of_pos_left hsE hA
        nlinarith
      constructor <;> linarith
  · obtain ⟨h1, h2⟩ : s ≤ ⌈s / E⌉ * E ∧ ⌈s / E⌉ * E < s + E := by
      constructor
      · have := Int.le_ceil (s / E)
        rwa [div_le_iff₀ hE] at this
      · have := Int.ceil_lt_add_one (s / E)
        have := mul_lt_mul_of_pos_right this hE
        rwa [add_mul, div_mul_cancel₀ _ hE.ne', one_mul] at this
    generalize ⌈s / E⌉ = ν at h1 h2
    have hν : (0 : ℝ) < ν := by
      by_contra hc
      rw [not_lt] at hc
      nlinarith
    refine ⟨1, -ν, .inl one_ne_zero, ?_, ?_⟩ <;> push_cast <;> rw [abs_lt]
    · have h3 : 0 < ν * s := mul_pos hν hs
      have h4 : ν * s < 2 * A := by
        by_contra hc
        rw [not_lt] at hc
        have e1 : ν * E * s < (s + E) * s := mul_lt_mul_of_pos_right h2 hs
        have e2 : 2 * A * E ≤ ν * s * E := mul_le_mul_of_nonneg_right hc hE.le
        have e3 : E * s < E * A := mul_lt_mul_of_pos_left h hE
        nlinarith
      constructor <;> linarith
    · constructor <;> linarith

/-- Vectors with squares `A` and `D` and scalar product `P > A`. -/
theorem skewed {A D P : ℝ} (hA : 0 < A) (hd : P * P < A * D) (hP : A < P) : ∃ m n : ℤ, (m ≠ 0 ∨ n ≠ 0) ∧
    ∀ i j : ℤ, |i| ≤ 1 → |j| ≤ 1 → (i ≠ 0 ∨ j ≠ 0) → |(m : ℝ) * i * A + (m * j + n * i) * P + n * j * D| < i * i * A + 2 * (i * j) * P + j * j * D := by
  have hE : 0 < D - 2 * P + A := by nlinarith [sq_nonneg (P - A)]
  obtain ⟨m, n, hne, h1, h2⟩ := short_combination (A := A) (E := D - 2 * P + A) (s := P - A) hA hE (by linarith) (by nlinarith)
  rw [abs_lt] at h1 h2
  refine ⟨m - n, n, by omega, fun i j hi hj hij => ?_⟩
  rw [abs_le] at hi hj
  obtain ⟨hi1, hi2⟩ := hi
  obtain ⟨hj1, hj2⟩ := hj
  rw [abs_lt]
  push_cast
  have ci : i = -1 ∨ i = 0 ∨ i = 1 := by omega
  have cj : j = -1 ∨ j = 0 ∨ j = 1 := by omega
  rcases ci with rfl | rfl | rfl <;> rcases cj with rfl | rfl | rfl
  all_goals first
    | (exfalso; omega)
    | (push_cast; constructor <;> nlinarith)

/-- The interior of the computed zone contains `k` if it is half of a lattice vector with small scalar products. -/
theorem half_inside (b1 b2 : Vec3) (m n : ℤ)
    (h : ∀ i j : ℤ, |i| ≤ 1 → |j| ≤ 1 → (i ≠ 0 ∨ j ≠ 0) →
      |(m : ℝ) * i * (b1 ⬝ᵥ b1) + (m * j + n * i) * (b1 ⬝ᵥ b2) + n * j * (b2 ⬝ᵥ b2)| < i * i * (b1 ⬝ᵥ b1) + 2 * (i * j) * (b1 ⬝ᵥ b2) + j * j * (b2 ⬝ᵥ b2)) :
    Inside2 b1 b2 (-((1 / 2 : ℝ) • latticePoint b1 b2 m n)) ∧ Inside2 b1 b2 (-((1 / 2 : ℝ) • latticePoint b1 b2 m n) + latticePoint b1 b2 m n) := by
  have e : -((1 / 2 : ℝ) • latticePoint b1 b2 m n) + latticePoint b1 b2 m n = (1 / 2 : ℝ) • latticePoint b1 b2 m n := by module
  rw [e]
  have hdot : ∀ i j : ℤ, latticePoint b1 b2 m n ⬝ᵥ latticePoint b1 b2 i j = (m : ℝ) * i * (b1 ⬝ᵥ b1) + (m * j + n * i) * (b1 ⬝ᵥ b2) + n * j * (b2 ⬝ᵥ b2) := by
    intro i j
    unfold latticePoint
    simp only [add_dotProduct, dotProduct_add, smul_dotProduct, dotProduct_smul, smul_eq_mul, dotProduct_comm b2 b1]
    ring
  constructor <;> intro p hp hne <;> obtain ⟨i, j, hi, hj, rfl⟩ := (mem_zonePoints b1 b2 p).1 hp
  all_goals
    have hij : i ≠ 0 ∨ j ≠ 0 := by
      by_contra hc
      push Not at hc
      apply hne
      rw [hc.1, hc.2]
      simp [latticePoint]
    have := abs_lt.1 (h i j hi hj hij)
    rw [← hdot] at this
    rw [dist_sub, point_sq]
    simp only [neg_dotProduct, smul_dotProduct, smul_eq_mul]
    linarith [this.1, this.2]

theorem independent (a b : Fin 2 → Vec3) (hb : reciprocal (by decide) a = .ok b) :
    0 < b 0 ⬝ᵥ b 0 ∧ 0 < b 1 ⬝ᵥ b 1 ∧ (b 0 ⬝ᵥ b 1) * (b 0 ⬝ᵥ b 1) < (b 0 ⬝ᵥ b 0) * (b 1 ⬝ᵥ b 1) ∧ ∀ m n : ℤ, (m ≠ 0 ∨ n ≠ 0) → latticePoint (b 0) (b 1) m n ≠ 0 := by
  have hd := (C79_dual (by decide) a).2 b hb
  have hpi := Real.pi_pos
  have comb : ∀ (x y : ℝ), x • b 0 + y • b 1 = 0 → x = 0 ∧ y = 0 := by
    intro x y h
    have h0 : a 0 ⬝ᵥ (x • b 0 + y • b 1) = 0 := by rw [h]; simp
    have h1 : a 1 ⬝ᵥ (x • b 0 + y • b 1) = 0 := by rw [h]; simp
    rw [dotProduct_add, dotProduct_smul, dotProduct_smul, hd, hd] at h0 h1
    simp [hpi.ne'] at h0 h1
    exact ⟨h0, h1⟩
  have pos : ∀ v : Vec3, v ≠ 0 → 0 < v ⬝ᵥ v := fun v hv =>
    lt_of_le_of_ne (dot_self_nonneg v) fun h => hv (dotProduct_self_eq_zero.1 h.symm)
  have p0 : 0 < b 0 ⬝ᵥ b 0 := pos _ fun h => by
    have := comb 1 0 (by rw [h]; simp)
    simp at this
  have p1 : 0 < b 1 ⬝ᵥ b 1 := pos _ fun h => by
    have := comb 0 1 (by rw [h]; simp)
    simp at this
  refine ⟨p0, p1, ?_, fun m n hmn h => ?_⟩
  · have := pos (-(b 0 ⬝ᵥ b 1) • b 0 + (b 0 ⬝ᵥ b 0) • b 1) fun h => p0.ne' (comb _ _ h).2
    simp only [add_dotProduct, dotProduct_add, smul_dotProduct, dotProduct_smul, smul_eq_mul, dotProduct_comm (b 1) (b 0)] at this
    have h2 : 0 < (b 0 ⬝ᵥ b 0) * ((b 0 ⬝ᵥ b 0) * (b 1 ⬝ᵥ b 1) - (b 0 ⬝ᵥ b 1) * (b 0 ⬝ᵥ b 1)) := by nlinarith
    have := pos_of_mul_pos_right h2 p0.le
    linarith
  · have := comb m n h
    have h1 : m = 0 := by exact_mod_cast this.1
    have h2 : n = 0 := by exact_mod_cast this.2
    omega

/-- **C79** (the zone of a two-dimensional lattice, exactly).  The region which `brillouin_zone` returns is right, that is no two wave vectors in its interior are equivalent, if and
only if the scalar product of the reciprocal vectors is not larger than the square of either of them.  (In this case it is the region of the wave vectors nearest to the origin, and has
every wave vector once: `C79_zone2_partial`.) -/
theorem C79_zone2_exact (a b : Fin 2 → Vec3) (hb : reciprocal (by decide) a = .ok b) :
    (∀ k (m n : ℤ), Inside2 (b 0) (b 1) k → Inside2 (b 0) (b 1) (k + latticePoint (b 0) (b 1) m n) → latticePoint (b 0) (b 1) m n = 0) ↔
    |b 0 ⬝ᵥ b 1| ≤ b 0 ⬝ᵥ b 0 ∧ |b 0 ⬝ᵥ b 1| ≤ b 1 ⬝ᵥ b 1 := by
  obtain ⟨p0, p1, hind, hne⟩ := independent a b hb
  constructor
  · intro h
    by_contra hc
    suffices ∃ m n : ℤ, (m ≠ 0 ∨ n ≠ 0) ∧ ∀ i j : ℤ, |i| ≤ 1 → |j| ≤ 1 → (i ≠ 0 ∨ j ≠ 0) →
        |(m : ℝ) * i * (b 0 ⬝ᵥ b 0) + (m * j + n * i) * (b 0 ⬝ᵥ b 1) + n * j * (b 1 ⬝ᵥ b 1)| <
          i * i * (b 0 ⬝ᵥ b 0) + 2 * (i * j) * (b 0 ⬝ᵥ b 1) + j * j * (b 1 ⬝ᵥ b 1) by
      obtain ⟨m, n, hmn, hall⟩ := this
      obtain ⟨h1, h2⟩ := half_inside _ _ m n hall
      exact hne m n hmn (h _ m n h1 h2)
    have main : ∀ A D P : ℝ, 0 < A → P * P < A * D → A < |P| → ∃ m n : ℤ, (m ≠ 0 ∨ n ≠ 0) ∧ ∀ i j : ℤ, |i| ≤ 1 → |j| ≤ 1 → (i ≠ 0 ∨ j ≠ 0) →
        |(m : ℝ) * i * A + (m * j + n * i) * P + n * j * D| < i * i * A + 2 * (i * j) * P + j * j * D := by
      intro A D P hA hd hP
      rcases le_or_gt 0 P with h0 | h0
      · rw [abs_of_nonneg h0] at hP
        exact skewed hA hd hP
      · rw [abs_of_neg h0] at hP
        obtain ⟨m, n, hmn, hall⟩ := skewed (P := -P) hA (by linarith) hP
        refine ⟨m, -n, by omega, fun i j hi hj hij => ?_⟩
        have := hall i (-j) hi (by rwa [abs_neg]) (by omega)
        push_cast at this ⊢
        convert this using 1
        · congr 1; ring
        · ring
    rw [not_and_or, not_le, not_le] at hc
    rcases hc with hc | hc
    · exact main _ _ _ p0 hind hc
    · obtain ⟨m, n, hmn, hall⟩ := main _ (b 0 ⬝ᵥ b 0) (b 0 ⬝ᵥ b 1) p1 (by linarith) hc
      refine ⟨n, m, by omega, fun i j hi hj hij => ?_⟩
      have := hall j i hj hi (by omega)
      convert this using 1
      · congr 1; ring
      · ring
  · rintro ⟨h1, h2⟩ k m n hk hz
    refine (C79_zone2_partial a b hb h1 h2).2.2 k m n hk fun p hp => ?_
    by_cases h0 : p = 0
    · rw [h0, sub_zero]
    · exact (hz p hp h0).le

/-- Both sides occur: the square lattice with the vectors `(1, 0)` and `(0, 1)`, and with `(1, 0)` and `(3, 1)`. -/
example : (∃ b, reciprocal (by decide) (![![1, 0, 0], ![0, 1, 0]] : Fin 2 → Vec3) = .ok b ∧
      ∀ k (m n : ℤ), Inside2 (b 0) (b 1) k → Inside2 (b 0) (b 1) (k + latticePoint (b 0) (b 1) m n) → latticePoint (b 0) (b 1) m n = 0) ∧
    ∃ (a b : Fin 2 → Vec3), reciprocal (by decide) a = .ok b ∧ ¬(|b 0 ⬝ᵥ b 1| ≤ b 0 ⬝ᵥ b 0 ∧ |b 0 ⬝ᵥ b 1| ≤ b 1 ⬝ᵥ b 1) := by
  constructor
  · have hM : vectorMatrix (by decide) (![![1, 0, 0], ![0, 1, 0]] : Fin 2 → Vec3) = 1 := by
      ext i j
      fin_cases i <;> fin_cases j <;> simp [vectorMatrix]
    have : ∃ b, reciprocal (by decide) (![![1, 0, 0], ![0, 1, 0]] : Fin 2 → Vec3) = .ok b ∧ |b 0 ⬝ᵥ b 1| ≤ b 0 ⬝ᵥ b 0 ∧ |b 0 ⬝ᵥ b 1| ≤ b 1 ⬝ᵥ b 1 := by
      unfold reciprocal
      rw [if_neg (by rw [hM]; simp), hM]
      refine ⟨_, rfl, ?_, ?_⟩ <;> simp [dotProduct, Fin.sum_univ_three] <;> exact mul_self_nonneg _
    obtain ⟨b, hb, h⟩ := this
    exact ⟨b, hb, (C79_zone2_exact _ b hb).2 h⟩
  · obtain ⟨a, b, hb, -, -, k, m, n, hne, h1, h2⟩ := C79_zone2_witness
    exact ⟨a, b, hb, fun h => hne ((C79_zone2_exact a b hb).2 h k m n h1 h2)⟩

end Verif.Pipeline
