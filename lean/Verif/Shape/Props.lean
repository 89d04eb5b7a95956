import Verif.Shape.Lemmas
import Mathlib.Tactic.NormNum
import Mathlib.Algebra.Order.Ring.Rat

/-!
# Properties of shapes (C39, C57)
-/

namespace Verif.Shape

set_option linter.unusedSectionVars false

section Polygon

variable {F : Type} [Field F] [LinearOrder F] [IsStrictOrderedRing F]

/-- A triangle. -/
def tri : List (Pt ℚ) := [⟨0, 0⟩, ⟨4, 0⟩, ⟨0, 4⟩]

theorem resolved_exact (vs : List (Pt F)) : Resolved 0 0 vs := by
  intro s _ h
  unfold approxEqual at h
  simp only [zero_mul, Bool.or_self, decide_eq_true_eq, abs_nonpos_iff] at h
  exact sub_eq_zero.mp h

/-- **C39**: a point is inside a polygon exactly if the ray to the left meets an odd number of
sides. -/
theorem C39_even_odd (eps tiny : F) (heps : 0 ≤ eps) (vs : List (Pt F)) (c : Pt F)
    (hr : Resolved eps tiny vs) : within eps tiny vs c = true ↔ Odd (crossings vs c) := by
  rw [within_parity]
  unfold crossings
  rw [List.countP_congr (q := fun s => @decide (Crosses c s) (Classical.propDecidable _))]
  intro s hs
  rw [tests_eq eps tiny heps c s (hr s hs)]

/-- **C39**: it does not matter at which vertex the list begins. -/
theorem C39_start (eps tiny : F) (vs : List (Pt F)) (n : Nat) (c : Pt F) :
    within eps tiny (vs.rotate n) c = within eps tiny vs c := by
  rw [Bool.eq_iff_iff, within_parity, within_parity, (sides_rotate vs n).countP_eq]

/-- **C39**: nor in which direction the vertices are listed. -/
theorem C39_orientation (eps tiny : F) (vs : List (Pt F)) (c : Pt F) :
    within eps tiny vs.reverse c = within eps tiny vs c := by
  rw [Bool.eq_iff_iff, within_parity, within_parity, (sides_reverse vs).countP_eq, List.countP_map]
  have : (tests eps tiny c ∘ Prod.swap) = tests eps tiny c := funext fun s => tests_swap eps tiny c s
  rw [this]

theorem sides_map (f : Pt F → Pt F) (vs : List (Pt F)) :
    sides (vs.map f) = (sides vs).map (Prod.map f f) := by
  unfold sides
  rw [← List.map_rotate, List.zip_map]

theorem crosses_shift (d c : Pt F) (s : Pt F × Pt F) :
    Crosses (Pt.shift d c) (Prod.map (Pt.shift d) (Pt.shift d) s) ↔ Crosses c s := by
  obtain ⟨p, q⟩ := s
  simp only [Prod.map, crosses_turn]
  have t : ∀ a b : Pt F, (Pt.shift a b).y = b.y + a.y := fun a b => rfl
  have e : turn (Pt.shift d p) (Pt.shift d q) (Pt.shift d c) = turn p q c := by
    simp only [turn, Pt.shift]
    ring
  simp only [t, add_le_add_iff_right, add_lt_add_iff_right, e]

/-- **C39**: moving the polygon and the point together does not change the answer, provided that no
side becomes so flat compared to its distance from the origin that it is taken for horizontal. -/
theorem C39_translation (eps tiny : F) (heps : 0 ≤ eps) (vs : List (Pt F)) (c d : Pt F)
    (hr : Resolved eps tiny vs) (hr' : Resolved eps tiny (vs.map (Pt.shift d))) :
    within eps tiny (vs.map (Pt.shift d)) (Pt.shift d c) = within eps tiny vs c := by
  rw [Bool.eq_iff_iff, C39_even_odd eps tiny heps _ _ hr', C39_even_odd eps tiny heps _ _ hr]
  unfold crossings
  rw [sides_map, List.countP_map]
  have : ((fun s => @decide (Crosses (Pt.shift d c) s) (Classical.propDecidable _)) ∘
      Prod.map (Pt.shift d) (Pt.shift d)) =
      fun s => @decide (Crosses c s) (Classical.propDecidable _) := by
    funext s
    simp only [Function.comp, decide_eq_decide]
    exact crosses_shift d c s
  rw [this]

/-- **C39**: a rectangle contains its lower and right sides, but not its upper and left sides. -/
theorem C39_rectangle (x0 x1 y0 y1 : F) (hx : x0 < x1) (hy : y0 < y1) (c : Pt F) :
    within 0 0 [⟨x0, y0⟩, ⟨x1, y0⟩, ⟨x1, y1⟩, ⟨x0, y1⟩] c = true ↔
      x0 < c.x ∧ c.x ≤ x1 ∧ y0 ≤ c.y ∧ c.y < y1 := by
  rw [C39_even_odd 0 0 le_rfl _ c (resolved_exact _)]
  have hs : sides [(⟨x0, y0⟩ : Pt F), ⟨x1, y0⟩, ⟨x1, y1⟩, ⟨x0, y1⟩] =
      [(⟨x0, y0⟩, ⟨x1, y0⟩), (⟨x1, y0⟩, ⟨x1, y1⟩), (⟨x1, y1⟩, ⟨x0, y1⟩), (⟨x0, y1⟩, ⟨x0, y0⟩)] := rfl
  have n1 : ¬ Crosses c ((⟨x0, y0⟩ : Pt F), ⟨x1, y0⟩) := not_crosses_horizontal _ _ rfl
  have n3 : ¬ Crosses c ((⟨x1, y1⟩ : Pt F), ⟨x0, y1⟩) := not_crosses_horizontal _ _ rfl
  have t2 : Crosses c ((⟨x1, y0⟩ : Pt F), ⟨x1, y1⟩) ↔ y0 ≤ c.y ∧ c.y < y1 ∧ x1 < c.x := by
    rw [crosses_turn]
    simp only [turn]
    constructor
    · rintro (⟨h1, h2, h3⟩ | ⟨h1, h2, _⟩)
      · refine ⟨h1, h2, ?_⟩
        by_contra h
        push Not at h
        nlinarith
      · exact absurd (h1.trans_lt h2) (not_lt.mpr hy.le)
    · rintro ⟨h1, h2, h3⟩
      left
      exact ⟨h1, h2, by nlinarith⟩
  have t4 : Crosses c ((⟨x0, y1⟩ : Pt F), ⟨x0, y0⟩) ↔ y0 ≤ c.y ∧ c.y < y1 ∧ x0 < c.x := by
    rw [crosses_turn]
    simp only [turn]
    constructor
    · rintro (⟨h1, h2, _⟩ | ⟨h1, h2, h3⟩)
      · exact absurd (h1.trans_lt h2) (not_lt.mpr hy.le)
      · refine ⟨h1, h2, ?_⟩
        by_contra h
        push Not at h
        nlinarith
    · rintro ⟨h1, h2, h3⟩
      right
      exact ⟨h1, h2, by nlinarith⟩
  unfold crossings
  rw [hs]
  simp only [List.countP_cons, List.countP_nil, decide_eq_true_eq, n1, n3, t2, t4, if_false,
    Nat.zero_add, Nat.add_zero]
  by_cases h : y0 ≤ c.y ∧ c.y < y1
  · rcases le_or_gt c.x x0 with g | g
    · have g' : ¬ x1 < c.x := not_lt.mpr (g.trans hx.le)
      simp [not_lt.mpr g, g']
    · rcases le_or_gt c.x x1 with g' | g'
      · simp [h.1, h.2, g, g', not_lt.mpr g']
      · simp [h.1, h.2, g, g', not_le.mpr g']
  · have e1 : ¬ (y0 ≤ c.y ∧ c.y < y1 ∧ x1 < c.x) := fun k => h ⟨k.1, k.2.1⟩
    have e2 : ¬ (y0 ≤ c.y ∧ c.y < y1 ∧ x0 < c.x) := fun k => h ⟨k.1, k.2.1⟩
    have e3 : ¬ (x0 < c.x ∧ c.x ≤ x1 ∧ y0 ≤ c.y ∧ c.y < y1) := fun k => h ⟨k.2.2.1, k.2.2.2⟩
    simp [e1, e2, e3]

theorem crossings_tri (a b c p : Pt F) :
    Odd (crossings [a, b, c] p) ↔
      (Crosses p (a, b) ↔ (Crosses p (b, c) ↔ Crosses p (c, a))) := by
  have hs : sides [a, b, c] = [(a, b), (b, c), (c, a)] := rfl
  unfold crossings
  rw [hs]
  by_cases h1 : Crosses p (a, b) <;> by_cases h2 : Crosses p (b, c) <;>
    by_cases h3 : Crosses p (c, a) <;>
    simp [h1, h2, h3] <;> decide

theorem turn_sum (a b c p : Pt F) : turn b c p + turn c a p + turn a b p = turn a b c := by
  simp only [turn]
  ring

theorem turn_moment (a b c p : Pt F) :
    turn b c p * (a.y - p.y) + turn c a p * (b.y - p.y) + turn a b p * (c.y - p.y) = 0 := by
  simp only [turn]
  ring

/-- **C39**: the points strictly inside a triangle are contained in it. -/
theorem C39_triangle_inside (a b c p : Pt F) (h1 : 0 < turn a b p) (h2 : 0 < turn b c p)
    (h3 : 0 < turn c a p) : within 0 0 [a, b, c] p = true := by
  rw [C39_even_odd 0 0 le_rfl _ p (resolved_exact _), crossings_tri]
  have hm := turn_moment a b c p
  have hs := turn_sum a b c p
  simp only [crosses_turn, h1, h2, h3, not_lt.mpr h1.le, not_lt.mpr h2.le, not_lt.mpr h3.le,
    and_false, false_or, and_true, ← not_lt (a := p.y)]
  by_cases hA : p.y < a.y <;> by_cases hB : p.y < b.y <;> by_cases hC : p.y < c.y <;>
    simp only [hA, hB, hC, not_true, not_false_iff, and_true, and_false,
      iff_true, iff_false, iff_self]
  · exfalso
    have m1 : turn b c p * (a.y - p.y) > 0 := mul_pos h2 (by linarith)
    have m2 : turn c a p * (b.y - p.y) > 0 := mul_pos h3 (by linarith)
    have m3 : turn a b p * (c.y - p.y) > 0 := mul_pos h1 (by linarith)
    linarith
  have ha := not_lt.mp hA
  have hb := not_lt.mp hB
  have hc := not_lt.mp hC
  · exfalso
    have m1 : turn b c p * (a.y - p.y) ≤ 0 := mul_nonpos_of_nonneg_of_nonpos h2.le (by linarith)
    have m2 : turn c a p * (b.y - p.y) ≤ 0 := mul_nonpos_of_nonneg_of_nonpos h3.le (by linarith)
    have m3 : turn a b p * (c.y - p.y) ≤ 0 := mul_nonpos_of_nonneg_of_nonpos h1.le (by linarith)
    have z1 : turn b c p * (a.y - p.y) = 0 := by linarith
    have z2 : turn c a p * (b.y - p.y) = 0 := by linarith
    have y1 : a.y - p.y = 0 := (mul_eq_zero.mp z1).resolve_left h2.ne'
    have y2 : b.y - p.y = 0 := (mul_eq_zero.mp z2).resolve_left h3.ne'
    have : turn a b p = 0 := by
      unfold turn
      have e1 : p.y - a.y = 0 := by linarith
      have e2 : b.y - a.y = 0 := by linarith
      rw [e1, e2]
      ring
    linarith

/-- **C39**: the points strictly outside a triangle, those strictly right of one of its sides, are not
contained in it. -/
theorem C39_triangle_outside (a b c p : Pt F) (ho : 0 < turn a b c)
    (h : turn a b p < 0 ∨ turn b c p < 0 ∨ turn c a p < 0) : within 0 0 [a, b, c] p = false := by
  rw [← Bool.not_eq_true, C39_even_odd 0 0 le_rfl _ p (resolved_exact _), crossings_tri]
  have hm := turn_moment a b c p
  have hs := turn_sum a b c p
  rw [← hs] at ho
  simp only [crosses_turn, ← not_lt (a := p.y)]
  generalize turn a b p = w at *
  generalize turn b c p = u at *
  generalize turn c a p = v at *
  -- one vertex above or below the other two
  have key : ∀ (u v w α β γ : F), 0 < u + v + w → u * α + v * β + w * γ = 0 →
      (w < 0 ∨ u < 0 ∨ v < 0) → 0 < α → β ≤ 0 → γ ≤ 0 → (0 < w ↔ v < 0) := by
    intro u v w α β γ ho hm h hα hβ hγ
    constructor
    · intro hw
      by_contra hv
      push Not at hv
      have hu : u < 0 := by rcases h with h | h | h <;> linarith
      have m1 : u * α < 0 := mul_neg_of_neg_of_pos hu hα
      have m2 : v * β ≤ 0 := mul_nonpos_of_nonneg_of_nonpos hv hβ
      have m3 : w * γ ≤ 0 := mul_nonpos_of_nonneg_of_nonpos hw.le hγ
      linarith
    · intro hv
      by_contra hw
      push Not at hw
      have hu : 0 < u := by linarith
      have m1 : 0 < u * α := mul_pos hu hα
      have m2 : 0 ≤ v * β := mul_nonneg_of_nonpos_of_nonpos hv.le hβ
      have m3 : 0 ≤ w * γ := mul_nonneg_of_nonpos_of_nonpos hw hγ
      linarith
  have key' : ∀ (u v w α β γ : F), 0 < u + v + w → u * α + v * β + w * γ = 0 →
      (w < 0 ∨ u < 0 ∨ v < 0) → α ≤ 0 → 0 < β → 0 < γ → (0 < v ↔ w < 0) := by
    intro u v w α β γ ho hm h hα hβ hγ
    constructor
    · intro hv
      by_contra hw
      push Not at hw
      have hu : u < 0 := by rcases h with h | h | h <;> linarith
      have m1 : 0 ≤ u * α := mul_nonneg_of_nonpos_of_nonpos hu.le hα
      have m2 : 0 < v * β := mul_pos hv hβ
      have m3 : 0 ≤ w * γ := mul_nonneg hw hγ.le
      linarith
    · intro hw
      by_contra hv
      push Not at hv
      have hu : 0 < u := by linarith
      have m1 : u * α ≤ 0 := mul_nonpos_of_nonneg_of_nonpos hu.le hα
      have m2 : v * β ≤ 0 := mul_nonpos_of_nonpos_of_nonneg hv hβ.le
      have m3 : w * γ < 0 := mul_neg_of_neg_of_pos hw hγ
      linarith
  by_cases hA : p.y < a.y <;> by_cases hB : p.y < b.y <;> by_cases hC : p.y < c.y <;>
    simp only [hA, hB, hC, not_true, not_false_iff, and_true, and_false, true_and, false_and,
      or_false, false_or, iff_true, iff_false, iff_self, not_not]
  · have := key' w u v (c.y - p.y) (a.y - p.y) (b.y - p.y) (by linarith) (by linarith) (by tauto)
      (by linarith) (by linarith) (by linarith)
    tauto
  · have := key' v w u (b.y - p.y) (c.y - p.y) (a.y - p.y) (by linarith) (by linarith) (by tauto)
      (by linarith) (by linarith) (by linarith)
    tauto
  · have := key u v w (a.y - p.y) (b.y - p.y) (c.y - p.y) (by linarith) (by linarith) (by tauto)
      (by linarith) (by linarith) (by linarith)
    tauto
  · have := key' u v w (a.y - p.y) (b.y - p.y) (c.y - p.y) (by linarith) (by linarith) (by tauto)
      (by linarith) (by linarith) (by linarith)
    tauto
  · have := key v w u (b.y - p.y) (c.y - p.y) (a.y - p.y) (by linarith) (by linarith) (by tauto)
      (by linarith) (by linarith) (by linarith)
    tauto
  · have := key w u v (c.y - p.y) (a.y - p.y) (b.y - p.y) (by linarith) (by linarith) (by tauto)
      (by linarith) (by linarith) (by linarith)
    tauto

/-- The hypotheses of the theorems on triangles can be met. -/
example : 0 < turn (⟨0, 0⟩ : Pt ℚ) ⟨4, 0⟩ ⟨1, 1⟩ ∧ 0 < turn (⟨4, 0⟩ : Pt ℚ) ⟨0, 4⟩ ⟨1, 1⟩ ∧
    0 < turn (⟨0, 4⟩ : Pt ℚ) ⟨0, 0⟩ ⟨1, 1⟩ ∧ 0 < turn (⟨0, 0⟩ : Pt ℚ) ⟨4, 0⟩ ⟨0, 4⟩ ∧
    turn (⟨4, 0⟩ : Pt ℚ) ⟨0, 4⟩ ⟨3, 3⟩ < 0 := by
  norm_num [turn]

/-- A polygon and a tolerance that meet the hypotheses of `C39_even_odd` and `C39_translation`. -/
example : Resolved (1 / 100 : ℚ) (1 / 1000) tri ∧
    Resolved (1 / 100 : ℚ) (1 / 1000) (tri.map (Pt.shift ⟨1, 2⟩)) ∧
    within (1 / 100 : ℚ) (1 / 1000) tri ⟨1, 1⟩ = true := by
  refine ⟨?_, ?_, by decide +kernel⟩
  · intro s hs h
    have : s ∈ [((⟨0, 0⟩ : Pt ℚ), (⟨4, 0⟩ : Pt ℚ)), (⟨4, 0⟩, ⟨0, 4⟩), (⟨0, 4⟩, ⟨0, 0⟩)] := hs
    simp only [List.mem_cons, List.not_mem_nil, or_false] at this
    rcases this with rfl | rfl | rfl <;> revert h <;> norm_num [approxEqual]
  · intro s hs h
    have : s ∈ [((⟨0 + 1, 0 + 2⟩ : Pt ℚ), (⟨4 + 1, 0 + 2⟩ : Pt ℚ)), (⟨4 + 1, 0 + 2⟩, ⟨0 + 1, 4 + 2⟩),
      (⟨0 + 1, 4 + 2⟩, ⟨0 + 1, 0 + 2⟩)] := hs
    simp only [List.mem_cons, List.not_mem_nil, or_false] at this
    rcases this with rfl | rfl | rfl <;> revert h <;> norm_num [approxEqual]

/-- Without exact arithmetic the answer does depend on the position: for every precision there is a
distance from the origin at which the unit square contains nothing. -/
theorem C39_translation_witness (eps tiny : ℚ) (h0 : 0 < eps) (h1 : eps < 1) (ht : 0 ≤ tiny)
    (ht1 : tiny < 1) :
    within eps tiny [⟨0, 0⟩, ⟨1, 0⟩, ⟨1, 1⟩, ⟨0, 1⟩] ⟨1 / 2, 1 / 2⟩ = true ∧
    ∀ c, within eps tiny ([⟨0, 0⟩, ⟨1, 0⟩, ⟨1, 1⟩, ⟨0, 1⟩].map (Pt.shift ⟨0, 1 / eps⟩)) c = false := by
  constructor
  · have n1 : ¬ (1 ≤ eps) := not_le.mpr h1
    have n2 : ¬ (1 ≤ tiny) := not_le.mpr ht1
    simp only [within, List.getLast?, List.getLast, withinLoop, approxEqual, flips]
    norm_num [n1, n2, ht, h0.le]
  · intro c
    have e1 : approxEqual eps tiny (0 + 1 / eps) (0 + 1 / eps) = true := approx_self eps tiny h0.le _
    have e2 : approxEqual eps tiny (1 + 1 / eps) (1 + 1 / eps) = true := approx_self eps tiny h0.le _
    have e3 : approxEqual eps tiny (1 + 1 / eps) (0 + 1 / eps) = true := by
      have hp : 0 < 1 / eps := by positivity
      have : |1 + 1 / eps + (0 + 1 / eps)| = 1 + 2 / eps := by
        rw [abs_of_pos (by positivity)]
        ring
      unfold approxEqual
      simp only [Bool.or_eq_true, decide_eq_true_eq]
      left
      rw [this]
      have e : (1 : ℚ) + 1 / eps - (0 + 1 / eps) = 1 := by ring
      rw [e, abs_one, mul_add, mul_one, mul_div_cancel₀ _ h0.ne']
      linarith
    have e4 : approxEqual eps tiny (0 + 1 / eps) (1 + 1 / eps) = true := by
      rw [approx_comm]
      exact e3
    simp only [List.map, within, List.getLast?, List.getLast, withinLoop, Pt.shift, e1, e2, e3, e4,
      if_true]

end Polygon

section Line

theorem length_eq_zero (v : Vec) : length v = 0 ↔ v = 0 := by
  unfold length
  rw [Real.sqrt_eq_zero (by positivity)]
  constructor
  · intro h
    have h0 : v 0 ^ 2 = 0 := by nlinarith [sq_nonneg (v 0), sq_nonneg (v 1), sq_nonneg (v 2)]
    have h1 : v 1 ^ 2 = 0 := by nlinarith [sq_nonneg (v 0), sq_nonneg (v 1), sq_nonneg (v 2)]
    have h2 : v 2 ^ 2 = 0 := by nlinarith [sq_nonneg (v 0), sq_nonneg (v 1), sq_nonneg (v 2)]
    funext i
    fin_cases i
    · exact pow_eq_zero_iff (two_ne_zero) |>.mp h0
    · exact pow_eq_zero_iff (two_ne_zero) |>.mp h1
    · exact pow_eq_zero_iff (two_ne_zero) |>.mp h2
  · rintro rfl
    simp

theorem isAcute_iff (a b c : Vec) :
    isAcute a b c = true ↔ a ≠ b ∧ c ≠ b ∧ 0 ≤ dot (a - b) (c - b) := by
  unfold isAcute
  have hl : ∀ v : Vec, 0 ≤ length v := fun v => Real.sqrt_nonneg _
  by_cases h : length (a - b) * length (c - b) = 0
  · simp only [h, if_true, Bool.false_eq_true, false_iff]
    rintro ⟨h1, h2, _⟩
    rcases mul_eq_zero.mp h with h' | h'
    · exact h1 (sub_eq_zero.mp ((length_eq_zero _).mp h'))
    · exact h2 (sub_eq_zero.mp ((length_eq_zero _).mp h'))
  · simp only [h, if_false, decide_eq_true_eq, ge_iff_le]
    have hpos : 0 < length (a - b) * length (c - b) :=
      lt_of_le_of_ne (mul_nonneg (hl _) (hl _)) (Ne.symm h)
    rw [le_div_iff₀ hpos, zero_mul]
    constructor
    · intro h3
      refine ⟨?_, ?_, h3⟩
      · rintro rfl
        apply h
        rw [sub_self, (length_eq_zero 0).mpr rfl, zero_mul]
      · rintro rfl
        apply h
        rw [sub_self, (length_eq_zero 0).mpr rfl, mul_zero]
    · exact fun h3 => h3.2.2

/-- The foot of the perpendicular from `c` to the line through `a` and `b` lies between `a` and
`b`. -/
def Between (a b c : Vec) : Prop :=
  ∃ t : ℝ, 0 ≤ t ∧ t ≤ 1 ∧ dot (c - (a + t • (b - a))) (b - a) = 0

/-- **C57**: apart from its two end points, a line contains exactly the points whose perpendicular foot
lies between the end points.  (Partial: the end points themselves are missing, see the witness.) -/
theorem C57_line_partial (a b c : Vec) (hab : a ≠ b) (hca : c ≠ a) (hcb : c ≠ b) :
    lineContains a b c = true ↔ Between a b c := by
  unfold lineContains Between
  rw [Bool.and_eq_true, isAcute_iff, isAcute_iff]
  have hd : 0 < dot (b - a) (b - a) := by
    have h0 : 0 ≤ dot (b - a) (b - a) := by
      unfold dot
      nlinarith [mul_self_nonneg ((b - a) 0), mul_self_nonneg ((b - a) 1), mul_self_nonneg ((b - a) 2)]
    refine lt_of_le_of_ne h0 fun h => hab ?_
    have : length (b - a) = 0 := by
      unfold length
      rw [Real.sqrt_eq_zero (by positivity)]
      unfold dot at h
      nlinarith
    exact (sub_eq_zero.mp ((length_eq_zero _).mp this)).symm
  have e1 : ∀ t : ℝ, dot (c - (a + t • (b - a))) (b - a) =
      dot (b - a) (c - a) - t * dot (b - a) (b - a) := by
    intro t
    simp only [dot, Pi.sub_apply, Pi.add_apply, Pi.smul_apply, smul_eq_mul]
    ring
  have e2 : dot (a - b) (c - b) = dot (b - a) (b - a) - dot (b - a) (c - a) := by
    simp only [dot, Pi.sub_apply]
    ring
  simp only [e1, e2]
  constructor
  · rintro ⟨⟨_, _, h1⟩, ⟨_, _, h2⟩⟩
    refine ⟨dot (b - a) (c - a) / dot (b - a) (b - a), div_nonneg h2 hd.le, ?_, ?_⟩
    · rw [div_le_one hd]
      linarith
    · rw [div_mul_cancel₀ _ hd.ne']
      ring
  · rintro ⟨t, h0, h1, h⟩
    have e : dot (b - a) (c - a) = t * dot (b - a) (b - a) := by linarith
    refine ⟨⟨hab, hcb, ?_⟩, ⟨Ne.symm hab, hca, ?_⟩⟩
    · rw [e]
      nlinarith
    · rw [e]
      positivity

/-- The hypotheses can be met by a point beside the line. -/
example : (![0, 0, 0] : Vec) ≠ ![2, 0, 0] ∧ (![1, 5, 0] : Vec) ≠ ![0, 0, 0] ∧
    (![1, 5, 0] : Vec) ≠ ![2, 0, 0] ∧ Between ![0, 0, 0] ![2, 0, 0] ![1, 5, 0] := by
  refine ⟨fun h => ?_, fun h => ?_, fun h => ?_, ⟨1 / 2, by norm_num, by norm_num, ?_⟩⟩
  · have := congrFun h 0
    norm_num at this
  · have := congrFun h 0
    norm_num at this
  · have := congrFun h 0
    norm_num at this
  · simp [dot]

/-- **C57**: the end points of a line are never contained in it, and a line of length zero contains
nothing, although the feet of these points are between the end points: the cosine is 0/0. -/
theorem C57_line_endpoints (a b : Vec) :
    lineContains a b a = false ∧ lineContains a b b = false ∧ (∀ c, lineContains a a c = false) ∧
    Between a b a ∧ Between a b b := by
  refine ⟨?_, ?_, ?_, ⟨0, le_rfl, zero_le_one, ?_⟩, ⟨1, zero_le_one, le_rfl, ?_⟩⟩
  · rw [← Bool.not_eq_true]
    unfold lineContains
    rw [Bool.and_eq_true, isAcute_iff, isAcute_iff]
    tauto
  · rw [← Bool.not_eq_true]
    unfold lineContains
    rw [Bool.and_eq_true, isAcute_iff, isAcute_iff]
    tauto
  · intro c
    rw [← Bool.not_eq_true]
    unfold lineContains
    rw [Bool.and_eq_true, isAcute_iff]
    tauto
  · simp [dot]
  · simp [dot]

/-- **C57**: a line is the same in both directions. -/
theorem C57_line_symmetric (a b c : Vec) : lineContains a b c = lineContains b a c := by
  unfold lineContains
  exact Bool.and_comm _ _

end Line

section Freeform

variable {F : Type} [Field F] [LinearOrder F] [IsStrictOrderedRing F]

/-- **C57**: the vertices of a freeform shape are exactly the corners of the box of the given width
around the center. -/
theorem C57_freeform_corners (width center : Fin 3 → F) (v : Fin 3 → F) :
    v ∈ freeformVertices width center ↔
      ∀ i, v i = center i - width i / 2 ∨ v i = center i + width i / 2 := by
  have e : ∀ a b c : F, v = ![a, b, c] ↔ v 0 = a ∧ v 1 = b ∧ v 2 = c := by
    intro a b c
    constructor
    · rintro rfl
      simp
    · rintro ⟨h0, h1, h2⟩
      funext i
      fin_cases i
      · exact h0
      · exact h1
      · exact h2
  simp only [freeformVertices, List.mem_cons, List.not_mem_nil, or_false, e, Fin.forall_fin_succ,
    Fin.succ_zero_eq_one, IsEmpty.forall_iff, and_true]
  have : (Fin.succ 1 : Fin 3) = 2 := rfl
  rw [this]
  constructor
  · rintro (⟨h0, h1, h2⟩ | ⟨h0, h1, h2⟩ | ⟨h0, h1, h2⟩ | ⟨h0, h1, h2⟩ | ⟨h0, h1, h2⟩ | ⟨h0, h1, h2⟩ |
      ⟨h0, h1, h2⟩ | ⟨h0, h1, h2⟩) <;> refine ⟨?_, ?_, ?_⟩ <;>
      first | exact Or.inl (by assumption) | exact Or.inr (by assumption)
  · rintro ⟨h0 | h0, h1 | h1, h2 | h2⟩ <;> simp only [h0, h1, h2, true_and, true_or, or_true]

/-- **C57**: every constructor of a shape with fewer than two vertices is rejected; a freeform shape is
never rejected. -/
theorem C57_vertices {α : Type} (vs : List α) :
    (checkVertices vs = .ok () ↔ 2 ≤ vs.length) ∧
    (checkVertices vs = .err .logicError ↔ vs.length < 2) := by
  unfold checkVertices
  by_cases h : vs.length < 2
  · simp [h]
  · simp [h]
    omega

theorem C57_freeform_accepted (width center : Fin 3 → F) :
    checkVertices (freeformVertices width center) = .ok () :=
  ((C57_vertices _).1).mpr (by simp [freeformVertices])

end Freeform

end Verif.Shape
