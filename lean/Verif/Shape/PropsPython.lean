import Verif.Shape.Python
import Verif.Shape.Props
import Verif.Foundation.Props2
import Mathlib.Tactic.Linarith
import Mathlib.Tactic.FinCases
import Mathlib.Tactic.IntervalCases
import Mathlib.Analysis.SpecialFunctions.Trigonometric.Basic

/-!
# C80: a shape selects exactly the sites of the lattice which lie in it
-/

namespace Verif.Shape

open Verif.Lattice (Cart calcPosition translateCoordinates latticeMatrix head)
open Verif.Foundation (Dims findBounds boundsLoop generatePositions sites)

/-! ## Specification -/

/-- The vertices enclose the shape: in the first `n` components no linear function is smaller on a point of the shape than on all vertices (that is, the shape lies in
the convex hull of its vertices). -/
def Enclosed (n : Nat) (s : PyShape) : Prop :=
  ∀ p, s.contains p = true → ∀ u : Vec, (∀ i : Fin 3, n ≤ i.val → u i = 0) → ∃ v ∈ s.vertices, dot u v ≤ dot u p

/-! ## Polygons -/

theorem path_parity {α : Type} (f : α → Bool) (p : α) (l : List α) :
    (path p l).countP (fun s => f s.1 != f s.2) % 2 = if f p = f (lastOr p l) then 0 else 1 := by
  induction l generalizing p with
  | nil => simp [path, lastOr]
  | cons q l ih =>
    have h := ih q
    simp only [path, lastOr, List.countP_cons]
    rw [Nat.add_mod, h]
    have : ∀ a b c : Bool, ((if b = c then 0 else 1) + (if (a != b) = true then 1 else 0) % 2) % 2 = if a = c then 0 else 1 := by decide
    exact this _ _ _

theorem mem_path {α : Type} {p : α} {l : List α} {s : α × α} (h : s ∈ path p l) : s.1 ∈ p :: l ∧ s.2 ∈ l := by
  induction l generalizing p with
  | nil => simp [path] at h
  | cons q l ih =>
    simp only [path, List.mem_cons] at h
    rcases h with rfl | h
    · simp
    · have := ih h
      simp only [List.mem_cons] at this ⊢
      tauto

theorem mem_sides {vs : List (Pt ℝ)} {s : Pt ℝ × Pt ℝ} (h : s ∈ sides vs) : s.1 ∈ vs ∧ s.2 ∈ vs := by
  unfold sides at h
  have := List.of_mem_zip (a := s.1) (b := s.2) h
  exact ⟨this.1, List.mem_rotate.1 this.2⟩

/-- A polygon which lies on one side of a line does not contain the points on the other side. -/
theorem within_halfplane (eps tiny : ℝ) (heps : 0 ≤ eps) (vs : List (Pt ℝ)) (hr : Resolved eps tiny vs) (c : Pt ℝ) (u w : ℝ)
    (h : ∀ v ∈ vs, u * c.x + w * c.y < u * v.x + w * v.y) : within eps tiny vs c = false := by
  rw [← Bool.not_eq_true, C39_even_odd eps tiny heps vs c hr, Nat.not_odd_iff_even]
  have hpt : ∀ s ∈ sides vs, ∀ t : ℝ, 0 ≤ t → t ≤ 1 → s.1.y + t * (s.2.y - s.1.y) = c.y → u * c.x < u * (s.1.x + t * (s.2.x - s.1.x)) := by
    intro s hs t h0 h1 hy
    obtain ⟨m1, m2⟩ := mem_sides hs
    have a1 := h _ m1
    have a2 := h _ m2
    have e : u * (s.1.x + t * (s.2.x - s.1.x)) + w * c.y = (1 - t) * (u * s.1.x + w * s.1.y) + t * (u * s.2.x + w * s.2.y) := by
      rw [← hy]
      ring
    have : u * c.x + w * c.y < (1 - t) * (u * s.1.x + w * s.1.y) + t * (u * s.2.x + w * s.2.y) := by
      rcases h0.lt_or_eq with h0 | h0
      · nlinarith
      · rw [← h0]
        linarith
    linarith
  unfold crossings
  rcases le_or_gt 0 u with hu | hu
  · -- the ray stays on its side
    have : (sides vs).countP (fun s => @decide (Crosses c s) (Classical.propDecidable _)) = 0 := by
      rw [List.countP_eq_zero]
      intro s hs hc
      simp only [decide_eq_true_eq] at hc
      obtain ⟨t, h0, h1, hy, hx, -⟩ := hc
      have := hpt s hs t h0 h1 hy
      nlinarith
    rw [this]
    exact Even.zero
  · -- the ray meets all sides which pass its height
    have : (sides vs).countP (fun s => @decide (Crosses c s) (Classical.propDecidable _)) =
        (sides vs).countP (fun s => decide (c.y < s.1.y) != decide (c.y < s.2.y)) := by
      apply List.countP_congr
      intro s hs
      simp only [decide_eq_true_eq, bne_iff_ne, ne_eq, decide_eq_decide]
      constructor
      · rintro ⟨t, h0, h1, hy, -, hne, hm⟩ hiff
        rcases lt_trichotomy s.1.y s.2.y with hlt | heq | hlt
        · rw [max_eq_right hlt.le] at hm
          have g1 : s.1.y ≤ c.y := by nlinarith
          have g2 : c.y < s.2.y := lt_of_le_of_ne (by nlinarith) hm
          exact absurd (hiff.2 g2) (not_lt.2 g1)
        · exact hne heq
        · rw [max_eq_left hlt.le] at hm
          have g1 : s.2.y ≤ c.y := by nlinarith
          have g2 : c.y < s.1.y := lt_of_le_of_ne (by nlinarith) hm
          exact absurd (hiff.1 g2) (not_lt.2 g1)
      · intro hiff
        have hd : s.2.y - s.1.y ≠ 0 := by
          intro he
          apply hiff
          rw [show s.2.y = s.1.y by linarith]
        have key : 0 ≤ (c.y - s.1.y) / (s.2.y - s.1.y) ∧ (c.y - s.1.y) / (s.2.y - s.1.y) ≤ 1 ∧ c.y ≠ max s.1.y s.2.y := by
          rcases lt_or_ge c.y s.1.y with g1 | g1
          · have g2 : s.2.y ≤ c.y := by
              by_contra hc
              exact hiff ⟨fun _ => not_le.1 hc, fun _ => g1⟩
            refine ⟨div_nonneg_of_nonpos (by linarith) (by linarith), ?_, ?_⟩
            · rw [div_le_one_of_neg (by linarith)]
              linarith
            · rw [max_eq_left (by linarith)]
              exact g1.ne
          · have g2 : c.y < s.2.y := by
              by_contra hc
              exact hiff ⟨fun h => absurd h (not_lt.2 g1), fun h => absurd h hc⟩
            refine ⟨div_nonneg (by linarith) (by linarith), ?_, ?_⟩
            · rw [div_le_one (by linarith)]
              linarith
            · rw [max_eq_right (by linarith)]
              exact g2.ne
        have hy : s.1.y + (c.y - s.1.y) / (s.2.y - s.1.y) * (s.2.y - s.1.y) = c.y := by
          rw [div_mul_cancel₀ _ hd]
          ring
        refine ⟨_, key.1, key.2.1, hy, ?_, fun he => hd (by linarith), key.2.2⟩
        have := hpt s hs _ key.1 key.2.1 hy
        nlinarith
    rw [this]
    cases vs with
    | nil => simp [sides]
    | cons a t =>
      rw [sides_cons, Nat.even_iff]
      have := path_parity (fun p : Pt ℝ => decide (c.y < p.y)) a (t ++ [a])
      rw [lastOr_append, if_pos rfl] at this
      exact this

/-- **C80** (polygons).  A polygon lies in the convex hull of its vertices. -/
theorem C80_polygon (eps tiny : ℝ) (heps : 0 ≤ eps) (vs : List Vec) (hr : Resolved eps tiny (vs.map xy)) (s : PyShape) (hs : polygon eps tiny vs = .ok s) :
    Enclosed 2 s := by
  unfold polygon at hs
  split at hs
  · cases hs
  · rw [Res.ok.injEq] at hs
    subst hs
    intro p hp u hu
    by_contra hc
    push Not at hc
    have h2 : u 2 = 0 := hu 2 (by decide)
    have : within eps tiny (vs.map xy) (xy p) = false := by
      apply within_halfplane eps tiny heps _ hr _ (u 0) (u 1)
      intro v hv
      obtain ⟨q, hq, rfl⟩ := List.mem_map.1 hv
      have := hc q hq
      unfold dot at this
      rw [h2] at this
      simpa [xy] using this
    simp only at hp
    rw [this] at hp
    cases hp

/-- **C80** (rectangles).  A rectangle of positive size contains the points from its left side (without) to its right side and from its lower side to its upper side
(without).  Without a height, or with the height zero, it is a square. -/
theorem C80_rectangle (x : ℝ) (y : Option ℝ) (h : ℝ) (hx : 0 < x) (hh : 0 < h) (hy : h = match y with | none => x | some y => if y = 0 then x else y) :
    ∃ s, rectangle 0 0 x y = .ok s ∧ Enclosed 2 s ∧
      ∀ p, s.contains p = true ↔ -(x / 2) < p 0 ∧ p 0 ≤ x / 2 ∧ -(h / 2) ≤ p 1 ∧ p 1 < h / 2 := by
  have hor : orElse y x = h := by
    rw [hy]
    rfl
  refine ⟨_, rfl, C80_polygon 0 0 le_rfl [![x / 2, orElse y x / 2, 0], ![x / 2, -(orElse y x / 2), 0], ![-(x / 2), -(orElse y x / 2), 0],
    ![-(x / 2), orElse y x / 2, 0]] (resolved_exact _) _ rfl, ?_⟩
  intro p
  simp only [hor, List.map_cons, List.map_nil, xy, Matrix.cons_val_zero, Matrix.cons_val_one]
  have := C39_rectangle (-(x / 2)) (x / 2) (-(h / 2)) (h / 2) (by linarith) (by linarith) (xy p)
  rw [← C39_orientation, ← C39_start 0 0 _ 1] at this
  exact this

/-- **C80** (regular polygons).  A regular polygon lies in the circle through its vertices. -/
theorem C80_regular_polygon (eps tiny : ℝ) (heps : 0 ≤ eps) (num : Nat) (radius angle : ℝ) (s : PyShape) (hs : regularPolygon eps tiny num radius angle = .ok s)
    (hr : Resolved eps tiny (s.vertices.map xy)) (p : Vec) (hp : s.contains p = true) : Enclosed 2 s ∧ p 0 ^ 2 + p 1 ^ 2 ≤ radius ^ 2 := by
  unfold regularPolygon at hs
  have hv : s.vertices = (List.range num).map fun n : Nat =>
      ![radius * Real.sin (angle + 2 * n * Real.pi / num), radius * Real.cos (angle + 2 * n * Real.pi / num), 0] := by
    unfold polygon at hs
    split at hs
    · cases hs
    · rw [Res.ok.injEq] at hs
      rw [← hs]
  rw [hv] at hr
  have he := C80_polygon eps tiny heps _ hr s hs
  refine ⟨he, ?_⟩
  obtain ⟨v, hvm, hle⟩ := he p hp ![-p 0, -p 1, 0] (by
    intro i hi
    fin_cases i <;> simp at hi ⊢)
  rw [hv] at hvm
  obtain ⟨n, -, rfl⟩ := List.mem_map.1 hvm
  simp only [dot, Matrix.cons_val_zero, Matrix.cons_val_one, Matrix.cons_val_two, Matrix.head_cons, Matrix.tail_cons, zero_mul, add_zero] at hle
  set a := angle + 2 * (n : ℝ) * Real.pi / num
  have h1 := Real.sin_sq_add_cos_sq a
  have h2 : (radius * Real.sin a) ^ 2 + (radius * Real.cos a) ^ 2 = radius ^ 2 := by
    have : (radius * Real.sin a) ^ 2 + (radius * Real.cos a) ^ 2 = radius ^ 2 * (Real.sin a ^ 2 + Real.cos a ^ 2) := by ring
    rw [this, h1, mul_one]
  nlinarith [sq_nonneg (p 0 - radius * Real.sin a), sq_nonneg (p 1 - radius * Real.cos a)]

/-! ## Freeform shapes and circles -/

/-- **C80** (freeform shapes).  A freeform shape is enclosed if its function is true only in the box. -/
theorem C80_freeform (f : Freeform) (w c : Vec) (hw : loadVec f.width = some w) (hc : loadVec f.center = some c) (n : Nat)
    (hbox : ∀ p, f.contains p = true → ∀ i : Fin 3, i.val < n → |p i - c i| ≤ w i / 2) :
    ∃ s, f.shape = some s ∧ s.contains = f.contains ∧ Enclosed n s := by
  refine ⟨⟨freeformVertices w c, f.contains⟩, by unfold Freeform.shape; rw [hw, hc], rfl, ?_⟩
  intro p hp u hu
  refine ⟨fun i => if 0 ≤ u i then c i - w i / 2 else c i + w i / 2, ?_, ?_⟩
  · rw [C57_freeform_corners]
    intro i
    by_cases h : 0 ≤ u i
    · exact .inl (if_pos h)
    · exact .inr (if_neg h)
  · have key : ∀ i : Fin 3, u i * (if 0 ≤ u i then c i - w i / 2 else c i + w i / 2) ≤ u i * p i := by
      intro i
      by_cases hi : i.val < n
      · have hb := abs_le.1 (hbox p hp i hi)
        split
        · rename_i h
          exact mul_le_mul_of_nonneg_left (by linarith) h
        · rename_i h
          exact mul_le_mul_of_nonpos_left (by linarith) (not_le.1 h).le
      · rw [hu i (not_lt.1 hi)]
        simp
    unfold dot
    linarith [key 0, key 1, key 2]

/-- **C80** (circles).  A circle contains exactly the points nearer to its center than the radius, at any height, and it is enclosed by its box. -/
theorem C80_circle (radius cx cy : ℝ) : ∃ s, (circle radius cx cy).shape = some s ∧ Enclosed 2 s ∧
    ∀ p, s.contains p = true ↔ 0 < radius ∧ (p 0 - cx) ^ 2 + (p 1 - cy) ^ 2 < radius ^ 2 := by
  have hcon : ∀ p, (circle radius cx cy).contains p = true ↔ 0 < radius ∧ (p 0 - cx) ^ 2 + (p 1 - cy) ^ 2 < radius ^ 2 := by
    intro p
    simp only [circle, decide_eq_true_eq]
    have hn : 0 ≤ (p 0 - cx) ^ 2 + (p 1 - cy) ^ 2 := by positivity
    constructor
    · intro h
      have hr : 0 < radius := lt_of_le_of_lt (Real.sqrt_nonneg _) h
      exact ⟨hr, (Real.sqrt_lt hn hr.le).1 h⟩
    · rintro ⟨hr, h⟩
      exact (Real.sqrt_lt hn hr.le).2 h
  obtain ⟨s, h1, h2, h3⟩ := C80_freeform (circle radius cx cy) (fun i => [2 * radius, 2 * radius].getD i 0) (fun i => [cx, cy].getD i 0) rfl rfl 2 (by
    intro p hp i hi
    obtain ⟨hr, h⟩ := (hcon p).1 hp
    have hb : ∀ a b : ℝ, a ^ 2 + b ^ 2 < radius ^ 2 → |a| ≤ radius := by
      intro a b hab
      exact abs_le_of_sq_le_sq (by nlinarith [sq_nonneg b]) hr.le
    have h0 := hb _ _ h
    have h1 := hb _ _ (by rw [add_comm] at h; exact h)
    fin_cases i
    · simpa using h0
    · simpa using h1
    · simp at hi)
  refine ⟨s, h1, h3, ?_⟩
  intro p
  rw [h2]
  exact hcon p

/-! ## Compositions -/

/-- **C80** (compositions).  The composition of two enclosed shapes of the plane is enclosed, and contains the points which the operator says. -/
theorem C80_composite (hull : Hull) (n : Nat) (hn : n ≤ 2) (s1 s2 s : PyShape) (op : Bool → Bool → Bool) (hop : op false false = false)
    (h1 : Enclosed n s1) (h2 : Enclosed n s2) (hs : composite hull s1 s2 op = .ok s) :
    Enclosed n s ∧ ∀ p, s.contains p = op (s1.contains p) (s2.contains p) := by
  unfold composite at hs
  rcases hh : hull.run ((s1.vertices ++ s2.vertices).map fun v => (v 0, v 1)) with vs | e | _
  · rw [hh, Res.bind_ok] at hs
    rcases hcv : checkVertices vs with _ | e | _
    · rw [hcv, Res.bind_ok] at hs
      have hs : Res.ok (⟨vs.map fun v => ![v.1, v.2, 0], fun p => op (s1.contains p) (s2.contains p)⟩ : PyShape) = .ok s := hs
      rw [Res.ok.injEq] at hs
      subst hs
      refine ⟨?_, fun p => rfl⟩
      intro p hp u hu
      have hu2 : u 2 = 0 := hu 2 hn
      have hv : ∃ v ∈ s1.vertices ++ s2.vertices, dot u v ≤ dot u p := by
        simp only at hp
        cases c1 : s1.contains p with
        | true =>
          obtain ⟨v, hv, hle⟩ := h1 p c1 u hu
          exact ⟨v, List.mem_append_left _ hv, hle⟩
        | false =>
          cases c2 : s2.contains p with
          | true =>
            obtain ⟨v, hv, hle⟩ := h2 p c2 u hu
            exact ⟨v, List.mem_append_right _ hv, hle⟩
          | false =>
            rw [c1, c2, hop] at hp
            cases hp
      obtain ⟨v, hv, hle⟩ := hv
      obtain ⟨q, hq, hqle⟩ := hull.extreme _ _ hh (v 0, v 1) (List.mem_map.2 ⟨v, hv, rfl⟩) (u 0) (u 1)
      refine ⟨![q.1, q.2, 0], List.mem_map.2 ⟨q, hq, rfl⟩, ?_⟩
      unfold dot at hle ⊢
      rw [hu2] at hle ⊢
      simp only [Matrix.cons_val_zero, Matrix.cons_val_one, zero_mul, add_zero] at hle hqle ⊢
      linarith
    · rw [hcv, Res.bind_err] at hs
      cases hs
    · rw [hcv, Res.bind_ub] at hs
      cases hs
  · rw [hh, Res.bind_err] at hs
    cases hs
  · rw [hh, Res.bind_ub] at hs
    cases hs

/-- **C80** (operators).  Intersection, union, difference and symmetric difference of enclosed shapes of the plane are what their names say. -/
theorem C80_operators (hull : Hull) (n : Nat) (hn : n ≤ 2) (s1 s2 s : PyShape) (h1 : Enclosed n s1) (h2 : Enclosed n s2) :
    (shapeAnd hull s1 s2 = .ok s → Enclosed n s ∧ ∀ p, s.contains p = true ↔ s1.contains p = true ∧ s2.contains p = true) ∧
    (shapeOr hull s1 s2 = .ok s → Enclosed n s ∧ ∀ p, s.contains p = true ↔ s1.contains p = true ∨ s2.contains p = true) ∧
    (shapeAdd hull s1 s2 = .ok s → Enclosed n s ∧ ∀ p, s.contains p = true ↔ s1.contains p = true ∨ s2.contains p = true) ∧
    (shapeXor hull s1 s2 = .ok s → Enclosed n s ∧ ∀ p, s.contains p = true ↔ ¬ (s1.contains p = true ↔ s2.contains p = true)) ∧
    (shapeSub hull s1 s2 = .ok s → Enclosed n s ∧ ∀ p, s.contains p = true ↔ s1.contains p = true ∧ ¬ s2.contains p = true) := by
  refine ⟨fun h => ?_, fun h => ?_, fun h => ?_, fun h => ?_, fun h => ?_⟩ <;>
    obtain ⟨he, hp⟩ := C80_composite hull n hn s1 s2 s _ rfl h1 h2 h <;>
    refine ⟨he, fun p => ?_⟩ <;> rw [hp] <;> cases s1.contains p <;> cases s2.contains p <;> simp

/-! ## Offsets -/

theorem moveBack_add (p : Vec) (v : List ℝ) (w : Vec) (hw : loadVec v = some w) : moveBack (p + w) v = p := by
  unfold loadVec at hw
  split at hw
  · cases hw
  · rw [Option.some.injEq] at hw
    subst hw
    funext i
    unfold moveBack
    split
    · simp
    · rename_i h
      rw [Pi.add_apply, List.getD_eq_getElem?_getD, List.getElem?_eq_none (not_lt.1 h), Option.getD_none, add_zero]

/-- **C80** (moved compositions).  The shape contains the moved points, and stays enclosed. -/
theorem C80_composite_offset (s s' : PyShape) (v : List ℝ) (w : Vec) (hw : loadVec v = some w) (hs : compositeOffset s v = .ok s') :
    (∀ p, s'.contains (p + w) = s.contains p) ∧ ∀ n, Enclosed n s → Enclosed n s' := by
  unfold compositeOffset at hs
  rw [hw] at hs
  rcases hcv : checkVertices s.vertices with _ | e | _
  · simp only [hcv, Res.bind_ok] at hs
    have hs : Res.ok (⟨s.vertices.map (· + w), fun p => s.contains (moveBack p v)⟩ : PyShape) = .ok s' := hs
    rw [Res.ok.injEq] at hs
    subst hs
    have h1 : ∀ p, s.contains (moveBack (p + w) v) = s.contains p := fun p => by rw [moveBack_add p v w hw]
    refine ⟨h1, ?_⟩
    intro n he p hp u hu
    have hp' : s.contains (p - w) = true := by
      rw [← h1, sub_add_cancel]
      exact hp
    obtain ⟨x, hx, hle⟩ := he (p - w) hp' u hu
    refine ⟨x + w, List.mem_map.2 ⟨x, hx, rfl⟩, ?_⟩
    unfold dot at hle ⊢
    simp only [Pi.sub_apply, Pi.add_apply] at hle ⊢
    linarith
  · simp only [hcv, Res.bind_err] at hs
    cases hs
  · simp only [hcv, Res.bind_ub] at hs
    cases hs

/-- **C80** (moved polygons). -/
theorem C80_polygon_offset (eps tiny : ℝ) (heps : 0 ≤ eps) (vs : List Vec) (s s' : PyShape) (v : List ℝ) (w : Vec) (hw : loadVec v = some w)
    (h : polygon eps tiny vs = .ok s) (hs : polygonOffset eps tiny s v = .ok s') (hr : Resolved eps tiny (s.vertices.map xy))
    (hr' : Resolved eps tiny (s'.vertices.map xy)) : (∀ p, s'.contains (p + w) = s.contains p) ∧ Enclosed 2 s' := by
  unfold polygonOffset at hs
  rw [hw] at hs
  have hp : s = ⟨vs, fun p => within eps tiny (vs.map xy) (xy p)⟩ := by
    unfold polygon at h
    split at h
    · cases h
    · rw [Res.ok.injEq] at h
      exact h.symm
  subst hp
  simp only at hs hr
  have hp' : s' = ⟨vs.map (· + w), fun p => within eps tiny ((vs.map (· + w)).map xy) (xy p)⟩ := by
    unfold polygon at hs
    split at hs
    · cases hs
    · rw [Res.ok.injEq] at hs
      exact hs.symm
  subst hp'
  simp only at hr'
  refine ⟨?_, C80_polygon eps tiny heps _ hr' _ hs⟩
  intro p
  have e : (vs.map (· + w)).map xy = (vs.map xy).map (Pt.shift (xy w)) := by
    rw [List.map_map, List.map_map]
    rfl
  simp only
  rw [e] at hr' ⊢
  exact C39_translation eps tiny heps (vs.map xy) (xy p) (xy w) hr hr'

/-- **C80** (moved freeform shapes, partial).  If the offset has as many components as the center, the box moves with the shape.  Missing: other numbers of components,
where the box may be left behind, see `C80_freeform_offset_witness`. -/
theorem C80_freeform_offset_partial (f f' : Freeform) (v : List ℝ) (w wd c : Vec) (hw : loadVec v = some w) (hwd : loadVec f.width = some wd)
    (hc : loadVec f.center = some c) (hlen : f.center.length = v.length) (hs : f.withOffset v = .ok f') (n : Nat)
    (hbox : ∀ p, f.contains p = true → ∀ i : Fin 3, i.val < n → |p i - c i| ≤ wd i / 2) :
    ∃ s, f'.shape = some s ∧ (∀ p, s.contains (p + w) = f.contains p) ∧ Enclosed n s := by
  unfold Freeform.withOffset at hs
  have hb : broadcastAdd (f.center.take v.length) v = .ok (List.zipWith (· + ·) f.center v) := by
    unfold broadcastAdd
    rw [← hlen, List.take_length, if_pos rfl]
  rw [hb, Res.bind_ok] at hs
  have hs : Res.ok (⟨fun p => f.contains (moveBack p v), f.width, List.zipWith (· + ·) f.center v⟩ : Freeform) = .ok f' := hs
  rw [Res.ok.injEq] at hs
  subst hs
  have hc3 : f.center.length ≤ 3 := by
    unfold loadVec at hc
    split at hc
    · cases hc
    · omega
  have hcw : loadVec (List.zipWith (· + ·) f.center v) = some (c + w) := by
    unfold loadVec at hc hw ⊢
    rw [if_neg (by omega), Option.some.injEq] at hc hw
    rw [if_neg (by rw [List.length_zipWith]; omega), Option.some.injEq]
    subst hc
    subst hw
    funext i
    rw [Pi.add_apply]
    simp only [List.getD_eq_getElem?_getD, List.getElem?_zipWith]
    by_cases hi : i.val < v.length
    · rw [List.getElem?_eq_getElem (by omega), List.getElem?_eq_getElem hi]
      rfl
    · rw [List.getElem?_eq_none (by omega), List.getElem?_eq_none (by omega)]
      simp
  obtain ⟨s, h1, h2, h3⟩ := C80_freeform ⟨fun p => f.contains (moveBack p v), f.width, List.zipWith (· + ·) f.center v⟩ wd (c + w) hwd hcw n (by
    intro p hp i hi
    have : p = p - w + w := by rw [sub_add_cancel]
    simp only at hp
    rw [this, moveBack_add _ v w hw] at hp
    have := hbox _ hp i hi
    rw [Pi.sub_apply, sub_sub, add_comm] at this
    exact this)
  refine ⟨s, h1, ?_, h3⟩
  intro p
  rw [h2]
  exact congrArg f.contains (moveBack_add p v w hw)

/-- **C80** (moved freeform shapes): with fewer components the height of the center is forgotten; a single number as a center is added to all components of the
offset. -/
theorem C80_freeform_offset_witness (contains : Vec → Bool) (width : List ℝ) :
    (∃ f', (Freeform.mk contains width [0, 0, 5]).withOffset [1, 0] = .ok f' ∧ f'.center = [1, 0]) ∧
    ∃ f', (Freeform.mk contains width [3]).withOffset [1, 2] = .ok f' ∧ f'.center = [4, 5] := by
  constructor
  · refine ⟨_, rfl, ?_⟩
    norm_num
  · refine ⟨_, rfl, ?_⟩
    norm_num

/-- **C80** (moved lines): a line is moved as it should only if both components of the offset are equal. -/
theorem C80_line_offset (a0 a1 b0 b1 v0 v1 : ℝ) :
    (PyLine.make [a0, a1] [b0, b1]).withOffset [v0, v1] = .ok (PyLine.make [a0 + v0, a1 + v1] [b0 + v0, b1 + v1]) ↔ v0 = v1 := by
  simp only [PyLine.make, resize2, PyLine.withOffset, List.cons_append, List.nil_append, List.take_succ_cons, List.take_zero, List.map_cons, List.map_nil,
    Res.ok.injEq, PyLine.mk.injEq, List.cons.injEq, and_true, true_and, add_right_inj]
  constructor
  · rintro ⟨h, -⟩
    exact h
  · rintro rfl
    exact ⟨rfl, rfl⟩

/-- **C80** (moved lines): the ends of a moved line, whatever the offset. -/
theorem C80_line_ends (a0 a1 b0 b1 v0 v1 : ℝ) :
    (PyLine.make [a0, a1] [b0, b1]).withOffset [v0, v1] = .ok (PyLine.make [a0 + v0, a1 + v0] [b0 + v1, b1 + v1]) := by
  simp [PyLine.make, resize2, PyLine.withOffset]

/-- **C80** (polygons): fewer than three vertices are refused, and only these. -/
theorem C80_vertices (eps tiny : ℝ) (vs : List Vec) :
    (vs.length < 3 → polygon eps tiny vs = .err .runtimeError) ∧
    (3 ≤ vs.length → ∃ s, polygon eps tiny vs = .ok s ∧ s.vertices = vs) := by
  unfold polygon
  constructor
  · intro h
    rw [if_pos h]
  · intro h
    rw [if_neg (by omega)]
    exact ⟨_, rfl, rfl⟩

/-! ## The sites of the system -/

theorem bounds_zeros {α : Type} (l : List α) : boundsLoop (l.map fun _ => (0 : ℝ)) 0 0 = (0, 0) := by
  induction l with
  | nil => rfl
  | cons a l ih =>
    have ht : Foundation.truncate (0 : ℝ) = 0 := by simp [Foundation.truncate]
    simpa [boundsLoop, ht] using ih

theorem bounds_zeros_of_ne {α : Type} (l : List α) (hl : l ≠ []) (intMax intMin : Int) (h1 : 0 ≤ intMax) (h2 : intMin ≤ 0) :
    boundsLoop (l.map fun _ => (0 : ℝ)) intMax intMin = (0, 0) := by
  rcases l with _ | ⟨a, l⟩
  · exact absurd rfl hl
  · have ht : Foundation.truncate (0 : ℝ) = 0 := by simp [Foundation.truncate]
    have e1 : (if 0 < intMax then 0 else intMax) = 0 := by split <;> omega
    have e2 : (if intMin < 0 then 0 else intMin) = 0 := by split <;> omega
    simp only [List.map_cons, boundsLoop, ht, e1, e2]
    exact bounds_zeros l

theorem dot_row (n : Nat) (hn : n ≤ 3) (r : Fin n → ℝ) (v : Vec) :
    dot (fun k => if h : k.val < n then r ⟨k.val, h⟩ else 0) v = ∑ j : Fin n, r j * v (j.castLE hn) := by
  interval_cases n
  · simp [dot]
  · simp [dot]
  · simp [dot, Fin.sum_univ_succ]
  · simp [dot, Fin.sum_univ_succ, add_assoc]

theorem mapM_translate (vectors : List Vec) (hd : vectors.length ≤ 3) (hdet : (latticeMatrix vectors hd).det ≠ 0) (l : List Vec) :
    l.mapM (translateCoordinates vectors hd) = some (l.map fun v => (latticeMatrix vectors hd)⁻¹.mulVec (head vectors.length hd v)) := by
  induction l with
  | nil => rfl
  | cons a l ih =>
    rw [List.mapM_cons, ih]
    have : translateCoordinates vectors hd a = some ((latticeMatrix vectors hd)⁻¹.mulVec (head vectors.length hd a)) := by
      unfold translateCoordinates
      simp only
      rw [if_neg hdet]
    rw [this]
    rfl

/-- **C80** (sites).  The system made with an enclosed shape has exactly those sites of the infinite lattice which the shape contains, each at one place of the foundation.
Partial: the lattice coordinates of offset plus position in the unit cell must not exceed one in magnitude, otherwise sites are lost (`C19_exact`); the shape must
be enclosed by its vertices, otherwise sites are lost too (`C80_height_witness`). -/
theorem C80_sites_partial (intMax intMin : Int) (h1 : 0 ≤ intMax) (h2 : intMin ≤ 0) (vectors : List Vec) (hn : 0 < vectors.length) (hd : vectors.length ≤ 3)
    (hdet : (latticeMatrix vectors hd).det ≠ 0) (offset : Vec) (subs : List Vec)
    (hone : ∀ sub ∈ subs, ∀ δ, translateCoordinates vectors hd (offset + sub) = some δ → ∀ i, |δ i| ≤ 1)
    (s : PyShape) (hs : Enclosed vectors.length s) (hv : s.vertices ≠ []) :
    ∃ f, shapeFoundation intMax intMin vectors hd offset subs s = some (.ok f) ∧
      f.positions.length = (sites f.dims subs.length).length ∧ f.valid = f.positions.map s.contains ∧
      ∀ (a b c : Int), (vectors.length ≤ 1 → b = 0) → (vectors.length ≤ 2 → c = 0) → ∀ (j : Nat) (sub : Vec), subs[j]? = some sub →
        (s.contains (calcPosition vectors offset [a, b, c] sub) = true ↔
          ∃ (k : Nat) (site : Foundation.Site), (sites f.dims subs.length)[k]? = some site ∧ site.loc = ⟨⟨a - f.lo.x, b - f.lo.y, c - f.lo.z⟩, j⟩ ∧
            f.positions[k]? = some (calcPosition vectors offset [a, b, c] sub) ∧ f.valid[k]? = some true) := by
  have hm := mapM_translate vectors hd hdet s.vertices
  set cs := s.vertices.map fun v => (latticeMatrix vectors hd)⁻¹.mulVec (head vectors.length hd v) with hcs
  have hcsne : cs ≠ [] := by
    rw [hcs]
    simpa using hv
  have hflat : ∀ i, vectors.length ≤ i → axisBounds intMax intMin cs i = (0, 0) := by
    intro i hi
    unfold axisBounds
    rw [dif_neg (not_lt.2 hi)]
    exact bounds_zeros_of_ne cs hcsne intMax intMin h1 h2
  set bx := axisBounds intMax intMin cs 0 with hbx
  set y := axisBounds intMax intMin cs 1 with hy
  set z := axisBounds intMax intMin cs 2 with hz
  have hdy : 1 < (y.2 - y.1 + 1).toNat → 1 < vectors.length := by
    intro h
    by_contra hc
    rw [hflat 1 (by omega)] at hy
    rw [hy] at h
    simp at h
  have hdz : 1 < (z.2 - z.1 + 1).toNat → 2 < vectors.length := by
    intro h
    by_contra hc
    rw [hflat 2 (by omega)] at hz
    rw [hz] at h
    simp at h
  obtain ⟨ps, hps, hlen, hget⟩ := Foundation.C14_positions vectors ⟨hn, hd⟩ offset ⟨bx.1, y.1, z.1⟩
    ⟨(bx.2 - bx.1 + 1).toNat, (y.2 - y.1 + 1).toNat, (z.2 - z.1 + 1).toNat⟩ hdy hdz subs
  refine ⟨⟨⟨bx.1, y.1, z.1⟩, ⟨(bx.2 - bx.1 + 1).toNat, (y.2 - y.1 + 1).toNat, (z.2 - z.1 + 1).toNat⟩, ps, ps.map s.contains⟩, ?_, hlen, rfl, ?_⟩
  · unfold shapeFoundation
    rw [hm]
    simp only
    rw [← hbx, ← hy, ← hz, hps]
    rfl
  intro a b c hb hc j sub hj
  simp only
  constructor
  · intro hcon
    -- the index lies in the bounds
    have hcov : ∀ i (hi : i < vectors.length), (axisBounds intMax intMin cs i).1 ≤ [a, b, c][i]'(by simp; omega) ∧
        [a, b, c][i]'(by simp; omega) ≤ (axisBounds intMax intMin cs i).2 := by
      intro i hi
      unfold axisBounds
      rw [dif_pos hi]
      obtain ⟨δ, hδ⟩ : ∃ δ, translateCoordinates vectors hd (offset + sub) = some δ := by
        unfold translateCoordinates
        simp only
        rw [if_neg hdet]
        exact ⟨_, rfl⟩
      refine Foundation.C19_bounds_partial vectors hd hdet offset sub δ hδ (hone sub (List.mem_of_getElem? hj) δ hδ) intMax intMin cs [a, b, c]
        (by simp; omega) ((latticeMatrix vectors hd)⁻¹.mulVec (head vectors.length hd (calcPosition vectors offset [a, b, c] sub))) ?_ ?_ ⟨i, hi⟩
      · unfold translateCoordinates
        simp only
        rw [if_neg hdet]
      · intro i
        have hrow : ∀ w : Vec, dot (fun k => if h : k.val < vectors.length then (latticeMatrix vectors hd)⁻¹ i ⟨k.val, h⟩ else 0) w =
            (latticeMatrix vectors hd)⁻¹.mulVec (head vectors.length hd w) i := by
          intro w
          rw [dot_row vectors.length hd]
          rfl
        have hneg : ∀ w : Vec, dot (fun k => if h : k.val < vectors.length then -(latticeMatrix vectors hd)⁻¹ i ⟨k.val, h⟩ else 0) w =
            -(latticeMatrix vectors hd)⁻¹.mulVec (head vectors.length hd w) i := by
          intro w
          rw [← hrow w]
          unfold dot
          have : ∀ k : Fin 3, (if h : k.val < vectors.length then -(latticeMatrix vectors hd)⁻¹ i ⟨k.val, h⟩ else 0) =
              -(if h : k.val < vectors.length then (latticeMatrix vectors hd)⁻¹ i ⟨k.val, h⟩ else 0) := by
            intro k
            split <;> simp
          simp only [this]
          ring
        constructor
        · obtain ⟨v, hvm, hle⟩ := hs _ hcon (fun k => if h : k.val < vectors.length then (latticeMatrix vectors hd)⁻¹ i ⟨k.val, h⟩ else 0) (by
            intro k hk
            exact dif_neg (not_lt.2 hk))
          rw [hrow, hrow] at hle
          exact ⟨_, List.mem_map.2 ⟨v, hvm, rfl⟩, hle⟩
        · obtain ⟨v, hvm, hle⟩ := hs _ hcon (fun k => if h : k.val < vectors.length then -(latticeMatrix vectors hd)⁻¹ i ⟨k.val, h⟩ else 0) (by
            intro k hk
            exact dif_neg (not_lt.2 hk))
          rw [hneg, hneg] at hle
          exact ⟨_, List.mem_map.2 ⟨v, hvm, rfl⟩, by linarith⟩
    have hx' : bx.1 ≤ a ∧ a ≤ bx.2 := hcov 0 hn
    have hy' : y.1 ≤ b ∧ b ≤ y.2 := by
      by_cases h : 1 < vectors.length
      · exact hcov 1 h
      · rw [hy, hflat 1 (by omega), hb (by omega)]
        simp
    have hz' : z.1 ≤ c ∧ c ≤ z.2 := by
      by_cases h : 2 < vectors.length
      · exact hcov 2 h
      · rw [hz, hflat 2 (by omega), hc (by omega)]
        simp
    have hmem := ((Foundation.C14_sites ⟨(bx.2 - bx.1 + 1).toNat, (y.2 - y.1 + 1).toNat, (z.2 - z.1 + 1).toNat⟩ subs.length).2.1
      ⟨⟨a - bx.1, b - y.1, c - z.1⟩, j⟩).2 (by
        have := (List.getElem?_eq_some_iff.1 hj).1
        simp only
        omega)
    obtain ⟨site, hsite, hloc⟩ := List.mem_map.1 hmem
    obtain ⟨k, hk⟩ := List.mem_iff_getElem?.1 hsite
    have hp := hget k site sub hk (by rw [hloc]; exact hj)
    rw [hloc] at hp
    simp only [add_sub_cancel] at hp
    refine ⟨k, site, hk, hloc, hp, ?_⟩
    rw [List.getElem?_map, hp, Option.map_some, hcon]
  · rintro ⟨k, site, -, -, hp, hval⟩
    rw [List.getElem?_map, hp, Option.map_some, Option.some.injEq] at hval
    exact hval

/-- **C80** (heights): a composition forgets the third component of the vertices.  In the cubic lattice its system has three layers of sites only, however high the shapes are. -/
theorem C80_height_witness (hull : Hull) (s1 s2 s : PyShape) (op : Bool → Bool → Bool) (hs : composite hull s1 s2 op = .ok s) (intMax intMin : Int)
    (h1 : 0 ≤ intMax) (h2 : intMin ≤ 0) (f : ShapeFoundation)
    (hf : shapeFoundation intMax intMin [![1, 0, 0], ![0, 1, 0], ![0, 0, 1]] le_rfl 0 [0] s = some (.ok f)) : f.lo.z = -1 ∧ f.dims.sz = 3 := by
  have hvs : s.vertices ≠ [] ∧ ∀ v ∈ s.vertices, v 2 = 0 := by
    unfold composite at hs
    rcases hh : hull.run ((s1.vertices ++ s2.vertices).map fun v => (v 0, v 1)) with vs | e | _
    · rw [hh, Res.bind_ok] at hs
      rcases hcv : checkVertices vs with _ | e | _
      · rw [hcv, Res.bind_ok] at hs
        have hs : Res.ok (⟨vs.map fun v => ![v.1, v.2, 0], fun p => op (s1.contains p) (s2.contains p)⟩ : PyShape) = .ok s := hs
        rw [Res.ok.injEq] at hs
        subst hs
        constructor
        · rcases vs with _ | ⟨v, vs⟩
          · simp [checkVertices] at hcv
          · simp
        · intro v hv
          obtain ⟨q, -, rfl⟩ := List.mem_map.1 hv
          rfl
      · rw [hcv, Res.bind_err] at hs
        cases hs
      · rw [hcv, Res.bind_ub] at hs
        cases hs
    · rw [hh, Res.bind_err] at hs
      cases hs
    · rw [hh, Res.bind_ub] at hs
      cases hs
  have hmat : latticeMatrix [![(1 : ℝ), 0, 0], ![0, 1, 0], ![0, 0, 1]] le_rfl = 1 := by
    funext i j
    change Fin 3 at i j
    fin_cases i <;> fin_cases j <;> rfl
  have hm := mapM_translate [![1, 0, 0], ![0, 1, 0], ![0, 0, 1]] le_rfl (by rw [hmat, Matrix.det_one]; exact one_ne_zero) s.vertices
  unfold shapeFoundation at hf
  rw [hm, hmat] at hf
  have hz : axisBounds intMax intMin (s.vertices.map fun v => (1 : Matrix (Fin 3) (Fin 3) ℝ)⁻¹.mulVec (head 3 le_rfl v)) 2 = (-1, 1) := by
    unfold axisBounds
    rw [dif_pos (by decide)]
    have : ((s.vertices.map fun v => (1 : Matrix (Fin 3) (Fin 3) ℝ)⁻¹.mulVec (head 3 le_rfl v)).map fun c => c ⟨2, by decide⟩) = s.vertices.map fun _ => (0 : ℝ) := by
      rw [List.map_map]
      apply List.map_congr_left
      intro v hv
      simp only [Function.comp, inv_one, Matrix.one_mulVec]
      exact hvs.2 v hv
    rw [this]
    unfold findBounds
    rw [bounds_zeros_of_ne _ hvs.1 _ _ h1 h2]
    rfl
  simp only [Option.some.injEq] at hf
  revert hf
  rcases generatePositions (F := ℝ) _ _ _ _ with ps | e | _ <;> intro hf
  · rw [Res.bind_ok] at hf
    cases hf
    exact ⟨congrArg Prod.fst hz, by
      change ((axisBounds intMax intMin (s.vertices.map fun v => (1 : Matrix (Fin 3) (Fin 3) ℝ)⁻¹.mulVec (head 3 le_rfl v)) 2).2 - (axisBounds intMax intMin (s.vertices.map fun v => (1 : Matrix (Fin 3) (Fin 3) ℝ)⁻¹.mulVec (head 3 le_rfl v)) 2).1 + 1).toNat = 3
      rw [hz]
      rfl⟩
  · rw [Res.bind_err] at hf
    cases hf
  · rw [Res.bind_ub] at hf
    cases hf

/-! ## Examples -/

/-- A rectangle of size 4 times 2. -/
example : ∃ s, rectangle 0 0 4 (some 2) = .ok s ∧ s.contains ![2, 0, 0] = true ∧ s.contains ![-2, 0, 0] = false ∧ s.contains ![0, -1, 7] = true := by
  obtain ⟨s, h1, -, h3⟩ := C80_rectangle 4 (some 2) 2 (by norm_num) (by norm_num) (by norm_num)
  refine ⟨s, h1, (h3 _).2 (by simp; norm_num), ?_, (h3 _).2 (by simp; norm_num)⟩
  rw [Bool.eq_false_iff]
  intro h
  have := ((h3 _).1 h).1
  simp at this
  norm_num at this

/-- A ring: the difference of two circles, for any convex hull which succeeds. -/
example (hull : Hull) (s1 s2 s : PyShape) (h1 : (circle 3 0 0).shape = some s1) (h2 : (circle 1 0 0).shape = some s2) (hs : shapeSub hull s1 s2 = .ok s) :
    Enclosed 2 s ∧ s.contains ![2, 0, 0] = true ∧ s.contains ![0, 0, 0] = false := by
  obtain ⟨t1, e1, n1, c1⟩ := C80_circle 3 0 0
  obtain ⟨t2, e2, n2, c2⟩ := C80_circle 1 0 0
  rw [h1, Option.some.injEq] at e1
  rw [h2, Option.some.injEq] at e2
  subst e1
  subst e2
  obtain ⟨he, hp⟩ := (C80_operators hull 2 le_rfl s1 s2 s n1 n2).2.2.2.2 hs
  refine ⟨he, (hp _).2 ⟨(c1 _).2 (by simp; norm_num), fun h => ?_⟩, ?_⟩
  · have := ((c2 _).1 h).2
    norm_num at this
  · rw [Bool.eq_false_iff]
    intro h
    exact ((hp _).1 h).2 ((c2 _).2 (by simp))

/-- A circle in the square lattice: the hypotheses about lattice and shape hold, and the site `(1, 1)` is in the system. -/
example : ∃ s f, (circle 2 0 0).shape = some s ∧ shapeFoundation 2147483647 (-2147483648) [![1, 0, 0], ![0, 1, 0]] (by decide) 0 [0] s = some (.ok f) ∧
    ∃ k : Nat, f.positions[k]? = some (calcPosition [![1, 0, 0], ![0, 1, 0]] 0 [1, 1, 0] 0) ∧ f.valid[k]? = some true := by
  obtain ⟨s, h1, h2, h3⟩ := C80_circle 2 0 0
  have hmat : latticeMatrix [![(1 : ℝ), 0, 0], ![0, 1, 0]] (by decide) = 1 := by
    funext i j
    change Fin 2 at i j
    fin_cases i <;> fin_cases j <;> rfl
  have hv : s.vertices ≠ [] := by
    obtain ⟨v, hv, -⟩ := h2 0 ((h3 _).2 (by simp)) 0 (by simp)
    exact List.ne_nil_of_mem hv
  obtain ⟨f, hf, -, -, hsites⟩ := C80_sites_partial 2147483647 (-2147483648) (by decide) (by decide) [![1, 0, 0], ![0, 1, 0]] (by decide) (by decide)
    (by rw [hmat, Matrix.det_one]; exact one_ne_zero) 0 [0] (by
      intro sub hsub δ hδ i
      rw [List.mem_singleton.1 hsub] at hδ
      unfold translateCoordinates at hδ
      simp only at hδ
      split at hδ
      · cases hδ
      · rw [Option.some.injEq] at hδ
        rw [← hδ, add_zero]
        have : head [![(1 : ℝ), 0, 0], ![0, 1, 0]].length (by decide) (0 : Vec) = 0 := by
          funext i
          rfl
        rw [this, Matrix.mulVec_zero]
        simp) s h2 hv
  obtain ⟨k, site, -, -, hp, hval⟩ := (hsites 1 1 0 (by decide) (by decide) 0 0 rfl).1 ((h3 _).2 (by
    simp [calcPosition, Lattice.bravais]
    norm_num))
  exact ⟨s, f, h1, hf, k, hp, hval⟩

end Verif.Shape
