import Verif.Basic
import Mathlib.Data.List.Sort
import Mathlib.Algebra.Order.Field.Rat
import Mathlib.Algebra.Order.AbsoluteValue.Basic
import Mathlib.Tactic.Linarith
import Mathlib.Tactic.Positivity
import Mathlib.Tactic.Ring
import Mathlib.Tactic.NormNum
import Mathlib.Tactic.FieldSimp

/-!
# Colors and sizes of sites and hoppings in plots (C112)

Source: `pybinding/pltutils.py`, `pybinding/system.py`, `pybinding/results.py`.
-/

namespace Verif.Colors

variable {α : Type}

/-! ## Model -/

/-- `BoundaryNorm` of matplotlib (from its documentation) with one color for each interval: the index of the last bound which is not above the value, pltutils.py:398.  The last bound, infinity, is left
out. -/
def binOf (bounds : List Int) (v : Int) : Nat := (bounds.filter (fun b => decide (b ≤ v))).length - 1

/-- The bounds for integer data, `np.arange(data.max() + 1)`, pltutils.py:393-394. -/
def bounds (maximum : Nat) : List Int := List.map (fun k : Nat => (k : Int)) (List.range (maximum + 1))

/-- `ListedColormap` of matplotlib (from its documentation): indices above the last color give the last color, pltutils.py:390. -/
def pick (colors : List α) (k : Nat) : Option α := if k < colors.length then colors[k]? else colors.getLast?

/-- The color of integer data, `direct_cmap_norm`, pltutils.py:367-399, used in system.py:268, 371. -/
def colorOf (colors : List α) (maximum : Nat) (id : Nat) : Option α := pick colors (binOf (bounds maximum) id)

/-- `to_radii` for one value, results.py:443-453, with the smallest and largest value of the data; `np.allclose(maximum, 0)` is a difference of at most 1e-8. -/
def radiusOf (r0 r1 lo hi v : ℚ) : ℚ := if |hi - lo| ≤ 1 / 10 ^ 8 then r1 else r0 + (r1 - r0) * (v - lo) / (hi - lo)

/-- Sorting of the circles by height before drawing, system.py:282-286: `order` is the result of `argsort`; positions, data and radii are indexed alike. -/
def drawOrder {β γ δ : Type} (order : List Nat) (points : List β) (data : List γ) (radius : List δ) : List (Option β × Option γ × Option δ) :=
  order.map fun i => (points[i]?, data[i]?, radius[i]?)

/-! ## Lemmas -/

theorem filter_sorted {l : List Int} (hl : l.Pairwise (· < ·)) {k : Nat} (hk : k < l.length) : (l.filter (fun b => decide (b ≤ l[k]))).length = k + 1 := by
  induction l generalizing k with
  | nil => simp at hk
  | cons x xs ih =>
    obtain ⟨hx, hxs⟩ := List.pairwise_cons.1 hl
    cases k with
    | zero =>
      have : xs.filter (fun b => decide (b ≤ x)) = [] := by
        rw [List.filter_eq_nil_iff]
        intro b hb
        have := hx b hb
        simp; omega
      simp [this]
    | succ k =>
      simp only [List.length_cons, Nat.add_lt_add_iff_right] at hk
      have hlt := hx _ (List.getElem_mem hk)
      simp only [List.getElem_cons_succ]
      rw [List.filter_cons_of_pos (by simpa using hlt.le), List.length_cons, ih hxs hk]

/-! ## C112 -/

/-- **C112**: the k-th of the different values has the k-th color. -/
theorem C112_bins {l : List Int} (hl : l.Pairwise (· < ·)) {k : Nat} (hk : k < l.length) : binOf l (l[k]) = k := by
  unfold binOf
  rw [filter_sorted hl hk]
  rfl

/-- **C112**: a sublattice or hopping has the color of its number, or the last one if there are not enough; the color does not depend on what else is drawn in the same call. -/
theorem C112_color (colors : List α) {maximum id : Nat} (h : id ≤ maximum) : colorOf colors maximum id = colors[min id (colors.length - 1)]? := by
  have hl : (bounds maximum).Pairwise (· < ·) := by
    unfold bounds
    rw [List.pairwise_map]
    exact List.pairwise_lt_range.imp (fun h => by exact_mod_cast h)
  have hk : id < (bounds maximum).length := by simp [bounds]; omega
  have e : (bounds maximum)[id] = (id : Int) := by simp [bounds]
  have hb := C112_bins hl hk
  rw [e] at hb
  unfold colorOf pick
  rw [hb]
  split_ifs with hc
  · rw [Nat.min_eq_left (by omega)]
  · rw [Nat.min_eq_right (by omega), List.getLast?_eq_getElem?]

/-- **C112**: the same kind of hopping has the same color in the system and at its boundaries, although each call has its own largest number. -/
theorem C112_consistent (colors : List α) {m n id : Nat} (hm : id ≤ m) (hn : id ≤ n) : colorOf colors m id = colorOf colors n id := by
  rw [C112_color colors hm, C112_color colors hn]

/-- **C112**: two kinds have different colors exactly if one of them has a color before the last. -/
theorem C112_distinct {colors : List α} (hc : colors.Nodup) {maximum a b : Nat} (ha : a ≤ maximum) (hb : b ≤ maximum) (hab : a < b) (h0 : colors ≠ []) :
    colorOf colors maximum a ≠ colorOf colors maximum b ↔ a + 1 < colors.length := by
  have hpos : 0 < colors.length := List.length_pos_iff.2 h0
  rw [C112_color colors ha, C112_color colors hb, Ne, List.getElem?_inj (by omega) hc]
  omega

/-- **C112**: the eighth hopping of a lattice is drawn in the color of the seventh. -/
theorem C112_palette_witness : colorOf ["#666666", "#1b9e77", "#e6ab02", "#7570b3", "#e7298a", "#66a61e", "#a6761d"] 7 6 =
    colorOf ["#666666", "#1b9e77", "#e6ab02", "#7570b3", "#e7298a", "#66a61e", "#a6761d"] 7 7 := by
  rw [C112_color _ (by omega), C112_color _ (by omega)]
  rfl

/-- **C112**: radii are between the given ones, larger for larger values, and the extreme values have the given ones. -/
theorem C112_radii {r0 r1 lo hi : ℚ} (hr : r0 ≤ r1) (hd : 1 / 10 ^ 8 < hi - lo) :
    radiusOf r0 r1 lo hi lo = r0 ∧ radiusOf r0 r1 lo hi hi = r1 ∧ (∀ v w, v ≤ w → radiusOf r0 r1 lo hi v ≤ radiusOf r0 r1 lo hi w) ∧
    (r0 < r1 → ∀ v w, v < w → radiusOf r0 r1 lo hi v < radiusOf r0 r1 lo hi w) := by
  have h0 : 0 < hi - lo := lt_trans (by norm_num) hd
  have hn : ¬ |hi - lo| ≤ 1 / 10 ^ 8 := by rw [abs_of_pos h0]; exact not_le.2 hd
  unfold radiusOf
  simp only [if_neg hn]
  refine ⟨by simp, by rw [mul_div_assoc, div_self h0.ne']; ring, fun v w h => ?_, fun hlt v w h => ?_⟩
  · have : (r1 - r0) * (v - lo) / (hi - lo) ≤ (r1 - r0) * (w - lo) / (hi - lo) :=
      div_le_div_of_nonneg_right (mul_le_mul_of_nonneg_left (by linarith) (by linarith)) h0.le
    linarith
  · have : (r1 - r0) * (v - lo) / (hi - lo) < (r1 - r0) * (w - lo) / (hi - lo) :=
      div_lt_div_of_pos_right (mul_lt_mul_of_pos_left (by linarith) (by linarith)) h0
    linarith

/-- Small data, such as probabilities in a large system, is drawn with one radius. -/
theorem C112_small_witness : radiusOf (3 / 100) (5 / 100) 0 (1 / 10 ^ 9) 0 = 5 / 100 ∧ radiusOf (3 / 100) (5 / 100) 0 (1 / 10 ^ 9) (1 / 10 ^ 9) = 5 / 100 := by
  norm_num [radiusOf, abs_of_pos]

/-- **C112**: for every order by height each site is drawn once, with its own position, value and radius. -/
theorem C112_order {β γ δ : Type} {points : List β} {data : List γ} {radius : List δ} {order : List Nat} (h : order.Perm (List.range points.length)) :
    (drawOrder order points data radius).Perm ((List.range points.length).map fun i => (points[i]?, data[i]?, radius[i]?)) := h.map _

/-! ## Non-vacuity -/

example : colorOf ["a", "b", "c"] 5 1 = some "b" := by rw [C112_color _ (by omega)]; rfl

example : colorOf ["a", "b", "c"] 5 0 ≠ colorOf ["a", "b", "c"] 5 4 := (C112_distinct (by decide) (by omega) (by omega) (by omega) (by simp)).2 (by simp)

example : binOf [2, 5, 9] 5 = 1 := C112_bins (l := [2, 5, 9]) (by decide) (k := 1) (by simp)

example : radiusOf (3 / 100) (5 / 100) 0 1 0 = 3 / 100 := (C112_radii (by norm_num) (by norm_num)).1

end Verif.Colors
