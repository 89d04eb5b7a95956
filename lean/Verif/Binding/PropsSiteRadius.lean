import Verif.Basic
import Mathlib.Analysis.Real.Pi.Bounds
import Mathlib.Data.Real.Sqrt
import Mathlib.Tactic.Positivity
import Mathlib.Tactic.Linarith

/-!
# Radius of sites in plots (C111)

Source: `pybinding/lattice.py`.
-/

namespace Verif.SiteRadius

variable {P : Type}

/-! ## Model -/

/-- `scipy.spatial.distance.pdist` (scipy documentation): the distances of all pairs, lattice.py:433. -/
def pdist (d : P → P → ℝ) : List P → List ℝ
  | [] => []
  | x :: xs => xs.map (d x) ++ pdist d xs

/-- `np.min` of a list which is not empty, lattice.py:437, 440. -/
noncomputable def minOf : ℝ → List ℝ → ℝ
  | x, [] => x
  | x, y :: ys => min x (minOf y ys)

open Classical in
/-- `shortest_site_spacing`, lattice.py:430-440; the lattice has the lengths `l :: ls` of its vectors. -/
noncomputable def shortestSpacing (d : P → P → ℝ) (positions : List P) (l : ℝ) (ls : List ℝ) : ℝ :=
  match (pdist d positions).filter (fun x => decide (0 < x)) with
  | [] => minOf l ls
  | x :: xs => minOf x xs

/-- `heuristic_radius`, lattice.py:407-428; `area` is the area of the unit cell and `visible` the number of sublattices seen from above. -/
noncomputable def heuristicRadius (l : ℝ) (ls : List ℝ) (area : ℝ) (visible : Nat) : ℝ :=
  match ls with
  | [] => 12 / 100 * l
  | [_] => (if 2 % visible = 0 then 35 / 100 else 42 / 100) * √(area / visible / Real.pi)
  | _ => 18 / 100 * ((l + ls.sum) / 3)

/-- `Lattice.site_radius_for_plot`, lattice.py:389-444, for a lattice with sublattices. -/
noncomputable def siteRadius (d : P → P → ℝ) (positions : List P) (l : ℝ) (ls : List ℝ) (area : ℝ) (visible : Nat) (maxFraction : ℝ) : ℝ :=
  min (heuristicRadius l ls area visible) (maxFraction * shortestSpacing d positions l ls)

/-! ## Lemmas -/

theorem minOf_le (x : ℝ) (xs : List ℝ) : ∀ y ∈ x :: xs, minOf x xs ≤ y := by
  induction xs generalizing x with
  | nil => intro y hy; rw [List.mem_singleton.1 hy]; exact le_rfl
  | cons z zs ih =>
    intro y hy
    rcases List.mem_cons.1 hy with rfl | hy
    · exact min_le_left _ _
    · exact (min_le_right _ _).trans (ih z y hy)

theorem minOf_mem (x : ℝ) (xs : List ℝ) : minOf x xs ∈ x :: xs := by
  induction xs generalizing x with
  | nil => simp [minOf]
  | cons z zs ih =>
    unfold minOf
    rcases min_choice x (minOf z zs) with h | h
    · rw [h]; simp
    · rw [h]; exact List.mem_cons_of_mem _ (ih z)

theorem mem_pdist {d : P → P → ℝ} {positions : List P} {i j : Nat} (hij : i < j) (hj : j < positions.length) : d (positions[i]) (positions[j]) ∈ pdist d positions := by
  induction positions generalizing i j with
  | nil => simp at hj
  | cons x xs ih =>
    unfold pdist
    cases j with
    | zero => omega
    | succ j =>
      simp only [List.length_cons] at hj
      rw [List.mem_append]
      cases i with
      | zero => left; simp only [List.getElem_cons_zero, List.getElem_cons_succ]; exact List.mem_map.2 ⟨_, List.getElem_mem _, rfl⟩
      | succ i => right; simp only [List.getElem_cons_succ]; exact ih (by omega) (by omega)

/-- The spacing is at most the distance of any two sublattices at different positions. -/
theorem spacing_le {d : P → P → ℝ} {positions : List P} {l : ℝ} {ls : List ℝ} {x : ℝ} (hx : x ∈ pdist d positions) (h0 : 0 < x) : shortestSpacing d positions l ls ≤ x := by
  classical
  have hm : x ∈ (pdist d positions).filter (fun x => decide (0 < x)) := List.mem_filter.2 ⟨hx, by simpa using h0⟩
  unfold shortestSpacing
  split
  · next h => rw [h] at hm; exact absurd hm (List.not_mem_nil)
  · next y ys h => rw [h] at hm; exact minOf_le y ys x hm

theorem spacing_pos {d : P → P → ℝ} {positions : List P} {l : ℝ} {ls : List ℝ} (hl : ∀ x ∈ l :: ls, 0 < x) : 0 < shortestSpacing d positions l ls := by
  classical
  unfold shortestSpacing
  split
  · exact hl _ (minOf_mem l ls)
  · next y ys h =>
    have := minOf_mem y ys
    rw [← h] at this
    simpa using (List.mem_filter.1 this).2

/-! ## C111 -/

/-- **C111**: the radius is positive. -/
theorem C111_positive (d : P → P → ℝ) (positions : List P) {l : ℝ} {ls : List ℝ} (hl : ∀ x ∈ l :: ls, 0 < x) {area : ℝ} (ha : 0 < area) {visible : Nat} (hv : 0 < visible) {f : ℝ} (hf : 0 < f) :
    0 < siteRadius d positions l ls area visible f := by
  have hl0 : 0 < l := hl l (by simp)
  have hs : 0 ≤ ls.sum := List.sum_nonneg fun x hx => (hl x (List.mem_cons_of_mem _ hx)).le
  have hv' : (0 : ℝ) < visible := by exact_mod_cast hv
  refine lt_min ?_ (mul_pos hf (spacing_pos hl))
  unfold heuristicRadius
  split
  · positivity
  · have : 0 < √(area / visible / Real.pi) := Real.sqrt_pos.2 (div_pos (div_pos ha hv') Real.pi_pos)
    split_ifs <;> positivity
  · have : 0 < (l + ls.sum) / 3 := by linarith
    positivity

/-- **C111**: with a fraction below one half the circles of two sublattices at different positions of one cell do not overlap. Missing: sites of different cells, for which it is false. -/
theorem C111_overlap_partial {d : P → P → ℝ} {positions : List P} {l : ℝ} {ls : List ℝ} {area : ℝ} {visible : Nat} {f : ℝ} (h0 : 0 ≤ f) (hf : f < 1 / 2)
    {i j : Nat} (hij : i < j) (hj : j < positions.length) (hd : 0 < d (positions[i]) (positions[j])) :
    2 * siteRadius d positions l ls area visible f < d (positions[i]) (positions[j]) := by
  have h1 := spacing_le (l := l) (ls := ls) (mem_pdist (d := d) hij hj) hd
  have h2 : siteRadius d positions l ls area visible f ≤ f * shortestSpacing d positions l ls := min_le_right _ _
  have h3 := mul_le_mul_of_nonneg_left h1 h0
  nlinarith

/-- **C111**: for the sites of all cells it is enough that no two of them are closer than the spacing which the code takes. -/
theorem C111_lattice {d : P → P → ℝ} {positions : List P} {l : ℝ} {ls : List ℝ} (hl : ∀ x ∈ l :: ls, 0 < x) {area : ℝ} {visible : Nat} {f : ℝ} (h0 : 0 ≤ f) (hf : f < 1 / 2)
    {p q : P} (hpq : shortestSpacing d positions l ls ≤ d p q) : 2 * siteRadius d positions l ls area visible f < d p q := by
  have h2 : siteRadius d positions l ls area visible f ≤ f * shortestSpacing d positions l ls := min_le_right _ _
  have := spacing_pos (d := d) (positions := positions) hl
  nlinarith

/-- A chain with cells of length one and sublattices at 0 and 0.9: the second site and the first one of the next cell are 0.1 apart, but the circles have a radius of 0.12. -/
theorem C111_witness : siteRadius (fun x y : ℝ => |x - y|) [0, 9 / 10] 1 [] 0 1 (33 / 100) = 12 / 100 ∧ |(9 / 10 : ℝ) - (0 + 1)| < 2 * (12 / 100) := by
  have e : shortestSpacing (fun x y : ℝ => |x - y|) [0, 9 / 10] 1 [] = 9 / 10 := by
    have h : (pdist (fun x y : ℝ => |x - y|) [0, 9 / 10]).filter (fun x => decide (0 < x)) = [9 / 10] := by
      norm_num [pdist, abs_of_pos]
    classical
    unfold shortestSpacing
    split
    · next h' => exact absurd (h'.symm.trans (by convert h)) (by simp)
    · next x xs h' =>
      have h2 : x :: xs = [9 / 10] := h'.symm.trans (by convert h)
      obtain ⟨rfl, rfl⟩ : x = 9 / 10 ∧ xs = [] := by simpa using h2
      rfl
  constructor
  · unfold siteRadius
    rw [e]
    norm_num [heuristicRadius]
  · norm_num [abs_lt]

/-! ## Non-vacuity -/

example : 2 * siteRadius (fun x y : ℝ => |x - y|) [0, 1 / 2] 1 [] 0 1 (33 / 100) < |(0 : ℝ) - 1 / 2| :=
  C111_overlap_partial (d := fun x y : ℝ => |x - y|) (positions := [0, 1 / 2]) (by norm_num) (by norm_num) (i := 0) (j := 1) (by omega) (by simp) (by norm_num)

example : 0 < siteRadius (fun x y : ℝ => |x - y|) [0] 1 [1] 1 1 (33 / 100) := C111_positive _ _ (by simp) one_pos one_pos (by norm_num)

end Verif.SiteRadius
