import Mathlib.Data.Real.Basic
import Mathlib.Data.Fintype.Basic
import Mathlib.Data.Fin.VecNotation
import Mathlib.Tactic.Ring
import Mathlib.Tactic.FinCases
import Mathlib.Tactic.NormNum

/-!
# The lattice of phosphorene (C116)

Source: `pybinding/repository/phosphorene.py`.
-/

namespace Verif.Phosphorene

/-! ## Model -/

/-- The positions of the sublattices A, B, C, D, phosphorene.py:24-27; `ax`, `ay`, `s` and `h` are
parameters. -/
noncomputable def base (ax ay s h : ℝ) : Fin 4 → ℝ × ℝ × ℝ :=
  ![(-s / 2, -ay / 2, h), (s / 2, -ay / 2, 0), (-s / 2 + ax / 2, 0, 0), (s / 2 + ax / 2, 0, h)]

/-- A hopping family: relative index, from, to. -/
abbrev Hop := ℤ × ℤ × Fin 4 × Fin 4

/-- The hoppings `t1` to `t5`, phosphorene.py:37-60. -/
def hops : Fin 5 → List Hop :=
  ![[(-1, 0, 0, 3), (-1, -1, 0, 3), (0, 0, 1, 2), (0, -1, 1, 2)],
    [(0, 0, 0, 1), (0, 0, 2, 3)],
    [(0, 0, 0, 3), (0, -1, 0, 3), (1, 1, 2, 1), (1, 0, 2, 1)],
    [(0, 0, 0, 2), (0, -1, 0, 2), (-1, 0, 0, 2), (-1, -1, 0, 2),
      (0, 0, 1, 3), (0, -1, 1, 3), (-1, 0, 1, 3), (-1, -1, 1, 3)],
    [(-1, 0, 0, 1), (-1, 0, 2, 3)]]

/-- `monolayer_4band(num_hoppings)`, phosphorene.py:32-60: the kinds of hoppings included, or none for
an error. -/
def included (num : Int) : Option (List (Fin 5)) :=
  if num < 2 then none
  else if num > 5 then none
  else some ((if num ≥ 2 then [0, 1] else []) ++ (if num ≥ 3 then [2] else []) ++
    (if num ≥ 4 then [3] else []) ++ (if num ≥ 5 then [4] else []))

/-! ## Specification -/

/-- The square of the length of a hopping in the lattice with vectors `(ax, 0)` and `(0, ay)`,
phosphorene.py:20. -/
noncomputable def square (ax ay s h : ℝ) (p : Hop) : ℝ :=
  let u := base ax ay s h p.2.2.1
  let v := base ax ay s h p.2.2.2
  (v.1 + p.1 * ax - u.1) ^ 2 + (v.2.1 + p.2.1 * ay - u.2.1) ^ 2 + (v.2.2 - u.2.2) ^ 2

/-- The hopping in the other direction. -/
def back (p : Hop) : Hop := (-p.1, -p.2.1, p.2.2.2, p.2.2.1)

/-- All hoppings of a kind that start at a sublattice, in both directions. -/
def starting (k : Fin 5) (u : Fin 4) : List Hop :=
  (hops k ++ (hops k).map back).filter fun p => p.2.2.1 = u

/-! ## Properties -/

/-- **C116**: hoppings of one kind have one length, for all lattice constants. -/
theorem C116_lengths (ax ay s h : ℝ) (k : Fin 5) (p : Hop) (hp : p ∈ hops k) :
    square ax ay s h p =
      ![(ax / 2 - s) ^ 2 + (ay / 2) ^ 2, s ^ 2 + h ^ 2, (ax / 2 + s) ^ 2 + (ay / 2) ^ 2,
        (ax / 2) ^ 2 + (ay / 2) ^ 2 + h ^ 2, (ax - s) ^ 2 + h ^ 2] k := by
  fin_cases k <;> simp [hops] at hp
  · rcases hp with rfl | rfl | rfl | rfl <;> simp [square, base] <;> ring
  · rcases hp with rfl | rfl <;> simp [square, base] <;> ring
  · rcases hp with rfl | rfl | rfl | rfl <;> simp [square, base] <;> ring
  · rcases hp with rfl | rfl | rfl | rfl | rfl | rfl | rfl | rfl <;> simp [square, base] <;> ring
  · rcases hp with rfl | rfl <;> simp [square, base] <;> ring

/-- **C116**: every site has two, one, two, four and one hoppings of the five kinds, whatever its
sublattice, and no two sites are joined twice. -/
theorem C116_numbers (u : Fin 4) :
    (∀ k, (starting k u).length = ![2, 1, 2, 4, 1] k) ∧
    ((List.finRange 5).flatMap fun k => starting k u).Nodup := by
  constructor
  · revert u; decide
  · revert u; decide

/-- **C116**: exactly two to five kinds are accepted, and the first ones are included. -/
theorem C116_included (num : Int) :
    (included num = none ↔ num < 2 ∨ 5 < num) ∧
    ∀ ks, included num = some ks → ks.Nodup ∧ ∀ k : Fin 5, k ∈ ks ↔ ((k : Nat) : Int) < num := by
  by_cases h : num < 2 ∨ 5 < num
  · have e : included num = none := by
      unfold included
      split
      · rfl
      · rw [if_pos (by omega)]
    simp [e, h]
  · have hn : num = 2 ∨ num = 3 ∨ num = 4 ∨ num = 5 := by omega
    rcases hn with rfl | rfl | rfl | rfl
    all_goals
      refine ⟨by decide, ?_⟩
      intro ks hk
      simp [included] at hk
      subst hk
      decide

example : (0, -1, 1, 2) ∈ hops 0 ∧ included 3 = some [0, 1, 2] := by decide

end Verif.Phosphorene
