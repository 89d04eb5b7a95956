import Verif.Foundation.Walk

/-!
# Specification vocabulary for foundations
-/

namespace Verif.Foundation

/-- A coordinate is selected by a slice of a dimension with `n` cells: an end below zero stands for
the end of the dimension. -/
def SliceIndex.Selects (n : Nat) (s : SliceIndex) (i : Int) : Prop :=
  s.start ≤ i ∧ (s.stop < 0 → i < n) ∧ (0 ≤ s.stop → i < s.stop)

/-- A set of removed sites is stable: every remaining site which lost a neighbour still has at least
`minN` remaining neighbours. -/
def Stable (nbrs : Nat → List Nat) (minN : Int) (removed : Nat → Bool) : Prop :=
  ∀ v, removed v = false → (∃ u ∈ nbrs v, removed u = true) →
    minN ≤ ((nbrs v).countP fun u => !removed u : Nat)

/-- Two masks: the second keeps only sites the first one keeps. -/
def Shrinks (before after : Nat → Bool) : Prop := ∀ u, after u = true → before u = true

end Verif.Foundation
