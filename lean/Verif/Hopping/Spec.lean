import Verif.Hopping.Model

/-!
# Specification vocabulary for hoppings

Hoppings are undirected connections between sites; these definitions do not use any function of the
model, only its data types.
-/

namespace Verif.Hopping.Spec

/-- Lower index first. -/
def Upper (c : COO) : Prop := c.row ≤ c.col

/-- Strict lexicographic order. -/
def Lt (a b : COO) : Prop := a.row < b.row ∨ (a.row = b.row ∧ a.col < b.col)

/-- Do two pairs connect the same two sites? -/
def SameBond (a b : COO) : Prop := a = b ∨ (a.row = b.col ∧ a.col = b.row)

/-- The number of ends of stored hoppings at site `i` (a hopping from a site to itself has two). -/
def degree (hoppings : List COO) (i : Nat) : Nat :=
  hoppings.countP (fun c => c.row = i) + hoppings.countP (fun c => c.col = i)

/-- The number of stored hoppings that touch site `i`. -/
def touching (hoppings : List COO) (i : Nat) : Nat :=
  hoppings.countP (fun c => c.row = i ∨ c.col = i)

/-- All indices below `n`. -/
def InRange (n : Nat) (hoppings : List COO) : Prop := ∀ c ∈ hoppings, c.row < n ∧ c.col < n

/-- The number of a surviving site after removal: the number of survivors before it. -/
def newIndex (keep : List Bool) (i : Nat) : Nat := (keep.take i).count true

/-- The hoppings between surviving sites, in the new numbering. -/
def survivors (keep : List Bool) (hoppings : List COO) : List COO :=
  hoppings.filterMap fun c =>
    if keep[c.row]? = some true ∧ keep[c.col]? = some true then
      some ⟨newIndex keep c.row, newIndex keep c.col⟩
    else none

end Verif.Hopping.Spec
