import Verif.Basic

/-!
# Specification vocabulary for site labels and Hamiltonian indices

Plain functions on lists that do not mention the compressed representation.
-/

namespace Verif.Sublat.Spec

/-- One request to add sites: sublattice label, orbitals per site, number of sites. -/
structure AddOp where
  id : Int
  norb : Nat
  count : Nat
deriving DecidableEq, Repr

/-- The label of every site, in the order in which the sites were added. -/
def labels (ops : List AddOp) : List Int :=
  ops.flatMap fun o => List.replicate o.count o.id

/-- The number of orbitals of every site, in the order in which the sites were added. -/
def norbs (ops : List AddOp) : List Nat :=
  ops.flatMap fun o => List.replicate o.count o.norb

/-- Sites with the same label always have the same number of orbitals. -/
def Consistent (ops : List AddOp) : Prop :=
  ∀ a ∈ ops, ∀ b ∈ ops, a.id = b.id → a.norb = b.norb

/-- First Hamiltonian row of site `i` when site `j` has `norbs[j]` orbitals. -/
def firstRow (norbs : List Nat) (i : Nat) : Nat := (norbs.take i).sum

/-- The combined mask of two successive filters: a position survives if it survives the first mask
and, counted among the survivors, the second. -/
def combine : List Bool → List Bool → List Bool
  | [], _ => []
  | false :: ks, ms => false :: combine ks ms
  | true :: ks, [] => false :: combine ks []
  | true :: ks, m :: ms => m :: combine ks ms

end Verif.Sublat.Spec
