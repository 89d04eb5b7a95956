import Verif.Lattice.Model

/-!
# Specification vocabulary for lattices

A crystal site is a pair of a unit cell and a sublattice.  A hopping term stands for one bond in
every unit cell; `Joins` says which pairs of sites a term connects, without mentioning how terms are
stored or compared.
-/

set_option linter.dupNamespace false

namespace Verif.Lattice

variable {K P : Type}

/-- A site of the infinite crystal. -/
structure Site where
  cell : Index3
  sub : Nat

/-- The term puts a bond between `a` and `b` (a bond has no direction). -/
def Joins (t : HoppingTerm) (a b : Site) : Prop :=
  (b.cell.sub a.cell = t.rel ∧ a.sub = t.src ∧ b.sub = t.dst) ∨
  (a.cell.sub b.cell = t.rel ∧ b.sub = t.src ∧ a.sub = t.dst)

/-- All hopping terms of a lattice, whatever their family. -/
def terms (l : Lattice K P) : List HoppingTerm := l.hops.flatMap (·.2.terms)

/-- The part of a hopping family which must never change. -/
def hopKey (p : String × HoppingFamily K) : String × Nat × Mat K := (p.1, p.2.familyId, p.2.energy)

/-- `l'` extends `l`: all sublattices and families are still there, at the same place, with the same
name, id and energy; families only gained terms. -/
def Extends (l l' : Lattice K P) : Prop :=
  (∃ new, l'.subs = l.subs ++ new) ∧
  (∃ new, l'.hops.map hopKey = l.hops.map hopKey ++ new) ∧
  ∀ (i : Nat) p p', l.hops[i]? = some p → l'.hops[i]? = some p' → ∃ new, p'.2.terms = p.2.terms ++ new

/-- Equal to its own conjugate transpose. -/
def Hermitian [Star K] (m : Mat K) : Prop :=
  ∃ h : m.rows = m.cols, ∀ i j, m.e i j = star (m.e (j.cast h.symm) (i.cast h))

end Verif.Lattice
