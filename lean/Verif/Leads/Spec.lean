import Verif.Leads.Model
import Verif.Sublat.Lemmas

/-!
# Specification vocabulary for leads
-/

namespace Verif.Leads

open Verif.Foundation

variable {P : Type}

/-- The site in the same column at index `i` along an axis. -/
def along (l : Loc) (axis : Nat) (i : Int) : Loc := ⟨setComp l.idx axis i, l.sub⟩

/-- A site of the foundation is valid. -/
def IsOn (d : Dims) (valid : List Bool) (l : Loc) : Prop := valid[(flatIdx d l).toNat]? = some true

/-- A site of a foundation. -/
def InBase (B : Base P) (l : Loc) : Prop :=
  (∀ c < 3, 0 ≤ comp l.idx c ∧ comp l.idx c < extentOf B.d c) ∧ l.sub < B.cell.length

/-- A site of the foundation lies in the cross-section of a lead: in the two other directions it is
within the bounds of the shape of the lead. -/
def InSection (B : Base P) (sp : Spec P) (l : Loc) : Prop :=
  InBase B l ∧ ∀ c < 3, c ≠ sp.axis.toNat →
    comp sp.lower c ≤ comp B.low c + comp l.idx c ∧ comp B.low c + comp l.idx c ≤ comp sp.upper c

/-- The middle of that part of the shape of the lead which is inside the foundation. -/
def middle (B : Base P) (sp : Spec P) : Int :=
  (max (comp sp.lower sp.axis.toNat - comp B.low sp.axis.toNat) 0 +
    min (comp sp.upper sp.axis.toNat + 1 - comp B.low sp.axis.toNat)
      (extentOf B.d sp.axis.toNat)) / 2

/-- A column of sites belongs to a lead: the shape contains the site of the column in its middle. -/
def InLead (B : Base P) (sp : Spec P) (l : Loc) : Prop :=
  InSection B sp l ∧
    ∃ p, B.pos[(flatIdx B.d (along l sp.axis.toNat (middle B sp))).toNat]? = some p ∧ sp.contains p = true

/-- Index `i` is at least as far out in the direction of the lead as `j`. -/
def Outer (sp : Spec P) (i j : Int) : Prop := 0 ≤ sp.sign * (i - j)

/-- The bounds of the shape and the foundation have a cell in common in every direction. -/
def Meets (B : Base P) (sp : Spec P) : Prop :=
  ∀ c < 3, ∃ i : Int, 0 ≤ i ∧ i < extentOf B.d c ∧ comp sp.lower c ≤ comp B.low c + i ∧
    comp B.low c + i ≤ comp sp.upper c

/-- The specification of a lead made from an accepted direction. -/
def Directed (sp : Spec P) : Prop := 0 ≤ sp.axis ∧ sp.axis < 3 ∧ (sp.sign = 1 ∨ sp.sign = -1)

/-- Every array of a foundation has one element per site. -/
def Sized (B : Base P) (valid : List Bool) : Prop :=
  valid.length = size B.d B.cell.length ∧ B.pos.length = size B.d B.cell.length

/-- The outermost layer of the cross-section with a valid site has index `i`. -/
def AttachedAt (B : Base P) (sp : Spec P) (valid : List Bool) (i : Int) : Prop :=
  (∃ m, InSection B sp m ∧ IsOn B.d valid m ∧ comp m.idx sp.axis.toNat = i) ∧
    ∀ m, InSection B sp m → IsOn B.d valid m → Outer sp i (comp m.idx sp.axis.toNat)

/-- The number of a site in the finished system: how many valid sites come before it. -/
def number (d : Dims) (valid : List Bool) (l : Loc) : Nat :=
  (valid.take (flatIdx d l).toNat).count true

/-- The unit cell of a lead, with its sites in the order `locs`.  The hoppings are stored by family as
pairs of numbers of sites. -/
structure IsLead (B : Base P) (sp : Spec P) (valid : List Bool) (i : Int) (names : List (String × Nat))
    (shiftPos : P → P) (st : Structure P) (locs : List Loc) : Prop where
  /-- its sites are the sites of the shape of the lead in layer `i` -/
  nodup : locs.Nodup
  sites : ∀ l, l ∈ locs ↔ InLead B sp l ∧ comp l.idx sp.axis.toNat = i
  /-- `indices` are their numbers in the system -/
  indices : st.indices = locs.map fun l => (number B.d valid l : Int)
  positions : st.positions.map some = locs.map fun l => (B.pos[(flatIdx B.d l).toNat]?).map shiftPos
  labels : Sublat.decompressed st.sublattices =
    locs.map fun l => (B.cell[l.sub]?).map fun c => (c.aliasId : Int)
  norbs : (Sublat.tableNorbs st.sublattices).map some = locs.map fun l => (B.cell[l.sub]?).map (·.norb)
  /-- the sites are ordered by number of orbitals, and every entry of the table belongs to a sublattice -/
  table : (st.sublattices.map (·.numOrb)).Pairwise (· ≤ ·) ∧
    ∀ e ∈ st.sublattices, ∃ c ∈ B.cell, e.id = (c.aliasId : Int) ∧ e.numOrb = c.norb
  numSites : st.hoppings.numSites = locs.length ∧ st.boundary.numSites = locs.length
  nameMap : st.hoppings.nameMap = names ∧ st.boundary.nameMap = names
  families : st.hoppings.blocks.length = names.length ∧ st.boundary.blocks.length = names.length
  /-- hoppings between sites of the cell -/
  inside : ∀ (fam : Nat) block, st.hoppings.blocks[fam]? = some block →
    (∀ (a b : Nat) la lb, locs[a]? = some la → locs[b]? = some lb →
      block.count ⟨a, b⟩ = (hoppingsAt B.cell la.sub).countP fun h =>
        h.rel = lb.idx.sub la.idx ∧ h.toIdx = lb.sub ∧ h.familyId = fam ∧ h.isConjugate = false) ∧
    ∀ c ∈ block, c.row < locs.length ∧ c.col < locs.length
  /-- hoppings from sites of the next cell, further out, to the sites of the cell -/
  between : ∀ (fam : Nat) block, st.boundary.blocks[fam]? = some block →
    (∀ (a b : Nat) la lb, locs[a]? = some la → locs[b]? = some lb →
      block.count ⟨a, b⟩ = (hoppingsAt B.cell la.sub).countP fun h =>
        h.rel = lb.idx.sub (la.idx.add sp.shift) ∧ h.toIdx = lb.sub ∧ h.familyId = fam) ∧
    ∀ c ∈ block, c.row < locs.length ∧ c.col < locs.length

end Verif.Leads
