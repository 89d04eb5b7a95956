import Verif.Pipeline.Props2
import Mathlib.Algebra.BigOperators.Group.Finset.Basic
import Mathlib.Algebra.BigOperators.Ring.Finset
import Mathlib.Algebra.Star.BigOperators

/-!
# The Hamiltonian of the infinite crystal, and lemmas for C86

The first part is the specification: the operator of the whole crystal, written with the lattice alone (no
foundation, no system, no boundaries).  Nothing in it models code.
-/

namespace Verif.Pipeline

open Verif.Lattice (Sublattice HoppingFamily HoppingTerm Registry CellSite CellHopping Inv optimizedUnitCell)
open Verif.Lattice.Lattice (run empty allTerms)
open Verif.Foundation (Dims CellOK size sites locOf rank validPairs cellAt crystalSite hoppingsAt popOps
  siteEntries finalize)
open Verif.Sublat (tableNorbs)
open Verif.Sublat.Spec (firstRow)
open Verif.Hamiltonian
open Verif.Symmetry (Periods Supported cmul periodIndex stored Short InArea)
open Verif.Hopping (COO Csr HoppingBlocks)

variable {C L P K : Type}

/-! ## Specification -/

/-- Number of orbitals of the sublattice with the given number. -/
def orbitals (l : Lattice.Lattice C L) (α : Nat) : Nat :=
  match l.subs[α]? with
  | some q => q.2.energy.rows
  | none => 0

/-- Name under which onsite modifiers see the sublattice: the one of the sublattice it is an alias of. -/
def rootName (l : Lattice.Lattice C L) (α : Nat) : String :=
  match l.subs[α]? with
  | some q => match l.subs[q.2.aliasId]? with
    | some r => r.1
    | none => ""
  | none => ""

/-- Onsite matrix of the sublattice, converted to the scalar type of the matrix. -/
def onsiteOf [Zero C] (l : Lattice.Lattice C L) (cast : C → K) (α : Nat) (i j : Nat) : K :=
  match l.subs[α]? with
  | some q => cast (entry q.2.energy i j)
  | none => cast 0

/-- A wave: an amplitude for each cell of the infinite crystal, sublattice and orbital. -/
abbrev Wave (K : Type) := Index3 → Nat → Nat → K

/-- Energy of the hopping of one term of a family which starts in cell `R`. -/
def bondEnergy [Zero C] (cast : C → K) (gs : List (ElemFn K P)) (posOf : Index3 → Nat → P)
    (q : String × HoppingFamily C) (t : HoppingTerm) (R : Index3) (i j : Nat) : K :=
  finalEnergy gs q.1 (fun i j => cast (entry q.2.energy i j)) (posOf R t.src) (posOf (R.add t.rel) t.dst) i j

/-- The Hamiltonian of the infinite crystal, applied to a wave: the onsite energy, the hoppings which start
on the site, and the conjugates of the hoppings which end on it. -/
def crystal [Zero C] [NonUnitalNonAssocSemiring K] [Star K] (l : Lattice.Lattice C L) (cast : C → K)
    (gs : List (ElemFn K P)) (gos : List (OnsiteFn K P)) (posOf : Index3 → Nat → P) (ψ : Wave K)
    (R : Index3) (α i : Nat) : K :=
  ∑ j ∈ Finset.range (orbitals l α), finalOnsite gos (rootName l α) (onsiteOf l cast α) (posOf R α) i j * ψ R α j
  + (l.hops.map fun q => (q.2.terms.map fun t =>
      (if t.src = α then ∑ j ∈ Finset.range (orbitals l t.dst),
          bondEnergy cast gs posOf q t R i j * ψ (R.add t.rel) t.dst j else 0)
      + (if t.dst = α then ∑ j ∈ Finset.range (orbitals l t.src),
          star (bondEnergy cast gs posOf q t (R.sub t.rel) j i) * ψ (R.sub t.rel) t.src j else 0)).sum).sum

/-! ## Whole periods -/

theorem IsPeriod.zero (p : Periods) : IsPeriod p Index3.zero :=
  ⟨dvd_zero _, dvd_zero _, dvd_zero _⟩

theorem IsPeriod.neg {p : Periods} {S : Index3} (h : IsPeriod p S) : IsPeriod p S.neg :=
  ⟨(dvd_neg).2 h.1, (dvd_neg).2 h.2.1, (dvd_neg).2 h.2.2⟩

theorem IsPeriod.add {p : Periods} {S T : Index3} (h : IsPeriod p S) (h' : IsPeriod p T) : IsPeriod p (S.add T) :=
  ⟨dvd_add h.1 h'.1, dvd_add h.2.1 h'.2.1, dvd_add h.2.2 h'.2.2⟩

theorem IsPeriod.sub {p : Periods} {S T : Index3} (h : IsPeriod p S) (h' : IsPeriod p T) : IsPeriod p (S.sub T) :=
  ⟨dvd_sub h.1 h'.1, dvd_sub h.2.1 h'.2.1, dvd_sub h.2.2 h'.2.2⟩

theorem Index3.sub_sub_self (a b : Index3) : a.sub (a.sub b) = b := by
  simp [Index3.sub]

theorem Index3.neg_sub (a b : Index3) : (a.sub b).neg = b.sub a := by
  simp [Index3.sub, Index3.neg]

theorem Index3.sub_add_sub (a b c : Index3) : a.sub (b.add c) = (a.sub c).sub b := by
  simp only [Index3.sub, Index3.add, Index3.mk.injEq]; omega

theorem Index3.sub_add_cancel (a b : Index3) : (a.sub b).add b = a := by
  simp [Index3.sub, Index3.add]

/-! ## Sums -/

theorem sum_listSum [AddCommMonoid K] {ι β : Type} (s : Finset ι) (l : List β) (f : ι → β → K) :
    ∑ a ∈ s, (l.map (f a)).sum = (l.map fun b => ∑ a ∈ s, f a b).sum := by
  induction l with
  | nil => simp
  | cons b l ih => simp only [List.map_cons, List.sum_cons, Finset.sum_add_distrib, ih]

theorem listSum_mul [NonUnitalNonAssocSemiring K] {β : Type} (l : List β) (f : β → K) (x : K) :
    (l.map f).sum * x = (l.map fun b => f b * x).sum := by
  induction l with
  | nil => simp
  | cons b l ih => simp only [List.map_cons, List.sum_cons, add_mul, ih]

theorem star_listSum [AddCommMonoid K] [StarAddMonoid K] {β : Type} (l : List β) (f : β → K) :
    star (l.map f).sum = (l.map fun b => star (f b)).sum := by
  induction l with
  | nil => simp
  | cons b l ih => simp only [List.map_cons, List.sum_cons, star_add, ih]

theorem listSum_add [AddCommMonoid K] {β : Type} (l : List β) (f g : β → K) :
    (l.map fun b => f b + g b).sum = (l.map f).sum + (l.map g).sum := by
  induction l with
  | nil => simp
  | cons b l ih =>
    simp only [List.map_cons, List.sum_cons, ih]
    abel

/-- A sum over all rows is a sum over the sites and their orbitals. -/
theorem sum_rows_upto [AddCommMonoid K] (norbs : List Nat) (f : Nat → K) (n : Nat) :
    ∑ c ∈ Finset.range (firstRow norbs n), f c
      = ∑ r ∈ Finset.range n, ∑ j ∈ Finset.range (norbs.getD r 0), f (firstRow norbs r + j) := by
  induction n with
  | zero => simp [firstRow]
  | succ n ih => rw [firstRow_succ, Finset.sum_range_add, ih, Finset.sum_range_succ]

theorem sum_rows [AddCommMonoid K] (norbs : List Nat) (f : Nat → K) :
    ∑ c ∈ Finset.range norbs.sum, f c
      = ∑ r ∈ Finset.range norbs.length, ∑ j ∈ Finset.range (norbs.getD r 0), f (firstRow norbs r + j) := by
  rw [← sum_rows_upto]
  congr 2
  unfold firstRow
  rw [List.take_length]

/-- The valid sites, as a set. -/
def validSet (valid : List Bool) : Finset Nat := (validKs valid).toFinset

theorem mem_validSet {valid : List Bool} {k : Nat} : k ∈ validSet valid ↔ valid[k]? = some true := by
  unfold validSet
  rw [List.mem_toFinset, mem_validKs]

/-- A sum over the ranks of the valid sites is a sum over the valid sites. -/
theorem sum_ranks [AddCommMonoid K] (valid : List Bool) (f : Nat → K) :
    ∑ r ∈ Finset.range (valid.count true), f r = ∑ k ∈ validSet valid, f (rank valid k) := by
  symm
  apply Finset.sum_bij (fun k _ => rank valid k)
  · intro k hk
    have := mem_validSet.1 hk
    rw [Finset.mem_range]
    have h2 : rank valid k ∈ (validPairs valid).map (·.2) :=
      List.mem_map.2 ⟨(k, rank valid k), Foundation.mem_validPairs.2 ⟨this, rfl⟩, rfl⟩
    rw [Foundation.map_snd_validPairs] at h2
    simpa using h2
  · intro k hk k' hk' e
    exact Foundation.rank_inj (mem_validSet.1 hk) (mem_validSet.1 hk') e
  · intro r hr
    obtain ⟨k, hk, rfl⟩ := validPairs_get' (Finset.mem_range.1 hr)
    exact ⟨k, mem_validSet.2 hk, rfl⟩
  · intro k _
    rfl

/-- Among the sites of a set of representatives, one at most is a copy of a given place: the sum over the
set of what belongs to the copies is what belongs to the place. -/
theorem sum_copies [AddCommMonoid K] {ι : Type} [DecidableEq ι] (s : Finset ι) (idx : ι → Index3) (uid : ι → Nat)
    (orb : Nat → Nat) (p : Periods)
    (inj : ∀ k ∈ s, ∀ k' ∈ s, uid k = uid k' → IsPeriod p ((idx k).sub (idx k')) → k = k')
    (T : Index3) (β : Nat) (G : ι → Nat → K) (g : Nat → K)
    (hG : ∀ k ∈ s, uid k = β → IsPeriod p ((idx k).sub T) → ∀ j, j < orb β → G k j = g j)
    (h0 : (∀ k ∈ s, ¬ (uid k = β ∧ IsPeriod p ((idx k).sub T))) → ∀ j, j < orb β → g j = 0) :
    ∑ k ∈ s, ∑ j ∈ Finset.range (orb (uid k)), (if uid k = β ∧ IsPeriod p ((idx k).sub T) then G k j else 0)
      = ∑ j ∈ Finset.range (orb β), g j := by
  by_cases hex : ∃ k ∈ s, uid k = β ∧ IsPeriod p ((idx k).sub T)
  · obtain ⟨k, hk, hu, hp⟩ := hex
    rw [Finset.sum_eq_single k]
    · rw [hu]
      refine Finset.sum_congr rfl fun j hj => ?_
      rw [if_pos ⟨rfl, hp⟩]
      exact hG k hk hu hp j (Finset.mem_range.1 hj)
    · intro k' hk' hne
      refine Finset.sum_eq_zero fun j _ => if_neg ?_
      rintro ⟨hu', hp'⟩
      refine hne (inj k' hk' k hk (hu'.trans hu.symm) ?_)
      have := hp'.sub hp
      have e : ((idx k').sub T).sub ((idx k).sub T) = (idx k').sub (idx k) := by
        simp only [Index3.sub, Index3.mk.injEq]; omega
      rwa [e] at this
    · intro h; exact absurd hk h
  · have hno : ∀ k ∈ s, ¬ (uid k = β ∧ IsPeriod p ((idx k).sub T)) := fun k hk h => hex ⟨k, hk, h⟩
    rw [Finset.sum_eq_zero, Finset.sum_eq_zero]
    · intro j hj
      exact h0 hno j (Finset.mem_range.1 hj)
    · intro k hk
      exact Finset.sum_eq_zero fun j _ => if_neg (hno k hk)

/-! ## Sites of a system -/

/-- Cells of the periodic area which differ by whole periods are equal. -/
theorem area_inj {d : Dims} {p : Periods} (hf : Symmetry.Fits d p) {a b : Index3}
    (ha : (Symmetry.area d p).contains a = true) (hb : (Symmetry.area d p).contains b = true)
    (h : IsPeriod p (a.sub b)) : a = b := by
  have axis : ∀ (n : Nat) (o : Option Nat) (v w : Int), (∀ m, o = some m → 0 < m ∧ m ≤ n) →
      (Symmetry.axisArea n o).1 ≤ v → v ≤ (Symmetry.axisArea n o).2.1 →
      (Symmetry.axisArea n o).1 ≤ w → w ≤ (Symmetry.axisArea n o).2.1 →
      ((o.getD 0 : Nat) : Int) ∣ v - w → v = w := by
    intro n o v w ho h1 h2 h3 h4 h5
    cases o with
    | none => simp at h5; omega
    | some m =>
      obtain ⟨a1, a2, a3, a4⟩ := Symmetry.axisArea_some (ho m rfl)
      have hm := (ho m rfl).1
      simp only [Option.getD_some] at h5
      have : v - w = 0 := by
        apply Int.eq_zero_of_abs_lt_dvd h5
        rw [abs_lt]
        constructor <;> omega
      omega
  unfold Symmetry.Area.contains at ha hb
  obtain ⟨a1, a2, a3, a4, a5, a6⟩ := of_decide_eq_true ha
  obtain ⟨b1, b2, b3, b4, b5, b6⟩ := of_decide_eq_true hb
  rw [Index3.ext_iff']
  exact ⟨axis d.sx p.x a.x b.x hf.1 a1 a4 b1 b4 h.1, axis d.sy p.y a.y b.y hf.2.1 a2 a5 b2 b5 h.2.1,
    axis d.sz p.z a.z b.z hf.2.2 a3 a6 b3 b6 h.2.2⟩

section
variable [AddMonoid C] [StarAddMonoid C] [DecidableEq C]
  (ops : List (Lattice.Lattice.Op C L)) (subs : List (String × Sublattice C L))
  (hops : List (String × HoppingFamily C))
  (hs : subs.Perm (run ops empty).subs) (hh : hops.Perm (run ops empty).hops)
  (ha : AliasesOK (run ops empty)) (d : Dims) (p : Periods) (valid : List Bool)
  (hl : valid.length = (sites d subs.length).length) (hf : enabled p = true → Symmetry.Fits d p)
  (pos : Nat → P) (junk : P) (shiftOf : Index3 → P) (s : System C P)
  (hsys : makeSystem subs hops d p valid pos junk shiftOf = .ok s)
include hs hh ha hl hf hsys

/-- Orbitals of the sites of a system, and which sites are copies of each other. -/
theorem sites_of_system (hin : enabled p = true → InArea d p subs.length valid)
    {cell : List CellSite} (hcell : optimizedUnitCell subs hops = .ok cell) :
    (tableNorbs s.sublattices).length = valid.count true ∧
    (∀ k, valid[k]? = some true → ∃ ck, crystalSite d cell k = some ck) ∧
    (∀ k ck, valid[k]? = some true → crystalSite d cell k = some ck →
      (tableNorbs s.sublattices).getD (rank valid k) 0 = orbitals (run ops empty) ck.2.uniqueId ∧
      (Symmetry.area d p).contains ck.1 = true) ∧
    (∀ k k' ck ck', valid[k]? = some true → valid[k']? = some true → crystalSite d cell k = some ck →
      crystalSite d cell k' = some ck' → ck.2.uniqueId = ck'.2.uniqueId → IsPeriod p (ck.1.sub ck'.1) →
      k = k') := by
  obtain ⟨sr, hr, cell', bs, hcell', hP, hl', hbs, hseq, -⟩ := system_cases ops subs hops hs hh ha d p valid hl hf
    pos junk shiftOf s hsys
  rw [hcell, Res.ok.injEq] at hcell'
  subst hcell'
  have hcl : cell.length = subs.length := by rw [hP.cellLen, hs.length_eq]
  have hf' : Symmetry.Fits d p := by
    cases he : enabled p with
    | true => exact hf he
    | false => exact fits_disabled he
  have hin' : InArea d p cell.length valid := by
    rw [hcl]
    cases he : enabled p with
    | true => exact hin he
    | false => exact fun k x hx _ => area_disabled he hx
  have harea : ∀ k, valid[k]? = some true → (Symmetry.area d p).contains (locOf d k).idx = true := by
    intro k hk
    exact hin' k (Foundation.siteAt d k)
      (Symmetry.sites_getElem? (hl' ▸ (List.getElem?_eq_some_iff.1 hk).1)) hk
  refine ⟨?_, ?_, ?_, ?_⟩
  · rw [hseq]
    show (tableNorbs (Sublat.runAdds (popOps d cell valid))).length = _
    rw [tableNorbs_pop hP.cellOK hl', List.length_map, Foundation.popOps_length]
  · intro k hk
    obtain ⟨c, hc, -⟩ := cellAt_some (d := d) (cell := cell) hl' hk
    exact ⟨_, by unfold crystalSite; rw [hc]; rfl⟩
  · intro k ck hk hck
    unfold crystalSite at hck
    rw [Option.map_eq_some_iff] at hck
    obtain ⟨c, hc, rfl⟩ := hck
    refine ⟨?_, harea k hk⟩
    rw [hseq, List.getD_eq_getElem?_getD]
    show ((tableNorbs (Sublat.runAdds (popOps d cell valid)))[rank valid k]?).getD 0 = _
    rw [norb_at hP.cellOK hl' hk hc]
    obtain ⟨q, q1, -, q2, -, -⟩ := hP.cellSub c (List.mem_of_getElem? hc)
    simp only [Option.getD_some, orbitals, q1, q2]
  · intro k k' ck ck' hk hk' hck hck' hu hper
    unfold crystalSite at hck hck'
    rw [Option.map_eq_some_iff] at hck hck'
    obtain ⟨c, hc, rfl⟩ := hck
    obtain ⟨c', hc', rfl⟩ := hck'
    exact hP.site_inj hc hc' hu (area_inj hf' (harea k hk) (harea k' hk') hper)
end

end Verif.Pipeline
