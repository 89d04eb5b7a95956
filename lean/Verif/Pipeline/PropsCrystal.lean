import Verif.Pipeline.Crystal

/-!
# C86: the Hamiltonian of a system is the Hamiltonian of the infinite crystal on quasi-periodic waves
-/

namespace Verif.Pipeline

open Verif.Lattice (Sublattice HoppingFamily HoppingTerm Registry CellSite CellHopping Inv optimizedUnitCell)
open Verif.Lattice.Lattice (run empty allTerms)
open Verif.Foundation (Dims CellOK size sites locOf rank validPairs cellAt crystalSite hoppingsAt popOps
  siteEntries finalize)
open Verif.Sublat (tableNorbs)
open Verif.Sublat.Spec (firstRow)
open Verif.Hamiltonian
open Verif.Symmetry (Periods Supported cmul periodIndex stored Short InArea)
open Verif.Hopping (COO Csr HoppingBlocks)

variable {C L P K : Type}

/-- Sublattice of the site with a flat index (0 if there is no such site). -/
def uidAt (d : Dims) (cell : List CellSite) (k : Nat) : Nat :=
  match crystalSite d cell k with
  | some ck => ck.2.uniqueId
  | none => 0

theorem crystalSite_fst {d : Dims} {cell : List CellSite} {k : Nat} {ck : Index3 × CellSite}
    (h : crystalSite d cell k = some ck) : ck.1 = (locOf d k).idx := by
  unfold crystalSite at h
  rw [Option.map_eq_some_iff] at h
  obtain ⟨c, -, rfl⟩ := h
  rfl

theorem crystalSite_uid {d : Dims} {cell : List CellSite} {k : Nat} {ck : Index3 × CellSite}
    (h : crystalSite d cell k = some ck) : uidAt d cell k = ck.2.uniqueId := by
  unfold uidAt
  rw [h]

/-- The site of sublattice `α` in cell `R` is a site of the system or a periodic copy of one. -/
def Copy (d : Dims) (cell : List CellSite) (p : Periods) (valid : List Bool) (R : Index3) (α : Nat) : Prop :=
  ∃ k ck, valid[k]? = some true ∧ crystalSite d cell k = some ck ∧ ck.2.uniqueId = α ∧ IsPeriod p (ck.1.sub R)

/-- A wave of the crystal which belongs to a system: translating it by whole periods multiplies it with
the phase of the translation, and it vanishes on the sites which are not copies of sites of the system. -/
structure Belongs [MulZeroClass K] (l : Lattice.Lattice C L) (d : Dims) (cell : List CellSite) (p : Periods)
    (valid : List Bool) (phase : P → K) (shiftOf : Index3 → P) (ψ : Wave K) : Prop where
  quasi : ∀ R α j S, IsPeriod p S → ψ (R.sub S) α j = phase (shiftOf S) * ψ R α j
  support : ∀ R α j, j < orbitals l α → ψ R α j ≠ 0 → Copy d cell p valid R α

/-- Positions and modifiers respect the translations by whole periods: `posOf` extends the positions of
the sites of the system to the whole crystal. -/
structure Repeats [Sub P] (d : Dims) (cell : List CellSite) (p : Periods) (valid : List Bool) (pos : Nat → P)
    (shiftOf : Index3 → P) (posOf : Index3 → Nat → P) (gs : List (ElemFn K P)) : Prop where
  sites : ∀ k ck, valid[k]? = some true → crystalSite d cell k = some ck → pos k = posOf ck.1 ck.2.uniqueId
  shift : ∀ R α S, IsPeriod p S → posOf (R.sub S) α = posOf R α - shiftOf S
  mods : ∀ name e x y S i j, IsPeriod p S →
    finalEnergy gs name e (x - shiftOf S) (y - shiftOf S) i j = finalEnergy gs name e x y i j

section
variable [AddMonoid C] [StarAddMonoid C] [DecidableEq C]
  (ops : List (Lattice.Lattice.Op C L)) (subs : List (String × Sublattice C L))
  (hops : List (String × HoppingFamily C))
  (hs : subs.Perm (run ops empty).subs) (hh : hops.Perm (run ops empty).hops)
  (ha : AliasesOK (run ops empty)) (d : Dims) (p : Periods) (valid : List Bool)
  (hl : valid.length = (sites d subs.length).length) (hf : enabled p = true → Symmetry.Fits d p)
  (pos : Nat → P) (junk : P) (shiftOf : Index3 → P) (s : System C P)
  (hsys : makeSystem subs hops d p valid pos junk shiftOf = .ok s)
include hs hh ha hl hf hsys

/-- **C86**: the matrix of a system is the Hamiltonian of the infinite crystal, restricted to the waves
which belong to the system.  For any lattice built through the API, any shape, any periods that fit into
the foundation (or none), modifiers which respect the periods and both build paths: if the components of a
vector are the values of such a wave on the sites of the system, then the components of the product of the
matrix with the vector are the values of the Hamiltonian of the crystal applied to the wave.  The sign is
part of the claim: the wave at a site `S` cells *before* another is the wave there times `phase`, the
phase of the translation by `S` cells. -/
theorem C86_crystal [CommRing K] [StarRing K] [DecidableEq K] [AddGroup P] (cast : C → K)
    (hc0 : cast 0 = 0) (hshort : enabled p = true → ∀ q ∈ allTerms (run ops empty).hops, Short p q.2.rel)
    (hin : enabled p = true → InArea d p subs.length valid)
    (mods : Modifiers K P) (gs : List (ElemFn K P)) (gos : List (OnsiteFn K P)) (maxBuffer : Nat)
    (phase : P → K) (hph : phase 0 = 1) (hsh : shiftOf Index3.zero = 0) (simple : Bool)
    (hbuf : ∀ q ∈ hops, q.2.energy.size ≤ maxBuffer)
    (hch : ∀ r c, Chain r c mods.hopping gs) (hon : ∀ n, OnsiteChain n mods.onsite gos)
    (hunit : ∀ S, IsPeriod p S → star (phase (shiftOf S)) * phase (shiftOf S) = 1)
    (cell : List CellSite) (hcell : optimizedUnitCell subs hops = .ok cell)
    (posOf : Index3 → Nat → P) (hrep : Repeats d cell p valid pos shiftOf posOf gs) :
    ∃ m, make cast s mods maxBuffer phase simple = .ok m ∧ Sorted (Sublat.hamiltonianSize s.sublattices) m ∧
      ∀ ψ : Wave K, Belongs (run ops empty) d cell p valid phase shiftOf ψ → ∀ v : Nat → K,
        (∀ k ck j, valid[k]? = some true → crystalSite d cell k = some ck →
          j < orbitals (run ops empty) ck.2.uniqueId →
          v (firstRow (tableNorbs s.sublattices) ((valid.take k).count true) + j) = ψ ck.1 ck.2.uniqueId j) →
        ∀ k ck i, valid[k]? = some true → crystalSite d cell k = some ck →
          i < orbitals (run ops empty) ck.2.uniqueId →
          ∑ c ∈ Finset.range (Sublat.hamiltonianSize s.sublattices),
              coeff m (firstRow (tableNorbs s.sublattices) ((valid.take k).count true) + i) c * v c
            = crystal (run ops empty) cast gs gos posOf ψ ck.1 ck.2.uniqueId i := by
  obtain ⟨cell', m, hcell', hm, hsorted, hco⟩ := C50_bloch ops subs hops hs hh ha d p valid hl hf pos junk shiftOf s
    hsys cast hc0 hshort hin mods gs gos maxBuffer phase hph hsh simple hbuf hch hon
  rw [hcell, Res.ok.injEq] at hcell'
  subst hcell'
  obtain ⟨hlen, hex, hsite, hinj⟩ := sites_of_system ops subs hops hs hh ha d p valid hl hf pos junk shiftOf s
    hsys hin hcell
  refine ⟨m, hm, hsorted, ?_⟩
  intro ψ hψ v hv k ck i hk hck hi
  set l := run ops empty with hldef
  have hR : ck.1 = (locOf d k).idx := crystalSite_fst hck
  -- the sum over the columns as a sum over the sites
  rw [Sublat.hamiltonianSize_eq, sum_rows, hlen, sum_ranks]
  have hrow : ∀ k' ∈ validSet valid,
      ∑ j ∈ Finset.range ((tableNorbs s.sublattices).getD (rank valid k') 0),
        coeff m (firstRow (tableNorbs s.sublattices) ((valid.take k).count true) + i)
          (firstRow (tableNorbs s.sublattices) (rank valid k') + j)
          * v (firstRow (tableNorbs s.sublattices) (rank valid k') + j)
      = ∑ j ∈ Finset.range (orbitals l (uidAt d cell k')),
        ((if k = k' then finalOnsite gos (rootName l ck.2.uniqueId) (onsiteOf l cast ck.2.uniqueId)
            (posOf ck.1 ck.2.uniqueId) i j else 0)
          + blochSum cast gs phase shiftOf p l.hops (ck.1, ck.2.uniqueId)
              ((locOf d k').idx, uidAt d cell k') (pos k) (pos k') i j
          + star (blochSum cast gs phase shiftOf p l.hops ((locOf d k').idx, uidAt d cell k')
              (ck.1, ck.2.uniqueId) (pos k') (pos k) j i)) * ψ (locOf d k').idx (uidAt d cell k') j := by
    intro k' hk'
    have hk' := mem_validSet.1 hk'
    obtain ⟨ck', hck'⟩ := hex k' hk'
    have hu := crystalSite_uid hck'
    have hx := crystalSite_fst hck'
    rw [(hsite k' ck' hk' hck').1, hu, ← hx]
    refine Finset.sum_congr rfl fun j hj => ?_
    have hj := Finset.mem_range.1 hj
    obtain ⟨sub, sub', root, g1, g2, g3, g4⟩ := hco k k' ck ck' hk hk' hck hck'
    have e1 : sub.2.energy.rows = orbitals l ck.2.uniqueId := by simp only [orbitals, g1]
    have e2 : sub'.2.energy.rows = orbitals l ck'.2.uniqueId := by simp only [orbitals, g2]
    have := g4 i j (e1 ▸ hi) (e2 ▸ hj)
    unfold rank
    rw [this, hv k' ck' j hk' hck' hj, hrep.sites k ck hk hck]
    have e3 : root.1 = rootName l ck.2.uniqueId := by simp only [rootName, g1, g3]
    have e4 : (fun i j => cast (entry sub.2.energy i j)) = onsiteOf l cast ck.2.uniqueId := by
      funext a b
      simp only [onsiteOf, g1]
    rw [e3, e4]
  rw [Finset.sum_congr rfl hrow]
  simp only [add_mul, Finset.sum_add_distrib]
  unfold crystal
  rw [add_assoc]
  congr 1
  · rw [Finset.sum_eq_single k]
    · rw [crystalSite_uid hck, ← hR]
      simp
    · intro k' _ hne
      refine Finset.sum_eq_zero fun j _ => ?_
      rw [if_neg (fun e => hne e.symm), zero_mul]
    · intro h
      exact absurd (mem_validSet.2 hk) h
  · have hinj' : ∀ a ∈ validSet valid, ∀ b ∈ validSet valid, uidAt d cell a = uidAt d cell b →
        IsPeriod p ((locOf d a).idx.sub (locOf d b).idx) → a = b := by
      intro a ha' b hb' hu hp
      obtain ⟨ca, hca⟩ := hex a (mem_validSet.1 ha')
      obtain ⟨cb, hcb⟩ := hex b (mem_validSet.1 hb')
      rw [crystalSite_uid hca, crystalSite_uid hcb] at hu
      rw [← crystalSite_fst hca, ← crystalSite_fst hcb] at hp
      exact hinj a b ca cb (mem_validSet.1 ha') (mem_validSet.1 hb') hca hcb hu hp
    have hsupp : ∀ T β, (∀ k ∈ validSet valid, ¬ (uidAt d cell k = β ∧ IsPeriod p ((locOf d k).idx.sub T))) →
        ∀ j, j < orbitals l β → ψ T β j = 0 := by
      intro T β hno j hj
      by_contra hne
      obtain ⟨k1, c1, h1, h2, h3, h4⟩ := hψ.support T β j hj hne
      refine hno k1 (mem_validSet.2 h1) ⟨?_, ?_⟩
      · rw [crystalSite_uid h2, h3]
      · rw [← crystalSite_fst h2]; exact h4
    have hposV : ∀ k ∈ validSet valid, pos k = posOf (locOf d k).idx (uidAt d cell k) := by
      intro k hk
      obtain ⟨c, hc⟩ := hex k (mem_validSet.1 hk)
      rw [hrep.sites k c (mem_validSet.1 hk) hc, crystalSite_uid hc, crystalSite_fst hc]
    unfold blochSum
    simp only [star_listSum, listSum_mul, sum_listSum, ← listSum_add]
    congr 1
    apply List.map_congr_left
    intro q _
    congr 1
    apply List.map_congr_left
    intro t _
    congr 1
    · -- the hoppings which start on the site
      by_cases hsrc : t.src = ck.2.uniqueId
      · rw [if_pos hsrc]
        rw [← sum_copies (validSet valid) (fun k => (locOf d k).idx) (uidAt d cell) (orbitals l) p hinj'
          (ck.1.add t.rel) t.dst
          (fun k' j => finalEnergy gs q.1 (fun i j => cast (entry q.2.energy i j)) (pos k)
            (pos k' - shiftOf ((locOf d k').idx.sub (ck.1.add t.rel))) i j
            * phase (shiftOf ((locOf d k').idx.sub (ck.1.add t.rel))) * ψ (locOf d k').idx (uidAt d cell k') j)]
        · refine Finset.sum_congr rfl fun k' _ => Finset.sum_congr rfl fun j _ => ?_
          by_cases hc : uidAt d cell k' = t.dst ∧ IsPeriod p ((locOf d k').idx.sub (ck.1.add t.rel))
          · rw [if_pos hc, if_pos ⟨hsrc, hc.1.symm, hc.2⟩]
          · rw [if_neg hc, if_neg (fun h => hc ⟨h.2.1.symm, h.2.2⟩), zero_mul]
        · intro k' hk' hu hp j _
          have h1 := hψ.quasi (locOf d k').idx t.dst j _ hp
          have h2 := hrep.shift (locOf d k').idx t.dst _ hp
          rw [Index3.sub_sub_self] at h1 h2
          rw [mul_assoc, hu, ← h1, hposV k' hk', hu, ← h2]
          unfold bondEnergy
          rw [hrep.sites k ck hk hck, hsrc]
        · intro hno j hj
          rw [hsupp _ _ hno j hj, mul_zero]
      · rw [if_neg hsrc]
        refine Finset.sum_eq_zero fun k' _ => Finset.sum_eq_zero fun j _ => ?_
        rw [if_neg (fun h => hsrc h.1), zero_mul]
    · -- the hoppings which end on it
      by_cases hdst : t.dst = ck.2.uniqueId
      · rw [if_pos hdst]
        rw [← sum_copies (validSet valid) (fun k => (locOf d k).idx) (uidAt d cell) (orbitals l) p hinj'
          (ck.1.sub t.rel) t.src
          (fun k' j => star (finalEnergy gs q.1 (fun i j => cast (entry q.2.energy i j)) (pos k')
            (pos k - shiftOf (ck.1.sub ((locOf d k').idx.add t.rel))) j i
            * phase (shiftOf (ck.1.sub ((locOf d k').idx.add t.rel)))) * ψ (locOf d k').idx (uidAt d cell k') j)]
        · refine Finset.sum_congr rfl fun k' _ => Finset.sum_congr rfl fun j _ => ?_
          have hper : IsPeriod p ((locOf d k').idx.sub (ck.1.sub t.rel)) ↔
              IsPeriod p (ck.1.sub ((locOf d k').idx.add t.rel)) := by
            rw [Index3.sub_add_sub, ← Index3.neg_sub]
            exact ⟨fun h => by have := h.neg; rwa [Index3.neg_neg] at this, fun h => h.neg⟩
          by_cases hc : uidAt d cell k' = t.src ∧ IsPeriod p ((locOf d k').idx.sub (ck.1.sub t.rel))
          · rw [if_pos hc, if_pos ⟨hc.1.symm, hdst, hper.1 hc.2⟩]
          · rw [if_neg hc, if_neg (fun h => hc ⟨h.1.symm, hper.2 h.2.2⟩), star_zero, zero_mul]
        · intro k' hk' hu hp j _
          have hp' : IsPeriod p (ck.1.sub ((locOf d k').idx.add t.rel)) := by
            rw [Index3.sub_add_sub, ← Index3.neg_sub]; exact hp.neg
          set S := ck.1.sub ((locOf d k').idx.add t.rel) with hS
          have eS : (ck.1.sub t.rel).sub S = (locOf d k').idx := by
            rw [hS, Index3.sub_add_sub, Index3.sub_sub_self]
          have h1 := hψ.quasi (ck.1.sub t.rel) t.src j S hp'
          have h2 := hrep.shift (ck.1.sub t.rel) t.src S hp'
          rw [eS] at h1 h2
          rw [hposV k' hk', hu, h1, h2, hrep.mods _ _ _ _ _ _ _ hp', star_mul]
          have h3 := hunit S hp'
          unfold bondEnergy
          rw [Index3.sub_add_cancel, hdst, ← hrep.sites k ck hk hck]
          calc _ = (star (phase (shiftOf S)) * phase (shiftOf S)) *
                (star (finalEnergy gs q.1 (fun i j => cast (entry q.2.energy i j)) (posOf (ck.1.sub t.rel) t.src)
                  (pos k) j i) * ψ (ck.1.sub t.rel) t.src j) := by ring
            _ = _ := by rw [h3, one_mul]
        · intro hno j hj
          rw [hsupp _ _ hno j hj, mul_zero]
      · rw [if_neg hdst]
        refine Finset.sum_eq_zero fun k' _ => Finset.sum_eq_zero fun j _ => ?_
        rw [if_neg (fun h => hdst h.2.1), star_zero, zero_mul]
end

end Verif.Pipeline
