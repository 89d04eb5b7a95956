import Verif.Pipeline.Represent

/-!
# C87: the Hamiltonian does not depend on how the lattice is written down
-/

namespace Verif.Pipeline

open Verif.Lattice (Sublattice HoppingFamily HoppingTerm Registry CellSite CellHopping Inv optimizedUnitCell)
open Verif.Lattice.Lattice (run empty allTerms)
open Verif.Foundation (Dims CellOK size sites locOf rank validPairs cellAt crystalSite hoppingsAt popOps
  siteEntries finalize)
open Verif.Sublat (tableNorbs)
open Verif.Sublat.Spec (firstRow)
open Verif.Hamiltonian
open Verif.Symmetry (Periods Supported cmul periodIndex stored Short InArea)
open Verif.Hopping (COO Csr HoppingBlocks)

variable {C L P K : Type}

/-! ## Specification -/

/-- The hopping terms of a lattice, with the name and energy of their family. -/
def bondsOf (l : Lattice.Lattice C L) : List ((String × HoppingFamily C) × HoppingTerm) :=
  l.hops.flatMap fun q => q.2.terms.map fun t => (q, t)

/-- Two hopping terms, of two lattices, which are the same hopping of the crystal, written with the same
(`forward`) or the opposite direction (`backward`).  The site of sublattice `α` in cell `R` of the first lattice
is the site of sublattice `π α` in cell `U R + c α` of the second. -/
inductive SameBond [Zero C] [Star K] (cast : C → K) (gs : List (ElemFn K P)) (U : Index3 → Index3) (π : Nat → Nat)
    (c : Nat → Index3) (b b' : (String × HoppingFamily C) × HoppingTerm) : Prop
  | forward (src : b'.2.src = π b.2.src) (dst : b'.2.dst = π b.2.dst)
      (rel : b'.2.rel = ((U b.2.rel).add (c b.2.dst)).sub (c b.2.src))
      (energy : ∀ i j, entry b'.1.2.energy i j = entry b.1.2.energy i j)
      (mods : ∀ e x y i j, finalEnergy gs b'.1.1 e x y i j = finalEnergy gs b.1.1 e x y i j)
  | backward (src : b'.2.src = π b.2.dst) (dst : b'.2.dst = π b.2.src)
      (rel : b'.2.rel = ((U b.2.rel).neg.add (c b.2.src)).sub (c b.2.dst))
      (energy : ∀ i j, cast (entry b'.1.2.energy i j) = star (cast (entry b.1.2.energy j i)))
      (mods : ∀ e x y i j, finalEnergy gs b'.1.1 (fun i j => star (e j i)) y x i j
        = star (finalEnergy gs b.1.1 e x y j i))

/-- Two lattices describe the same crystal: the site of sublattice `α` in cell `R` of the first is the site
of sublattice `π α` in cell `U R + c α` of the second, with the same position, onsite energy and number of
orbitals, and the hoppings are the same.  `U` is the identity if the lattice vectors are the same. -/
structure SameCrystal [Zero C] [Star K] [AddMonoid P] (l l' : Lattice.Lattice C L) (cast : C → K)
    (gs : List (ElemFn K P)) (gos : List (OnsiteFn K P)) (posOf posOf' : Index3 → Nat → P) (U : Index3 ≃ Index3)
    (π : Nat ≃ Nat) (c : Nat → Index3) : Prop where
  linear : ∀ R S, U (R.add S) = (U R).add (U S)
  orbitals : ∀ α, orbitals l' (π α) = orbitals l α
  onsite : ∀ α i j, onsiteOf l' cast (π α) i j = onsiteOf l cast α i j
  onsiteMods : ∀ α e x i j, finalOnsite gos (rootName l' (π α)) e x i j = finalOnsite gos (rootName l α) e x i j
  positions : ∀ R α, posOf' ((U R).add (c α)) (π α) = posOf R α
  bonds : ∃ bs, List.Forall₂ (SameBond cast gs U π c) (bondsOf l) bs ∧ bs.Perm (bondsOf l')

/-! ## The operators of the two lattices agree -/

/-- What one bond contributes to the Hamiltonian of the crystal. -/
def bondTerm [Zero C] [NonUnitalNonAssocSemiring K] [Star K] (l : Lattice.Lattice C L) (cast : C → K)
    (gs : List (ElemFn K P)) (posOf : Index3 → Nat → P) (ψ : Wave K) (R : Index3) (α i : Nat)
    (b : (String × HoppingFamily C) × HoppingTerm) : K :=
  (if b.2.src = α then ∑ j ∈ Finset.range (orbitals l b.2.dst),
      bondEnergy cast gs posOf b.1 b.2 R i j * ψ (R.add b.2.rel) b.2.dst j else 0)
  + (if b.2.dst = α then ∑ j ∈ Finset.range (orbitals l b.2.src),
      star (bondEnergy cast gs posOf b.1 b.2 (R.sub b.2.rel) j i) * ψ (R.sub b.2.rel) b.2.src j else 0)

theorem crystal_bonds [Zero C] [NonUnitalNonAssocSemiring K] [Star K] (l : Lattice.Lattice C L) (cast : C → K)
    (gs : List (ElemFn K P)) (gos : List (OnsiteFn K P)) (posOf : Index3 → Nat → P) (ψ : Wave K)
    (R : Index3) (α i : Nat) : crystal l cast gs gos posOf ψ R α i
      = ∑ j ∈ Finset.range (orbitals l α), finalOnsite gos (rootName l α) (onsiteOf l cast α) (posOf R α) i j * ψ R α j
        + ((bondsOf l).map (bondTerm l cast gs posOf ψ R α i)).sum := by
  unfold crystal bondsOf
  congr 1
  generalize l.hops = hs
  induction hs with
  | nil => rfl
  | cons q hs ih =>
    rw [List.map_cons, List.sum_cons, List.flatMap_cons, List.map_append, List.sum_append, ih, List.map_map]
    rfl

theorem sum_forall₂ [AddCommMonoid K] {β γ : Type} {r : β → γ → Prop} {f : β → K} {g : γ → K} {a : List β} {b : List γ}
    (h : List.Forall₂ r a b) (hr : ∀ x y, r x y → g y = f x) : (b.map g).sum = (a.map f).sum := by
  induction h with
  | nil => rfl
  | cons h _ ih => rw [List.map_cons, List.map_cons, List.sum_cons, List.sum_cons, hr _ _ h, ih]

theorem crystal_relabel [Zero C] [CommRing K] [StarRing K] [AddMonoid P] {l l' : Lattice.Lattice C L} {cast : C → K}
    {gs : List (ElemFn K P)} {gos : List (OnsiteFn K P)} {posOf posOf' : Index3 → Nat → P} {U : Index3 ≃ Index3}
    {π : Nat ≃ Nat} {c : Nat → Index3} (h : SameCrystal l l' cast gs gos posOf posOf' U π c) (ψ : Wave K) (R : Index3)
    (α i : Nat) :
    crystal l' cast gs gos posOf' (fun R' α' j => ψ (U.symm (R'.sub (c (π.symm α')))) (π.symm α') j)
      ((U R).add (c α)) (π α) i = crystal l cast gs gos posOf ψ R α i := by
  have hback : ∀ R α j, (fun R' α' j => ψ (U.symm (R'.sub (c (π.symm α')))) (π.symm α') j)
      ((U R).add (c α)) (π α) j = ψ R α j := by
    intro R α j
    show ψ (U.symm (((U R).add (c α)).sub (c (π.symm (π α))))) (π.symm (π α)) j = _
    rw [Equiv.symm_apply_apply]
    have e : ((U R).add (c α)).sub (c α) = U R := by simp [Index3.sub, Index3.add]
    rw [e, Equiv.symm_apply_apply]
  generalize (fun R' α' j => ψ (U.symm (R'.sub (c (π.symm α')))) (π.symm α') j : Wave K) = φ at hback
  have hUsub : ∀ R S, U (R.sub S) = (U R).sub (U S) := by
    intro R S
    have e := h.linear (R.sub S) S
    rw [Index3.sub_add_cancel] at e
    rw [e]
    simp [Index3.sub, Index3.add]
  rw [crystal_bonds, crystal_bonds]
  congr 1
  · rw [h.orbitals]
    refine Finset.sum_congr rfl fun j _ => ?_
    rw [hback, h.positions, h.onsiteMods]
    congr 2
    funext i j
    exact h.onsite α i j
  · obtain ⟨bs, h1, h2⟩ := h.bonds
    rw [← (h2.map _).sum_eq]
    refine sum_forall₂ h1 ?_
    rintro ⟨q, t⟩ ⟨q', t'⟩ hb
    unfold bondTerm bondEnergy
    rcases hb with ⟨src, dst, rel, energy, mods⟩ | ⟨src, dst, rel, energy, mods⟩
    · simp only at src dst rel energy mods
      simp only [src, dst, π.injective.eq_iff, h.orbitals]
      have en : (fun i j => cast (entry q'.2.energy i j)) = fun i j => cast (entry q.2.energy i j) := by
        funext i j
        rw [energy]
      congr 1
      · split
        next ha =>
          subst ha
          have e : ((U R).add (c t.src)).add t'.rel = (U (R.add t.rel)).add (c t.dst) := by
            rw [h.linear, rel]
            simp only [Index3.sub, Index3.add, Index3.mk.injEq]; omega
          refine Finset.sum_congr rfl fun j _ => ?_
          rw [e, hback, h.positions, h.positions, mods, en]
        next => rfl
      · split
        next ha =>
          subst ha
          have e : ((U R).add (c t.dst)).sub t'.rel = (U (R.sub t.rel)).add (c t.src) := by
            rw [hUsub, rel]
            simp only [Index3.sub, Index3.add, Index3.mk.injEq]; omega
          have e2 : ((U (R.sub t.rel)).add (c t.src)).add t'.rel = (U ((R.sub t.rel).add t.rel)).add (c t.dst) := by
            rw [h.linear, rel]
            simp only [Index3.sub, Index3.add, Index3.mk.injEq]; omega
          refine Finset.sum_congr rfl fun j _ => ?_
          rw [e, hback, e2, h.positions, h.positions, mods, en]
        next => rfl
    · simp only at src dst rel energy mods
      simp only [src, dst, π.injective.eq_iff, h.orbitals]
      have en : (fun i j => cast (entry q'.2.energy i j)) = fun i j => star (cast (entry q.2.energy j i)) := by
        funext i j
        rw [energy]
      rw [add_comm]
      congr 1
      · split
        next ha =>
          subst ha
          have e : ((U R).add (c t.src)).sub t'.rel = (U (R.add t.rel)).add (c t.dst) := by
            rw [h.linear, rel]
            simp only [Index3.sub, Index3.add, Index3.neg, Index3.mk.injEq]; omega
          have e2 : ((U (R.add t.rel)).add (c t.dst)).add t'.rel = (U R).add (c t.src) := by
            rw [h.linear, rel]
            simp only [Index3.sub, Index3.add, Index3.neg, Index3.mk.injEq]; omega
          refine Finset.sum_congr rfl fun j _ => ?_
          rw [e, hback, e2, h.positions, h.positions, en]
          have := mods (fun i j => cast (entry q.2.energy i j)) (posOf R t.src) (posOf (R.add t.rel) t.dst) j i
          rw [this, star_star]
        next => rfl
      · split
        next ha =>
          subst ha
          have e : ((U R).add (c t.dst)).add t'.rel = (U (R.sub t.rel)).add (c t.src) := by
            rw [hUsub, rel]
            simp only [Index3.sub, Index3.add, Index3.neg, Index3.mk.injEq]; omega
          refine Finset.sum_congr rfl fun j _ => ?_
          rw [e, hback, h.positions, h.positions, en, Index3.sub_add_cancel]
          have := mods (fun i j => cast (entry q.2.energy i j)) (posOf (R.sub t.rel) t.src) (posOf R t.dst) i j
          rw [this]
        next => rfl

/-! ## The theorem -/

section
variable [AddMonoid C] [StarAddMonoid C] [DecidableEq C]
  (ops : List (Lattice.Lattice.Op C L)) (subs : List (String × Sublattice C L))
  (hops : List (String × HoppingFamily C))
  (hs : subs.Perm (run ops empty).subs) (hh : hops.Perm (run ops empty).hops)
  (ha : AliasesOK (run ops empty))
  (cell : List CellSite) (hcell : optimizedUnitCell subs hops = .ok cell)
  {n : Nat} (a : Fin n → Vec3) (x0 : Nat → Vec3)
  (ops' : List (Lattice.Lattice.Op C L)) (subs' : List (String × Sublattice C L))
  (hops' : List (String × HoppingFamily C))
  (hs' : subs'.Perm (run ops' empty).subs) (hh' : hops'.Perm (run ops' empty).hops)
  (ha' : AliasesOK (run ops' empty))
  (cell' : List CellSite) (hcell' : optimizedUnitCell subs' hops' = .ok cell')
  {n' : Nat} (a' : Fin n' → Vec3) (x0' : Nat → Vec3)
  (cast : C → ℂ) (hc0 : cast 0 = 0) (mods : Modifiers ℂ Vec3) (gs : List (ElemFn ℂ Vec3))
  (gos : List (OnsiteFn ℂ Vec3)) (maxBuffer : Nat)
  (hbuf : ∀ q ∈ hops, q.2.energy.size ≤ maxBuffer) (hbuf' : ∀ q ∈ hops', q.2.energy.size ≤ maxBuffer)
  (hch : ∀ r c, Chain r c mods.hopping gs) (hon : ∀ n, OnsiteChain n mods.onsite gos)

theorem made_represents [AddMonoid C] [StarAddMonoid C] [DecidableEq C] (ops : List (Lattice.Lattice.Op C L)) (subs : List (String × Sublattice C L))
    (hops : List (String × HoppingFamily C))
    (hs : subs.Perm (run ops empty).subs) (hh : hops.Perm (run ops empty).hops)
    (ha : AliasesOK (run ops empty))
    (cell : List CellSite) (hcell : optimizedUnitCell subs hops = .ok cell)
    {n : Nat} (a : Fin n → Vec3) (x0 : Nat → Vec3)
    (cast : C → ℂ) (hc0 : cast 0 = 0) (mods : Modifiers ℂ Vec3) (gs : List (ElemFn ℂ Vec3))
    (gos : List (OnsiteFn ℂ Vec3)) (maxBuffer : Nat) (simple : Bool)
    (hbuf : ∀ q ∈ hops, q.2.energy.size ≤ maxBuffer)
    (hch : ∀ r c, Chain r c mods.hopping gs) (hon : ∀ n, OnsiteChain n mods.onsite gos)
    (d : Dims) (p : Periods) (valid : List Bool) (s : System C Vec3)
    (hm : Made ops subs hops a cell x0 d p valid s)
    (hgs : ∀ name e x y S i j, IsPeriod p S →
      finalEnergy gs name e (x - shiftVec a S) (y - shiftVec a S) i j = finalEnergy gs name e x y i j) (k : Vec3) :
    ∃ m site, make cast s mods maxBuffer (bloch k) simple = .ok m ∧
      Represents (Sublat.hamiltonianSize s.sublattices) (coeff m)
        (crystal (run ops empty) cast gs gos (fun R α => x0 α + shiftVec a R))
        (fun R α j => Copy d cell p valid R α ∧ j < orbitals (run ops empty) α) p (fun S => bloch k (shiftVec a S)) site ∧
      ∀ k ck j, valid[k]? = some true → crystalSite d cell k = some ck → j < orbitals (run ops empty) ck.2.uniqueId →
        firstRow (tableNorbs s.sublattices) ((valid.take k).count true) + j < Sublat.hamiltonianSize s.sublattices ∧
        site (firstRow (tableNorbs s.sublattices) ((valid.take k).count true) + j) = (ck.1, ck.2.uniqueId, j) := by
  obtain ⟨pos, junk, hsys, hpos⟩ := hm.made
  refine system_represents ops subs hops hs hh ha d p valid hm.len hm.fits pos junk (shiftVec a) s hsys cast hc0 hm.short
    hm.inArea mods gs gos maxBuffer (bloch k) (bloch_zero k) (shiftVec_zero a) simple hbuf hch hon
    (fun S _ => bloch_unit k _) cell hcell _ ⟨hpos, ?_, ?_⟩
  · intro R α S _
    have e : R = (R.sub S).add S := (Index3.sub_add_cancel R S).symm
    have h := shiftVec_add a (R.sub S) S
    rw [← e] at h
    show x0 α + shiftVec a (R.sub S) = x0 α + shiftVec a R - shiftVec a S
    rw [h]
    abel
  · exact fun name e x y S i j hS => hgs name e x y S i j hS

include hs hh ha hcell hs' hh' ha' hcell' hc0 hbuf hbuf' hch hon

/-- **C87**.  Two lattices, built by any two sequences of calls, which describe the same crystal (in any order
of the calls, with other names if no modifier looks at them, with a sublattice moved to another cell, with
hoppings written in the opposite direction, with other lattice vectors), and two systems of any shape and
periods made from them which consist of the same sites.  Then the two matrices, at any wave vector, are equal
up to the numbering of the rows and one phase for each row: `σ` is a bijection between the rows, and it maps
the row of an orbital of a site to the row of that orbital of the same site of the crystal, or its periodic
copy; the phase is the one of the translation between the two copies.  In particular, the eigenvalues, their multiplicities and the probabilities of the states on each
orbital are equal. -/
theorem C87_rewriting (d : Dims) (p : Periods) (valid : List Bool) (s : System C Vec3)
    (hm : Made ops subs hops a cell x0 d p valid s)
    (d' : Dims) (p' : Periods) (valid' : List Bool) (s' : System C Vec3)
    (hm' : Made ops' subs' hops' a' cell' x0' d' p' valid' s')
    (U : Index3 ≃ Index3) (π : Nat ≃ Nat) (c : Nat → Index3)
    (hsame : SameCrystal (run ops empty) (run ops' empty) cast gs gos (fun R α => x0 α + shiftVec a R)
      (fun R α => x0' α + shiftVec a' R) U π c)
    (hvec : ∀ S, shiftVec a' (U S) = shiftVec a S)
    (hper : ∀ S, IsPeriod p' (U S) ↔ IsPeriod p S)
    (hcopy : ∀ R α, Copy d' cell' p' valid' ((U R).add (c α)) (π α) ↔ Copy d cell p valid R α)
    (hgs : ∀ name e x y S i j, IsPeriod p S →
      finalEnergy gs name e (x - shiftVec a S) (y - shiftVec a S) i j = finalEnergy gs name e x y i j)
    (hgos : ∀ name e x S i j, IsPeriod p S →
      finalOnsite gos name e (x - shiftVec a S) i j = finalOnsite gos name e x i j) (k : Vec3) (simple simple' : Bool) :
    ∃ m m', make cast s mods maxBuffer (bloch k) simple = .ok m ∧ make cast s' mods maxBuffer (bloch k) simple' = .ok m' ∧
      Sublat.hamiltonianSize s'.sublattices = Sublat.hamiltonianSize s.sublattices ∧
      ∃ (σ : Nat → Nat) (D : Nat → ℂ),
        (∀ r, r < Sublat.hamiltonianSize s.sublattices → σ r < Sublat.hamiltonianSize s.sublattices) ∧
        (∀ r r', r < Sublat.hamiltonianSize s.sublattices → r' < Sublat.hamiltonianSize s.sublattices →
          σ r = σ r' → r = r') ∧
        (∀ r, r < Sublat.hamiltonianSize s.sublattices → star (D r) * D r = 1) ∧
        (∀ r r', r < Sublat.hamiltonianSize s.sublattices → r' < Sublat.hamiltonianSize s.sublattices →
          coeff m' (σ r) (σ r') * D r' = D r * coeff m r r') ∧
        ∀ i ci i' ci' j, valid[i]? = some true → crystalSite d cell i = some ci →
          valid'[i']? = some true → crystalSite d' cell' i' = some ci' →
          ci'.2.uniqueId = π ci.2.uniqueId → IsPeriod p' (ci'.1.sub ((U ci.1).add (c ci.2.uniqueId))) →
          j < orbitals (run ops empty) ci.2.uniqueId →
          σ (firstRow (tableNorbs s.sublattices) ((valid.take i).count true) + j)
              = firstRow (tableNorbs s'.sublattices) ((valid'.take i').count true) + j ∧
            D (firstRow (tableNorbs s.sublattices) ((valid.take i).count true) + j)
              = star (bloch k (shiftVec a' (ci'.1.sub ((U ci.1).add (c ci.2.uniqueId))))) := by
  have hUsub : ∀ R S, U (R.sub S) = (U R).sub (U S) := by
    intro R S
    have e := hsame.linear (R.sub S) S
    rw [Index3.sub_add_cancel] at e
    rw [e]
    simp [Index3.sub, Index3.add]
  have hV : ∀ S, IsPeriod p' S → IsPeriod p (U.symm S) := by
    intro S hS
    rw [← hper, Equiv.apply_symm_apply]
    exact hS
  have hVvec : ∀ S, shiftVec a' S = shiftVec a (U.symm S) := by
    intro S
    rw [← hvec, Equiv.apply_symm_apply]
  obtain ⟨m, site, h1, h2, h3⟩ := made_represents ops subs hops hs hh ha cell hcell a x0 cast hc0 mods gs gos maxBuffer
    simple hbuf hch hon d p valid s hm hgs k
  obtain ⟨m', site', h1', h2', h3'⟩ := made_represents ops' subs' hops' hs' hh' ha' cell' hcell' a' x0' cast hc0 mods gs
    gos maxBuffer simple' hbuf' hch hon d' p' valid' s' hm'
    (fun name e x y S i j hS => by rw [hVvec S]; exact hgs name e x y _ i j (hV S hS)) k
  have hpos' : ∀ R α S, x0' α + shiftVec a' (R.sub S) = x0' α + shiftVec a' R - shiftVec a' S := by
    intro R α S
    have e : R = (R.sub S).add S := (Index3.sub_add_cancel R S).symm
    have h := shiftVec_add a' (R.sub S) S
    rw [← e] at h
    rw [h]
    abel
  have hinv : ∀ S, IsPeriod p' S → Invariant gs gos (fun R α => x0' α + shiftVec a' R) S := by
    intro S hS
    constructor
    · intro name e R R' α β i j
      simp only [hpos', hVvec S, hgs _ _ _ _ _ _ _ (hV S hS)]
    · intro name e R α i j
      simp only [hpos', hVvec S, hgos _ _ _ _ _ _ (hV S hS)]
  obtain ⟨e1, σ, D, e2, e3, e4, e5, e6⟩ := h2.relabel h2' (by rw [shiftVec_zero, bloch_zero])
    (fun S T _ _ => by rw [shiftVec_add, bloch_sum]) (fun S _ => bloch_unit k _)
    (fun R α j S hS => by rw [Copy.periodic hS]) U hsame.linear π c hper (fun S _ => by rw [hvec])
    (fun R α j => by rw [hcopy, hsame.orbitals])
    (fun ψ R α i _ => crystal_relabel hsame ψ R α i)
    (fun ψ hψ R α i S hS => crystal_quasi _ cast (hinv S hS) (fun R α j => hψ.quasi R α j S hS) R α i)
  refine ⟨m, m', h1, h1', e1, σ, D, e2, e3, e4, e5, ?_⟩
  intro i ci i' ci' j hi hci hi' hci' hu hp hj
  have hj' : j < orbitals (run ops' empty) ci'.2.uniqueId := by
    rw [hu, hsame.orbitals]
    exact hj
  obtain ⟨f1, f2⟩ := h3 i ci j hi hci hj
  obtain ⟨g1, g2⟩ := h3' i' ci' j hi' hci' hj'
  have e7 := e6 _ _ f1 g1 (by rw [f2, g2, hu]) (by rw [f2, g2]; exact hp)
  rw [f2, g2] at e7
  exact e7
end

end Verif.Pipeline
