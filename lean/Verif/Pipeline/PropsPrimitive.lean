import Verif.Pipeline.PropsRewriteOrder

/-!
# Property C88: a model with one primitive cell per period has the Bloch matrix of the lattice

`pb.Model(lattice, pb.translational_symmetry())`: no shape, so the foundation has a single cell, and every
lattice vector is a period.
-/

namespace Verif.Pipeline

open Verif.Lattice (CellSite Sublattice HoppingFamily HoppingTerm Registry optimizedUnitCell)
open Verif.Lattice.Lattice (run empty allTerms)
open Verif.Foundation (Dims size sites siteAt locOf cellAt hoppingsAt crystalSite populateSystem rank)
open Verif.Symmetry (Periods Supported cmul periodIndex stored Short InArea)
open Verif.Sublat (hamiltonianSize)
open Verif.Hamiltonian

variable {C L : Type}

/-- Every lattice vector of an `n`-dimensional lattice is a period.
`pb.translational_symmetry()`, pybinding/shape.py:322-344 with Symmetry.cpp:23-37
(`round(0 / norm) = 0`, thus one cell). -/
def primitivePeriods (n : Nat) : Periods :=
  ⟨if 0 < n then some 1 else none, if 1 < n then some 1 else none, if 2 < n then some 1 else none⟩

/-- Row of the Bloch matrix of a lattice at the wave vector `k`, applied to an amplitude for each sublattice and
orbital: the onsite energy, for each hopping which starts on the sublattice its energy times `exp(-i k·R)`, and
for each hopping which ends there the conjugate, times `exp(i k·R)`; `R` is the vector from the cell of the source to
the cell of the destination.  This is the specification: it mentions neither systems nor foundations. -/
noncomputable def blochRow [Zero C] (l : Lattice.Lattice C L) (cast : C → ℂ) {n : Nat} (a : Fin n → Vec3) (k : Vec3)
    (u : Nat → Nat → ℂ) (α i : Nat) : ℂ :=
  ∑ j ∈ Finset.range (orbitals l α), onsiteOf l cast α i j * u α j
  + (l.hops.map fun q => (q.2.terms.map fun t =>
      (if t.src = α then ∑ j ∈ Finset.range (orbitals l t.dst),
          cast (entry q.2.energy i j) * Complex.exp (-(Complex.I * ((k ⬝ᵥ shiftVec a t.rel : ℝ) : ℂ))) * u t.dst j else 0)
      + (if t.dst = α then ∑ j ∈ Finset.range (orbitals l t.src),
          star (cast (entry q.2.energy j i)) * Complex.exp (Complex.I * ((k ⬝ᵥ shiftVec a t.rel : ℝ) : ℂ)) * u t.src j
        else 0)).sum).sum

/-- `E` is an eigenvalue of the Bloch matrix. -/
def IsBand [Zero C] (l : Lattice.Lattice C L) (cast : C → ℂ) {n : Nat} (a : Fin n → Vec3) (k : Vec3) (E : ℂ) : Prop :=
  ∃ u : Nat → Nat → ℂ, (∃ α j, α < l.subs.length ∧ j < orbitals l α ∧ u α j ≠ 0) ∧
    ∀ α i, α < l.subs.length → i < orbitals l α → blochRow l cast a k u α i = E * u α i

theorem shiftVec_neg {n : Nat} (a : Fin n → Vec3) (S : Index3) : shiftVec a S.neg = -shiftVec a S := by
  have h := shiftVec_add a S S.neg
  have e : S.add S.neg = Index3.zero := by simp [Index3.add, Index3.neg, Index3.zero]
  rw [e, shiftVec_zero] at h
  exact (neg_eq_of_add_eq_zero_right h.symm).symm

theorem bloch_neg' (k x : Vec3) : bloch k (-x) = Complex.exp (-(Complex.I * ((k ⬝ᵥ x : ℝ) : ℂ))) := by
  unfold bloch
  congr 1
  rw [dotProduct_neg]
  push_cast
  ring

theorem fits_primitive (n : Nat) : Symmetry.Fits ⟨1, 1, 1⟩ (primitivePeriods n) := by
  refine ⟨?_, ?_, ?_⟩ <;> intro m hm <;> simp only [primitivePeriods] at hm <;> split at hm <;>
    simp at hm <;> subst hm <;> decide

theorem short_primitive (n : Nat) (r : Index3) : Short (primitivePeriods n) r := by
  refine ⟨?_, ?_, ?_⟩ <;> intro h <;> right <;> simp only [primitivePeriods] at h ⊢ <;> split at h <;> simp_all

theorem locOf_primitive {nsub k : Nat} (hk : k < size ⟨1, 1, 1⟩ nsub) : (locOf ⟨1, 1, 1⟩ k).idx = Index3.zero := by
  have := Foundation.locOf_in hk
  simp only [Foundation.Loc.In] at this
  obtain ⟨h1, h2, h3, h4, h5, h6, -⟩ := this
  have e : ∀ i : Index3, 0 ≤ i.x → i.x < (1 : Nat) → 0 ≤ i.y → i.y < (1 : Nat) → 0 ≤ i.z → i.z < (1 : Nat) → i = Index3.zero := by
    rintro ⟨x, y, z⟩ a b c d e f
    simp only [Index3.zero, Index3.mk.injEq]
    simp only at a b c d e f
    omega
  exact e _ h1 h2 h3 h4 h5 h6

theorem inArea_primitive (n nsub : Nat) (valid : List Bool) : InArea ⟨1, 1, 1⟩ (primitivePeriods n) nsub valid := by
  intro k x hx _
  have hk : k < size ⟨1, 1, 1⟩ nsub := by
    have := (List.getElem?_eq_some_iff.1 hx).1
    rwa [Foundation.sites_eq, List.length_map, List.length_range] at this
  rw [Symmetry.sites_getElem? hk, Option.some.injEq] at hx
  subst hx
  show (Symmetry.area _ _).contains (locOf ⟨1, 1, 1⟩ k).idx = true
  rw [locOf_primitive hk]
  unfold primitivePeriods
  split <;> split <;> split <;> rfl

section
variable [AddMonoid C] [StarAddMonoid C] [DecidableEq C]
  (ops : List (Lattice.Lattice.Op C L)) (subs : List (String × Sublattice C L))
  (hops : List (String × HoppingFamily C))
  (hs : subs.Perm (run ops empty).subs) (hh : hops.Perm (run ops empty).hops)
  (ha : AliasesOK (run ops empty))
include hs hh ha

/-- A lattice with at least one sublattice always gives a system with one cell per period. -/
theorem primitive_made {n : Nat} (a : Fin n → Vec3) (hne : subs ≠ []) (x0 : Nat → Vec3)
    (cell : List CellSite) (hcell : optimizedUnitCell subs hops = .ok cell) :
    ∃ s, Made ops subs hops a cell x0 ⟨1, 1, 1⟩ (primitivePeriods n) (List.replicate subs.length true) s := by
  obtain ⟨sr, hr, cell', hc', hP, h3⟩ := makeSystem_eq (P := Vec3) ops subs hops hs hh ha
  rw [hcell, Res.ok.injEq] at hc'
  subst hc'
  have hcl : cell.length = subs.length := by rw [hP.cellLen, hs.length_eq]
  have hsz : size ⟨1, 1, 1⟩ subs.length = subs.length := by simp [size, Foundation.Dims.prod]
  obtain ⟨bs, -, b2, -⟩ := h3 ⟨1, 1, 1⟩ (primitivePeriods n) (List.replicate subs.length true)
    (by rw [hcl, hsz, List.length_replicate]) (fun _ => fits_primitive n)
    (fun k => x0 (uidAt ⟨1, 1, 1⟩ cell k) + shiftVec a (locOf ⟨1, 1, 1⟩ k).idx) 0 (shiftVec a)
  have hpos : 0 < subs.length := List.length_pos_iff.2 hne
  rw [if_neg (by rw [List.count_replicate_self]; omega)] at b2
  refine ⟨_, ?_, fun _ => fits_primitive n, fun _ q _ => short_primitive n _, fun _ => inArea_primitive n _ _, _, _, b2, ?_⟩
  · rw [List.length_replicate, Foundation.sites_eq, List.length_map, List.length_range, hsz]
  · intro k ck _ hck
    rw [← crystalSite_uid hck, ← crystalSite_fst hck]

/-- The copies of the sites: every sublattice in every cell which is a sum of lattice vectors. -/
theorem Copy_primitive (n : Nat) (cell : List CellSite) (hcell : optimizedUnitCell subs hops = .ok cell) (R : Index3) (α : Nat) :
    Copy ⟨1, 1, 1⟩ cell (primitivePeriods n) (List.replicate subs.length true) R α ↔
      α < (run ops empty).subs.length ∧ IsPeriod (primitivePeriods n) R := by
  obtain ⟨sr, hr, cell', hc', hP, -⟩ := makeSystem_eq (P := Vec3) ops subs hops hs hh ha
  rw [hcell, Res.ok.injEq] at hc'
  subst hc'
  have hcl : cell.length = subs.length := by rw [hP.cellLen, hs.length_eq]
  have hsz : size ⟨1, 1, 1⟩ cell.length = subs.length := by simp [size, hcl, Foundation.Dims.prod]
  rw [Copy_selected hP (by rw [hsz, List.length_replicate]) (a := (![] : Fin 0 → Vec3)) (x0 := fun _ => 0)
    (f := fun _ => True) (fun k _ _ hk => by
      rw [List.length_replicate] at hk
      simp [hk])]
  have key : ∀ R' : Index3, (0 ≤ R'.x ∧ R'.x < (1 : Nat) ∧ 0 ≤ R'.y ∧ R'.y < (1 : Nat) ∧ 0 ≤ R'.z ∧ R'.z < (1 : Nat)) ↔
      R' = Index3.zero := by
    rintro ⟨x, y, z⟩
    simp only [Index3.zero, Index3.mk.injEq]
    omega
  have hneg : IsPeriod (primitivePeriods n) (Index3.zero.sub R) ↔ IsPeriod (primitivePeriods n) R := by
    unfold IsPeriod
    simp only [Index3.sub, Index3.zero, zero_sub, dvd_neg]
  constructor
  · rintro ⟨R', ⟨h1, h2⟩, -, h3⟩
    have := (key R').1 h1
    subst this
    exact ⟨h2, hneg.1 h3⟩
  · rintro ⟨h1, h2⟩
    exact ⟨Index3.zero, ⟨(key _).2 rfl, h1⟩, trivial, hneg.2 h2⟩

/-- **C88**: for every lattice built through the API, in one, two or three dimensions and with any number of
sublattices and orbitals, the model with one primitive cell per period can be built, and for every wave vector the
eigenvalues of its Hamiltonian are those of the Bloch matrix of the lattice.  The hoppings may reach any number of
cells. -/
theorem C88_bloch {n : Nat} (a : Fin n → Vec3) (hne : subs ≠ []) (x0 : Nat → Vec3)
    (hdim : ∀ q ∈ allTerms (run ops empty).hops, IsPeriod (primitivePeriods n) q.2.rel)
    (cast : C → ℂ) (hc0 : cast 0 = 0) (maxBuffer : Nat) (simple : Bool)
    (hbuf : ∀ q ∈ hops, q.2.energy.size ≤ maxBuffer) :
    ∃ cell s, optimizedUnitCell subs hops = .ok cell ∧
      Made ops subs hops a cell x0 ⟨1, 1, 1⟩ (primitivePeriods n) (List.replicate subs.length true) s ∧
      ∀ k, ∃ m, make cast s ⟨[], []⟩ maxBuffer (bloch k) simple = .ok m ∧
        ∀ E, IsEigenvalue (hamiltonianSize s.sublattices) m E ↔ IsBand (run ops empty) cast a k E := by
  obtain ⟨sr, hr, cell, hcell, hP, -⟩ := makeSystem_eq (P := Vec3) ops subs hops hs hh ha
  obtain ⟨s, hm⟩ := primitive_made ops subs hops hs hh ha a hne x0 cell hcell
  refine ⟨cell, s, hcell, hm, fun k => ?_⟩
  obtain ⟨m, h1, h2⟩ := C86_bands ops subs hops hs hh ha cell hcell a x0 cast hc0 ⟨[], []⟩ [] [] maxBuffer simple hbuf
    (fun _ _ => .nil) (fun _ => .nil) _ _ _ s hm (fun _ _ _ _ _ _ _ _ => rfl) (fun _ _ _ _ _ _ _ => rfl) k
  refine ⟨m, h1, fun E => ?_⟩
  rw [h2]
  set l := run ops empty with hl
  set p := primitivePeriods n with hp
  have hcopy : ∀ R α, Copy ⟨1, 1, 1⟩ cell p (List.replicate subs.length true) R α ↔ α < l.subs.length ∧ IsPeriod p R :=
    fun R α => Copy_primitive ops subs hops hs hh ha n cell hcell R α
  have hzero : IsPeriod p Index3.zero := IsPeriod.zero p
  have hnegp : ∀ R, IsPeriod p R → IsPeriod p R.neg := by
    intro R h
    unfold IsPeriod at h ⊢
    simpa only [Index3.neg, dvd_neg] using h
  have hterm : ∀ q ∈ l.hops, ∀ t ∈ q.2.terms, IsPeriod p t.rel := by
    intro q hq t ht
    exact hdim (q.2, t) (List.mem_flatMap.2 ⟨q, hq, List.mem_map.2 ⟨t, ht, rfl⟩⟩)
  -- the crystal at the first cell is the Bloch matrix
  have hrow : ∀ (ψ : Wave ℂ) (u : Nat → Nat → ℂ),
      (∀ R α j, IsPeriod p R → ψ R α j = bloch k (shiftVec a R.neg) * u α j) → ∀ α i,
      crystal l cast ([] : List (ElemFn ℂ Vec3)) [] (fun R α => x0 α + shiftVec a R) ψ Index3.zero α i
        = blochRow l cast a k u α i := by
    intro ψ u hψ α i
    have h0 : ∀ α j, ψ Index3.zero α j = u α j := by
      intro α j
      rw [hψ _ _ _ hzero]
      have : Index3.zero.neg = Index3.zero := rfl
      rw [this, shiftVec_zero, bloch_zero, one_mul]
    unfold crystal blochRow
    congr 1
    · exact Finset.sum_congr rfl fun j _ => by rw [h0]; rfl
    · congr 1
      apply List.map_congr_left
      intro q hq
      congr 1
      apply List.map_congr_left
      intro t ht
      have hper := hterm q hq t ht
      have e1 : Index3.zero.add t.rel = t.rel := by simp [Index3.add, Index3.zero]
      have e2 : Index3.zero.sub t.rel = t.rel.neg := by simp [Index3.sub, Index3.neg, Index3.zero]
      rw [e1, e2]
      congr 1
      · congr 1
        refine Finset.sum_congr rfl fun j _ => ?_
        rw [hψ _ _ _ hper, shiftVec_neg, bloch_neg', ← mul_assoc]
        rfl
      · congr 1
        refine Finset.sum_congr rfl fun j _ => ?_
        rw [hψ _ _ _ (hnegp _ hper), Index3.neg_neg, ← mul_assoc]
        rfl
  constructor
  · rintro ⟨ψ, hne, hst⟩
    have hψ : ∀ R α j, IsPeriod p R → ψ R α j = bloch k (shiftVec a R.neg) * ψ Index3.zero α j := by
      intro R α j hR
      have := hst.quasi Index3.zero α j R.neg (hnegp R hR)
      have e : Index3.zero.sub R.neg = R := by simp [Index3.sub, Index3.neg, Index3.zero]
      rwa [e] at this
    refine ⟨fun α j => ψ Index3.zero α j, ?_, ?_⟩
    · by_contra hno
      apply hne
      funext R α j
      show ψ R α j = 0
      by_contra hx
      obtain ⟨g1, g2⟩ := hst.support R α j hx
      obtain ⟨g3, g4⟩ := (hcopy R α).1 g1
      refine hno ⟨α, j, g3, g2, ?_⟩
      intro h0
      replace h0 : ψ Index3.zero α j = 0 := h0
      apply hx
      rw [hψ R α j g4, h0, mul_zero]
    · intro α i hα hi
      rw [← hrow ψ _ hψ α i]
      exact hst.eq Index3.zero α i ((hcopy _ _).2 ⟨hα, hzero⟩) hi
  · rintro ⟨u, ⟨α0, j0, hα0, hj0, hu0⟩, hu⟩
    -- the wave
    classical
    set w : Nat → Nat → ℂ := fun α j => if α < l.subs.length ∧ j < orbitals l α then u α j else 0 with hw
    have hrow2 : ∀ α i, blochRow l cast a k w α i = blochRow l cast a k u α i := by
      intro α i
      have horb : ∀ β, ¬ β < l.subs.length → orbitals l β = 0 := by
        intro β hβ
        unfold orbitals
        rw [List.getElem?_eq_none (by omega)]
      have hwu : ∀ β j, j ∈ Finset.range (orbitals l β) → w β j = u β j := by
        intro β j hj
        have hj := Finset.mem_range.1 hj
        have hβ : β < l.subs.length := by
          by_contra hc
          rw [horb β hc] at hj
          omega
        simp only [hw, hβ, hj, and_self, if_true]
      unfold blochRow
      congr 1
      · exact Finset.sum_congr rfl fun j hj => by rw [hwu _ _ hj]
      · congr 1
        apply List.map_congr_left
        intro q _
        congr 1
        apply List.map_congr_left
        intro t _
        congr 1
        · congr 1
          exact Finset.sum_congr rfl fun j hj => by rw [hwu _ _ hj]
        · congr 1
          exact Finset.sum_congr rfl fun j hj => by rw [hwu _ _ hj]
    let ψ : Wave ℂ := fun R α j => if IsPeriod p R then bloch k (shiftVec a R.neg) * w α j else 0
    have hψ : ∀ R α j, IsPeriod p R → ψ R α j = bloch k (shiftVec a R.neg) * w α j := fun R α j h => if_pos h
    have hquasi : ∀ R α j S, IsPeriod p S → ψ (R.sub S) α j = bloch k (shiftVec a S) * ψ R α j := by
      intro R α j S hS
      have hiff : IsPeriod p (R.sub S) ↔ IsPeriod p R := by
        constructor
        · intro h
          have := h.add hS
          rwa [Index3.sub_add_cancel] at this
        · exact fun h => h.sub hS
      by_cases hR : IsPeriod p R
      · rw [hψ _ _ _ hR, hψ _ _ _ (hiff.2 hR), ← mul_assoc, ← bloch_sum, ← shiftVec_add]
        congr 2
        congr 1
        simp only [Index3.sub, Index3.neg, Index3.add, Index3.mk.injEq]
        omega
      · have e1 : ψ R α j = 0 := if_neg hR
        have e2 : ψ (R.sub S) α j = 0 := if_neg (fun h => hR (hiff.1 h))
        rw [e1, e2, mul_zero]
    refine ⟨ψ, ?_, hquasi, ?_, ?_⟩
    · intro h
      have h1 := hψ Index3.zero α0 j0 hzero
      have e : Index3.zero.neg = Index3.zero := rfl
      have h2 : w α0 j0 = u α0 j0 := if_pos ⟨hα0, hj0⟩
      rw [h, e, shiftVec_zero, bloch_zero, one_mul, h2] at h1
      exact hu0 h1.symm
    · intro R α j hx
      by_cases hR : IsPeriod p R
      · rw [hψ _ _ _ hR] at hx
        have hx2 := right_ne_zero_of_mul hx
        have : α < l.subs.length ∧ j < orbitals l α := by
          by_contra hc
          exact hx2 (if_neg hc)
        exact ⟨(hcopy R α).2 ⟨this.1, hR⟩, this.2⟩
      · exact absurd (if_neg hR) hx
    · intro R α i hR hi
      obtain ⟨hα, hR⟩ := (hcopy R α).1 hR
      have hinv : Invariant ([] : List (ElemFn ℂ Vec3)) ([] : List (OnsiteFn ℂ Vec3)) (fun R α => x0 α + shiftVec a R) R.neg :=
        ⟨fun _ _ _ _ _ _ _ _ => rfl, fun _ _ _ _ _ _ => rfl⟩
      have hq := crystal_quasi l cast hinv (c := bloch k (shiftVec a R.neg))
        (fun R' α j => hquasi R' α j R.neg (hnegp R hR)) Index3.zero α i
      have e : Index3.zero.sub R.neg = R := by simp [Index3.sub, Index3.neg, Index3.zero]
      rw [e] at hq
      rw [hq, hrow ψ w hψ, hrow2, hu α i hα hi, hψ _ _ _ hR]
      have h2 : w α i = u α i := if_pos ⟨hα, hi⟩
      rw [h2]
      ring
end

end Verif.Pipeline
