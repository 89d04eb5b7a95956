import Verif.Pipeline.PropsCrystal
import Verif.Pipeline.PropsReciprocal
import Mathlib.Analysis.Complex.Polynomial.Basic
import Mathlib.RingTheory.RootsOfUnity.Complex

/-!
# C86: spectra of systems as spectra of the crystal, and folded bands of supercells
-/

namespace Verif.Pipeline

open Verif.Lattice (Sublattice HoppingFamily HoppingTerm Registry CellSite CellHopping Inv optimizedUnitCell)
open Verif.Lattice.Lattice (run empty allTerms)
open Verif.Foundation (Dims CellOK size sites locOf rank validPairs cellAt crystalSite hoppingsAt popOps
  siteEntries finalize)
open Verif.Sublat (tableNorbs)
open Verif.Sublat.Spec (firstRow)
open Verif.Hamiltonian
open Verif.Symmetry (Periods Supported cmul periodIndex stored Short InArea)
open Verif.Hopping (COO Csr HoppingBlocks)

variable {C L P K : Type}

/-! ## Specification -/

/-- `E` is an eigenvalue of the matrix. -/
def IsEigenvalue [CommRing K] (N : Nat) (m : Csr K) (E : K) : Prop :=
  ∃ v : Nat → K, (∃ r, r < N ∧ v r ≠ 0) ∧
    ∀ r, r < N → ∑ c ∈ Finset.range N, coeff m r c * v c = E * v r

/-- A state of the crystal with energy `E` on the given sites: a quasi-periodic wave which vanishes
elsewhere and satisfies the equation of the crystal on them. -/
structure State [AddMonoid C] [CommRing K] [Star K] (l : Lattice.Lattice C L) (cast : C → K) (gs : List (ElemFn K P))
    (gos : List (OnsiteFn K P)) (posOf : Index3 → Nat → P) (here : Index3 → Nat → Prop) (p : Periods)
    (phase : P → K) (shiftOf : Index3 → P) (E : K) (ψ : Wave K) : Prop where
  quasi : ∀ R α j S, IsPeriod p S → ψ (R.sub S) α j = phase (shiftOf S) * ψ R α j
  support : ∀ R α j, ψ R α j ≠ 0 → here R α ∧ j < orbitals l α
  eq : ∀ R α i, here R α → i < orbitals l α → crystal l cast gs gos posOf ψ R α i = E * ψ R α i

/-! ## The crystal operator: linear, and commutes with translations -/

theorem crystal_add [AddMonoid C] [CommRing K] [Star K] (l : Lattice.Lattice C L) (cast : C → K) (gs : List (ElemFn K P))
    (gos : List (OnsiteFn K P)) (posOf : Index3 → Nat → P) (ψ φ : Wave K) (R : Index3) (α i : Nat) :
    crystal l cast gs gos posOf (fun R α j => ψ R α j + φ R α j) R α i
      = crystal l cast gs gos posOf ψ R α i + crystal l cast gs gos posOf φ R α i := by
  unfold crystal
  rw [add_add_add_comm, ← Finset.sum_add_distrib, ← listSum_add]
  congr 1
  · exact Finset.sum_congr rfl fun j _ => mul_add _ _ _
  · congr 1
    apply List.map_congr_left
    intro q _
    rw [← listSum_add]
    congr 1
    apply List.map_congr_left
    intro t _
    rw [add_add_add_comm]
    congr 1 <;> split
    · rw [← Finset.sum_add_distrib]
      exact Finset.sum_congr rfl fun j _ => mul_add _ _ _
    · simp
    · rw [← Finset.sum_add_distrib]
      exact Finset.sum_congr rfl fun j _ => mul_add _ _ _
    · simp

theorem mul_listSum [NonUnitalNonAssocSemiring K] {β : Type} (l : List β) (f : β → K) (x : K) :
    x * (l.map f).sum = (l.map fun b => x * f b).sum := by
  induction l with
  | nil => simp
  | cons b l ih => simp only [List.map_cons, List.sum_cons, mul_add, ih]

theorem crystal_smul [AddMonoid C] [CommRing K] [Star K] (l : Lattice.Lattice C L) (cast : C → K) (gs : List (ElemFn K P))
    (gos : List (OnsiteFn K P)) (posOf : Index3 → Nat → P) (c : K) (ψ : Wave K) (R : Index3) (α i : Nat) :
    crystal l cast gs gos posOf (fun R α j => c * ψ R α j) R α i = c * crystal l cast gs gos posOf ψ R α i := by
  unfold crystal
  rw [mul_add, Finset.mul_sum, mul_listSum]
  congr 1
  · exact Finset.sum_congr rfl fun j _ => by ring
  · congr 1
    apply List.map_congr_left
    intro q _
    rw [mul_listSum]
    congr 1
    apply List.map_congr_left
    intro t _
    rw [mul_add]
    congr 1 <;> split
    · rw [Finset.mul_sum]
      exact Finset.sum_congr rfl fun j _ => by ring
    · simp
    · rw [Finset.mul_sum]
      exact Finset.sum_congr rfl fun j _ => by ring
    · simp

/-- Positions and modifiers respect the translation by `S` cells. -/
structure Invariant (gs : List (ElemFn K P)) (gos : List (OnsiteFn K P)) (posOf : Index3 → Nat → P) (S : Index3) :
    Prop where
  hop : ∀ name e R R' α β i j, finalEnergy gs name e (posOf (R.sub S) α) (posOf (R'.sub S) β) i j
    = finalEnergy gs name e (posOf R α) (posOf R' β) i j
  onsite : ∀ name e R α i j, finalOnsite gos name e (posOf (R.sub S) α) i j = finalOnsite gos name e (posOf R α) i j

theorem Index3.sub_add_comm (R S T : Index3) : (R.sub S).add T = (R.add T).sub S := by
  simp only [Index3.sub, Index3.add, Index3.mk.injEq]; omega

theorem Index3.sub_sub_comm (R S T : Index3) : (R.sub S).sub T = (R.sub T).sub S := by
  simp only [Index3.sub, Index3.mk.injEq]; omega

theorem crystal_translate [AddMonoid C] [CommRing K] [Star K] (l : Lattice.Lattice C L) (cast : C → K)
    {gs : List (ElemFn K P)} {gos : List (OnsiteFn K P)} {posOf : Index3 → Nat → P} {S : Index3}
    (h : Invariant gs gos posOf S) (ψ : Wave K) (R : Index3) (α i : Nat) :
    crystal l cast gs gos posOf (fun R α j => ψ (R.sub S) α j) R α i = crystal l cast gs gos posOf ψ (R.sub S) α i := by
  unfold crystal bondEnergy
  simp only [h.onsite, Index3.sub_add_comm, Index3.sub_sub_comm R S, h.hop]

theorem crystal_quasi [AddMonoid C] [CommRing K] [Star K] (l : Lattice.Lattice C L) (cast : C → K)
    {gs : List (ElemFn K P)} {gos : List (OnsiteFn K P)} {posOf : Index3 → Nat → P} {S : Index3}
    (h : Invariant gs gos posOf S) {ψ : Wave K} {c : K} (hq : ∀ R α j, ψ (R.sub S) α j = c * ψ R α j)
    (R : Index3) (α i : Nat) :
    crystal l cast gs gos posOf ψ (R.sub S) α i = c * crystal l cast gs gos posOf ψ R α i := by
  rw [← crystal_translate l cast h, ← crystal_smul]
  simp only [hq]

/-! ## Matrix and crystal -/

section
variable [AddMonoid C] [StarAddMonoid C] [DecidableEq C]
  (ops : List (Lattice.Lattice.Op C L)) (subs : List (String × Sublattice C L))
  (hops : List (String × HoppingFamily C))
  (hs : subs.Perm (run ops empty).subs) (hh : hops.Perm (run ops empty).hops)
  (ha : AliasesOK (run ops empty)) (d : Dims) (p : Periods) (valid : List Bool)
  (hl : valid.length = (sites d subs.length).length) (hf : enabled p = true → Symmetry.Fits d p)
  (pos : Nat → P) (junk : P) (shiftOf : Index3 → P) (s : System C P)
  (hsys : makeSystem subs hops d p valid pos junk shiftOf = .ok s)
include hs hh ha hl hf hsys

/-- **C86** (spectrum).  The eigenvalues of the matrix of a system are exactly the energies of the states
of the infinite crystal on the sites of the system and their copies, for the phases given by the wave
vector. -/
theorem C86_spectrum [Field K] [StarRing K] [DecidableEq K] [AddGroup P] (cast : C → K)
    (hc0 : cast 0 = 0) (hshort : enabled p = true → ∀ q ∈ allTerms (run ops empty).hops, Short p q.2.rel)
    (hin : enabled p = true → InArea d p subs.length valid)
    (mods : Modifiers K P) (gs : List (ElemFn K P)) (gos : List (OnsiteFn K P)) (maxBuffer : Nat)
    (phase : P → K) (hph : phase 0 = 1) (hsh : shiftOf Index3.zero = 0) (simple : Bool)
    (hbuf : ∀ q ∈ hops, q.2.energy.size ≤ maxBuffer)
    (hch : ∀ r c, Chain r c mods.hopping gs) (hon : ∀ n, OnsiteChain n mods.onsite gos)
    (hunit : ∀ S, IsPeriod p S → star (phase (shiftOf S)) * phase (shiftOf S) = 1)
    (hmul : ∀ S T, IsPeriod p S → IsPeriod p T →
      phase (shiftOf (S.add T)) = phase (shiftOf S) * phase (shiftOf T))
    (cell : List CellSite) (hcell : optimizedUnitCell subs hops = .ok cell)
    (posOf : Index3 → Nat → P) (hrep : Repeats d cell p valid pos shiftOf posOf gs)
    (honinv : ∀ name e x S i j, IsPeriod p S → finalOnsite gos name e (x - shiftOf S) i j = finalOnsite gos name e x i j) :
    ∃ m, make cast s mods maxBuffer phase simple = .ok m ∧
      ∀ E, IsEigenvalue (Sublat.hamiltonianSize s.sublattices) m E ↔
        ∃ ψ : Wave K, ψ ≠ 0 ∧
          State (run ops empty) cast gs gos posOf (Copy d cell p valid) p phase shiftOf E ψ := by
  obtain ⟨m, hm, -, hact⟩ := C86_crystal ops subs hops hs hh ha d p valid hl hf pos junk shiftOf s hsys cast hc0
    hshort hin mods gs gos maxBuffer phase hph hsh simple hbuf hch hon hunit cell hcell posOf hrep
  obtain ⟨hlen, hex, hsite, hinj⟩ := sites_of_system ops subs hops hs hh ha d p valid hl hf pos junk shiftOf s
    hsys hin hcell
  refine ⟨m, hm, ?_⟩
  intro E
  set l := run ops empty with hldef
  set N := Sublat.hamiltonianSize s.sublattices with hN
  set row := fun k : Nat => firstRow (tableNorbs s.sublattices) ((valid.take k).count true) with hrowdef
  have hinv : ∀ S, IsPeriod p S → Invariant gs gos posOf S := by
    intro S hS
    constructor
    · intro name e R R' α β i j
      rw [hrep.shift R α S hS, hrep.shift R' β S hS, hrep.mods _ _ _ _ _ _ _ hS]
    · intro name e R α i j
      rw [hrep.shift R α S hS, honinv _ _ _ _ _ _ hS]
  have hne : ∀ S, IsPeriod p S → phase (shiftOf S) ≠ 0 := by
    intro S hS h0
    have := hunit S hS
    rw [h0, mul_zero] at this
    exact zero_ne_one this
  -- rows and orbitals of sites
  have hrows : ∀ r, r < N → ∃ k ck j, valid[k]? = some true ∧ crystalSite d cell k = some ck ∧
      j < orbitals l ck.2.uniqueId ∧ r = row k + j := by
    intro r hr
    rw [hN, Sublat.hamiltonianSize_eq] at hr
    obtain ⟨k', j, hj, hkj⟩ := exists_row _ r hr
    have hk' : k' < valid.count true := by
      by_contra hc
      rw [List.getD_eq_getElem?_getD, List.getElem?_eq_none (by omega)] at hj
      simp at hj
    obtain ⟨k, hk, rfl⟩ := validPairs_get' hk'
    obtain ⟨ck, hck⟩ := hex k hk
    exact ⟨k, ck, j, hk, hck, (hsite k ck hk hck).1 ▸ hj, hkj⟩
  have hrowlt : ∀ k ck j, valid[k]? = some true → crystalSite d cell k = some ck → j < orbitals l ck.2.uniqueId →
      row k + j < N := by
    intro k ck j hk hck hj
    rw [hN, Sublat.hamiltonianSize_eq]
    have h1 := (hsite k ck hk hck).1
    have h2 := firstRow_succ (tableNorbs s.sublattices) (rank valid k)
    have h3 := firstRow_le_sum (tableNorbs s.sublattices) (rank valid k + 1)
    rw [h2, h1] at h3
    have : row k = firstRow (tableNorbs s.sublattices) (rank valid k) := rfl
    omega
  have hrowinj : ∀ k ck j k' ck' j', valid[k]? = some true → crystalSite d cell k = some ck →
      j < orbitals l ck.2.uniqueId → valid[k']? = some true → crystalSite d cell k' = some ck' →
      j' < orbitals l ck'.2.uniqueId → row k + j = row k' + j' → k = k' ∧ ck = ck' ∧ j = j' := by
    intro k ck j k' ck' j' hk hck hj hk' hck' hj' he
    obtain ⟨h1, h2⟩ := firstRow_inj (norbs := tableNorbs s.sublattices) (k := rank valid k) (k' := rank valid k')
      (by rw [(hsite k ck hk hck).1]; exact hj) (by rw [(hsite k' ck' hk' hck').1]; exact hj') he
    have := Foundation.rank_inj hk hk' h1
    subst this
    rw [hck, Option.some.injEq] at hck'
    exact ⟨rfl, hck', h2⟩
  have hcopy : ∀ R α S, IsPeriod p S → (Copy d cell p valid (R.sub S) α ↔ Copy d cell p valid R α) := by
    intro R α S hS
    have aux : ∀ ck : Index3, IsPeriod p (ck.sub (R.sub S)) ↔ IsPeriod p (ck.sub R) := by
      intro ck
      have e : ck.sub (R.sub S) = (ck.sub R).add S := by
        simp only [Index3.sub, Index3.add, Index3.mk.injEq]; omega
      rw [e]
      constructor
      · intro h
        have := h.sub hS
        have e2 : ((ck.sub R).add S).sub S = ck.sub R := by simp [Index3.sub, Index3.add]
        rwa [e2] at this
      · exact fun h => h.add hS
    unfold Copy
    simp only [aux]
  constructor
  · -- from a vector to a wave
    rintro ⟨v, ⟨r0, hr0, hv0⟩, hev⟩
    classical
    let ψ : Wave K := fun R α j => if h : Copy d cell p valid R α ∧ j < orbitals l α then
      phase (shiftOf ((locOf d h.1.choose).idx.sub R)) * v (row h.1.choose + j) else 0
    have hval : ∀ k ck R α j, valid[k]? = some true → crystalSite d cell k = some ck → ck.2.uniqueId = α →
        IsPeriod p (ck.1.sub R) → j < orbitals l α → ψ R α j = phase (shiftOf (ck.1.sub R)) * v (row k + j) := by
      intro k ck R α j hk hck hu hp hj
      have hc : Copy d cell p valid R α := ⟨k, ck, hk, hck, hu, hp⟩
      have h : Copy d cell p valid R α ∧ j < orbitals l α := ⟨hc, hj⟩
      obtain ⟨ck', h1, h2, h3, h4⟩ := hc.choose_spec
      have hkk : hc.choose = k := by
        refine hinj _ _ ck' ck h1 hk h2 hck (h3.trans hu.symm) ?_
        have := h4.sub hp
        have e : (ck'.1.sub R).sub (ck.1.sub R) = ck'.1.sub ck.1 := by
          simp only [Index3.sub, Index3.mk.injEq]; omega
        rwa [e] at this
      show (if h : Copy d cell p valid R α ∧ j < orbitals l α then
        phase (shiftOf ((locOf d h.1.choose).idx.sub R)) * v (row h.1.choose + j) else 0) = _
      rw [dif_pos h, hkk, crystalSite_fst hck]
    have hzero : ∀ R α j, ¬ (Copy d cell p valid R α ∧ j < orbitals l α) → ψ R α j = 0 := by
      intro R α j h
      exact dif_neg h
    have hquasi : ∀ R α j S, IsPeriod p S → ψ (R.sub S) α j = phase (shiftOf S) * ψ R α j := by
      intro R α j S hS
      by_cases h : Copy d cell p valid R α ∧ j < orbitals l α
      · obtain ⟨⟨k, ck, hk, hck, hu, hp⟩, hj⟩ := h
        have e : ck.1.sub (R.sub S) = S.add (ck.1.sub R) := by
          simp only [Index3.sub, Index3.add, Index3.mk.injEq]; omega
        rw [hval k ck R α j hk hck hu hp hj,
          hval k ck (R.sub S) α j hk hck hu (by rw [e]; exact hS.add hp) hj, e, hmul _ _ hS hp, mul_assoc]
      · rw [hzero R α j h, mul_zero]
        exact hzero _ _ _ (by rw [hcopy R α S hS]; exact h)
    have hvψ : ∀ k ck j, valid[k]? = some true → crystalSite d cell k = some ck →
        j < orbitals l ck.2.uniqueId → v (row k + j) = ψ ck.1 ck.2.uniqueId j := by
      intro k ck j hk hck hj
      have e : ck.1.sub ck.1 = Index3.zero := by simp [Index3.sub, Index3.zero]
      rw [hval k ck _ _ j hk hck rfl (by rw [e]; exact IsPeriod.zero p) hj, e, hsh, hph, one_mul]
    refine ⟨ψ, ?_, hquasi, ?_, ?_⟩
    · intro h0
      obtain ⟨k, ck, j, hk, hck, hj, rfl⟩ := hrows r0 hr0
      apply hv0
      rw [hvψ k ck j hk hck hj, h0]
      rfl
    · intro R α j h
      by_contra hc
      exact h (hzero R α j hc)
    · rintro R α i ⟨k, ck, hk, hck, rfl, hp⟩ hi
      have hbel : Belongs l d cell p valid phase shiftOf ψ := ⟨hquasi, fun R α j _ h => by
        by_contra hc
        exact h (hzero R α j (fun x => hc x.1))⟩
      have h1 := hact ψ hbel v hvψ k ck i hk hck hi
      rw [hev _ (hrowlt k ck i hk hck hi)] at h1
      have h2 := hquasi ck.1 ck.2.uniqueId i _ hp
      have h3 := crystal_quasi l cast (hinv _ hp) (fun R α j => hquasi R α j _ hp) ck.1 ck.2.uniqueId i
      rw [Index3.sub_sub_self] at h2 h3
      rw [h3, h2, ← h1, hvψ k ck i hk hck hi]
      ring
  · -- from a wave to a vector
    rintro ⟨ψ, hψ0, hψ⟩
    classical
    let v : Nat → K := fun r => if h : ∃ k ck j, valid[k]? = some true ∧ crystalSite d cell k = some ck ∧
      j < orbitals l ck.2.uniqueId ∧ r = row k + j then
        ψ h.choose_spec.choose.1 h.choose_spec.choose.2.uniqueId h.choose_spec.choose_spec.choose else 0
    have hv : ∀ k ck j, valid[k]? = some true → crystalSite d cell k = some ck →
        j < orbitals l ck.2.uniqueId → v (row k + j) = ψ ck.1 ck.2.uniqueId j := by
      intro k ck j hk hck hj
      have h : ∃ k' ck' j', valid[k']? = some true ∧ crystalSite d cell k' = some ck' ∧
        j' < orbitals l ck'.2.uniqueId ∧ row k + j = row k' + j' := ⟨k, ck, j, hk, hck, hj, rfl⟩
      obtain ⟨h1, h2, h3, h4⟩ := h.choose_spec.choose_spec.choose_spec
      obtain ⟨-, e2, e3⟩ := hrowinj _ _ _ _ _ _ hk hck hj h1 h2 h3 h4
      show (if h : _ then _ else _) = _
      rw [dif_pos h, ← e3, ← e2]
    have hbel : Belongs l d cell p valid phase shiftOf ψ :=
      ⟨hψ.quasi, fun R α j _ h => (hψ.support R α j h).1⟩
    refine ⟨v, ?_, ?_⟩
    · have : ∃ R α j, ψ R α j ≠ 0 := by
        by_contra hc
        push Not at hc
        apply hψ0
        funext R α j
        exact hc R α j
      obtain ⟨R, α, j, h⟩ := this
      obtain ⟨⟨k, ck, hk, hck, rfl, hp⟩, hj⟩ := hψ.support R α j h
      refine ⟨row k + j, hrowlt k ck j hk hck hj, ?_⟩
      rw [hv k ck j hk hck hj]
      intro h0
      apply h
      have := hψ.quasi ck.1 ck.2.uniqueId j _ hp
      rw [Index3.sub_sub_self, h0, mul_zero] at this
      exact this
    · intro r hr
      obtain ⟨k, ck, i, hk, hck, hi, rfl⟩ := hrows r hr
      have hp : IsPeriod p (ck.1.sub ck.1) := by
        have e : ck.1.sub ck.1 = Index3.zero := by simp [Index3.sub, Index3.zero]
        rw [e]; exact IsPeriod.zero p
      rw [hact ψ hbel v hv k ck i hk hck hi, hψ.eq _ _ _ ⟨k, ck, hk, hck, rfl, hp⟩ hi, hv k ck i hk hck hi]
end

/-! ## Translations of waves -/

/-- The wave moved by `S` cells. -/
def moveMap (S : Index3) : Wave ℂ →ₗ[ℂ] Wave ℂ where
  toFun ψ := fun R α j => ψ (R.sub S) α j
  map_add' _ _ := rfl
  map_smul' _ _ := rfl

/-- `z` times an index. -/
def times3 (z : Int) (S : Index3) : Index3 := ⟨z * S.x, z * S.y, z * S.z⟩

theorem moveMap_pow (S : Index3) (n : Nat) (ψ : Wave ℂ) (R : Index3) (α j : Nat) :
    ((moveMap S) ^ n) ψ R α j = ψ (R.sub (times3 n S)) α j := by
  induction n generalizing R with
  | zero => simp [times3, Index3.sub]
  | succ n ih =>
    rw [pow_succ']
    show ((moveMap S) ^ n) ψ (R.sub S) α j = _
    rw [ih]
    congr 1
    simp only [times3, Index3.sub, Index3.mk.injEq]
    push_cast
    refine ⟨?_, ?_, ?_⟩ <;> ring

/-- A linear map of which a power is a number has an eigenvector in every invariant subspace which is not
zero. -/
theorem exists_eigen {V : Type} [AddCommGroup V] [Module ℂ V] (T : V →ₗ[ℂ] V) (S : Submodule ℂ V)
    (hT : ∀ v ∈ S, T v ∈ S) (n : Nat) (hn : 0 < n) (z : ℂ) (hz : ∀ v ∈ S, (T ^ n) v = z • v)
    (v : V) (hv : v ∈ S) (hv0 : v ≠ 0) : ∃ x : ℂ, x ^ n = z ∧ ∃ w ∈ S, w ≠ 0 ∧ T w = x • w := by
  have key : ∀ (l : List ℂ) (v : V), v ∈ S → v ≠ 0 → (l.map fun a => T - algebraMap ℂ (Module.End ℂ V) a).prod v = 0 →
      ∃ a ∈ l, ∃ w ∈ S, w ≠ 0 ∧ T w = a • w := by
    intro l
    induction l using List.reverseRecOn with
    | nil =>
      intro v _ h0 h
      exact absurd (by simpa using h) h0
    | append_singleton l a ih =>
      intro v hv h0 h
      rw [List.map_append, List.prod_append, List.map_singleton, List.prod_singleton] at h
      by_cases hw : (T - algebraMap ℂ (Module.End ℂ V) a) v = 0
      · refine ⟨a, by simp, v, hv, h0, ?_⟩
        rw [LinearMap.sub_apply, sub_eq_zero] at hw
        simpa using hw
      · obtain ⟨b, hb, w, h1, h2, h3⟩ := ih ((T - algebraMap ℂ (Module.End ℂ V) a) v)
          (by
            rw [LinearMap.sub_apply]
            refine S.sub_mem (hT v hv) ?_
            rw [Module.algebraMap_end_apply]
            exact S.smul_mem _ hv) hw h
        exact ⟨b, by simp [hb], w, h1, h2, h3⟩
  have hsplit : (Polynomial.X ^ n - Polynomial.C z : Polynomial ℂ).Splits := IsAlgClosed.splits _
  have hmonic : (Polynomial.X ^ n - Polynomial.C z : Polynomial ℂ).Monic := Polynomial.monic_X_pow_sub_C z (by omega)
  have hprod := hsplit.eq_prod_roots
  rw [hmonic.leadingCoeff, map_one, one_mul] at hprod
  have haev := congrArg (fun q => (Polynomial.aeval T q) v) hprod
  simp only [map_sub, map_pow, Polynomial.aeval_X, Polynomial.aeval_C, LinearMap.sub_apply,
    Module.algebraMap_end_apply] at haev
  rw [hz v hv, sub_self] at haev
  obtain ⟨a, hal, w, h1, h2, h3⟩ := key (Polynomial.X ^ n - Polynomial.C z : Polynomial ℂ).roots.toList v hv hv0 (by
    rw [haev]
    conv_rhs => rw [← Multiset.coe_toList (Polynomial.X ^ n - Polynomial.C z : Polynomial ℂ).roots]
    rw [Multiset.map_coe, Multiset.prod_coe, map_list_prod, List.map_map]
    congr 3
    funext a
    simp)
  refine ⟨a, ?_, w, h1, h2, h3⟩
  rw [Multiset.mem_toList, Polynomial.mem_roots hmonic.ne_zero, Polynomial.IsRoot.def] at hal
  simpa [sub_eq_zero] using hal

end Verif.Pipeline
