import Verif.Pipeline.PropsSupercell

/-!
# Matrices which represent an operator on quasi-periodic waves; lemmas for C87
-/

namespace Verif.Pipeline

open Verif.Lattice (Sublattice HoppingFamily HoppingTerm Registry CellSite CellHopping Inv optimizedUnitCell)
open Verif.Lattice.Lattice (run empty allTerms)
open Verif.Foundation (Dims CellOK size sites locOf rank validPairs cellAt crystalSite hoppingsAt popOps
  siteEntries finalize)
open Verif.Sublat (tableNorbs)
open Verif.Sublat.Spec (firstRow)
open Verif.Hamiltonian
open Verif.Symmetry (Periods Supported cmul periodIndex stored Short InArea)
open Verif.Hopping (COO Csr HoppingBlocks)

variable {C L P K : Type}

/-- A quasi-periodic wave on the given orbitals: translating it by whole periods multiplies it with the phase
of the translation, and it vanishes elsewhere. -/
structure OnSites [MulZeroClass K] (here : Index3 → Nat → Nat → Prop) (p : Periods) (phase : Index3 → K) (ψ : Wave K) :
    Prop where
  quasi : ∀ R α j S, IsPeriod p S → ψ (R.sub S) α j = phase S * ψ R α j
  support : ∀ R α j, ψ R α j ≠ 0 → here R α j

/-- The matrix represents an operator on the waves on the given orbitals: `site` tells which orbital of which
site of the crystal a row stands for, and each orbital has exactly one copy among them. -/
structure Represents [CommRing K] (N : Nat) (M : Nat → Nat → K) (H : Wave K → Wave K)
    (here : Index3 → Nat → Nat → Prop) (p : Periods) (phase : Index3 → K) (site : Nat → Index3 × Nat × Nat) : Prop where
  on : ∀ r, r < N → here (site r).1 (site r).2.1 (site r).2.2
  complete : ∀ R α j, here R α j → ∃ r, r < N ∧ (site r).2 = (α, j) ∧ IsPeriod p ((site r).1.sub R)
  unique : ∀ r r', r < N → r' < N → (site r).2 = (site r').2 → IsPeriod p ((site r).1.sub (site r').1) → r = r'
  act : ∀ ψ, OnSites here p phase ψ → ∀ r, r < N →
    ∑ c ∈ Finset.range N, M r c * ψ (site c).1 (site c).2.1 (site c).2.2 = H ψ (site r).1 (site r).2.1 (site r).2.2

/-- Every vector belongs to a wave. -/
theorem Represents.extend [CommRing K] {N : Nat} {M : Nat → Nat → K} {H : Wave K → Wave K}
    {here : Index3 → Nat → Nat → Prop} {p : Periods} {phase : Index3 → K} {site : Nat → Index3 × Nat × Nat}
    (h : Represents N M H here p phase site) (hph : phase Index3.zero = 1)
    (hmul : ∀ S T, IsPeriod p S → IsPeriod p T → phase (S.add T) = phase S * phase T)
    (hper : ∀ R α j S, IsPeriod p S → (here (R.sub S) α j ↔ here R α j)) (v : Nat → K) :
    ∃ ψ, OnSites here p phase ψ ∧ ∀ r, r < N → ψ (site r).1 (site r).2.1 (site r).2.2 = v r := by
  classical
  let ψ : Wave K := fun R α j => if hh : here R α j then
    phase ((site (h.complete R α j hh).choose).1.sub R) * v (h.complete R α j hh).choose else 0
  have hval : ∀ r R α j, r < N → (site r).2 = (α, j) → IsPeriod p ((site r).1.sub R) →
      ψ R α j = phase ((site r).1.sub R) * v r := by
    intro r R α j hr hs hp
    have hh : here R α j := by
      have h1 := h.on r hr
      rw [hs] at h1
      have := (hper (site r).1 α j _ hp).2 h1
      rwa [Index3.sub_sub_self] at this
    obtain ⟨g1, g2, g3⟩ := (h.complete R α j hh).choose_spec
    have e : (h.complete R α j hh).choose = r := by
      refine h.unique _ _ g1 hr (g2.trans hs.symm) ?_
      have := g3.sub hp
      have e : ∀ a b c : Index3, (a.sub b).sub (c.sub b) = a.sub c := by
        intro a b c
        simp only [Index3.sub, Index3.mk.injEq]; omega
      rwa [e] at this
    show (if hh : here R α j then
      phase ((site (h.complete R α j hh).choose).1.sub R) * v (h.complete R α j hh).choose else 0) = _
    rw [dif_pos hh, e]
  refine ⟨ψ, ⟨?_, ?_⟩, ?_⟩
  · intro R α j S hS
    by_cases hh : here R α j
    · obtain ⟨r, hr, h2, h3⟩ := h.complete R α j hh
      have e : (site r).1.sub (R.sub S) = S.add ((site r).1.sub R) := by
        simp only [Index3.sub, Index3.add, Index3.mk.injEq]; omega
      rw [hval r R α j hr h2 h3, hval r (R.sub S) α j hr h2 (by rw [e]; exact hS.add h3), e, hmul _ _ hS h3, mul_assoc]
    · have h1 : ψ R α j = 0 := dif_neg hh
      have h2 : ψ (R.sub S) α j = 0 := dif_neg (by rw [hper R α j S hS]; exact hh)
      rw [h1, h2, mul_zero]
  · intro R α j hne
    by_contra hc
    exact hne (dif_neg hc)
  · intro r hr
    have e : (site r).1.sub (site r).1 = Index3.zero := by simp [Index3.sub, Index3.zero]
    rw [hval r _ _ _ hr rfl (by rw [e]; exact IsPeriod.zero p), e, hph, one_mul]

/-- The rows of a matrix and those of another one stand for the same orbitals, which are numbered differently:
the entries agree up to phases, one for each row. -/
theorem Represents.relabel [CommRing K] [StarRing K] {N N' : Nat} {M M' : Nat → Nat → K} {H H' : Wave K → Wave K}
    {here here' : Index3 → Nat → Nat → Prop} {p p' : Periods} {phase phase' : Index3 → K}
    {site site' : Nat → Index3 × Nat × Nat}
    (h : Represents N M H here p phase site) (h' : Represents N' M' H' here' p' phase' site')
    (hph : phase Index3.zero = 1)
    (hmul : ∀ S T, IsPeriod p S → IsPeriod p T → phase (S.add T) = phase S * phase T)
    (hunit : ∀ S, IsPeriod p S → star (phase S) * phase S = 1)
    (hper : ∀ R α j S, IsPeriod p S → (here (R.sub S) α j ↔ here R α j))
    (U : Index3 ≃ Index3) (hU : ∀ R S, U (R.add S) = (U R).add (U S)) (π : Nat ≃ Nat) (c : Nat → Index3)
    (hp : ∀ S, IsPeriod p' (U S) ↔ IsPeriod p S) (hphase : ∀ S, IsPeriod p S → phase' (U S) = phase S)
    (hhere : ∀ R α j, here' ((U R).add (c α)) (π α) j ↔ here R α j)
    (hH : ∀ ψ R α i, here R α i → H' (fun R' α' j => ψ (U.symm (R'.sub (c (π.symm α')))) (π.symm α') j)
      ((U R).add (c α)) (π α) i = H ψ R α i)
    (hq : ∀ ψ, OnSites here' p' phase' ψ → ∀ R α i S, IsPeriod p' S → H' ψ (R.sub S) α i = phase' S * H' ψ R α i) :
    N' = N ∧ ∃ (σ : Nat → Nat) (D : Nat → K), (∀ r, r < N → σ r < N) ∧
      (∀ r r', r < N → r' < N → σ r = σ r' → r = r') ∧ (∀ r, r < N → star (D r) * D r = 1) ∧
      (∀ r r', r < N → r' < N → M' (σ r) (σ r') * D r' = D r * M r r') ∧
      ∀ r r', r < N → r' < N' → (site' r').2 = (π (site r).2.1, (site r).2.2) →
        IsPeriod p' ((site' r').1.sub ((U (site r).1).add (c (site r).2.1))) →
        σ r = r' ∧ D r = star (phase' ((site' r').1.sub ((U (site r).1).add (c (site r).2.1)))) := by
  classical
  have hUsub : ∀ R S, U (R.sub S) = (U R).sub (U S) := by
    intro R S
    have e := hU (R.sub S) S
    rw [Index3.sub_add_cancel] at e
    rw [e]
    simp [Index3.sub, Index3.add]
  have hU0 : U Index3.zero = Index3.zero := by
    have e := hUsub Index3.zero Index3.zero
    have z : ∀ a : Index3, a.sub a = Index3.zero := fun a => by simp [Index3.sub, Index3.zero]
    rw [z, z] at e
    exact e
  have hVp : ∀ S, IsPeriod p' S → IsPeriod p (U.symm S) := by
    intro S hS
    rw [← hp, Equiv.apply_symm_apply]
    exact hS
  have hphV : ∀ S, IsPeriod p' S → phase' S = phase (U.symm S) := by
    intro S hS
    rw [← hphase _ (hVp S hS), Equiv.apply_symm_apply]
  have hunit' : ∀ S, IsPeriod p' S → star (phase' S) * phase' S = 1 := by
    intro S hS
    rw [hphV S hS]
    exact hunit _ (hVp S hS)
  -- the row of the other matrix
  have hex : ∀ r, r < N → ∃ r', r' < N' ∧ (site' r').2 = (π (site r).2.1, (site r).2.2) ∧
      IsPeriod p' ((site' r').1.sub ((U (site r).1).add (c (site r).2.1))) :=
    fun r hr => h'.complete _ _ _ ((hhere _ _ _).2 (h.on r hr))
  have hback : ∀ r', r' < N' → ∃ r, r < N ∧ (site' r').2 = (π (site r).2.1, (site r).2.2) ∧
      IsPeriod p' ((site' r').1.sub ((U (site r).1).add (c (site r).2.1))) := by
    intro r' hr'
    have h1 := h'.on r' hr'
    have h2 : here (U.symm ((site' r').1.sub (c (π.symm (site' r').2.1)))) (π.symm (site' r').2.1) (site' r').2.2 := by
      rw [← hhere, Equiv.apply_symm_apply, Equiv.apply_symm_apply, Index3.sub_add_cancel]
      exact h1
    obtain ⟨r, hr, e, hP⟩ := h.complete _ _ _ h2
    have e1 : (site r).2.1 = π.symm (site' r').2.1 := by rw [e]
    have e2 : (site r).2.2 = (site' r').2.2 := by rw [e]
    refine ⟨r, hr, ?_, ?_⟩
    · rw [e1, e2, Equiv.apply_symm_apply]
    · rw [← hp, hUsub, Equiv.apply_symm_apply] at hP
      have := hP.neg
      rw [Index3.neg_sub] at this
      rw [e1]
      convert this using 1
      simp only [Index3.sub, Index3.add, Index3.mk.injEq]; omega
  have hone : ∀ r r' r'', r' < N' → r'' < N' → (site' r').2 = (π (site r).2.1, (site r).2.2) →
      IsPeriod p' ((site' r').1.sub ((U (site r).1).add (c (site r).2.1))) →
      (site' r'').2 = (π (site r).2.1, (site r).2.2) →
      IsPeriod p' ((site' r'').1.sub ((U (site r).1).add (c (site r).2.1))) → r' = r'' := by
    intro r r' r'' h1 h2 a1 a2 b1 b2
    refine h'.unique _ _ h1 h2 (a1.trans b1.symm) ?_
    have := a2.sub b2
    have e : ∀ a b c : Index3, (a.sub b).sub (c.sub b) = a.sub c := by
      intro a b c
      simp only [Index3.sub, Index3.mk.injEq]; omega
    rwa [e] at this
  have hinj : ∀ r1 r2 r', r1 < N → r2 < N → (site' r').2 = (π (site r1).2.1, (site r1).2.2) →
      IsPeriod p' ((site' r').1.sub ((U (site r1).1).add (c (site r1).2.1))) →
      (site' r').2 = (π (site r2).2.1, (site r2).2.2) →
      IsPeriod p' ((site' r').1.sub ((U (site r2).1).add (c (site r2).2.1))) → r1 = r2 := by
    intro r1 r2 r' h1 h2 a1 a2 b1 b2
    rw [a1, Prod.mk.injEq] at b1
    have e1 := π.injective b1.1
    refine h.unique _ _ h1 h2 (Prod.ext e1 b1.2) ?_
    rw [← hp, hUsub]
    have := b2.sub a2
    rw [e1] at this
    convert this using 1
    simp only [Index3.sub, Index3.add, Index3.mk.injEq]; omega
  let σ : Nat → Nat := fun r => if hr : r < N then (hex r hr).choose else 0
  have hσ : ∀ r, r < N → σ r < N' ∧ (site' (σ r)).2 = (π (site r).2.1, (site r).2.2) ∧
      IsPeriod p' ((site' (σ r)).1.sub ((U (site r).1).add (c (site r).2.1))) := by
    intro r hr
    have e : σ r = (hex r hr).choose := dif_pos hr
    rw [e]
    exact (hex r hr).choose_spec
  have hσinj : ∀ r r', r < N → r' < N → σ r = σ r' → r = r' := by
    intro r r' hr hr' he
    obtain ⟨-, a1, a2⟩ := hσ r hr
    obtain ⟨-, b1, b2⟩ := hσ r' hr'
    rw [← he] at b1 b2
    exact hinj r r' (σ r) hr hr' a1 a2 b1 b2
  have hσsur : ∀ r', r' < N' → ∃ r, r < N ∧ σ r = r' := by
    intro r' hr'
    obtain ⟨r, hr, a1, a2⟩ := hback r' hr'
    obtain ⟨b0, b1, b2⟩ := hσ r hr
    exact ⟨r, hr, hone r _ _ b0 hr' b1 b2 a1 a2⟩
  have hN : N' = N := by
    have hb : (Finset.range N).card = (Finset.range N').card := by
      refine Finset.card_bij (fun r _ => σ r) ?_ ?_ ?_
      · intro r hr
        rw [Finset.mem_range] at hr ⊢
        exact (hσ r hr).1
      · intro r hr r' hr' he
        rw [Finset.mem_range] at hr hr'
        exact hσinj r r' hr hr' he
      · intro r' hr'
        rw [Finset.mem_range] at hr'
        obtain ⟨r, hr, he⟩ := hσsur r' hr'
        exact ⟨r, Finset.mem_range.2 hr, he⟩
    simpa using hb.symm
  let shift : Nat → Index3 := fun r => (site' (σ r)).1.sub ((U (site r).1).add (c (site r).2.1))
  let D : Nat → K := fun r => star (phase' (shift r))
  have hDunit : ∀ r, r < N → star (D r) * D r = 1 := by
    intro r hr
    show star (star (phase' (shift r))) * star (phase' (shift r)) = 1
    rw [star_star, mul_comm]
    exact hunit' _ (hσ r hr).2.2
  -- values of a wave on the other sites
  have hmove : ∀ r, r < N → ∀ φ : Wave K, (∀ R α j S, IsPeriod p' S → φ (R.sub S) α j = phase' S * φ R α j) →
      φ (site' (σ r)).1 (site' (σ r)).2.1 (site' (σ r)).2.2
        = D r * φ ((U (site r).1).add (c (site r).2.1)) (π (site r).2.1) (site r).2.2 := by
    intro r hr φ hφ
    obtain ⟨-, a1, a2⟩ := hσ r hr
    have e := hφ (site' (σ r)).1 (π (site r).2.1) (site r).2.2 _ a2
    rw [Index3.sub_sub_self] at e
    rw [a1, e, ← mul_assoc]
    have := hunit' _ a2
    show _ = star (phase' (shift r)) * phase' (shift r) * _
    rw [this, one_mul]
  refine ⟨hN, σ, D, ?_, hσinj, hDunit, ?_, ?_⟩
  · intro r hr
    have := (hσ r hr).1
    omega
  · intro r r' hr hr'
    obtain ⟨ψ, hψ, hv⟩ := h.extend hph hmul hper (fun x => if x = r' then 1 else 0)
    let φ : Wave K := fun R' α' j => ψ (U.symm (R'.sub (c (π.symm α')))) (π.symm α') j
    have hφF : ∀ R α j, φ ((U R).add (c α)) (π α) j = ψ R α j := by
      intro R α j
      show ψ (U.symm (((U R).add (c α)).sub (c (π.symm (π α))))) (π.symm (π α)) j = _
      rw [Equiv.symm_apply_apply]
      have e : ((U R).add (c α)).sub (c α) = U R := by simp [Index3.sub, Index3.add]
      rw [e, Equiv.symm_apply_apply]
    have hφ : OnSites here' p' phase' φ := by
      constructor
      · intro R α j S hS
        show ψ (U.symm ((R.sub S).sub (c (π.symm α)))) (π.symm α) j = _ * ψ (U.symm (R.sub (c (π.symm α)))) (π.symm α) j
        have e : U.symm ((R.sub S).sub (c (π.symm α))) = (U.symm (R.sub (c (π.symm α)))).sub (U.symm S) := by
          rw [Equiv.symm_apply_eq, hUsub, Equiv.apply_symm_apply, Equiv.apply_symm_apply, Index3.sub_sub_comm]
        rw [e, hψ.quasi _ _ _ _ (hVp S hS), hphV S hS]
      · intro R α j hne
        have h1 := hψ.support _ _ _ hne
        rw [← hhere, Equiv.apply_symm_apply, Equiv.apply_symm_apply, Index3.sub_add_cancel] at h1
        exact h1
    have h1 := h'.act φ hφ (σ r) (hσ r hr).1
    rw [hmove r hr (H' φ) (hq φ hφ)] at h1
    rw [hH ψ _ _ _ (h.on r hr), ← h.act ψ hψ r hr] at h1
    rw [Finset.sum_eq_single (σ r')] at h1
    · rw [hmove r' hr' φ hφ.quasi, hφF, hv r' hr', if_pos rfl, mul_one] at h1
      rw [h1]
      congr 1
      rw [Finset.sum_eq_single r']
      · rw [hv r' hr', if_pos rfl, mul_one]
      · intro x hx hne
        rw [Finset.mem_range] at hx
        rw [hv x hx, if_neg hne, mul_zero]
      · intro hx
        exact absurd (Finset.mem_range.2 hr') hx
    · intro x hx hne
      rw [Finset.mem_range] at hx
      obtain ⟨y, hy, rfl⟩ := hσsur x hx
      have : y ≠ r' := fun e => hne (by rw [e])
      rw [hmove y hy φ hφ.quasi, hφF, hv y hy, if_neg this, mul_zero, mul_zero]
    · intro hx
      exact absurd (Finset.mem_range.2 (hσ r' hr').1) hx
  · intro r r' hr hr' a1 a2
    obtain ⟨b0, b1, b2⟩ := hσ r hr
    have e : σ r = r' := hone r _ _ b0 hr' b1 b2 a1 a2
    refine ⟨e, ?_⟩
    show star (phase' ((site' (σ r)).1.sub _)) = _
    rw [e]

section
variable [AddMonoid C] [StarAddMonoid C] [DecidableEq C]
  (ops : List (Lattice.Lattice.Op C L)) (subs : List (String × Sublattice C L))
  (hops : List (String × HoppingFamily C))
  (hs : subs.Perm (run ops empty).subs) (hh : hops.Perm (run ops empty).hops)
  (ha : AliasesOK (run ops empty)) (d : Dims) (p : Periods) (valid : List Bool)
  (hl : valid.length = (sites d subs.length).length) (hf : enabled p = true → Symmetry.Fits d p)
  (pos : Nat → P) (junk : P) (shiftOf : Index3 → P) (s : System C P)
  (hsys : makeSystem subs hops d p valid pos junk shiftOf = .ok s)
include hs hh ha hl hf hsys

/-- The matrix of a system represents the Hamiltonian of the crystal. -/
theorem system_represents [CommRing K] [StarRing K] [DecidableEq K] [AddGroup P] (cast : C → K)
    (hc0 : cast 0 = 0) (hshort : enabled p = true → ∀ q ∈ allTerms (run ops empty).hops, Short p q.2.rel)
    (hin : enabled p = true → InArea d p subs.length valid)
    (mods : Modifiers K P) (gs : List (ElemFn K P)) (gos : List (OnsiteFn K P)) (maxBuffer : Nat)
    (phase : P → K) (hph : phase 0 = 1) (hsh : shiftOf Index3.zero = 0) (simple : Bool)
    (hbuf : ∀ q ∈ hops, q.2.energy.size ≤ maxBuffer)
    (hch : ∀ r c, Chain r c mods.hopping gs) (hon : ∀ n, OnsiteChain n mods.onsite gos)
    (hunit : ∀ S, IsPeriod p S → star (phase (shiftOf S)) * phase (shiftOf S) = 1)
    (cell : List CellSite) (hcell : optimizedUnitCell subs hops = .ok cell)
    (posOf : Index3 → Nat → P) (hrep : Repeats d cell p valid pos shiftOf posOf gs) :
    ∃ m site, make cast s mods maxBuffer phase simple = .ok m ∧
      Represents (Sublat.hamiltonianSize s.sublattices) (coeff m) (crystal (run ops empty) cast gs gos posOf)
        (fun R α j => Copy d cell p valid R α ∧ j < orbitals (run ops empty) α) p (fun S => phase (shiftOf S)) site ∧
      ∀ k ck j, valid[k]? = some true → crystalSite d cell k = some ck → j < orbitals (run ops empty) ck.2.uniqueId →
        firstRow (tableNorbs s.sublattices) ((valid.take k).count true) + j < Sublat.hamiltonianSize s.sublattices ∧
        site (firstRow (tableNorbs s.sublattices) ((valid.take k).count true) + j) = (ck.1, ck.2.uniqueId, j) := by
  obtain ⟨m, hm, -, hact⟩ := C86_crystal ops subs hops hs hh ha d p valid hl hf pos junk shiftOf s hsys cast hc0
    hshort hin mods gs gos maxBuffer phase hph hsh simple hbuf hch hon hunit cell hcell posOf hrep
  obtain ⟨hlen, hex, hsite, hinj⟩ := sites_of_system ops subs hops hs hh ha d p valid hl hf pos junk shiftOf s
    hsys hin hcell
  set l := run ops empty with hldef
  set N := Sublat.hamiltonianSize s.sublattices with hN
  set row := fun k : Nat => firstRow (tableNorbs s.sublattices) ((valid.take k).count true) with hrowdef
  have hrows : ∀ r, r < N → ∃ k ck j, valid[k]? = some true ∧ crystalSite d cell k = some ck ∧
      j < orbitals l ck.2.uniqueId ∧ r = row k + j := by
    intro r hr
    rw [hN, Sublat.hamiltonianSize_eq] at hr
    obtain ⟨k', j, hj, hkj⟩ := exists_row _ r hr
    have hk' : k' < valid.count true := by
      by_contra hc
      rw [List.getD_eq_getElem?_getD, List.getElem?_eq_none (by omega)] at hj
      simp at hj
    obtain ⟨k, hk, rfl⟩ := validPairs_get' hk'
    obtain ⟨ck, hck⟩ := hex k hk
    exact ⟨k, ck, j, hk, hck, (hsite k ck hk hck).1 ▸ hj, hkj⟩
  have hrowlt : ∀ k ck j, valid[k]? = some true → crystalSite d cell k = some ck → j < orbitals l ck.2.uniqueId →
      row k + j < N := by
    intro k ck j hk hck hj
    rw [hN, Sublat.hamiltonianSize_eq]
    have h1 := (hsite k ck hk hck).1
    have h2 := firstRow_succ (tableNorbs s.sublattices) (rank valid k)
    have h3 := firstRow_le_sum (tableNorbs s.sublattices) (rank valid k + 1)
    rw [h2, h1] at h3
    have : row k = firstRow (tableNorbs s.sublattices) (rank valid k) := rfl
    omega
  have hrowinj : ∀ k ck j k' ck' j', valid[k]? = some true → crystalSite d cell k = some ck →
      j < orbitals l ck.2.uniqueId → valid[k']? = some true → crystalSite d cell k' = some ck' →
      j' < orbitals l ck'.2.uniqueId → row k + j = row k' + j' → k = k' ∧ ck = ck' ∧ j = j' := by
    intro k ck j k' ck' j' hk hck hj hk' hck' hj' he
    obtain ⟨h1, h2⟩ := firstRow_inj (norbs := tableNorbs s.sublattices) (k := rank valid k) (k' := rank valid k')
      (by rw [(hsite k ck hk hck).1]; exact hj) (by rw [(hsite k' ck' hk' hck').1]; exact hj') he
    have := Foundation.rank_inj hk hk' h1
    subst this
    rw [hck, Option.some.injEq] at hck'
    exact ⟨rfl, hck', h2⟩
  classical
  let site : Nat → Index3 × Nat × Nat := fun r => if h : ∃ k ck j, valid[k]? = some true ∧
    crystalSite d cell k = some ck ∧ j < orbitals l ck.2.uniqueId ∧ r = row k + j then
      (h.choose_spec.choose.1, h.choose_spec.choose.2.uniqueId, h.choose_spec.choose_spec.choose) else (Index3.zero, 0, 0)
  have hst : ∀ k ck j, valid[k]? = some true → crystalSite d cell k = some ck →
      j < orbitals l ck.2.uniqueId → site (row k + j) = (ck.1, ck.2.uniqueId, j) := by
    intro k ck j hk hck hj
    have h : ∃ k' ck' j', valid[k']? = some true ∧ crystalSite d cell k' = some ck' ∧
      j' < orbitals l ck'.2.uniqueId ∧ row k + j = row k' + j' := ⟨k, ck, j, hk, hck, hj, rfl⟩
    obtain ⟨h1, h2, h3, h4⟩ := h.choose_spec.choose_spec.choose_spec
    obtain ⟨-, e2, e3⟩ := hrowinj _ _ _ _ _ _ hk hck hj h1 h2 h3 h4
    show (if h : _ then _ else _) = _
    rw [dif_pos h, ← e3, ← e2]
  have hself : ∀ a : Index3, IsPeriod p (a.sub a) := by
    intro a
    have e : a.sub a = Index3.zero := by simp [Index3.sub, Index3.zero]
    rw [e]; exact IsPeriod.zero p
  refine ⟨m, site, hm, ⟨?_, ?_, ?_, ?_⟩, fun k ck j hk hck hj => ⟨hrowlt k ck j hk hck hj, hst k ck j hk hck hj⟩⟩
  · intro r hr
    obtain ⟨k, ck, j, hk, hck, hj, rfl⟩ := hrows r hr
    rw [hst k ck j hk hck hj]
    exact ⟨⟨k, ck, hk, hck, rfl, hself _⟩, hj⟩
  · rintro R α j ⟨⟨k, ck, hk, hck, rfl, hp⟩, hj⟩
    refine ⟨row k + j, hrowlt k ck j hk hck hj, ?_⟩
    rw [hst k ck j hk hck hj]
    exact ⟨rfl, hp⟩
  · intro r r' hr hr' he hp
    obtain ⟨k, ck, j, hk, hck, hj, rfl⟩ := hrows r hr
    obtain ⟨k', ck', j', hk', hck', hj', rfl⟩ := hrows r' hr'
    rw [hst k ck j hk hck hj, hst k' ck' j' hk' hck' hj'] at he hp
    simp only [Prod.mk.injEq] at he
    rw [hinj k k' ck ck' hk hk' hck hck' he.1 hp, he.2]
  · intro ψ hψ r hr
    obtain ⟨k, ck, i, hk, hck, hi, rfl⟩ := hrows r hr
    rw [hst k ck i hk hck hi]
    exact hact ψ ⟨hψ.quasi, fun R α j _ h => (hψ.support R α j h).1⟩
      (fun c => ψ (site c).1 (site c).2.1 (site c).2.2)
      (fun k ck j hk hck hj => by
        show ψ (site (row k + j)).1 (site (row k + j)).2.1 (site (row k + j)).2.2 = _
        rw [hst k ck j hk hck hj]) k ck i hk hck hi
end

end Verif.Pipeline
