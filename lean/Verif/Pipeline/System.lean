import Verif.Pipeline.Lemmas

/-!
# The populated system of a lattice
-/

namespace Verif.Pipeline

open Verif.Lattice (Sublattice HoppingFamily Registry CellSite CellHopping optimizedUnitCell siteRegistry
  hoppingRegistry Inv)
open Verif.Lattice.Lattice (run empty allTerms)
open Verif.Foundation (Dims populateSystem CellOK cell_of_lattice size locOf rank validPairs cellAt
  crystalSite hoppingsAt popOps siteEntries finalize siteAt)
open Verif.Symmetry (Periods populateBoundaries periodIndex cmul Supported boundaryEntries)
open Verif.Sublat (tableNorbs)
open Verif.Hamiltonian (HopOK SitesOK SimpleBonds HermMat SizesOK energyAt nameAt entry Fits)
open Verif.Hopping (COO)

variable {C L P : Type}

theorem mem_add {t : Sublat.Table} {id : Int} {norb count : Nat} {e : Sublat.Elem}
    (h : e ∈ Sublat.add t id norb count) :
    (∃ e' ∈ t, e.id = e'.id ∧ e.numOrb = e'.numOrb) ∨ (e.id = id ∧ e.numOrb = norb) := by
  unfold Sublat.add at h
  split at h
  · rcases List.mem_append.1 h with h | h
    · exact .inl ⟨e, h, rfl, rfl⟩
    · simp only [List.mem_singleton] at h
      subst h
      exact .inr ⟨rfl, rfl⟩
  · rename_i back hb
    split at h
    · rcases List.mem_append.1 h with h | h
      · exact .inl ⟨e, h, rfl, rfl⟩
      · simp only [List.mem_singleton] at h
        subst h
        exact .inr ⟨rfl, rfl⟩
    · rcases List.mem_append.1 h with h | h
      · exact .inl ⟨e, List.dropLast_subset t h, rfl, rfl⟩
      · simp only [List.mem_singleton] at h
        subst h
        exact .inl ⟨back, List.mem_of_getLast? hb, rfl, rfl⟩

theorem mem_runAdds (ops : List Sublat.Spec.AddOp) {e : Sublat.Elem} (h : e ∈ Sublat.runAdds ops) :
    ∃ o ∈ ops, e.id = o.id ∧ e.numOrb = o.norb := by
  have key : ∀ (ops : List Sublat.Spec.AddOp) (t : Sublat.Table),
      e ∈ ops.foldl (fun d o => Sublat.add d o.id o.norb o.count) t →
      (∃ e' ∈ t, e.id = e'.id ∧ e.numOrb = e'.numOrb) ∨ ∃ o ∈ ops, e.id = o.id ∧ e.numOrb = o.norb := by
    intro ops
    induction ops with
    | nil => exact fun t h => .inl ⟨e, h, rfl, rfl⟩
    | cons o ops ih =>
      intro t h
      rw [List.foldl_cons] at h
      rcases ih _ h with ⟨e', h1, h2, h3⟩ | ⟨o', h1, h2⟩
      · rcases mem_add h1 with ⟨e'', g1, g2, g3⟩ | ⟨g1, g2⟩
        · exact .inl ⟨e'', g1, h2.trans g2, h3.trans g3⟩
        · exact .inr ⟨o, List.mem_cons_self, h2.trans g1, h3.trans g2⟩
      · exact .inr ⟨o', List.mem_cons_of_mem _ h1, h2⟩
  rcases key ops [] h with ⟨e', h1, -⟩ | h
  · simp at h1
  · exact h

section
variable {d : Dims} {cell : List CellSite} {nhop : Nat} {valid : List Bool}

theorem validPairs_get {k : Nat} (hk : valid[k]? = some true) :
    (validPairs valid)[rank valid k]? = some (k, rank valid k) := by
  have hm : (k, rank valid k) ∈ validPairs valid := Foundation.mem_validPairs.2 ⟨hk, rfl⟩
  obtain ⟨i, hi⟩ := List.mem_iff_getElem?.1 hm
  have h2 : ((validPairs valid).map (·.2))[i]? = some (rank valid k) := by
    rw [List.getElem?_map, hi]; rfl
  rw [Foundation.map_snd_validPairs] at h2
  obtain ⟨h3, h4⟩ := List.getElem?_eq_some_iff.1 h2
  rw [List.getElem_range] at h4
  rw [← h4] at hi ⊢
  exact hi

theorem validPairs_get' {a : Nat} (ha : a < valid.count true) :
    ∃ k, valid[k]? = some true ∧ rank valid k = a := by
  have hlen : (validPairs valid).length = valid.count true := by
    have := congrArg List.length (Foundation.map_snd_validPairs valid)
    simpa using this
  have hm := List.getElem_mem (l := validPairs valid) (n := a) (by omega)
  obtain ⟨h1, h2⟩ := Foundation.mem_validPairs.1 hm
  refine ⟨_, h1, ?_⟩
  have h3 : ((validPairs valid).map (·.2))[a]? = some ((validPairs valid)[a]'(by omega)).2 := by
    rw [List.getElem?_map, List.getElem?_eq_getElem (by omega)]; rfl
  rw [Foundation.map_snd_validPairs, List.getElem?_range ha] at h3
  simp only [Option.some.injEq] at h3
  rw [← h2, ← h3]

theorem maskFilter_get {α : Type} (g : Nat → α) {k : Nat} (hk : valid[k]? = some true) :
    (maskFilter valid ((List.range valid.length).map g))[rank valid k]? = some (g k) := by
  rw [← Foundation.map_fst_validPairs, List.getElem?_map, validPairs_get hk]
  rfl

theorem popOps_get (hl : valid.length = size d cell.length) {k : Nat} {c : CellSite}
    (hk : valid[k]? = some true) (hc : cellAt d cell k = some c) :
    (popOps d cell valid)[rank valid k]? = some ⟨c.aliasId, c.norb, 1⟩ := by
  rw [Foundation.popOps_eq, List.getElem?_map, validPairs_get hk]
  unfold cellAt at hc
  simp [hc]

theorem tableNorbs_pop (hok : CellOK cell nhop) (hl : valid.length = size d cell.length) :
    tableNorbs (Sublat.runAdds (popOps d cell valid)) = (popOps d cell valid).map (·.norb) := by
  rw [Sublat.tableNorbs_runAdds _ (Foundation.popOps_consistent hok hl)]
  exact Foundation.flatMap_replicate_one _ _ _ (Foundation.count_one hl)

theorem decompressed_pop (hl : valid.length = size d cell.length) :
    Sublat.decompressed (Sublat.runAdds (popOps d cell valid)) = (popOps d cell valid).map (fun o => some o.id) := by
  rw [(Sublat.C01_labels_roundtrip _).1]
  unfold Sublat.Spec.labels
  rw [Foundation.flatMap_replicate_one _ _ _ (Foundation.count_one hl), List.map_map]
  rfl

theorem norb_at (hok : CellOK cell nhop) (hl : valid.length = size d cell.length) {k : Nat} {c : CellSite}
    (hk : valid[k]? = some true) (hc : cellAt d cell k = some c) :
    (tableNorbs (Sublat.runAdds (popOps d cell valid)))[rank valid k]? = some c.norb := by
  rw [tableNorbs_pop hok hl, List.getElem?_map, popOps_get hl hk hc]
  rfl

theorem cellAt_some (hl : valid.length = size d cell.length) {k : Nat} (hk : valid[k]? = some true) :
    ∃ c, cellAt d cell k = some c ∧ c ∈ cell := by
  have := Foundation.cellAt_lt hl (List.getElem?_eq_some_iff.1 hk).1
  exact ⟨_, List.getElem?_eq_getElem this, List.getElem_mem this⟩

end

/-- The system assembled from its parts. System.cpp:101-126. -/
def assemble (sr hr : Registry C) (d : Dims) (cell : List CellSite) (nhop : Nat) (valid : List Bool)
    (pos : Nat → P) (bs : List (Hamiltonian.Boundary P)) : Hamiltonian.System C P :=
  ⟨sr, hr, maskFilter valid ((List.range valid.length).map pos), Sublat.runAdds (popOps d cell valid),
    ⟨valid.count true, (List.range nhop).map fun fam =>
      siteEntries d cell (finalize d cell nhop valid) fam
        ((validPairs valid).map fun p => (siteAt d p.1, p.2)), nameMap hr⟩, bs⟩

section
variable [Zero C] [Star C] {l : Lattice.Lattice C L} {sr hr : Registry C} {cell : List CellSite}
  {d : Dims} {valid : List Bool}

theorem Parts.fam (h : Parts l sr hr cell) (inv : Inv l) {fam : Nat} (hf : fam < l.hops.length) :
    hr.energy fam = .ok (famEnergy l fam) ∧ hr.name fam = .ok (famName l fam) := by
  have hg := List.getElem?_eq_getElem hf
  obtain ⟨h1, h2⟩ := h.hop _ (List.getElem_mem hf)
  rw [inv.hopIds fam _ hg] at h1 h2
  unfold famEnergy famName
  rw [hg]
  exact ⟨h2, h1⟩

/-- A counted term fixes the sizes of the energies. -/
theorem Parts.fits (h : Parts l sr hr cell) (inv : Inv l) (hl : valid.length = size d cell.length)
    {k k' : Nat} (hk : valid[k]? = some true) (hk' : valid[k']? = some true) {fam : Nat} {r : Index3}
    (hc : 0 < (hoppingsAt cell (locOf d k).sub).count ⟨r, (locOf d k').sub, fam, false⟩) :
    Fits (tableNorbs (Sublat.runAdds (popOps d cell valid))) (famEnergy l fam)
      ⟨rank valid k, rank valid k'⟩ := by
  obtain ⟨a, ha, ham⟩ := cellAt_some (d := d) (cell := cell) hl hk
  obtain ⟨b, hb, hbm⟩ := cellAt_some (d := d) (cell := cell) hl hk'
  rw [h.counts _ _ a b ha hb] at hc
  obtain ⟨⟨f, t⟩, hm, hx⟩ := List.countP_pos_iff.1 hc
  rw [decide_eq_true_eq] at hx
  obtain ⟨n, hn, ht⟩ := Lattice.Lattice.mem_allTerms.1 hm
  obtain ⟨pa, pb, e1, e2, e3, e4⟩ := inv.ends _ hn t ht
  obtain ⟨i, hi⟩ := List.mem_iff_getElem?.1 hn
  have hif := inv.hopIds i _ hi
  simp only at hx hif e3 e4
  obtain ⟨x1, -, x3, x4⟩ := hx
  have hE : famEnergy l fam = f.energy := by
    unfold famEnergy
    rw [← x4, hif, hi]
  obtain ⟨qa, a1, a2, a3, -, -⟩ := h.cellSub a ham
  obtain ⟨qb, b1, b2, b3, -, -⟩ := h.cellSub b hbm
  rw [← x1, e1, Option.some.injEq] at a1
  rw [← x3, e2, Option.some.injEq] at b1
  subst a1 b1
  constructor
  · show (tableNorbs _)[rank valid k]? = _
    rw [norb_at h.cellOK hl hk ha, hE, ← e3, a3]
  · show (tableNorbs _)[rank valid k']? = _
    rw [norb_at h.cellOK hl hk' hb, hE, ← e4, b2]

theorem Parts.hopOK (h : Parts l sr hr cell) (inv : Inv l) (hl : valid.length = size d cell.length)
    (pos : Nat → P) (bs : List (Hamiltonian.Boundary P)) (hb : Hopping.HoppingBlocks)
    (hlen : hb.blocks.length = l.hops.length)
    (hcount : ∀ (fam : Nat) b, hb.blocks[fam]? = some b → ∀ c ∈ b, ∃ k k' r, valid[k]? = some true ∧
      valid[k']? = some true ∧ c = ⟨rank valid k, rank valid k'⟩ ∧
      0 < (hoppingsAt cell (locOf d k).sub).count ⟨r, (locOf d k').sub, fam, false⟩) :
    HopOK (assemble sr hr d cell l.hops.length valid pos bs) hb (famEnergy l) (famName l) where
  sorted := (Foundation.runAdds_sorted _ (Foundation.popOps_sorted h.cellOK hl)
    (Foundation.popOps_consistent h.cellOK hl)).2
  orb := by
    intro n hn
    simp only [assemble] at hn
    rw [tableNorbs_pop h.cellOK hl] at hn
    obtain ⟨o, ho, rfl⟩ := List.mem_map.1 hn
    obtain ⟨c, hc, rfl⟩ := Foundation.mem_popOps hl ho
    obtain ⟨-, -, -, -, h0, -⟩ := h.cellSub c hc
    exact h0
  energy := fun fam hf => (h.fam inv (hlen ▸ hf)).1
  name := fun fam hf => (h.fam inv (hlen ▸ hf)).2
  fits := by
    intro fam b hfb c hc
    obtain ⟨k, k', r, hk, hk', rfl, hpos⟩ := hcount fam b hfb c hc
    exact h.fits inv hl hk hk' hpos

theorem main_count (hok : CellOK cell l.hops.length) (hl : valid.length = size d cell.length)
    (fam : Nat) (b : List COO)
    (hb : ((List.range l.hops.length).map fun fam =>
      siteEntries d cell (finalize d cell l.hops.length valid) fam
        ((validPairs valid).map fun p => (siteAt d p.1, p.2)))[fam]? = some b) :
    fam < l.hops.length ∧ b = siteEntries d cell (finalize d cell l.hops.length valid) fam
        ((validPairs valid).map fun p => (siteAt d p.1, p.2)) := by
  have hf : fam < l.hops.length := by
    have := (List.getElem?_eq_some_iff.1 hb).1
    simpa using this
  rw [List.getElem?_map, List.getElem?_range hf] at hb
  simp only [Option.map_some, Option.some.injEq] at hb
  exact ⟨hf, hb.symm⟩

theorem Parts.mainOK (h : Parts l sr hr cell) (inv : Inv l) (hl : valid.length = size d cell.length)
    (pos : Nat → P) (bs : List (Hamiltonian.Boundary P)) :
    HopOK (assemble sr hr d cell l.hops.length valid pos bs)
      (assemble sr hr d cell l.hops.length valid pos bs).hoppings (famEnergy l) (famName l) := by
  refine h.hopOK inv hl pos bs _ (by simp [assemble]) ?_
  intro fam b hb c hc
  obtain ⟨hf, rfl⟩ := main_count h.cellOK hl fam b hb
  obtain ⟨k, k', hk, hk', rfl⟩ := Foundation.mem_siteEntries h.cellOK hl fam c hc
  refine ⟨k, k', (locOf d k').idx.sub (locOf d k).idx, hk, hk', rfl, ?_⟩
  rw [← Foundation.count_siteEntries h.cellOK hl hk hk' fam]
  exact List.count_pos_iff.2 hc

theorem Parts.bonds (h : Parts l sr hr cell) (hl : valid.length = size d cell.length)
    (pos : Nat → P) (bs : List (Hamiltonian.Boundary P)) :
    SimpleBonds (assemble sr hr d cell l.hops.length valid pos bs).hoppings := by
  constructor
  · intro c hc hcc
    simp only [assemble] at hc
    obtain ⟨b, hb, hcb⟩ := List.mem_flatten.1 hc
    obtain ⟨fam, -, rfl⟩ := List.mem_map.1 hb
    obtain ⟨k, k', hk, hk', rfl⟩ := Foundation.mem_siteEntries h.cellOK hl fam c hcb
    have hkk : k = k' := Foundation.rank_inj hk hk' hcc
    subst hkk
    have := List.count_pos_iff.2 hcb
    rw [Foundation.count_siteEntries h.cellOK hl hk hk fam] at this
    refine h.cellOK.noSelf _ _ (List.count_pos_iff.1 this) ⟨?_, rfl⟩
    simp [Index3.sub, Index3.zero]
  · exact fun a b => Foundation.bonds_once h.cellOK hl _ a b

theorem Parts.sizes (h : Parts l sr hr cell) (hl : valid.length = size d cell.length)
    {e : Sublat.Elem} (he : e ∈ Sublat.runAdds (popOps d cell valid)) :
    ∃ p ∈ l.subs, ∃ q, l.subs[p.2.aliasId]? = some q ∧ energyAt sr e.id = .ok p.2.energy ∧
      nameAt sr e.id = .ok q.1 ∧ p.2.energy.rows = e.numOrb ∧ p.2.energy.cols = e.numOrb := by
  obtain ⟨o, ho, e1, e2⟩ := mem_runAdds _ he
  obtain ⟨c, hc, rfl⟩ := Foundation.mem_popOps hl ho
  obtain ⟨p, hp, p1, p2, -, p4⟩ := h.cellSub c hc
  obtain ⟨q, q1, q2, q3⟩ := h.site p (List.mem_of_getElem? hp)
  refine ⟨p, List.mem_of_getElem? hp, q, q1, ?_, ?_, ?_, ?_⟩
  · rw [e1, ← p4]; exact q3
  · rw [e1, ← p4]; exact q2
  · rw [e2, p2]
  · rw [e2, p1]

/-- Energy and name of a site are those of its sublattice and of the one it is an alias of. -/
theorem Parts.siteAt (h : Parts l sr hr cell) (hl : valid.length = size d cell.length)
    (pos : Nat → P) (bs : List (Hamiltonian.Boundary P)) {k : Nat} {c : CellSite}
    (hk : valid[k]? = some true) (hc : cellAt d cell k = some c) (hcm : c ∈ cell) :
    ∃ p q, l.subs[c.uniqueId]? = some p ∧ l.subs[p.2.aliasId]? = some q ∧
      (Sublat.decompressed (Sublat.runAdds (popOps d cell valid)))[rank valid k]? = some (some (c.aliasId : Int)) ∧
      energyAt sr c.aliasId = .ok p.2.energy ∧ nameAt sr c.aliasId = .ok q.1 ∧
      p.2.energy.rows = c.norb ∧ p.2.energy.cols = c.norb ∧
      siteEnergy (assemble sr hr d cell l.hops.length valid pos bs) (rank valid k) = p.2.energy ∧
      siteName (assemble sr hr d cell l.hops.length valid pos bs) (rank valid k) = q.1 := by
  obtain ⟨p, hp, p1, p2, -, p4⟩ := h.cellSub c hcm
  obtain ⟨q, q1, q2, q3⟩ := h.site p (List.mem_of_getElem? hp)
  have hd : (Sublat.decompressed (Sublat.runAdds (popOps d cell valid)))[rank valid k]?
      = some (some (c.aliasId : Int)) := by
    rw [decompressed_pop hl, List.getElem?_map, popOps_get hl hk hc]
    rfl
  rw [p4] at q2 q3
  refine ⟨p, q, hp, q1, hd, q3, q2, p2, p1, ?_, ?_⟩
  · unfold siteEnergy
    simp only [assemble, hd, q3]
  · unfold siteName
    simp only [assemble, hd, q2]

theorem Parts.sitesOK (h : Parts l sr hr cell) (hl : valid.length = size d cell.length)
    (pos : Nat → P) (bs : List (Hamiltonian.Boundary P)) :
    SitesOK (assemble sr hr d cell l.hops.length valid pos bs)
      (siteEnergy (assemble sr hr d cell l.hops.length valid pos bs))
      (siteName (assemble sr hr d cell l.hops.length valid pos bs)) where
  table := by
    intro e he
    obtain ⟨p, -, q, -, h1, h2, h3, h4⟩ := h.sizes hl he
    exact ⟨_, _, h1, h2, h3, h4⟩
  energy := by
    intro a id ha
    have hlt : a < valid.count true := by
      have := (List.getElem?_eq_some_iff.1 ha).1
      simp only [assemble] at this
      rw [decompressed_pop hl, List.length_map, Foundation.popOps_length] at this
      exact this
    obtain ⟨k, hk, rfl⟩ := validPairs_get' hlt
    obtain ⟨c, hc, hcm⟩ := cellAt_some (d := d) (cell := cell) hl hk
    obtain ⟨p, q, -, -, g1, g2, g3, -, -, g4, g5⟩ := h.siteAt hl pos bs hk hc hcm
    simp only [assemble] at ha
    rw [g1] at ha
    simp only [Option.some.injEq] at ha
    subst ha
    rw [g4, g5]
    exact ⟨g2, g3⟩
  fits := by
    intro a n ha
    simp only [assemble] at ha
    have hlt : a < valid.count true := by
      have := (List.getElem?_eq_some_iff.1 ha).1
      rw [tableNorbs_pop h.cellOK hl, List.length_map, Foundation.popOps_length] at this
      exact this
    obtain ⟨k, hk, rfl⟩ := validPairs_get' hlt
    obtain ⟨c, hc, hcm⟩ := cellAt_some (d := d) (cell := cell) hl hk
    obtain ⟨p, q, -, -, -, -, -, g2, g3, g4, -⟩ := h.siteAt hl pos bs hk hc hcm
    rw [norb_at h.cellOK hl hk hc] at ha
    simp only [Option.some.injEq] at ha
    subst ha
    rw [g4]
    exact ⟨g2, g3⟩

theorem Parts.sizesOK (h : Parts l sr hr cell) (hl : valid.length = size d cell.length)
    (pos : Nat → P) (bs : List (Hamiltonian.Boundary P)) :
    SizesOK (assemble sr hr d cell l.hops.length valid pos bs) := by
  intro e he m hm
  obtain ⟨p, -, q, -, h1, -, h3, -⟩ := h.sizes hl he
  simp only [assemble] at hm
  rw [h1, Res.ok.injEq] at hm
  subst hm
  exact h3

end

theorem fits_disabled {d : Dims} {p : Periods} (h : enabled p = false) : Symmetry.Fits d p := by
  unfold enabled at h
  simp only [Bool.or_eq_false_iff, Option.isSome_eq_false_iff, Option.isNone_iff_eq_none] at h
  obtain ⟨⟨h1, h2⟩, h3⟩ := h
  refine ⟨?_, ?_, ?_⟩ <;> intro n hn
  · rw [h1] at hn; cases hn
  · rw [h2] at hn; cases hn
  · rw [h3] at hn; cases hn

theorem masks_disabled {p : Periods} (h : enabled p = false) {m : Index3} (hm : m ∈ Symmetry.masks p) :
    m = Index3.zero := by
  unfold enabled at h
  simp only [Bool.or_eq_false_iff] at h
  obtain ⟨⟨h1, h2⟩, h3⟩ := h
  obtain ⟨g1, g2, g3⟩ := Symmetry.mem_masks.1 hm
  rw [h1] at g1
  rw [h2] at g2
  rw [h3] at g3
  rcases m with ⟨x, y, z⟩
  simp only [Index3.zero, Index3.mk.injEq]
  simp only [Bool.false_eq_true, and_false, or_false] at g1 g2 g3
  exact ⟨g1, g2, g3⟩

section
variable [Zero C] [Star C] {l : Lattice.Lattice C L} {sr hr : Registry C} {cell : List CellSite}
  {d : Dims} {valid : List Bool}

theorem nameMap_length (h : Parts l sr hr cell) : (nameMap hr).length = l.hops.length := by
  simp [nameMap, h.hopLen]

/-- The boundaries are populated; their tables fit the system. -/
theorem Parts.boundaries (h : Parts l sr hr cell) (inv : Inv l) (hl : valid.length = size d cell.length)
    {p : Periods} (hf : Symmetry.Fits d p) (pos : Nat → P) (bs' : List (Hamiltonian.Boundary P)) :
    ∃ bs, populateBoundaries d cell l.hops.length p (nameMap hr) valid = .ok bs ∧
      (enabled p = false → bs = []) ∧
      ∀ b ∈ bs, HopOK (assemble sr hr d cell l.hops.length valid pos bs') b.hoppings (famEnergy l) (famName l) := by
  obtain ⟨ds, g, hnd, hmem, hg, e⟩ := Symmetry.populateBoundaries_eq h.cellOK hl hf (nameMap hr)
    (nameMap_length h).ge
  refine ⟨_, e, ?_, ?_⟩
  · intro hdis
    have hz : ds = [] := by
      rw [List.eq_nil_iff_forall_not_mem]
      intro D hD
      obtain ⟨h0, i, x, hx, m, hm, hDm⟩ := (hmem D).1 hD
      rw [masks_disabled hdis hm] at hDm
      apply h0
      rw [hDm]
      simp [cmul, Index3.zero]
    rw [hz]; rfl
  · intro b hb
    obtain ⟨D, hD, hx⟩ := List.mem_filterMap.1 hb
    split at hx
    · simp only [Option.some.injEq] at hx
      subst hx
      have hsup : Supported p D := by
        obtain ⟨-, i, x, hx, m, hm, hDm⟩ := (hmem D).1 hD
        exact hDm ▸ Symmetry.supported_cand hm
      obtain ⟨-, -, s3, -⟩ := Symmetry.sliceFlats_spec hf cell.length hsup
      refine h.hopOK inv hl pos bs' _ ?_ ?_
      · simp only [hg D hD, List.length_map, List.length_range]
        exact nameMap_length h
      · intro fam b hb c hc
        simp only [hg D hD] at hb
        have hff : fam < (nameMap hr).length := by
          have := (List.getElem?_eq_some_iff.1 hb).1
          simpa using this
        rw [List.getElem?_map, List.getElem?_range hff] at hb
        simp only [Option.map_some, Option.some.injEq] at hb
        subst hb
        obtain ⟨k, k', hk, hk', rfl⟩ := Symmetry.mem_boundaryEntries h.cellOK hl _ _ fam c hc
        have hpos := List.count_pos_iff.2 hc
        rw [Symmetry.count_boundaryEntries h.cellOK hl _ _ s3 hk hk' fam] at hpos
        split at hpos
        · exact ⟨k, k', _, hk, hk', rfl, hpos⟩
        · omega
    · cases hx

end

section
variable [DecidableEq C] [Zero C] [InvolutiveStar C]

/-- Building the system of a lattice succeeds and gives the assembled parts. -/
theorem makeSystem_eq (ops : List (Lattice.Lattice.Op C L))
    (subs : List (String × Sublattice C L)) (hops : List (String × HoppingFamily C))
    (hs : subs.Perm (run ops empty).subs) (hh : hops.Perm (run ops empty).hops)
    (ha : AliasesOK (run ops empty)) :
    ∃ sr hr cell, optimizedUnitCell subs hops = .ok cell ∧ Parts (run ops empty) sr hr cell ∧
      ∀ (d : Dims) (p : Periods) (valid : List Bool), valid.length = size d cell.length →
        (enabled p = true → Symmetry.Fits d p) → ∀ (pos : Nat → P) (junk : P) (shiftOf : Index3 → P),
        ∃ bs, populateBoundaries d cell (run ops empty).hops.length p (nameMap hr) valid = .ok bs ∧
          makeSystem subs hops d p valid pos junk shiftOf = (if valid.count true = 0 then .err .runtimeError
            else .ok (assemble sr hr d cell (run ops empty).hops.length valid pos
              (bs.map fun b => ⟨shiftOf b.shift, b.hoppings⟩))) ∧
          ∀ bs', ∀ b ∈ bs, HopOK (assemble sr hr d cell (run ops empty).hops.length valid pos bs') b.hoppings
            (famEnergy (run ops empty)) (famName (run ops empty)) := by
  obtain ⟨sr, hr, cell, h1, h2, h3, h4⟩ := parts_of_lattice ops subs hops hs hh ha
  have inv := Inv.reachable (K := C) (P := L) ops
  refine ⟨sr, hr, cell, h3, h4, ?_⟩
  intro d p valid hl hf pos junk shiftOf
  have hf' : Symmetry.Fits d p := by
    cases he : enabled p with
    | true => exact hf he
    | false => exact fits_disabled he
  obtain ⟨bs, b1, b2, -⟩ := h4.boundaries inv hl hf' pos []
  refine ⟨bs, b1, ?_, ?_⟩
  · unfold makeSystem
    rw [h1, Res.bind_ok, h2, Res.bind_ok, h3, Res.bind_ok, hh.length_eq,
      Foundation.populateSystem_eq h4.cellOK hl (nameMap hr) (nameMap_length h4).ge pos junk, Res.bind_ok]
    have hbs : boundariesOf d cell (run ops empty).hops.length p (nameMap hr) valid = .ok bs := by
      unfold boundariesOf
      cases he : enabled p with
      | true => simpa using b1
      | false => simp [b2 he]
    rw [hbs, Res.bind_ok]
    simp only [Sublat.length_maskFilter_eq valid ((List.range valid.length).map pos) (by simp)]
    split
    · rfl
    · rw [nameMap_length h4]; rfl
  · intro bs' b hb
    obtain ⟨bs2, c1, -, c3⟩ := h4.boundaries inv hl hf' pos bs'
    rw [b1, Res.ok.injEq] at c1
    subst c1
    exact c3 b hb

end

end Verif.Pipeline
