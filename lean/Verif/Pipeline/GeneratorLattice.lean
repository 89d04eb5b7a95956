import Verif.Pipeline.PropsGenerators

/-!
# The systems of lattices, before generators act on them
-/

namespace Verif.Pipeline.Generators

open Verif.Lattice (Registry Sublattice HoppingFamily CellSite Inv optimizedUnitCell siteRegistry hoppingRegistry checkOnsite checkHopping)
open Verif.Lattice.Lattice (run empty allTerms)
open Verif.Foundation (Dims CellOK size sites rank validPairs popOps siteEntries finalize)
open Verif.Symmetry (Periods populateBoundaries periodIndex cmul boundaryEntries)
open Verif.Sublat (Table Elem tableNorbs tableLabels)
open Verif.Sublat.Spec (firstRow)
open Verif.Hamiltonian
open Verif.Hopping (COO HoppingBlocks Csr)

variable {C K L P : Type}

/-! ## Registries -/

theorem register_ok {check : Mat C → Res Unit} {r r' : Registry C} {name : String} {energy : Mat C}
    (h : r.registerFamily check name energy = (r', .ok ())) :
    check energy = .ok () ∧ name ∉ r.names ∧ r' = ⟨r.energies ++ [energy], r.names ++ [name]⟩ := by
  unfold Registry.registerFamily at h
  split at h
  · simp at h
  · split at h
    · rename_i hc
      split at h
      · simp at h
      · rename_i hn
        simp only [Prod.mk.injEq, and_true] at h
        exact ⟨hc, by simpa using hn, h.symm⟩
    · simp at h
    · simp at h

/-- The family is stored in the registry, at or after a position. -/
def Has (r : Registry C) (lo : Nat) (name : String) (energy : Mat C) : Prop :=
  ∃ id, lo ≤ id ∧ r.id name = .ok id ∧ r.names[id]? = some name ∧ r.energies[id]? = some energy

theorem has_append (es : List (Mat C)) (ns : List String) (hlen : es.length = ns.length) {name : String} (hn : name ∉ ns) (energy : Mat C)
    (y : List (Mat C)) (x : List String) : Has ⟨es ++ energy :: y, ns ++ name :: x⟩ ns.length name energy := by
  refine ⟨ns.length, le_refl _, ?_, by simp, ?_⟩
  · unfold Registry.id
    have h1 : ns.findIdx? (fun n => n == name) = none := by
      rw [List.findIdx?_eq_none_iff]
      intro n hm
      simp only [beq_eq_false_iff_ne, ne_eq]
      rintro rfl
      exact hn hm
    simp only [List.findIdx?_append, h1, List.findIdx?_cons, beq_self_eq_true, if_true]
    simp
  · rw [← hlen]; simp

/-- The energies of the hopping generators. -/
def hopEnergies : List (Change C P) → List (Mat C)
  | [] => []
  | .hoppings _ energy _ :: cs => energy :: hopEnergies cs
  | _ :: cs => hopEnergies cs

/-- What is known about the registries after all generators are added. -/
structure Added (checkSite checkHop : Mat C → Res Unit) (sr hr : Registry C) (cs : List (Change C P)) (r : Registry C × Registry C) : Prop where
  site : ∃ y x, r.1 = ⟨sr.energies ++ y, sr.names ++ x⟩
  hop : r.2 = ⟨hr.energies ++ hopEnergies cs, hr.names ++ hopNames cs⟩
  nodup : (hopNames cs).Nodup
  fresh : ∀ n ∈ hopNames cs, n ∉ hr.names
  sites : ∀ name energy mk, Change.sites name energy mk ∈ cs → checkSite energy = .ok () ∧ Has r.1 sr.names.length name energy
  hops : ∀ name energy mk, Change.hoppings name energy mk ∈ cs → checkHop energy = .ok () ∧ Has r.2 hr.names.length name energy

theorem Has.mono {r : Registry C} {lo lo' : Nat} {name : String} {energy : Mat C} (h : Has r lo name energy) (hl : lo' ≤ lo) : Has r lo' name energy := by
  obtain ⟨id, h1, h2⟩ := h
  exact ⟨id, hl.trans h1, h2⟩

theorem addChanges_spec (checkSite checkHop : Mat C → Res Unit) (cs : List (Change C P)) (sr hr : Registry C) (hs : sr.energies.length = sr.names.length)
    (hh : hr.energies.length = hr.names.length) (r : Registry C × Registry C) (h : addChanges checkSite checkHop cs (sr, hr) = .ok r) :
    Added checkSite checkHop sr hr cs r := by
  induction cs generalizing sr hr with
  | nil =>
    unfold addChanges at h
    rw [List.foldlM_nil, Res.pure_eq, Res.ok.injEq] at h
    subst h
    exact ⟨⟨[], [], by simp⟩, by simp [hopNames, hopEnergies], by simp [hopNames], by simp [hopNames], by simp, by simp⟩
  | cons c cs ih =>
    unfold addChanges at h
    rw [List.foldlM_cons] at h
    cases c with
    | sites name energy mk =>
      rcases hreg : sr.registerFamily checkSite name energy with ⟨sr', _ | _ | _⟩
      · have e : addChange checkSite checkHop (sr, hr) (.sites name energy mk) = .ok (sr', hr) := by
          simp only [addChange, hreg]
        rw [e, Res.bind_ok] at h
        obtain ⟨h1, h2, h3⟩ := register_ok hreg
        have g := ih sr' hr (by rw [h3]; simp [hs]) hh h
        obtain ⟨y, x, hyx⟩ := g.site
        rw [h3] at hyx
        simp only [List.append_assoc, List.singleton_append] at hyx
        refine ⟨⟨energy :: y, name :: x, hyx⟩, g.hop, g.nodup, g.fresh, ?_, ?_⟩
        · intro n e' mk' hm
          rcases List.mem_cons.1 hm with he | hm
          · simp only [Change.sites.injEq] at he
            obtain ⟨rfl, rfl, -⟩ := he
            refine ⟨h1, ?_⟩
            rw [hyx]
            exact has_append _ _ hs h2 _ _ _
          · obtain ⟨k1, k2⟩ := g.sites n e' mk' hm
            refine ⟨k1, k2.mono ?_⟩
            rw [h3]; simp
        · intro n e' mk' hm
          rcases List.mem_cons.1 hm with he | hm
          · cases he
          · exact g.hops n e' mk' hm
      · simp only [addChange, hreg] at h; cases h
      · simp only [addChange, hreg] at h; cases h
    | hoppings name energy mk =>
      rcases hreg : hr.registerFamily checkHop name energy with ⟨hr', _ | _ | _⟩
      · have e : addChange checkSite checkHop (sr, hr) (.hoppings name energy mk) = .ok (sr, hr') := by
          simp only [addChange, hreg]
        rw [e, Res.bind_ok] at h
        obtain ⟨h1, h2, h3⟩ := register_ok hreg
        have g := ih sr hr' hs (by rw [h3]; simp [hh]) h
        have hr2 := g.hop
        rw [h3] at hr2
        simp only [List.append_assoc, List.singleton_append] at hr2
        refine ⟨g.site, hr2, ?_, ?_, ?_, ?_⟩
        · refine List.nodup_cons.2 ⟨fun hm => ?_, g.nodup⟩
          have := g.fresh name hm
          rw [h3] at this
          simp at this
        · intro n hn
          rcases List.mem_cons.1 hn with rfl | hn
          · exact h2
          · have := g.fresh n hn
            rw [h3] at this
            intro hm
            exact this (by simp [hm])
        · intro n e' mk' hm
          rcases List.mem_cons.1 hm with he | hm
          · cases he
          · exact g.sites n e' mk' hm
        · intro n e' mk' hm
          rcases List.mem_cons.1 hm with he | hm
          · simp only [Change.hoppings.injEq] at he
            obtain ⟨rfl, rfl, -⟩ := he
            refine ⟨h1, ?_⟩
            rw [hr2]
            exact has_append _ _ hh h2 _ _ _
          · obtain ⟨k1, k2⟩ := g.hops n e' mk' hm
            refine ⟨k1, k2.mono ?_⟩
            rw [h3]; simp
      · simp only [addChange, hreg] at h; cases h
      · simp only [addChange, hreg] at h; cases h
    | positions f =>
      rw [show addChange checkSite checkHop (sr, hr) (.positions f) = .ok (sr, hr) from rfl, Res.bind_ok] at h
      have g := ih sr hr hs hh h
      refine ⟨g.site, g.hop, g.nodup, g.fresh, ?_, ?_⟩
      · intro n e' mk' hm
        rcases List.mem_cons.1 hm with he | hm
        · cases he
        · exact g.sites n e' mk' hm
      · intro n e' mk' hm
        rcases List.mem_cons.1 hm with he | hm
        · cases he
        · exact g.hops n e' mk' hm

theorem siteRegistryLoop_length (subs : List (String × Sublattice C L)) (es : List (Mat C)) (ns : List String) {r : Registry C} (hl : es.length = ns.length)
    (h : Lattice.siteRegistryLoop subs es ns = .ok r) : r.energies.length = r.names.length := by
  induction subs generalizing es ns with
  | nil =>
    unfold Lattice.siteRegistryLoop at h
    rw [Res.ok.injEq] at h
    subst h
    exact hl
  | cons p rest ih =>
    obtain ⟨n, s⟩ := p
    unfold Lattice.siteRegistryLoop at h
    split at h
    · exact ih es ns hl h
    · unfold Lattice.atSet at h
      split at h
      · rw [Res.bind_ok] at h
        split at h
        · rw [Res.bind_ok] at h
          exact ih _ _ (by simpa using hl) h
        · cases h
      · cases h

theorem hoppingRegistryLoop_length (hops : List (String × HoppingFamily C)) (es : List (Mat C)) (ns : List String) {r : Registry C} (hl : es.length = ns.length)
    (h : Lattice.hoppingRegistryLoop hops es ns = .ok r) : r.energies.length = r.names.length := by
  induction hops generalizing es ns with
  | nil =>
    unfold Lattice.hoppingRegistryLoop at h
    rw [Res.ok.injEq] at h
    subst h
    exact hl
  | cons p rest ih =>
    obtain ⟨n, s⟩ := p
    unfold Lattice.hoppingRegistryLoop at h
    unfold Lattice.atSet at h
    split at h
    · rw [Res.bind_ok] at h
      split at h
      · rw [Res.bind_ok] at h
        exact ih _ _ (by simpa using hl) h
      · cases h
    · cases h

/-! ## Blocks for the families of the generators -/

/-- A table of hoppings with empty blocks for `k` more families. -/
def padBlocks (nm : List (String × Nat)) (k : Nat) (h : HoppingBlocks) : HoppingBlocks := ⟨h.numSites, h.blocks ++ List.replicate k [], nm⟩

/-- A system with other registries, and empty blocks for `k` more families. -/
def pad (sr hr : Registry C) (k : Nat) (s : System C P) : System C P :=
  ⟨sr, hr, s.positions, s.sublattices, padBlocks (nameMap hr) k s.hoppings, s.boundaries.map fun b => ⟨b.shift, padBlocks (nameMap hr) k b.hoppings⟩⟩

theorem regEnergy_append (es y : List (Mat C)) (ns x : List String) {f : Nat} (h : f < es.length) :
    regEnergy (⟨es ++ y, ns ++ x⟩ : Registry C) f = regEnergy ⟨es, ns⟩ f := by
  unfold regEnergy
  simp only
  rw [List.getElem?_append_left h]

theorem regName_append (es y : List (Mat C)) (ns x : List String) {f : Nat} (h : f < ns.length) :
    regName (⟨es ++ y, ns ++ x⟩ : Registry C) f = regName ⟨es, ns⟩ f := by
  unfold regName
  simp only
  rw [List.getElem?_append_left h]

theorem bondsOf_pad (r : Registry C) (y : List (Mat C)) (x : List String) (blocks : List (List COO)) (k : Nat) (hl : blocks.length ≤ r.names.length)
    (hr : r.energies.length = r.names.length) :
    bondsOf ⟨r.energies ++ y, r.names ++ x⟩ (blocks ++ List.replicate k []) = bondsOf r blocks := by
  unfold bondsOf
  rw [List.zipIdx_append, List.flatMap_append]
  have h2 : ((List.replicate k ([] : List COO)).zipIdx (0 + blocks.length)).flatMap
      (fun p => p.1.map fun c => (⟨c.row, c.col, regName (⟨r.energies ++ y, r.names ++ x⟩ : Registry C) p.2, regEnergy ⟨r.energies ++ y, r.names ++ x⟩ p.2⟩ : Bond C)) = [] := by
    rw [List.flatMap_eq_nil_iff]
    rintro ⟨bl, f⟩ hm
    have : bl ∈ List.replicate k ([] : List COO) := List.fst_mem_of_mem_zipIdx hm
    rw [List.eq_of_mem_replicate this]
    rfl
  rw [h2, List.append_nil]
  rw [List.flatMap_def, List.flatMap_def]
  congr 1
  apply List.map_congr_left
  rintro ⟨bl, f⟩ hm
  have hf : f < blocks.length := by
    have := List.snd_lt_of_mem_zipIdx hm
    omega
  simp only
  rw [regEnergy_append _ _ _ _ (by omega), regName_append _ _ _ _ (by omega)]

theorem hopAt_pad [Zero C] [AddCommMonoid K] [Sub P] (cast : C → K) (gs : List (ElemFn K P)) (shift : Option P) (f : Nat → P) (r : Registry C)
    (y : List (Mat C)) (x : List String) (blocks : List (List COO)) (k : Nat) (hl : blocks.length ≤ r.names.length) (hr : r.energies.length = r.names.length)
    (a b i j : Nat) :
    hopAt cast f shift gs (regEnergy ⟨r.energies ++ y, r.names ++ x⟩) (regName ⟨r.energies ++ y, r.names ++ x⟩) (blocks ++ List.replicate k []) a b i j
      = hopAt cast f shift gs (regEnergy r) (regName r) blocks a b i j := by
  unfold hopAt
  rw [List.zipIdx_append, List.map_append, List.sum_append]
  rw [show ∀ (u v w : K), v = 0 → u = w → u + v = w from fun u v w h1 h2 => by rw [h1, h2, add_zero]]
  · apply List.sum_eq_zero
    intro z hz
    obtain ⟨⟨bl, f⟩, hm, rfl⟩ := List.mem_map.1 hz
    have : bl ∈ List.replicate k ([] : List COO) := List.fst_mem_of_mem_zipIdx hm
    rw [List.eq_of_mem_replicate this]
    simp
  · congr 1
    apply List.map_congr_left
    rintro ⟨bl, f⟩ hm
    have hf : f < blocks.length := by
      have := List.snd_lt_of_mem_zipIdx hm
      omega
    simp only
    rw [regEnergy_append _ _ _ _ (by omega), regName_append _ _ _ _ (by omega)]

theorem energyAt_append {r : Registry C} (y : List (Mat C)) (x : List String) {id : Int} {m : Mat C} (h : energyAt r id = .ok m) :
    energyAt (⟨r.energies ++ y, r.names ++ x⟩ : Registry C) id = .ok m := by
  unfold energyAt at *
  split at h
  · cases h
  · rename_i hid
    rw [if_neg hid]
    unfold Registry.energy at *
    split at h
    · cases h
    · rename_i hlt
      simp only
      rw [if_neg (by simp; omega)]
      split at h
      · rename_i e he
        rw [List.getElem?_append_left (List.getElem?_eq_some_iff.1 he).1, he]
        exact h
      · cases h

theorem nameAt_append {r : Registry C} (y : List (Mat C)) (x : List String) {id : Int} {m : String} (h : nameAt r id = .ok m) :
    nameAt (⟨r.energies ++ y, r.names ++ x⟩ : Registry C) id = .ok m := by
  unfold nameAt at *
  split at h
  · cases h
  · rename_i hid
    rw [if_neg hid]
    unfold Registry.name at *
    split at h
    · cases h
    · rename_i hlt
      simp only
      rw [if_neg (by simp; omega)]
      split at h
      · rename_i e he
        rw [List.getElem?_append_left (List.getElem?_eq_some_iff.1 he).1, he]
        exact h
      · cases h

theorem Ready.pad [Zero C] {s : System C P} {D : Desc C P} (h : Ready s D) (y1 y2 : List (Mat C)) (x1 x2 : List String) (hl : y2.length = x2.length) :
    Ready (Generators.pad ⟨s.siteRegistry.energies ++ y1, s.siteRegistry.names ++ x1⟩ ⟨s.hoppingRegistry.energies ++ y2, s.hoppingRegistry.names ++ x2⟩
      x2.length s) D where
  positions := h.positions
  norbs := h.norbs
  square := h.square
  labels := by
    intro k id x hk hx
    obtain ⟨e1, e2⟩ := h.labels k id x hk hx
    exact ⟨energyAt_append _ _ e1, nameAt_append _ _ e2⟩
  table := by
    intro e he
    obtain ⟨m, n, h1, h2, h3⟩ := h.table e he
    exact ⟨m, n, energyAt_append _ _ h1, nameAt_append _ _ h2, h3⟩
  sorted := h.sorted
  orb := h.orb
  top := h.top
  hopReg := by
    have := h.hopReg
    simp only [Generators.pad, List.length_append]
    omega
  blocks := by
    have := h.blocks
    simp only [Generators.pad, padBlocks, List.length_append, List.length_replicate]
    omega
  bonds := by
    show (bondsOf ⟨s.hoppingRegistry.energies ++ y2, s.hoppingRegistry.names ++ x2⟩ (s.hoppings.blocks ++ List.replicate x2.length [])).Perm _
    rw [bondsOf_pad _ _ _ _ _ h.blocks h.hopReg]
    exact h.bonds
  fits := h.fits
  boundaries := by
    intro b hb
    obtain ⟨b0, hb0, rfl⟩ := List.mem_map.1 hb
    obtain ⟨h1, h2⟩ := h.boundaries b0 hb0
    refine ⟨?_, ?_⟩
    · simp only [Generators.pad, padBlocks, List.length_append, List.length_replicate]
      omega
    · intro fam bl hbl c hc
      simp only [padBlocks] at hbl
      by_cases hf : fam < b0.hoppings.blocks.length
      · rw [List.getElem?_append_left hf] at hbl
        have := h2 fam bl hbl c hc
        have hr := h.hopReg
        simp only [Generators.pad]
        rw [regEnergy_append _ _ _ _ (by omega)]
        exact this
      · rw [List.getElem?_append_right (by omega)] at hbl
        have := List.mem_of_getElem? hbl
        rw [List.eq_of_mem_replicate this] at hc
        simp at hc

theorem boundarySum_pad [Zero C] [NonUnitalNonAssocSemiring K] [StarAddMonoid K] [Sub P] [Inhabited P] (cast : C → K) (gs : List (ElemFn K P)) (phase : P → K)
    {s : System C P} {D : Desc C P} (h : Ready s D) (sr : Registry C) (y2 : List (Mat C)) (x2 : List String) (D' : Desc C P) (a b i j : Nat) :
    boundarySum cast gs phase (Generators.pad sr ⟨s.hoppingRegistry.energies ++ y2, s.hoppingRegistry.names ++ x2⟩ x2.length s) D' a b i j
      = boundarySum cast gs phase s D' a b i j := by
  unfold boundarySum Generators.pad
  simp only [List.map_map]
  congr 1
  apply List.map_congr_left
  intro bd hbd
  have hb := (h.boundaries bd hbd).1
  simp only [Function.comp_apply, padBlocks]
  rw [hopAt_pad cast gs _ _ s.hoppingRegistry y2 x2 _ _ hb h.hopReg, hopAt_pad cast gs _ _ s.hoppingRegistry y2 x2 _ _ hb h.hopReg]

/-! ## The description of a system -/

/-- The sites and bonds of a system. -/
def describe (s : System C P) : Desc C P :=
  ⟨s.positions.zipIdx.map fun p => ⟨siteName s p.2, siteEnergy s p.2, p.1⟩, bondsOf s.hoppingRegistry s.hoppings.blocks,
    (s.sublattices.map (·.numOrb)).foldr max 0⟩

theorem le_foldr_max {l : List Nat} {x : Nat} (h : x ∈ l) : x ≤ l.foldr max 0 := by
  induction l with
  | nil => simp at h
  | cons y l ih =>
    rcases List.mem_cons.1 h with rfl | h
    · exact le_max_left _ _
    · exact (ih h).trans (le_max_right _ _)

theorem regEnergy_ok {r : Registry C} {f : Nat} {m : Mat C} (h : r.energy f = .ok m) : regEnergy r f = m := by
  unfold Registry.energy at h
  split at h
  · cases h
  · unfold regEnergy
    split at h
    · rename_i e he
      rw [he]
      exact Res.ok.inj h
    · cases h

theorem ready_describe [Zero C] {s : System C P} {E : Nat → Mat C} {N : Nat → String} (hS : SitesOK s (siteEnergy s) (siteName s))
    (hH : HopOK s s.hoppings E N) (hB : ∀ b ∈ s.boundaries, HopOK s b.hoppings E N) (hlen : s.positions.length = (tableNorbs s.sublattices).length)
    (hreg : s.hoppingRegistry.energies.length = s.hoppingRegistry.names.length) (hbl : s.hoppings.blocks.length ≤ s.hoppingRegistry.names.length)
    (hbb : ∀ b ∈ s.boundaries, b.hoppings.blocks.length ≤ s.hoppingRegistry.names.length) : Ready s (describe s) := by
  have hsite : ∀ (k : Nat) (x : Site C P), (describe s).sites[k]? = some x → x.name = siteName s k ∧ x.energy = siteEnergy s k ∧ k < s.positions.length := by
    intro k x hx
    unfold describe at hx
    simp only [List.getElem?_map, List.getElem?_zipIdx, Option.map_map, Option.map_eq_some_iff] at hx
    obtain ⟨p, hp, rfl⟩ := hx
    have hk := (List.getElem?_eq_some_iff.1 hp).1
    refine ⟨by simp, by simp, hk⟩
  have hnorbs : tableNorbs s.sublattices = (describe s).orbitals := by
    apply List.ext_getElem?
    intro k
    unfold describe Desc.orbitals
    simp only [List.getElem?_map, List.getElem?_zipIdx, Option.map_map]
    rcases hk : (tableNorbs s.sublattices)[k]? with _ | n
    · have : s.positions[k]? = none := by
        rw [List.getElem?_eq_none_iff] at hk ⊢
        omega
      rw [this]; rfl
    · have hlt : k < s.positions.length := by
        have := (List.getElem?_eq_some_iff.1 hk).1
        omega
      rw [List.getElem?_eq_getElem hlt]
      simp [(hS.fits k n hk).1]
  have horb : ∀ (k : Nat) (x : Site C P), (describe s).sites[k]? = some x → x.energy.cols = x.energy.rows := by
    intro k x hx
    obtain ⟨-, e2, hk⟩ := hsite k x hx
    obtain ⟨f1, f2⟩ := hS.fits k _ (List.getElem?_eq_getElem (by omega))
    rw [e2, f1, f2]
  refine ⟨?_, hnorbs, ?_, ?_, hS.table, hH.sorted, ?_, ?_, hreg, hbl, List.Perm.refl _, ?_, ?_⟩
  · unfold describe
    simp only [List.map_map, Function.comp_def]
    exact List.zipIdx_map_fst _ _ |>.symm
  · intro x hx
    obtain ⟨k, hk⟩ := List.mem_iff_getElem?.1 hx
    exact horb k x hk
  · intro k id x hk hx
    obtain ⟨e1, e2, -⟩ := hsite k x hx
    obtain ⟨f1, f2⟩ := hS.energy k id (by rw [Sublat.decompressed_eq, List.getElem?_map, hk]; rfl)
    rw [e1, e2]
    exact ⟨f1, f2⟩
  · rw [← hnorbs]; exact hH.orb
  · intro e he
    exact le_foldr_max (List.mem_map.2 ⟨e, he, rfl⟩)
  · intro x hx
    unfold describe at hx
    simp only [bondsOf] at hx
    obtain ⟨⟨bl, fam⟩, hm, hx⟩ := List.mem_flatMap.1 hx
    obtain ⟨c, hc, rfl⟩ := List.mem_map.1 hx
    have hbl' := List.mem_zipIdx_iff_getElem?.1 hm
    have hfam := (List.getElem?_eq_some_iff.1 hbl').1
    have := hH.fits fam bl hbl' c hc
    rw [← hnorbs]
    simp only
    rw [regEnergy_ok (hH.energy fam hfam)]
    exact this
  · intro b hb
    refine ⟨hbb b hb, ?_⟩
    intro fam bl hbl' c hc
    have hfam := (List.getElem?_eq_some_iff.1 hbl').1
    have := (hB b hb).fits fam bl hbl' c hc
    rw [← hnorbs, regEnergy_ok ((hB b hb).energy fam hfam)]
    exact this

/-! ## The populated system with more families -/

section
variable {d : Dims} {cell : List CellSite} {nhop : Nat} {valid : List Bool}

theorem siteEntries_none (hok : CellOK cell nhop) {fam : Nat} (hf : nhop ≤ fam) (f : Foundation.Finalized) (ps : List (Foundation.Site × Nat)) :
    siteEntries d cell f fam ps = [] := by
  unfold siteEntries
  rw [List.flatMap_eq_nil_iff]
  intro p _
  rw [List.filterMap_eq_nil_iff]
  intro q hq
  by_contra hne
  obtain ⟨c, hc⟩ := Option.ne_none_iff_exists'.1 hne
  obtain ⟨-, -, e, -⟩ := Foundation.entry_eq_some.1 hc
  obtain ⟨f1, -, -⟩ := Foundation.mem_neighbors hq
  have := (hok.target _ _ f1).2
  omega

theorem boundaryEntries_none (hok : CellOK cell nhop) {fam : Nat} (hf : nhop ≤ fam) (shift : Index3) (ks : List Nat) :
    boundaryEntries d cell nhop valid shift ks fam = [] := by
  unfold boundaryEntries
  rw [List.flatMap_eq_nil_iff]
  intro k _
  split
  · rw [List.filterMap_eq_nil_iff]
    intro q hq
    by_contra hne
    obtain ⟨c, hc⟩ := Option.ne_none_iff_exists'.1 hne
    obtain ⟨-, -, e, -⟩ := Foundation.entry_eq_some.1 hc
    obtain ⟨f1, -, -⟩ := Foundation.mem_neighbors hq
    have := (hok.target _ _ f1).2
    omega
  · rfl

theorem range_map_pad {α : Type} (n k : Nat) (f : Nat → List α) (h : ∀ i, n ≤ i → f i = []) :
    (List.range (n + k)).map f = (List.range n).map f ++ List.replicate k [] := by
  rw [List.range_add, List.map_append, List.map_map]
  congr 1
  rw [List.eq_replicate_iff]
  refine ⟨by simp, ?_⟩
  intro b hb
  obtain ⟨i, -, rfl⟩ := List.mem_map.1 hb
  exact h _ (Nat.le_add_right n i)

/-- The hoppings across a boundary. -/
def boundaryBlocks (d : Dims) (cell : List CellSite) (nhop : Nat) (valid : List Bool) (p : Periods) (nm : List (String × Nat)) (D : Index3) : HoppingBlocks :=
  ⟨valid.count true, (List.range nm.length).map fun fam => boundaryEntries d cell nhop valid (cmul D (periodIndex p))
    (Symmetry.sliceFlats d cell.length (Symmetry.mkTranslation (Symmetry.area d p) D).slice) fam, nm⟩

/-- The directions of the boundaries do not depend on the names. -/
theorem populateBoundaries_all (hok : CellOK cell nhop) (hl : valid.length = size d cell.length) {p : Periods} (hf : Symmetry.Fits d p) :
    ∃ ds : List Index3, ∀ nm : List (String × Nat), nhop ≤ nm.length → populateBoundaries d cell nhop p nm valid = .ok (ds.filterMap fun D =>
      if (boundaryBlocks d cell nhop valid p nm D).nnz > 0 then some ⟨cmul D (periodIndex p), boundaryBlocks d cell nhop valid p nm D⟩ else none) := by
  obtain ⟨ds, e, hnd, hmem⟩ := Symmetry.translations_spec d cell p
  refine ⟨ds, fun nm hn => ?_⟩
  unfold populateBoundaries
  rw [e, Symmetry.translationLoop_eq d cell (finalize d cell nhop valid) nm _ (fun t => boundaryBlocks d cell nhop valid p nm t.direction)]
  · rw [List.nil_append, List.filterMap_map]
    congr 1
    apply List.filterMap_congr
    intro D _
    simp only [Function.comp_apply, Symmetry.mkTranslation, Symmetry.area_middle]
  · intro t ht
    obtain ⟨D, hD, rfl⟩ := List.mem_map.1 ht
    obtain ⟨h0, i, h, hh, m, hm, hDm⟩ := (hmem D).1 hD
    have hsup : Symmetry.Supported p D := hDm ▸ Symmetry.supported_cand hm
    obtain ⟨s1, s2, s3, s4⟩ := Symmetry.sliceFlats_spec hf cell.length hsup
    have htot := (Foundation.finalize_eq d cell nhop valid hl).2
    rw [htot, Symmetry.boundaryLoop_eq hok hl _ _ _ s1 s2 _ (by
      simpa [Hopping.HoppingBlocks.make] using hn)]
    congr 1
    simp only [boundaryBlocks, Hopping.HoppingBlocks.make, Symmetry.mkTranslation, Symmetry.area_middle]
    congr 1
    apply List.ext_getElem
    · simp
    · intro i h1 h2
      simp

theorem nnz_pad (nm : List (String × Nat)) (k : Nat) (h : HoppingBlocks) : (padBlocks nm k h).nnz = h.nnz := by
  unfold HoppingBlocks.nnz padBlocks
  simp only [List.foldl_append]
  generalize h.blocks.foldl (fun n b => n + b.length) 0 = n
  induction k with
  | zero => rfl
  | succ k ih => rw [List.replicate_succ, List.foldl_cons]; simpa using ih

theorem populateBoundaries_pad (hok : CellOK cell nhop) (hl : valid.length = size d cell.length) {p : Periods} (hf : Symmetry.Fits d p)
    (nm nm' : List (String × Nat)) (hn : nm.length = nhop) (k : Nat) (hn' : nm'.length = nhop + k) {bs : List Symmetry.Boundary}
    (h : populateBoundaries d cell nhop p nm valid = .ok bs) :
    populateBoundaries d cell nhop p nm' valid = .ok (bs.map fun b => ⟨b.shift, padBlocks nm' k b.hoppings⟩) := by
  obtain ⟨ds, e⟩ := populateBoundaries_all hok hl hf
  rw [e nm hn.ge, Res.ok.injEq] at h
  rw [e nm' (by omega), ← h, List.map_filterMap]
  congr 1
  apply List.filterMap_congr
  intro D _
  have hpad : boundaryBlocks d cell nhop valid p nm' D = padBlocks nm' k (boundaryBlocks d cell nhop valid p nm D) := by
    unfold boundaryBlocks padBlocks
    simp only [hn, hn']
    rw [range_map_pad nhop k _ fun i hi => boundaryEntries_none hok hi _ _]
  rw [hpad, nnz_pad]
  split <;> rfl

end

section
variable [AddMonoid C] [StarAddMonoid C] [DecidableEq C]
  (ops : List (Lattice.Lattice.Op C L)) (subs : List (String × Sublattice C L)) (hops : List (String × HoppingFamily C))
  (hs : subs.Perm (run ops empty).subs) (hh : hops.Perm (run ops empty).hops)
  (ha : AliasesOK (run ops empty)) (d : Dims) (p : Periods) (valid : List Bool)
  (hl : valid.length = (sites d subs.length).length) (hf : enabled p = true → Symmetry.Fits d p)
  (pos : Nat → P) (junk : P) (shiftOf : Index3 → P) (s : System C P)
  (hsys : makeSystem subs hops d p valid pos junk shiftOf = .ok s)
include hs hh ha hl hf hsys

/-- The system on which the modifiers act is that of the lattice, with the registries extended by the families of all generators. -/
theorem start (cs : List (Change C P)) : Ready s (describe s) ∧ s.siteRegistry.energies.length = s.siteRegistry.names.length ∧
    s.positions.length = valid.count true ∧
    makeSystemWith checkOnsite checkHopping cs subs hops d p valid pos junk shiftOf
      = (do
          let r ← addChanges checkOnsite checkHopping cs (s.siteRegistry, s.hoppingRegistry)
          let s' ← cs.foldlM Generators.step (pad r.1 r.2 (hopNames cs).length s)
          if s'.positions.length = 0 then .err .runtimeError else return s') := by
  obtain ⟨sr, hr, cell, h1, h2, h3, hP⟩ := parts_of_lattice ops subs hops hs hh ha
  have inv := Inv.reachable (K := C) (P := L) ops
  obtain ⟨sr', hr', cell', bs, hcell, hP', hl', hbs, hseq, hbok⟩ := system_cases ops subs hops hs hh ha d p valid hl hf pos junk shiftOf s hsys
  have hsr : sr' = sr ∧ hr' = hr ∧ cell' = cell := by
    have hm := hsys
    unfold makeSystem at hm
    rw [h1, Res.bind_ok, h2, Res.bind_ok, h3, Res.bind_ok] at hm
    rw [h3, Res.ok.injEq] at hcell
    subst hcell
    rw [hh.length_eq, Foundation.populateSystem_eq hP.cellOK hl' (nameMap hr) (nameMap_length hP).ge pos junk, Res.bind_ok] at hm
    rcases hb : boundariesOf d cell (run ops empty).hops.length p (nameMap hr) valid with b | _ | _
    · rw [hb, Res.bind_ok] at hm
      simp only at hm
      split at hm
      · cases hm
      · rw [Res.pure_eq, Res.ok.injEq] at hm
        rw [hseq] at hm
        simp only [assemble, System.mk.injEq] at hm
        exact ⟨hm.1.symm, hm.2.1.symm, rfl⟩
    · rw [hb] at hm; cases hm
    · rw [hb] at hm; cases hm
  obtain ⟨rfl, rfl, rfl⟩ := hsr
  have hf' : Symmetry.Fits d p := by
    cases he : enabled p with
    | true => exact hf he
    | false => exact fits_disabled he
  have hlenp : s.positions.length = valid.count true := by
    rw [hseq]
    show (maskFilter valid ((List.range valid.length).map pos)).length = _
    rw [Sublat.length_maskFilter_eq valid ((List.range valid.length).map pos) (by simp)]
  have hr1 : sr'.energies.length = sr'.names.length := by
    unfold siteRegistry at h1
    exact siteRegistryLoop_length _ _ _ (by simp) h1
  have hr2 : hr'.energies.length = hr'.names.length := by
    unfold hoppingRegistry at h2
    exact hoppingRegistryLoop_length _ _ _ (by simp) h2
  have hbl : ∀ b ∈ s.boundaries, b.hoppings.blocks.length ≤ s.hoppingRegistry.names.length := by
    intro b hb
    rw [hseq] at hb
    obtain ⟨x, hx, rfl⟩ := List.mem_map.1 hb
    obtain ⟨ds, g, -, -, hg, e⟩ := Symmetry.populateBoundaries_eq hP.cellOK hl' hf' (nameMap hr') (nameMap_length hP).ge
    rw [hbs, Res.ok.injEq] at e
    rw [e] at hx
    obtain ⟨D, hD, hy⟩ := List.mem_filterMap.1 hx
    split at hy
    · simp only [Option.some.injEq] at hy
      subst hy
      rw [hseq]
      simp only [hg D hD, List.length_map, List.length_range, nameMap, List.length_zipIdx, assemble]
      exact le_refl _
    · cases hy
  refine ⟨?_, by rw [hseq]; exact hr1, hlenp, ?_⟩
  · refine ready_describe (E := famEnergy (run ops empty)) (N := famName (run ops empty)) (by rw [hseq]; exact hP.sitesOK hl' pos _)
      (by rw [hseq]; exact hP.mainOK inv hl' pos _) ?_ ?_ (by rw [hseq]; exact hr2) ?_ hbl
    · intro b hb
      rw [hseq] at hb
      obtain ⟨x, hx, rfl⟩ := List.mem_map.1 hb
      exact hbok x hx
    · rw [hlenp, hseq]
      show _ = (tableNorbs (Sublat.runAdds (popOps d cell' valid))).length
      rw [tableNorbs_pop hP.cellOK hl', List.length_map, Foundation.popOps_length]
    · rw [hseq]
      simp only [assemble, List.length_map, List.length_range, hP.hopLen]
      exact le_refl _
  · unfold makeSystemWith
    rw [h1, Res.bind_ok, h2, Res.bind_ok]
    have hsr : s.siteRegistry = sr' := by rw [hseq]; rfl
    have hhr : s.hoppingRegistry = hr' := by rw [hseq]; rfl
    rw [hsr, hhr]
    rcases hadd : addChanges checkOnsite checkHopping cs (sr', hr') with r | _ | _
    · rw [Res.bind_ok, Res.bind_ok, h3, Res.bind_ok]
      have hA := addChanges_spec checkOnsite checkHopping cs sr' hr' hr1 hr2 r hadd
      have hnl : (nameMap r.2).length = (run ops empty).hops.length + (hopNames cs).length := by
        unfold nameMap
        rw [List.length_zipIdx, hA.hop]
        simp [hP.hopLen]
      rw [hh.length_eq, Foundation.populateSystem_eq hP.cellOK hl' (nameMap r.2) (by omega) pos junk, Res.bind_ok]
      have hb2 : boundariesOf d cell' (run ops empty).hops.length p (nameMap r.2) valid = .ok (bs.map fun b => ⟨b.shift, padBlocks (nameMap r.2) (hopNames cs).length b.hoppings⟩) := by
        have hp2 := populateBoundaries_pad hP.cellOK hl' hf' (nameMap hr') (nameMap r.2) (nameMap_length hP) _ hnl hbs
        unfold boundariesOf
        cases he : enabled p with
        | true => simpa using hp2
        | false =>
          obtain ⟨bs2, b1, b2, -⟩ := hP.boundaries inv hl' hf' pos []
          rw [hbs, Res.ok.injEq] at b1
          subst b1
          simp [b2 he]
      rw [hb2, Res.bind_ok]
      have hstart : (⟨r.1, r.2, maskFilter valid ((List.range valid.length).map pos), Sublat.runAdds (popOps d cell' valid),
            ⟨valid.count true, (List.range (nameMap r.2).length).map fun fam =>
              siteEntries d cell' (finalize d cell' (run ops empty).hops.length valid) fam ((validPairs valid).map fun p => (Foundation.siteAt d p.1, p.2)), nameMap r.2⟩,
            (bs.map fun b => (⟨b.shift, padBlocks (nameMap r.2) (hopNames cs).length b.hoppings⟩ : Symmetry.Boundary)).map fun b => ⟨shiftOf b.shift, b.hoppings⟩⟩ : System C P)
          = pad r.1 r.2 (hopNames cs).length s := by
        rw [hseq]
        unfold pad assemble padBlocks
        simp only [hnl, List.map_map, Function.comp_def]
        rw [range_map_pad _ _ _ fun i hi => siteEntries_none hP.cellOK hi _ _]
      exact congrArg (fun x => (cs.foldlM Generators.step x >>= fun s' => if s'.positions.length = 0 then Res.err .runtimeError else pure s')) hstart
    · rfl
    · rfl

/-- Nothing has been generated in the system on which the modifiers act. -/
theorem pending (cs : List (Change C P)) (r : Registry C × Registry C)
    (hadd : addChanges checkOnsite checkHopping cs (s.siteRegistry, s.hoppingRegistry) = .ok r) :
    Pending (pad r.1 r.2 (hopNames cs).length s) cs ∧ Ready (pad r.1 r.2 (hopNames cs).length s) (describe s) := by
  obtain ⟨hR, hr1, -, -⟩ := start ops subs hops hs hh ha d p valid hl hf pos junk shiftOf s hsys cs
  have hA := addChanges_spec checkOnsite checkHopping cs _ _ hr1 hR.hopReg r hadd
  obtain ⟨y, x, hyx⟩ := hA.site
  have hlen : ∀ cs : List (Change C P), (hopEnergies cs).length = (hopNames cs).length := by
    intro cs
    induction cs with
    | nil => rfl
    | cons c cs ih => cases c <;> simp [hopEnergies, hopNames, ih]
  refine ⟨⟨?_, hA.nodup⟩, ?_⟩
  · intro c hc
    cases c with
    | sites name energy mk =>
      obtain ⟨h1, id, -, h2, h3, h4⟩ := hA.sites name energy mk hc
      unfold checkOnsite at h1
      split at h1
      · cases h1
      · rename_i hsq
        split at h1
        · cases h1
        · rename_i h0
          refine ⟨id, h2, ?_, ?_, by omega, by omega⟩
          · show r.1.energy id = _
            unfold Registry.energy
            rw [if_neg (by have := (List.getElem?_eq_some_iff.1 h3).1; omega), h4]
          · show r.1.name id = _
            unfold Registry.name
            rw [if_neg (by have := (List.getElem?_eq_some_iff.1 h3).1; omega), h3]
    | hoppings name energy mk =>
      obtain ⟨h1, id, h0, h2, h3, h4⟩ := hA.hops name energy mk hc
      refine ⟨id, h2, h4, h3, ?_⟩
      show (s.hoppings.blocks ++ List.replicate (hopNames cs).length [])[id]? = some []
      have hb := hR.blocks
      rw [List.getElem?_append_right (by omega), List.getElem?_replicate, if_pos]
      have := (List.getElem?_eq_some_iff.1 h3).1
      rw [hA.hop, List.length_append] at this
      have hbeq : s.hoppings.blocks.length = s.hoppingRegistry.names.length := by
        obtain ⟨sr', hr', cell', bs, hcell, hP', hl', hbs, hseq, hbok⟩ := system_cases ops subs hops hs hh ha d p valid hl hf pos junk shiftOf s hsys
        rw [hseq]
        simp [assemble, hP'.hopLen]
      omega
    | positions f => trivial
  · rw [hA.hop, hyx]
    exact hR.pad y _ x _ (hlen cs)

end

end Verif.Pipeline.Generators
