import Verif.Symmetry.Spec
import Verif.Symmetry.Lemmas

/-!
# Property C20: translational symmetry
-/

namespace Verif.Symmetry

open Verif.Lattice (CellSite CellHopping HoppingFamily HoppingTerm Sublattice optimizedUnitCell)
open Verif.Lattice.Lattice (run empty allTerms)
open Verif.Foundation

theorem area_middle (d : Dims) (p : Periods) : (area d p).middle = periodIndex p := by
  obtain ⟨x, y, z⟩ := p
  cases x <;> cases y <;> cases z <;> rfl

theorem cmul_inj {d : Dims} {p : Periods} (hf : Fits d p) {D D' : Index3} (h : Supported p D)
    (h' : Supported p D') (e : cmul D (periodIndex p) = cmul D' (periodIndex p)) : D = D' := by
  have key : ∀ (o : Option Nat) (n : Nat) (a b : Int), (∀ m, o = some m → 0 < m ∧ m ≤ n) →
      (o = none → a = 0) → (o = none → b = 0) → a * (o.getD 0 : Nat) = b * (o.getD 0 : Nat) → a = b := by
    intro o n a b ho ha hb e
    cases o with
    | none => rw [ha rfl, hb rfl]
    | some m =>
      have := (ho m rfl).1
      simp only [Option.getD_some] at e
      exact Int.eq_of_mul_eq_mul_right (by omega) e
  obtain ⟨px, py, pz⟩ := p
  obtain ⟨x, y, z⟩ := D
  obtain ⟨x', y', z'⟩ := D'
  simp only [cmul, periodIndex, Index3.mk.injEq] at e ⊢
  exact ⟨key px d.sx x x' hf.1 h.1 h'.1 e.1, key py d.sy y y' hf.2.1 h.2.1 h'.2.1 e.2.1,
    key pz d.sz z z' hf.2.2 h.2.2 h'.2.2 e.2.2⟩

theorem cmul_zero' (m : Index3) : cmul Index3.zero m = Index3.zero := by
  simp [cmul, Index3.zero]

theorem supported_zero (p : Periods) : Supported p Index3.zero := ⟨fun _ => rfl, fun _ => rfl, fun _ => rfl⟩

section
variable {cell : List CellSite} {nhop : Nat} {d : Dims} {valid : List Bool}

/-- Every candidate direction is supported. -/
theorem supported_cand {p : Periods} {r m : Index3} (hm : m ∈ masks p) : Supported p (cmul r m) := by
  obtain ⟨h1, h2, h3⟩ := mem_masks.1 hm
  refine ⟨?_, ?_, ?_⟩ <;> intro hp <;> simp only [cmul]
  · rcases h1 with h | ⟨-, h⟩
    · simp [h]
    · simp [hp] at h
  · rcases h2 with h | ⟨-, h⟩
    · simp [h]
    · simp [hp] at h
  · rcases h3 with h | ⟨-, h⟩
    · simp [h]
    · simp [hp] at h

/-- The flat indices of the sites in a boundary slice. -/
def sliceFlats (d : Dims) (nsub : Nat) (r : Slice3) : List Nat :=
  (sliceSites d nsub r).map fun s => s.site.flat.toNat

theorem sliceFlats_spec {p : Periods} (hf : Fits d p) (nsub : Nat) {D : Index3} (hD : Supported p D) :
    let sl := (mkTranslation (area d p) D).slice
    (sliceSites d nsub sl).map (·.site) = (sliceFlats d nsub sl).map (siteAt d) ∧
    (∀ k ∈ sliceFlats d nsub sl, k < size d nsub) ∧ (sliceFlats d nsub sl).Nodup ∧
    (∀ k, k < size d nsub → (k ∈ sliceFlats d nsub sl ↔
      sl.x.Selects d.sx (locOf d k).idx.x ∧ sl.y.Selects d.sy (locOf d k).idx.y ∧
      sl.z.Selects d.sz (locOf d k).idx.z)) := by
  intro sl
  obtain ⟨h1, h2, h3⟩ := C14_slice d nsub sl
  have hin : ∀ s ∈ sliceSites d nsub sl, s.site.loc.In d nsub := by
    intro s hs
    obtain ⟨a, b, c, e⟩ := (h2 s.site.loc).1 (List.mem_map.2 ⟨s, hs, rfl⟩)
    have ha := axisSlice_inside hf.1 hD.1 a
    have hb := axisSlice_inside hf.2.1 hD.2.1 b
    have hc := axisSlice_inside hf.2.2 hD.2.2 c
    exact ⟨ha.1, ha.2, hb.1, hb.2, hc.1, hc.2, e⟩
  have hflat : ∀ s ∈ sliceSites d nsub sl, s.site.flat = flatIdx d s.site.loc := by
    intro s hs
    obtain ⟨i, hi, rfl⟩ := List.mem_iff_getElem.1 hs
    exact (h3 i _ (List.getElem?_eq_getElem hi)).2
  have hsite : ∀ s ∈ sliceSites d nsub sl, s.site = siteAt d s.site.flat.toNat ∧
      s.site.flat.toNat < size d nsub := by
    intro s hs
    obtain ⟨k, hk, e1, e2⟩ := (hin s hs).flat
    rw [hflat s hs, e1, Int.toNat_natCast]
    refine ⟨?_, hk⟩
    have hf' : s.site.flat = (k : Int) := by rw [hflat s hs, e1]
    rcases hss : s.site with ⟨l, f⟩
    rw [hss] at e2 hf'
    simp only at e2 hf'
    simp only [siteAt, e2, hf']
  refine ⟨?_, ?_, ?_, ?_⟩
  · unfold sliceFlats
    rw [List.map_map]
    apply List.map_congr_left
    intro s hs
    exact (hsite s hs).1
  · intro k hk
    obtain ⟨s, hs, rfl⟩ := List.mem_map.1 hk
    exact (hsite s hs).2
  · unfold sliceFlats
    have : (sliceSites d nsub sl).map (·.site.loc)
        = ((sliceSites d nsub sl).map fun s => s.site.flat.toNat).map (locOf d) := by
      rw [List.map_map]
      apply List.map_congr_left
      intro s hs
      have := (hsite s hs).1
      simp only [Function.comp_apply]
      conv_lhs => rw [this]
      rfl
    rw [this] at h1
    exact List.Nodup.of_map _ h1
  · intro k hk
    constructor
    · intro hm
      obtain ⟨s, hs, rfl⟩ := List.mem_map.1 hm
      have := (hsite s hs).1
      obtain ⟨a, b, c, e⟩ := (h2 s.site.loc).1 (List.mem_map.2 ⟨s, hs, rfl⟩)
      have e2 : locOf d s.site.flat.toNat = s.site.loc := (congrArg Site.loc this).symm
      rw [e2]
      exact ⟨a, b, c⟩
    · rintro ⟨a, b, c⟩
      have hl := (h2 (locOf d k)).2 ⟨a, b, c, (locOf_in hk).2.2.2.2.2.2⟩
      obtain ⟨s, hs, e⟩ := List.mem_map.1 hl
      refine List.mem_map.2 ⟨s, hs, ?_⟩
      rw [hflat s hs]
      rw [e, flatIdx_locOf]
      simp

/-- If a hopping of the repeated structure goes from a copy of valid site `k` to valid site `k'`,
the direction of the copy is listed and `k` lies in the boundary slice. -/
theorem covered (hok : CellOK cell nhop) (hl : valid.length = size d cell.length) {p : Periods}
    (hf : Fits d p) (hshort : ∀ i, ∀ h ∈ hoppingsAt cell i, Short p h.rel)
    (hin : ∀ k : Nat, valid[k]? = some true → (area d p).contains (locOf d k).idx = true)
    {k k' : Nat} (hk : valid[k]? = some true) (hk' : valid[k']? = some true) {D : Index3}
    (hD : Supported p D) {f : Nat} {c : Bool}
    (hm : ⟨(locOf d k').idx.sub ((locOf d k).idx.add (cmul D (periodIndex p))), (locOf d k').sub, f, c⟩
      ∈ hoppingsAt cell (locOf d k).sub) :
    (∃ i, ∃ h ∈ hoppingsAt cell i, ∃ m ∈ masks p, D = cmul h.rel m) ∧
    (mkTranslation (area d p) D).slice.x.Selects d.sx (locOf d k).idx.x ∧
    (mkTranslation (area d p) D).slice.y.Selects d.sy (locOf d k).idx.y ∧
    (mkTranslation (area d p) D).slice.z.Selects d.sz (locOf d k).idx.z := by
  have hkn : k < size d cell.length := hl ▸ (List.getElem?_eq_some_iff.1 hk).1
  have hkn' : k' < size d cell.length := hl ▸ (List.getElem?_eq_some_iff.1 hk').1
  have hs := (locOf_in hkn).2.2.2.2.2.2
  have hs' := (locOf_in hkn').2.2.2.2.2.2
  set r := (locOf d k').idx.sub ((locOf d k).idx.add (cmul D (periodIndex p))) with hr
  have hsh := hshort _ _ hm
  have ha := hin k hk
  have ha' := hin k' hk'
  unfold Area.contains at ha ha'
  rw [decide_eq_true_eq] at ha ha'
  have hmid := area_middle d p
  have ex : r.x = (locOf d k').idx.x - ((locOf d k).idx.x + D.x * (area d p).middle.x) := by
    rw [hmid, hr]; rfl
  have ey : r.y = (locOf d k').idx.y - ((locOf d k).idx.y + D.y * (area d p).middle.y) := by
    rw [hmid, hr]; rfl
  have ez : r.z = (locOf d k').idx.z - ((locOf d k).idx.z + D.z * (area d p).middle.z) := by
    rw [hmid, hr]; rfl
  have cx := axis_cover hf.1 ⟨ha.1, ha.2.2.2.1⟩ ⟨ha'.1, ha'.2.2.2.1⟩ hsh.1 hD.1 ex
  have cy := axis_cover hf.2.1 ⟨ha.2.1, ha.2.2.2.2.1⟩ ⟨ha'.2.1, ha'.2.2.2.2.1⟩ hsh.2.1 hD.2.1 ey
  have cz := axis_cover hf.2.2 ⟨ha.2.2.1, ha.2.2.2.2.2⟩ ⟨ha'.2.2.1, ha'.2.2.2.2.2⟩ hsh.2.2 hD.2.2 ez
  refine ⟨⟨(locOf d k').sub, ⟨r.neg, (locOf d k).sub, f, !c⟩, ?_,
    ⟨if D.x = 0 then 0 else 1, if D.y = 0 then 0 else 1, if D.z = 0 then 0 else 1⟩, ?_, ?_⟩,
    cx.2, cy.2, cz.2⟩
  · have := hok.sym _ _ hs hs' r f c
    rw [← List.count_pos_iff, ← this, List.count_pos_iff]
    exact hm
  · rw [mem_masks]
    have h1 := cx.1
    have h2 := cy.1
    have h3 := cz.1
    refine ⟨?_, ?_, ?_⟩
    · rcases h1 with h | ⟨h, hp⟩
      · left; simp only; rw [if_pos h]
      · by_cases h0 : D.x = 0
        · left; simp only; rw [if_pos h0]
        · right; simp only; rw [if_neg h0]; exact ⟨rfl, hp⟩
    · rcases h2 with h | ⟨h, hp⟩
      · left; simp only; rw [if_pos h]
      · by_cases h0 : D.y = 0
        · left; simp only; rw [if_pos h0]
        · right; simp only; rw [if_neg h0]; exact ⟨rfl, hp⟩
    · rcases h3 with h | ⟨h, hp⟩
      · left; simp only; rw [if_pos h]
      · by_cases h0 : D.z = 0
        · left; simp only; rw [if_pos h0]
        · right; simp only; rw [if_neg h0]; exact ⟨rfl, hp⟩
  · obtain ⟨Dx, Dy, Dz⟩ := D
    simp only [cmul, Index3.neg, Index3.mk.injEq]
    have h1 := cx.1
    have h2 := cy.1
    have h3 := cz.1
    simp only at h1 h2 h3
    refine ⟨?_, ?_, ?_⟩
    · split <;> omega
    · split <;> omega
    · split <;> omega

/-- The whole of `populate_boundaries`. -/
theorem populateBoundaries_eq (hok : CellOK cell nhop) (hl : valid.length = size d cell.length)
    {p : Periods} (hf : Fits d p) (nameMap : List (String × Nat)) (hn : nhop ≤ nameMap.length) :
    ∃ (ds : List Index3) (g : Index3 → Hopping.HoppingBlocks), ds.Nodup ∧
      (∀ D, D ∈ ds ↔ D ≠ Index3.zero ∧
        ∃ i, ∃ h ∈ hoppingsAt cell i, ∃ m ∈ masks p, D = cmul h.rel m) ∧
      (∀ D ∈ ds, g D = ⟨valid.count true, (List.range nameMap.length).map fun fam =>
        boundaryEntries d cell nhop valid (cmul D (periodIndex p))
          (sliceFlats d cell.length (mkTranslation (area d p) D).slice) fam, nameMap⟩) ∧
      populateBoundaries d cell nhop p nameMap valid = .ok (ds.filterMap fun D =>
        if (g D).nnz > 0 then some ⟨cmul D (periodIndex p), g D⟩ else none) := by
  obtain ⟨ds, e, hnd, hmem⟩ := translations_spec d cell p
  set g : Index3 → Hopping.HoppingBlocks := fun D =>
    ⟨valid.count true, (List.range nameMap.length).map fun fam =>
        boundaryEntries d cell nhop valid (cmul D (periodIndex p))
          (sliceFlats d cell.length (mkTranslation (area d p) D).slice) fam, nameMap⟩ with hg
  refine ⟨ds, g, hnd, hmem, fun D _ => rfl, ?_⟩
  unfold populateBoundaries
  rw [e, translationLoop_eq d cell (finalize d cell nhop valid) nameMap _ (fun t => g t.direction)]
  · rw [List.nil_append, List.filterMap_map]
    congr 1
    apply List.filterMap_congr
    intro D _
    simp only [Function.comp_apply, mkTranslation, area_middle]
  · intro t ht
    obtain ⟨D, hD, rfl⟩ := List.mem_map.1 ht
    obtain ⟨h0, i, h, hh, m, hm, hDm⟩ := (hmem D).1 hD
    have hsup : Supported p D := hDm ▸ supported_cand hm
    obtain ⟨s1, s2, s3, s4⟩ := sliceFlats_spec hf cell.length hsup
    have htot := (finalize_eq d cell nhop valid hl).2
    rw [htot, boundaryLoop_eq hok hl _ _ _ s1 s2 _ (by
      simpa [Hopping.HoppingBlocks.make] using hn)]
    congr 1
    simp only [hg, Hopping.HoppingBlocks.make, mkTranslation, area_middle]
    congr 1
    apply List.ext_getElem
    · simp
    · intro i h1 h2
      simp

/-- **C20** for a given unit cell. -/
theorem closure_cell (hok : CellOK cell nhop) (hl : valid.length = size d cell.length)
    {p : Periods} (hf : Fits d p) (hshort : ∀ i, ∀ h ∈ hoppingsAt cell i, Short p h.rel)
    (hin : ∀ k : Nat, valid[k]? = some true → (area d p).contains (locOf d k).idx = true)
    (nameMap : List (String × Nat)) (hn : nhop ≤ nameMap.length) {Pos : Type} (pos : Nat → Pos)
    (junk : Pos) :
    ∃ s bs, populateSystem d cell nhop nameMap valid pos junk = .ok s ∧
      populateBoundaries d cell nhop p nameMap valid = .ok bs ∧
      (bs.map (·.shift)).Nodup ∧
      (∀ b ∈ bs, b.shift ≠ Index3.zero ∧ b.hoppings.numSites = valid.count true ∧
        b.hoppings.nameMap = nameMap ∧ b.hoppings.blocks.length = nameMap.length ∧
        (∃ D, Supported p D ∧ b.shift = cmul D (periodIndex p)) ∧
        ∀ block ∈ b.hoppings.blocks, ∀ c ∈ block, ∃ k k' : Nat, valid[k]? = some true ∧
          valid[k']? = some true ∧ c = ⟨rank valid k, rank valid k'⟩) ∧
      ∀ D, Supported p D → ∀ fam, fam < nameMap.length → ∀ k k' : Nat, valid[k]? = some true →
        valid[k']? = some true →
        (stored s.hoppings bs (cmul D (periodIndex p)) fam).count ⟨rank valid k, rank valid k'⟩
          = (hoppingsAt cell (locOf d k).sub).count
            ⟨(locOf d k').idx.sub (copy p (locOf d k).idx D), (locOf d k').sub, fam, false⟩ := by
  obtain ⟨ds, g, hnd, hmem, hg, e⟩ := populateBoundaries_eq hok hl hf nameMap hn
  have hsup : ∀ D ∈ ds, Supported p D := by
    intro D hD
    obtain ⟨-, i, h, hh, m, hm, hDm⟩ := (hmem D).1 hD
    exact hDm ▸ supported_cand hm
  refine ⟨_, _, populateSystem_eq hok hl nameMap hn pos junk, e, ?_, ?_, ?_⟩
  · rw [List.map_filterMap]
    have e1 : (ds.filterMap fun D => Option.map (fun b : Boundary => b.shift)
        (if (g D).nnz > 0 then some ⟨cmul D (periodIndex p), g D⟩ else none))
        = (ds.filter fun D => decide ((g D).nnz > 0)).map fun D => cmul D (periodIndex p) := by
      rw [← List.filterMap_eq_map, List.filterMap_filter]
      apply List.filterMap_congr
      intro D _
      by_cases h : (g D).nnz > 0 <;> simp [h]
    rw [e1]
    refine List.Nodup.map_on ?_ (hnd.filter _)
    intro x hx y hy hxy
    exact cmul_inj hf (hsup x (List.mem_of_mem_filter hx)) (hsup y (List.mem_of_mem_filter hy)) hxy
  · intro b hb
    obtain ⟨D, hD, hDb⟩ := List.mem_filterMap.1 hb
    split at hDb
    · simp only [Option.some.injEq] at hDb
      subst hDb
      simp only
      rw [hg D hD]
      refine ⟨?_, rfl, rfl, by simp, ⟨D, hsup D hD, rfl⟩, ?_⟩
      · intro hz
        apply ((hmem D).1 hD).1
        apply cmul_inj hf (hsup D hD) (supported_zero p)
        rw [hz, cmul_zero']
      · intro block hbl c hc
        obtain ⟨fam, -, rfl⟩ := List.mem_map.1 hbl
        exact mem_boundaryEntries hok hl _ _ fam c hc
    · simp at hDb
  · intro D hD fam hfam k k' hk hk'
    have hkn : k < size d cell.length := hl ▸ (List.getElem?_eq_some_iff.1 hk).1
    have hcopy : copy p (locOf d k).idx D = (locOf d k).idx.add (cmul D (periodIndex p)) := rfl
    have hget : ∀ (L : Nat → List Hopping.COO), ((List.range nameMap.length).map L).getD fam [] = L fam := by
      intro L
      rw [List.getD_eq_getElem?_getD, List.getElem?_map, List.getElem?_range hfam]
      rfl
    unfold stored
    simp only
    by_cases h0 : D = Index3.zero
    · subst h0
      rw [cmul_zero', if_pos rfl]
      have hnone : ((ds.filterMap fun D => if (g D).nnz > 0 then
          some (⟨cmul D (periodIndex p), g D⟩ : Boundary) else none).filter
            fun b => decide (b.shift = Index3.zero)) = [] := by
        rw [List.filter_eq_nil_iff]
        intro b hb
        obtain ⟨D', hD', hDb⟩ := List.mem_filterMap.1 hb
        split at hDb
        · simp only [Option.some.injEq] at hDb
          subst hDb
          rw [decide_eq_true_eq]
          intro hz
          apply ((hmem D').1 hD').1
          apply cmul_inj hf (hsup D' hD') (supported_zero p)
          rw [cmul_zero']; exact hz
        · simp at hDb
      rw [hnone, List.flatMap_nil, List.append_nil, hget, count_siteEntries hok hl hk hk' fam, hcopy,
        cmul_zero', show (locOf d k).idx.add Index3.zero = (locOf d k).idx by
          simp [Index3.add, Index3.zero]]
    · have hnz : cmul D (periodIndex p) ≠ Index3.zero := by
        intro hz
        apply h0
        apply cmul_inj hf hD (supported_zero p)
        rw [hz, cmul_zero']
      rw [if_neg hnz, List.nil_append, hcopy]
      by_cases hm : D ∈ ds
      · have hfilter : ((ds.filterMap fun D => if (g D).nnz > 0 then
            some (⟨cmul D (periodIndex p), g D⟩ : Boundary) else none).filter
              fun b => decide (b.shift = cmul D (periodIndex p)))
            = if (g D).nnz > 0 then [⟨cmul D (periodIndex p), g D⟩] else [] := by
          rw [List.filter_filterMap]
          have : (ds.filterMap fun x => Option.filter
              (fun b : Boundary => decide (b.shift = cmul D (periodIndex p)))
              (if (g x).nnz > 0 then some ⟨cmul x (periodIndex p), g x⟩ else none))
              = ((ds.filter fun x => decide (x = D)).filterMap fun x =>
                if (g x).nnz > 0 then some (⟨cmul x (periodIndex p), g x⟩ : Boundary) else none) := by
            rw [List.filterMap_filter]
            apply List.filterMap_congr
            intro x hx
            by_cases hxD : x = D
            · subst hxD
              by_cases hz : (g x).nnz > 0 <;> simp [hz]
            · have : ¬ cmul x (periodIndex p) = cmul D (periodIndex p) :=
                fun hc => hxD (cmul_inj hf (hsup x hx) hD hc)
              by_cases hz : (g x).nnz > 0 <;> simp [hz, hxD, this]
          rw [this]
          have hf1 : (ds.filter fun x => decide (x = D)) = [D] := by
            rw [List.filter_eq, List.count_eq_one_of_mem hnd hm]
            rfl
          rw [hf1]
          by_cases hz : (g D).nnz > 0 <;> simp [hz]
        rw [hfilter]
        have hent : (if (g D).nnz > 0 then [(⟨cmul D (periodIndex p), g D⟩ : Boundary)] else []).flatMap
            (fun b => b.hoppings.blocks.getD fam [])
            = boundaryEntries d cell nhop valid (cmul D (periodIndex p))
              (sliceFlats d cell.length (mkTranslation (area d p) D).slice) fam := by
          split
          · simp only [List.flatMap_cons, List.flatMap_nil, List.append_nil]
            rw [hg D hm, hget]
          · rename_i hz
            rw [List.flatMap_nil]
            have hz : (g D).blocks.flatten.length = 0 := by
              rw [← Hopping.HoppingBlocks.nnz_eq]; omega
            rw [hg D hm] at hz
            simp only [List.length_eq_zero_iff, List.flatten_eq_nil_iff] at hz
            exact (hz _ (List.mem_map.2 ⟨fam, List.mem_range.2 hfam, rfl⟩)).symm
        rw [hent]
        obtain ⟨s1, s2, s3, s4⟩ := sliceFlats_spec hf cell.length hD
        rw [count_boundaryEntries hok hl _ _ s3 hk hk' fam]
        split
        · rfl
        · rename_i hns
          symm
          rw [List.count_eq_zero]
          intro hc
          exact hns ((s4 k hkn).2 (covered hok hl hf hshort hin hk hk' hD hc).2)
      · have hnone : ((ds.filterMap fun D => if (g D).nnz > 0 then
            some (⟨cmul D (periodIndex p), g D⟩ : Boundary) else none).filter
              fun b => decide (b.shift = cmul D (periodIndex p))) = [] := by
          rw [List.filter_eq_nil_iff]
          intro b hb
          obtain ⟨D', hD', hDb⟩ := List.mem_filterMap.1 hb
          split at hDb
          · simp only [Option.some.injEq] at hDb
            subst hDb
            rw [decide_eq_true_eq]
            intro hz
            exact hm (cmul_inj hf (hsup D' hD') hD hz ▸ hD')
          · simp at hDb
        rw [hnone, List.flatMap_nil]
        symm
        rw [List.count_nil, List.count_eq_zero]
        intro hc
        exact hm ((hmem D).2 ⟨h0, (covered hok hl hf hshort hin hk hk' hD hc).1⟩)

end

/-! ## The requested period -/

/-- **C20** (length of the period).  A direction with a negative length is not periodic.  Otherwise the period is the
whole number of cells nearest to the requested length (the larger one of two), but at least one cell; `norm` is the
length of the lattice vector. -/
theorem C20_period {F : Type} [Field F] [LinearOrder F] [IsStrictOrderedRing F] [FloorRing F] (length norm : F) (hv : 0 < norm) :
    (length < 0 → period length (length / norm) = none) ∧
    (0 ≤ length → ∃ m : Nat, period length (length / norm) = some m ∧ 1 ≤ m ∧
      length - m * norm < norm / 2 ∧ (m * norm - length ≤ norm / 2 ∨ m = 1)) := by
  refine ⟨fun h => by rw [period, if_pos h], fun h => ?_⟩
  have hr : length = length / norm * norm := (div_mul_cancel₀ _ hv.ne').symm
  have h0 : 0 ≤ length / norm := div_nonneg h hv.le
  rw [period, if_neg (not_lt.2 h)]
  generalize length / norm = r at *
  have f1 := Int.floor_le (r + 1 / 2)
  have f2 := Int.lt_floor_add_one (r + 1 / 2)
  simp only
  split
  · rename_i hn
    refine ⟨_, rfl, by omega, ?_⟩
    have hc : ((⌊r + 1 / 2⌋.toNat : Nat) : F) = (⌊r + 1 / 2⌋ : F) := by
      rw [← Int.cast_natCast, Int.toNat_of_nonneg hn.le]
    rw [hc, hr, ← sub_mul, ← sub_mul]
    constructor
    · calc (r - ⌊r + 1 / 2⌋) * norm < 1 / 2 * norm := mul_lt_mul_of_pos_right (by linarith) hv
        _ = norm / 2 := by ring
    · left
      calc (⌊r + 1 / 2⌋ - r) * norm ≤ 1 / 2 * norm := mul_le_mul_of_nonneg_right (by linarith) hv.le
        _ = norm / 2 := by ring
  · rename_i hn
    refine ⟨1, rfl, le_refl 1, ?_, Or.inr rfl⟩
    have hn' : (⌊r + 1 / 2⌋ : F) ≤ 0 := by exact_mod_cast not_lt.1 hn
    rw [hr]
    have : r < 1 / 2 := by linarith
    have := mul_lt_mul_of_pos_right this hv
    push_cast
    linarith

/-- A length of 5 with cells of length 2 gives three cells, a length of 0 one cell. -/
example : period (5 : ℚ) (5 / 2) = some 3 ∧ period (0 : ℚ) 0 = some 1 ∧ period (-1 : ℚ) (-1 / 2) = none := by
  decide +kernel

end Verif.Symmetry
