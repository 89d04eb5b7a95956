import Verif.Pipeline.System
import Verif.Leads.StructureLemmas

/-!
# Lemmas: the structure of a lead as a whole
-/

namespace Verif.Leads

open Verif.Lattice (CellSite CellHopping)
open Verif.Foundation

variable {P : Type}

/-- Pairs stored by a loop over the sites, counted. -/
theorem count_leadEntries {d : Dims} {cell : List CellSite} {nhop : Nat} {valid : List Bool}
    (hok : CellOK cell nhop) (hl : valid.length = size d cell.length) (Q : List SliceSite)
    (hon : ∀ s ∈ Q, SiteOn valid s) (hat : ∀ s ∈ Q, s.site.loc = locOf d s.site.flat.toNat)
    (hnd : (Q.map (finalOf valid)).Nodup) (skip : Bool) (shift : Index3) (fam : Nat) :
    (∀ (a b : Nat) sa sb, Q[a]? = some sa → Q[b]? = some sb →
      (leadEntries skip (finalize d cell nhop valid) d cell (Q.map (finalOf valid)) shift fam
        (Q.zipIdx 0)).count ⟨a, b⟩ =
      (hoppingsAt cell sa.site.loc.sub).countP fun h =>
        h.rel = sb.site.loc.idx.sub (sa.site.loc.idx.add shift) ∧ h.toIdx = sb.site.loc.sub ∧
          h.familyId = fam ∧ (skip = true → h.isConjugate = false)) ∧
    ∀ c ∈ leadEntries skip (finalize d cell nhop valid) d cell (Q.map (finalOf valid)) shift fam
      (Q.zipIdx 0), c.row < Q.length ∧ c.col < Q.length := by
  constructor
  · intro a b sa sb ha hb
    unfold leadEntries
    have hmem : (sa, a) ∈ Q.zipIdx 0 := by
      rw [List.mem_zipIdx_iff_getElem?]
      simpa using ha
    rw [count_flatMap_unique _ _ _ (sa, a) hmem]
    · have hsb := hon sb (List.mem_of_getElem? hb)
      have := count_lead hok hl ⟨sa.site.loc.idx.add shift, sa.site.loc.sub⟩ (Q.map (finalOf valid)) hnd b
        sb.site.flat.toNat hsb.2 (by rw [List.getElem?_map, hb]; rfl)
        (by
          intro x hx
          obtain ⟨s, -, rfl⟩ := List.mem_map.mp hx
          exact Int.natCast_nonneg _) skip a fam
      rw [this]
      rw [hat sb (List.mem_of_getElem? hb)]
    · have : (Q.zipIdx 0).map (·.2) = List.range' 0 Q.length := by
        rw [List.zipIdx_map_snd]
      apply List.Nodup.of_map (·.2)
      rw [this]
      exact List.nodup_range'
    · intro q hq hne
      rw [List.count_eq_zero]
      intro hm
      obtain ⟨p, -, hp⟩ := List.mem_filterMap.1 hm
      have hq2 : q.2 = a := by
        unfold leadEntry at hp
        split at hp
        · simp at hp
        · split at hp
          · simp at hp
          · split at hp
            · simp only [Option.some.injEq, Hopping.COO.mk.injEq] at hp
              exact hp.1
            · simp at hp
      apply hne
      obtain ⟨s, m⟩ := q
      simp only at hq2
      subst hq2
      rw [List.mem_zipIdx_iff_getElem?] at hq
      have : sa = s := by
        simp only at hq
        rw [ha] at hq
        simpa using hq
      rw [this]
  · intro c hc
    unfold leadEntries at hc
    obtain ⟨⟨s, m⟩, hq, hm⟩ := List.mem_flatMap.1 hc
    obtain ⟨p, -, hp⟩ := List.mem_filterMap.1 hm
    unfold leadEntry at hp
    split at hp
    · simp at hp
    · rename_i j hj
      split at hp
      · simp at hp
      · split at hp
        · simp only [Option.some.injEq] at hp
          subst hp
          have h1 := leadIndex_some _ _ _ hj
          rw [List.mem_zipIdx_iff_getElem?] at hq
          constructor
          · simpa using (List.getElem?_eq_some_iff.1 hq).1
          · simpa using (List.getElem?_eq_some_iff.1 h1).1
        · simp at hp

/-- The structure of a lead whose unit cell is completely valid. -/
theorem structure_spec (B : Base P) (sp : Spec P) (nhop : Nat) (hok : CellOK B.cell nhop)
    (hd : Directed sp) (hm : Meets B sp) (valid : List Bool) (hs : Sized B valid)
    (names : List (String × Nat)) (hn : nhop ≤ names.length) (shiftPos : P → P) (junk : P) (i : Int)
    (hat : AttachedAt B sp valid i) (hlead : ∃ l, InLead B sp l)
    (hfull : ∀ l, InLead B sp l → comp l.idx sp.axis.toNat = i → IsOn B.d valid l) :
    ∃ st locs, makeStructure B nhop names shiftPos junk valid sp = .ok st ∧
      IsLead B sp valid i names shiftPos st locs := by
  obtain ⟨N, base, h⟩ := cols_exist B sp hd hm
  have ha := hd.axis_lt
  obtain ⟨⟨m0, hm1, hm2, hm3⟩, hout⟩ := hat
  have hir := hm1.1.1 sp.axis.toNat ha
  rw [hm3] at hir
  rcases junction_spec h hd hm valid hs with ⟨hnone, he⟩ | ⟨hsome, hnone, he⟩ |
    ⟨t0, ht0, jv, he, hlen, -, hjv, ⟨m1, hm4, hm5, hm6⟩, hmin⟩
  · exact absurd hm2 (hnone m0 hm1)
  · obtain ⟨l, hl⟩ := hlead
    exact absurd hl (hnone l)
  · -- the two indices agree
    have hi : sp.start B.d + t0 * sp.step = i := by
      have h1 := hmin m0 hm1 hm2
      rw [hm3] at h1
      have h2 := hout m1 hm4 hm5
      have hr := hm4.1.1 sp.axis.toNat ha
      rw [outer_iff B sp hd _ _ hir.1 hir.2 hr.1 hr.2, hm6] at h2
      have h3 : ord B sp i = t0 := by omega
      rw [← h3]
      exact (ord_spec B sp hd i hir.1 hir.2).2
    rw [hi] at he
    -- the sites of the lead
    obtain ⟨slice, hslice⟩ : ∃ s, s = Leads.layer B sp (shapeSlice B sp) i := ⟨_, rfl⟩
    obtain ⟨Q, hQ⟩ : ∃ Q, Q = sel jv slice := ⟨_, rfl⟩
    have hmem : ∀ s ∈ slice, ∃ k < N, s.sliceIdx = k ∧ s.site.loc = along (base k) sp.axis.toNat i ∧
        s.site.flat = flatIdx B.d (along (base k) sp.axis.toNat i) := by
      intro s hs'
      rw [hslice] at hs'
      exact (h.mem i hir.1 s).mp hs'
    have hlayers := h.layers hd (ord B sp i) 1 (by
      have := (ord_spec B sp hd i hir.1 hir.2).1
      omega)
    have hl0 : Leads.layer B sp (shapeSlice B sp)
        (sp.start B.d + ((ord B sp i + 0 : Nat) : Int) * sp.step) = slice := by
      rw [Nat.add_zero, (ord_spec B sp hd i hir.1 hir.2).2, hslice]
    have hnd2 := hlayers.nodup2 0 (by omega)
    simp only [hl0] at hnd2
    have hin : Inside (size B.d B.cell.length) slice := by
      rw [hslice]
      exact h.inside hd i hir.1 hir.2
    have hj : ∀ s ∈ slice, s.sliceIdx < jv.length := by
      intro s hs'
      obtain ⟨k, hk, e, -⟩ := hmem s hs'
      omega
    have hbase : ∀ k < N, (along (base k) sp.axis.toNat i).In B.d B.cell.length := by
      intro k hk
      rw [← inBase_iff]
      exact ((h.sect k hk).1.along ha hir.1 hir.2).1
    have hflat : ∀ s ∈ slice, s.site.loc = locOf B.d s.site.flat.toNat ∧
        s.site.flat = flatIdx B.d s.site.loc ∧ s.site.loc.sub < B.cell.length := by
      intro s hs'
      obtain ⟨k, hk, -, e1, e2⟩ := hmem s hs'
      obtain ⟨m, -, f1, f2⟩ := (hbase k hk).flat
      refine ⟨?_, by rw [e1, e2], by rw [e1]; exact (hbase k hk).2.2.2.2.2.2⟩
      rw [e1, e2, f1, Int.toNat_natCast, f2]
    have hQs : ∀ s ∈ Q, s ∈ slice ∧ jv.getD s.sliceIdx false = true := by
      intro s hs'
      rw [hQ] at hs'
      unfold sel at hs'
      have := List.mem_filter.mp hs'
      exact this
    have hQl : ∀ s ∈ Q, InLead B sp s.site.loc ∧ comp s.site.loc.idx sp.axis.toNat = i := by
      intro s hs'
      obtain ⟨h1, h2⟩ := hQs s hs'
      obtain ⟨k, hk, e1, e2, -⟩ := hmem s h1
      rw [e1] at h2
      rw [e2]
      refine ⟨((hjv k hk).mp h2).along hd hir.1 hir.2, ?_⟩
      simp only [along, comp_setComp_self]
    have hon : ∀ s ∈ Q, SiteOn valid s := by
      intro s hs'
      obtain ⟨h1, -⟩ := hQs s hs'
      obtain ⟨h2, h3⟩ := hQl s hs'
      have := hfull _ h2 h3
      unfold IsOn at this
      rw [← (hflat s h1).2.1] at this
      exact ⟨(hin s h1).1, this⟩
    have hQnd2 : (Q.map fun s => s.site.flat.toNat).Nodup := by
      rw [hQ]
      exact hnd2.sublist (List.Sublist.map _ List.filter_sublist)
    have hnd : (Q.map (finalOf valid)).Nodup := by
      have hQnd : Q.Nodup := List.Nodup.of_map _ hQnd2
      refine List.Nodup.map_on ?_ hQnd
      intro x hx y hy e
      unfold finalOf at e
      have := rank_inj (hon x hx).2 (hon y hy).2 (by exact_mod_cast e)
      exact List.inj_on_of_nodup_map hQnd2 hx hy this
    have hcollect := collect_spec (nhop := nhop) hs.1 jv slice hj (by rw [← hQ]; exact hon)
    rw [← hQ] at hcollect
    have hidx : ∀ m : Nat, ∀ s, Q[m]? = some s →
        leadIndex (Q.map (finalOf valid)) (finalOf valid s) = some (0 + m) := by
      intro m s hs'
      obtain ⟨h1, h2⟩ := List.getElem?_eq_some_iff.1 hs'
      have := leadIndex_getElem _ hnd m (by simpa using h1)
      rw [List.getElem_map, h2] at this
      rw [this, Nat.zero_add]
    obtain ⟨ps, p1, p2, p3⟩ := systemLoop_eq B nhop hok valid hs.1 hs.2 jv (Q.map (finalOf valid)) shiftPos
      junk slice hj (by rw [← hQ]; exact hon) (fun s hs' => (hflat s hs').2.2) [] Q.length []
      (Hopping.HoppingBlocks.make Q.length names) (by simpa [Hopping.HoppingBlocks.make] using hn)
      (by rw [← hQ]; exact hidx) (by rw [← hQ])
    rw [← hQ] at p2 p3
    have hbl := boundaryLoop_eq B sp nhop hok valid hs.1 jv (Q.map (finalOf valid)) slice hj
      (by rw [← hQ]; exact hon) 0 (Hopping.HoppingBlocks.make Q.length names)
      (by simpa [Hopping.HoppingBlocks.make] using hn) (by rw [← hQ]; exact hidx)
    rw [← hQ] at hbl
    simp only [List.nil_append, List.length_nil] at p3
    -- the sublattices
    obtain ⟨ops, hops⟩ : ∃ ops, ops = Q.filterMap fun s => (B.cell[s.site.loc.sub]?).map
      fun c => (⟨c.aliasId, c.norb, 1⟩ : Sublat.Spec.AddOp) := ⟨_, rfl⟩
    rw [← hops] at p3
    have hQsub : ∀ s ∈ Q, s.site.loc.sub < B.cell.length := fun s hs' => (hflat s (hQs s hs').1).2.2
    have hopm : ops = Q.pmap (fun (s : SliceSite) (hlt : s.site.loc.sub < B.cell.length) =>
        (⟨(B.cell[s.site.loc.sub]).aliasId, (B.cell[s.site.loc.sub]).norb, 1⟩ : Sublat.Spec.AddOp)) hQsub := by
      rw [hops]
      clear * -
      induction Q with
      | nil => rfl
      | cons s rest ih =>
        rw [List.filterMap_cons, List.getElem?_eq_getElem (hQsub s (by simp))]
        simp only [Option.map_some, List.pmap_cons]
        rw [ih]
    have hopmem : ∀ o ∈ ops, ∃ c ∈ B.cell, o = ⟨c.aliasId, c.norb, 1⟩ := by
      intro o ho
      rw [hopm] at ho
      obtain ⟨s, hs', rfl⟩ := List.mem_pmap.mp ho
      exact ⟨_, List.getElem_mem _, rfl⟩
    have hcons : Sublat.Spec.Consistent ops := by
      intro a ha' b hb' e
      obtain ⟨x, hx, rfl⟩ := hopmem a ha'
      obtain ⟨y, hy, rfl⟩ := hopmem b hb'
      exact hok.norb x hx y hy (by simpa using e)
    have hQsorted : Q.Pairwise fun a b => a.site.loc.sub ≤ b.site.loc.sub := by
      rw [hQ]
      apply List.Pairwise.filter
      rw [hslice, h.layer i hir.1, List.pairwise_map]
      refine List.pairwise_lt_range.imp ?_
      intro a b hab
      exact h.mono a b (le_of_lt hab)
    have hsorted : ops.Pairwise (fun a b => a.norb < b.norb ∨ (a.norb = b.norb ∧ a.id ≤ b.id)) := by
      rw [hopm]
      apply List.Pairwise.pmap hQsorted
      intro a ha' b hb' hab
      rcases Nat.lt_or_ge a.site.loc.sub b.site.loc.sub with hlt | hge
      · have := (List.pairwise_iff_getElem.1 hok.sorted) _ _ ha' hb' hlt
        simp only
        omega
      · have e : a.site.loc.sub = b.site.loc.sub := by omega
        right
        simp [e]
    have hone : ∀ o ∈ ops, o.count = 1 := by
      intro o ho
      obtain ⟨c, -, rfl⟩ := hopmem o ho
      rfl
    have hopl : ops.length = Q.length := by
      rw [hopm, List.length_pmap]
    have hlab : (Sublat.Spec.labels ops).map some = Q.map fun s =>
        (B.cell[s.site.loc.sub]?).map fun c => (c.aliasId : Int) := by
      unfold Sublat.Spec.labels
      rw [flatMap_replicate_one _ _ _ hone, List.map_map, hopm, List.map_pmap]
      clear * -
      induction Q with
      | nil => rfl
      | cons s rest ih =>
        rw [List.pmap_cons, List.map_cons, ih, List.getElem?_eq_getElem (hQsub s (by simp))]
        rfl
    have hnorb : (Sublat.Spec.norbs ops).map some = Q.map fun s =>
        (B.cell[s.site.loc.sub]?).map (·.norb) := by
      unfold Sublat.Spec.norbs
      rw [flatMap_replicate_one _ _ _ hone, List.map_map, hopm, List.map_pmap]
      clear * -
      induction Q with
      | nil => rfl
      | cons s rest ih =>
        rw [List.pmap_cons, List.map_cons, ih, List.getElem?_eq_getElem (hQsub s (by simp))]
        rfl
    have hver : Sublat.verify (Sublat.runAdds ops) Q.length = .ok () := by
      rw [(Sublat.C03_verify_iff _ _).1]
      obtain ⟨g1, g2⟩ := runAdds_sorted _ hsorted hcons
      refine ⟨?_, g1, g2⟩
      rw [(Sublat.C01_labels_roundtrip _).1, hlab, List.length_map]
    have hmake : makeStructure B nhop names shiftPos junk valid sp = .ok
        ⟨Q.map (finalOf valid), ps, Sublat.runAdds ops,
          { Hopping.HoppingBlocks.make Q.length names with
            blocks := (Hopping.HoppingBlocks.make Q.length names).blocks.mapIdx fun fam b => b ++
              leadEntries true (finalize B.d B.cell nhop valid) B.d B.cell (Q.map (finalOf valid))
                Index3.zero fam (Q.zipIdx 0) },
          { Hopping.HoppingBlocks.make Q.length names with
            blocks := (Hopping.HoppingBlocks.make Q.length names).blocks.mapIdx fun fam b => b ++
              leadEntries false (finalize B.d B.cell nhop valid) B.d B.cell (Q.map (finalOf valid))
                sp.shift fam (Q.zipIdx 0) }⟩ := by
      unfold makeStructure
      simp only
      rw [he, Res.bind_ok]
      simp only
      rw [← hslice, hcollect, Res.bind_ok, List.length_map, p3, Res.bind_ok]
      simp only
      have : ops.foldl (fun t o => Sublat.add t o.id o.norb o.count) [] = Sublat.runAdds ops := rfl
      rw [this, hver, Res.bind_ok, hbl, Res.bind_ok]
      rfl
    refine ⟨_, Q.map fun s => s.site.loc, hmake, ?_⟩
    have hQat : ∀ s ∈ Q, s.site.loc = locOf B.d s.site.flat.toNat := fun s hs' => (hflat s (hQs s hs').1).1
    have hQfl : ∀ s ∈ Q, flatIdx B.d s.site.loc = s.site.flat := fun s hs' => (hflat s (hQs s hs').1).2.1.symm
    have hblock : ∀ (X : Nat → List Hopping.COO) (fam : Nat) block,
        ((Hopping.HoppingBlocks.make Q.length names).blocks.mapIdx fun fam b => b ++ X fam)[fam]? =
          some block → block = X fam := by
      intro X fam block hb
      simp only [List.getElem?_mapIdx, Hopping.HoppingBlocks.make] at hb
      rcases hr : (List.replicate names.length ([] : List Hopping.COO))[fam]? with _ | x
      · rw [hr] at hb
        simp at hb
      · rw [hr] at hb
        have hx := List.getElem?_replicate (n := names.length) (a := ([] : List Hopping.COO)) (i := fam)
        rw [hr] at hx
        split at hx
        · simp only [Option.some.injEq] at hx
          subst hx
          simpa using hb.symm
        · simp at hx
    have hQget : ∀ (a : Nat) la, (Q.map fun s => s.site.loc)[a]? = some la →
        ∃ sa, Q[a]? = some sa ∧ sa.site.loc = la := by
      intro a la hla
      rw [List.getElem?_map] at hla
      exact Option.map_eq_some_iff.mp hla
    refine ⟨?_, ?_, ?_, ?_, ?_, ?_, ?_, ?_, ?_, ?_, ?_, ?_⟩
    · have hQnd : Q.Nodup := List.Nodup.of_map _ hQnd2
      refine List.Nodup.map_on ?_ hQnd
      intro x hx y hy e
      apply List.inj_on_of_nodup_map hQnd2 hx hy
      rw [← hQfl x hx, ← hQfl y hy, e]
    · intro l
      constructor
      · intro hl
        obtain ⟨s, hs', rfl⟩ := List.mem_map.mp hl
        exact hQl s hs'
      · rintro ⟨h1, h2⟩
        obtain ⟨k, hk, e⟩ := h.surj l h1.1
        rw [h2] at e
        refine List.mem_map.mpr ⟨⟨Site.at B.d (along (base k) sp.axis.toNat i).idx
          (along (base k) sp.axis.toNat i).sub, k⟩, ?_, by rw [← e]; rfl⟩
        rw [hQ]
        unfold sel
        rw [List.mem_filter]
        refine ⟨by rw [hslice]; exact (h.mem i hir.1 _).mpr ⟨k, hk, rfl, rfl, rfl⟩, ?_⟩
        apply (hjv k hk).mpr
        have hz := (index_spec B sp hd t0 ht0)
        have hpos := middle_range hd hm
        have := h1.along hd (i := 0) le_rfl (by omega)
        rw [← e, along_along _ _ _ _ ha] at this
        rwa [← (h.sect k hk).2, along_self _ _ ha] at this
    · simp only [List.map_map]
      apply List.map_congr_left
      intro s hs'
      simp only [Function.comp, finalOf, number, rank]
      rw [hQfl s hs']
    · simp only
      apply List.ext_getElem?
      intro m
      rw [List.getElem?_map, List.getElem?_map, List.getElem?_map, p2 m]
      rcases hq : Q[m]? with _ | s
      · rfl
      · have hs' := List.mem_of_getElem? hq
        have hlt := (List.getElem?_eq_some_iff.1 (hon s hs').2).1
        simp only [Option.bind_some, Option.map_some]
        rw [hQfl s hs', List.getElem?_eq_getElem (by rw [hs.2, ← hs.1]; exact hlt)]
        rfl
    · simp only
      rw [(Sublat.C01_labels_roundtrip _).1, hlab, List.map_map]
      rfl
    · simp only
      rw [Sublat.tableNorbs_runAdds _ hcons, hnorb, List.map_map]
      rfl
    · refine ⟨(Foundation.runAdds_sorted _ hsorted hcons).2, fun e he' => ?_⟩
      obtain ⟨o, ho, e1, e2⟩ := Pipeline.mem_runAdds _ he'
      obtain ⟨c, hc, rfl⟩ := hopmem o ho
      exact ⟨c, hc, e1, e2⟩
    · simp [Hopping.HoppingBlocks.make]
    · exact ⟨rfl, rfl⟩
    · simp [Hopping.HoppingBlocks.make]
    · intro fam block hb
      have := hblock _ fam block hb
      subst this
      obtain ⟨g1, g2⟩ := count_leadEntries hok hs.1 Q hon hQat hnd true Index3.zero fam
      constructor
      · intro a b la lb hla hlb
        obtain ⟨sa, ha', rfl⟩ := hQget a la hla
        obtain ⟨sb, hb', rfl⟩ := hQget b lb hlb
        rw [g1 a b sa sb ha' hb']
        have hz : sa.site.loc.idx.add Index3.zero = sa.site.loc.idx := by
          simp [Index3.add, Index3.zero]
        rw [hz]
        congr 1
        funext h
        simp
      · simpa using g2
    · intro fam block hb
      have := hblock _ fam block hb
      subst this
      obtain ⟨g1, g2⟩ := count_leadEntries hok hs.1 Q hon hQat hnd false sp.shift fam
      constructor
      · intro a b la lb hla hlb
        obtain ⟨sa, ha', rfl⟩ := hQget a la hla
        obtain ⟨sb, hb', rfl⟩ := hQget b lb hlb
        rw [g1 a b sa sb ha' hb']
        congr 1
        funext h
        simp
      · simpa using g2

end Verif.Leads
