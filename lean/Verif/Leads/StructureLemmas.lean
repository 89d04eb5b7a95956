import Verif.Leads.Area
import Verif.Foundation.Props2

/-!
# Lemmas: the structure of a lead
-/

namespace Verif.Leads

open Verif.Lattice (CellSite CellHopping)
open Verif.Foundation

variable {P : Type}

/-- The sites of a slice which belong to the lead. -/
def sel (jv : List Bool) (ss : List SliceSite) : List SliceSite :=
  ss.filter fun s => jv.getD s.sliceIdx false

theorem sel_pos {jv : List Bool} {s : SliceSite} {ss : List SliceSite}
    (h : jv.getD s.sliceIdx false = true) : sel jv (s :: ss) = s :: sel jv ss := by
  unfold sel
  exact List.filter_cons_of_pos (p := fun s : SliceSite => jv.getD s.sliceIdx false) h

theorem sel_neg {jv : List Bool} {s : SliceSite} {ss : List SliceSite}
    (h : ¬ jv.getD s.sliceIdx false = true) : sel jv (s :: ss) = sel jv ss := by
  unfold sel
  exact List.filter_cons_of_neg (p := fun s : SliceSite => jv.getD s.sliceIdx false) h

/-- The final index of a site. -/
def finalOf (valid : List Bool) (s : SliceSite) : Int := (rank valid s.site.flat.toNat : Int)

/-- A site of the foundation which is valid. -/
def SiteOn (valid : List Bool) (s : SliceSite) : Prop :=
  0 ≤ s.site.flat ∧ valid[s.site.flat.toNat]? = some true

theorem read_jv (jv : List Bool) (s : SliceSite) (h : s.sliceIdx < jv.length) :
    readAt jv (s.sliceIdx : Int) = .ok (jv.getD s.sliceIdx false) := by
  have := readAt_bool jv (s.sliceIdx : Int) (Int.natCast_nonneg _) (by simpa using h)
  simpa using this

section
variable {d : Dims} {cell : List CellSite} {nhop : Nat} {valid : List Bool}

theorem read_final (hl : valid.length = size d cell.length) (k : Nat) (hk : k < valid.length) :
    readAt (finalize d cell nhop valid).indices (k : Int) =
      .ok (if valid[k]? = some true then (rank valid k : Int) else -1) := by
  have h := finIndex_siteAt (nhop := nhop) hl k ⟨Index3.zero, 0⟩
  unfold finIndex at h
  simp only [Int.toNat_natCast] at h
  have hlen : k < (finalize d cell nhop valid).indices.length := by
    rw [(finalize_eq d cell nhop valid hl).1]
    simpa using hk
  rw [readAt_ok _ _ (Int.natCast_nonneg _) (by simpa using hlen)]
  rw [List.getD_eq_getElem _ _ hlen] at h
  simp only [Int.toNat_natCast]
  rw [h]

theorem read_finalOf (hl : valid.length = size d cell.length) (s : SliceSite) (h : SiteOn valid s) :
    readAt (finalize d cell nhop valid).indices s.site.flat = .ok (finalOf valid s) := by
  obtain ⟨h0, hv⟩ := h
  have := read_final (nhop := nhop) hl s.site.flat.toNat (List.getElem?_eq_some_iff.1 hv).1
  rw [if_pos hv, Int.toNat_of_nonneg h0] at this
  exact this

theorem collect_spec (hl : valid.length = size d cell.length) (jv : List Bool) (ss : List SliceSite)
    (hj : ∀ s ∈ ss, s.sliceIdx < jv.length) (hv : ∀ s ∈ sel jv ss, SiteOn valid s) :
    collect (finalize d cell nhop valid) jv ss = .ok ((sel jv ss).map (finalOf valid)) := by
  induction ss with
  | nil => rfl
  | cons s rest ih =>
    have hj' := hj s (by simp)
    have hrest : ∀ t ∈ rest, t.sliceIdx < jv.length := fun t ht => hj t (List.mem_cons_of_mem _ ht)
    simp only [collect]
    rw [read_jv jv s hj', Res.bind_ok]
    by_cases h : jv.getD s.sliceIdx false = true
    · have e : sel jv (s :: rest) = s :: sel jv rest := by
        exact sel_pos h
      rw [e] at hv ⊢
      rw [if_pos h, read_finalOf hl s (hv s (by simp)), Res.bind_ok,
        ih hrest (fun t ht => hv t (List.mem_cons_of_mem _ ht)), Res.bind_ok]
      rfl
    · have e : sel jv (s :: rest) = sel jv rest := by
        exact sel_neg h
      rw [e] at hv ⊢
      rw [if_neg h, ih hrest hv]

theorem leadIndex_getElem (xs : List Int) (hnd : xs.Nodup) (m : Nat) (hm : m < xs.length) :
    leadIndex xs xs[m] = some m := by
  unfold leadIndex
  rw [List.findIdx?_eq_some_iff_getElem]
  refine ⟨hm, by simp, ?_⟩
  intro j hj
  simp only [beq_iff_eq]
  intro e
  have := (List.Nodup.getElem_inj_iff hnd).mp e
  omega

theorem leadIndex_some (xs : List Int) (x : Int) (j : Nat) (h : leadIndex xs x = some j) :
    xs[j]? = some x := by
  unfold leadIndex at h
  rw [List.findIdx?_eq_some_iff_getElem] at h
  obtain ⟨hj, he, -⟩ := h
  rw [List.getElem?_eq_getElem hj]
  simpa using he

/-! ## What the neighbour loops add -/

/-- The pair added to the block of family `fam`; `skip` if conjugate hoppings are left out. -/
def leadEntry (skip : Bool) (f : Finalized) (indices : List Int) (index fam : Nat)
    (p : Site × CellHopping) : Option Hopping.COO :=
  match leadIndex indices (finIndex f p.1) with
  | none => none
  | some j => if skip && p.2.isConjugate then none
    else if p.2.familyId = fam then some ⟨index, j⟩ else none

/-- The neighbour loops need not read outside the array. -/
def Readable (f : Finalized) (nb : List (Site × CellHopping)) : Prop :=
  ∀ p ∈ nb, readAt f.indices p.1.flat = .ok (finIndex f p.1)

theorem blocks_append_nil (h : Hopping.HoppingBlocks) (g : Nat → List Hopping.COO)
    (hg : ∀ i, g i = []) : { h with blocks := h.blocks.mapIdx (fun fam b => b ++ g fam) } = h := by
  have : h.blocks.mapIdx (fun fam b => b ++ g fam) = h.blocks := by
    apply List.ext_getElem?
    intro i
    simp [List.getElem?_mapIdx, hg]
  rw [this]

theorem addInside_eq (f : Finalized) (indices : List Int) (index : Nat) (nb : List (Site × CellHopping))
    (h : Hopping.HoppingBlocks) (hf : ∀ p ∈ nb, p.2.familyId < h.blocks.length) (hr : Readable f nb) :
    addInside f indices index nb h = .ok { h with
      blocks := h.blocks.mapIdx (fun fam b => b ++ nb.filterMap (leadEntry true f indices index fam)) } := by
  induction nb generalizing h with
  | nil => exact congrArg Res.ok (blocks_append_nil h (fun fam =>
      ([] : List (Site × CellHopping)).filterMap (leadEntry true f indices index fam)) (fun _ => rfl)).symm
  | cons p nb ih =>
    obtain ⟨n, hop⟩ := p
    have hlt := hf _ List.mem_cons_self
    simp only at hlt
    have hrest : ∀ p ∈ nb, p.2.familyId < h.blocks.length :=
      fun p hp => hf p (List.mem_cons_of_mem _ hp)
    have hr' : Readable f nb := fun p hp => hr p (List.mem_cons_of_mem _ hp)
    have hrd := hr _ List.mem_cons_self
    simp only at hrd
    unfold addInside
    rw [hrd, Res.bind_ok]
    rcases hli : leadIndex indices (finIndex f n) with _ | j
    · simp only
      rw [ih h hrest hr']
      congr 2
      apply List.ext_getElem?
      intro i
      simp [List.getElem?_mapIdx, List.filterMap_cons, leadEntry, hli]
    · simp only
      by_cases hc : hop.isConjugate = true
      · rw [if_pos hc, ih h hrest hr']
        congr 2
        apply List.ext_getElem?
        intro i
        simp [List.getElem?_mapIdx, List.filterMap_cons, leadEntry, hli, hc]
      · rw [if_neg hc]
        unfold Hopping.HoppingBlocks.add
        rw [if_pos hlt, Res.bind_ok, ih _ (by simpa using hrest) hr']
        congr 2
        apply List.ext_getElem?
        intro i
        simp only [List.getElem?_mapIdx, List.getElem?_modify]
        rcases h.blocks[i]? with _ | b
        · simp
        · by_cases hi : hop.familyId = i
          · simp [List.filterMap_cons, leadEntry, hli, hc, hi]
          · simp [List.filterMap_cons, leadEntry, hli, hc, hi]

theorem addBetween_eq (f : Finalized) (indices : List Int) (index : Nat)
    (nb : List (Site × CellHopping))
    (h : Hopping.HoppingBlocks) (hf : ∀ p ∈ nb, p.2.familyId < h.blocks.length) (hr : Readable f nb) :
    addBetween f indices index nb h = .ok { h with
      blocks := h.blocks.mapIdx (fun fam b => b ++ nb.filterMap (leadEntry false f indices index fam)) } := by
  induction nb generalizing h with
  | nil => exact congrArg Res.ok (blocks_append_nil h (fun fam =>
      ([] : List (Site × CellHopping)).filterMap (leadEntry false f indices index fam)) (fun _ => rfl)).symm
  | cons p nb ih =>
    obtain ⟨n, hop⟩ := p
    have hlt := hf _ List.mem_cons_self
    simp only at hlt
    have hrest : ∀ p ∈ nb, p.2.familyId < h.blocks.length :=
      fun p hp => hf p (List.mem_cons_of_mem _ hp)
    have hr' : Readable f nb := fun p hp => hr p (List.mem_cons_of_mem _ hp)
    have hrd := hr _ List.mem_cons_self
    simp only at hrd
    unfold addBetween
    rw [hrd, Res.bind_ok]
    rcases hli : leadIndex indices (finIndex f n) with _ | j
    · simp only
      rw [ih h hrest hr']
      congr 2
      apply List.ext_getElem?
      intro i
      simp [List.getElem?_mapIdx, List.filterMap_cons, leadEntry, hli]
    · simp only
      unfold Hopping.HoppingBlocks.add
      rw [if_pos hlt, Res.bind_ok, ih _ (by simpa using hrest) hr']
      congr 2
      apply List.ext_getElem?
      intro i
      simp only [List.getElem?_mapIdx, List.getElem?_modify]
      rcases h.blocks[i]? with _ | b
      · simp
      · by_cases hi : hop.familyId = i
        · simp [List.filterMap_cons, leadEntry, hli, hi]
        · simp [List.filterMap_cons, leadEntry, hli, hi]

theorem readable_neighbors (hok : CellOK cell nhop) (hl : valid.length = size d cell.length) (l : Loc) :
    Readable (finalize d cell nhop valid) (neighbors d cell l) := by
  intro p hp
  obtain ⟨f1, f2, f3⟩ := mem_neighbors hp
  have hin := (inBounds_iff d _ p.2.toIdx cell.length (hok.target _ _ f1).1).1 f2
  obtain ⟨k, hk1, hk2, hk3⟩ := hin.flat
  have hat : p.1 = ⟨⟨l.idx.add p.2.rel, p.2.toIdx⟩, (k : Int)⟩ := by
    rw [f3]; simp only [Site.at, hk2]
  rw [hat, finIndex_siteAt hl, read_final hl k (by omega)]

/-- The pairs added for one site, counted.  `l` need not be inside the foundation. -/
theorem count_lead (hok : CellOK cell nhop) (hl : valid.length = size d cell.length) (l : Loc)
    (indices : List Int) (hnd : indices.Nodup) (j k' : Nat) (hk' : valid[k']? = some true)
    (hj : indices[j]? = some (rank valid k' : Int)) (hpos : ∀ x ∈ indices, 0 ≤ x)
    (skip : Bool) (m fam : Nat) :
    ((neighbors d cell l).filterMap
      (leadEntry skip (finalize d cell nhop valid) indices m fam)).count ⟨m, j⟩
      = (hoppingsAt cell l.sub).countP (fun h => h.rel = (locOf d k').idx.sub l.idx ∧
          h.toIdx = (locOf d k').sub ∧ h.familyId = fam ∧ (skip = true → h.isConjugate = false)) := by
  have hin' : (locOf d k').In d cell.length :=
    locOf_in (by rw [← hl]; exact (List.getElem?_eq_some_iff.1 hk').1)
  unfold neighbors
  rw [List.filterMap_filterMap, List.count_filterMap]
  apply List.countP_congr
  intro h hm
  have htgt := (hok.target _ h hm).1
  simp only [beq_iff_eq, decide_eq_true_eq]
  have hji : ∀ x, leadIndex indices x = some j ↔ x = (rank valid k' : Int) := by
    intro x
    constructor
    · intro hx
      have := leadIndex_some _ _ _ hx
      rw [hj] at this
      simpa using this.symm
    · rintro rfl
      obtain ⟨h1, h2⟩ := List.getElem?_eq_some_iff.1 hj
      rw [← h2]
      exact leadIndex_getElem _ hnd j h1
  by_cases hb : inBounds d (l.idx.add h.rel) = true
  · simp only [hb, if_true, Option.bind_some]
    have hin := (inBounds_iff d _ h.toIdx cell.length htgt).1 hb
    obtain ⟨k'', hk1, hk2, hk3⟩ := hin.flat
    have hat : Site.at d (l.idx.add h.rel) h.toIdx
        = ⟨⟨l.idx.add h.rel, h.toIdx⟩, (k'' : Int)⟩ := by
      simp only [Site.at, hk2]
    have hle : leadEntry skip (finalize d cell nhop valid) indices m fam
        (Site.at d (l.idx.add h.rel) h.toIdx, h) = some ⟨m, j⟩ ↔
        leadIndex indices (if valid[k'']? = some true then (rank valid k'' : Int) else -1) = some j ∧
          (skip = true → h.isConjugate = false) ∧ h.familyId = fam := by
      unfold leadEntry
      simp only [hat]
      rw [finIndex_siteAt hl]
      rcases hx : leadIndex indices (if valid[k'']? = some true then (rank valid k'' : Int) else -1) with _ | y
      · simp
      · simp only
        by_cases hs : (skip && h.isConjugate) = true
        · simp only [hs, if_true, reduceCtorEq, false_iff]
          simp only [Bool.and_eq_true] at hs
          rintro ⟨-, h2, -⟩
          rw [h2 hs.1] at hs
          exact absurd hs.2 (by simp)
        · have hs' : skip = true → h.isConjugate = false := by
            intro e
            rw [e, Bool.true_and] at hs
            simpa using hs
          simp only [hs, Bool.false_eq_true, if_false]
          by_cases hfam : h.familyId = fam
          · rw [if_pos hfam]
            simp only [Option.some.injEq, Hopping.COO.mk.injEq, true_and, hfam, and_true]
            exact ⟨fun e => ⟨e, hs'⟩, fun e => e.1⟩
          · simp [hfam]
    rw [hle, hji]
    constructor
    · rintro ⟨h1, h2, h3⟩
      by_cases hv : valid[k'']? = some true
      · rw [if_pos hv] at h1
        have := rank_inj hv hk' (by exact_mod_cast h1)
        subst this
        rw [hk3]
        exact ⟨(add_sub_cancel' _ _ _).1 rfl, rfl, h3, h2⟩
      · rw [if_neg hv] at h1
        omega
    · rintro ⟨e1, e2, e3, e4⟩
      have hloc : (⟨l.idx.add h.rel, h.toIdx⟩ : Loc) = locOf d k' := by
        rw [e1, e2, (add_sub_cancel' _ _ _).2 rfl]
      rw [hloc, flatIdx_locOf] at hk2
      have : k'' = k' := by omega
      subst this
      rw [if_pos hk']
      exact ⟨rfl, e4, e3⟩
  · simp only [hb, Bool.false_eq_true, if_false, Option.bind_none, reduceCtorEq, false_iff]
    rintro ⟨e1, e2, -⟩
    apply hb
    rw [e1, (add_sub_cancel' _ _ _).2 rfl]
    exact (inBounds_iff d _ (locOf d k').sub cell.length hin'.2.2.2.2.2.2).2 hin'

/-! ## The loops over the slice -/

/-- The pairs stored by a loop over the sites of a lead. -/
def leadEntries (skip : Bool) (f : Finalized) (d : Dims) (cell : List CellSite) (indices : List Int)
    (shift : Index3) (fam : Nat) (ps : List (SliceSite × Nat)) : List Hopping.COO :=
  ps.flatMap fun p => (neighbors d cell ⟨p.1.site.loc.idx.add shift, p.1.site.loc.sub⟩).filterMap
    (leadEntry skip f indices p.2 fam)

end

/-- `systemLoop` in closed form. -/
theorem systemLoop_eq (B : Base P) (nhop : Nat) (hok : CellOK B.cell nhop) (valid : List Bool)
    (hl : valid.length = size B.d B.cell.length) (hp : B.pos.length = size B.d B.cell.length)
    (jv : List Bool) (indices : List Int) (shiftPos : P → P) (junk : P) (ss : List SliceSite)
    (hj : ∀ s ∈ ss, s.sliceIdx < jv.length) (hv : ∀ s ∈ sel jv ss, SiteOn valid s)
    (hsub : ∀ s ∈ ss, s.site.loc.sub < B.cell.length)
    (pre : List P) (m : Nat) (t : Sublat.Table) (hb : Hopping.HoppingBlocks)
    (hbl : nhop ≤ hb.blocks.length)
    (hidx : ∀ i : Nat, ∀ s, (sel jv ss)[i]? = some s →
      leadIndex indices (finalOf valid s) = some (pre.length + i))
    (hm : (sel jv ss).length = m) :
    ∃ ps : List P, ps.length = m ∧
      (∀ i : Nat, ps[i]? = ((sel jv ss)[i]?).bind fun s => (B.pos[s.site.flat.toNat]?).map shiftPos) ∧
      systemLoop B (finalize B.d B.cell nhop valid) jv indices shiftPos ss
        (pre ++ List.replicate m junk, t, hb) = .ok
        (pre ++ ps,
         ((sel jv ss).filterMap fun s => (B.cell[s.site.loc.sub]?).map
            fun c => (⟨c.aliasId, c.norb, 1⟩ : Sublat.Spec.AddOp)).foldl
              (fun t o => Sublat.add t o.id o.norb o.count) t,
         { hb with
           blocks := hb.blocks.mapIdx fun fam b => b ++
             leadEntries true (finalize B.d B.cell nhop valid) B.d B.cell indices Index3.zero fam
               ((sel jv ss).zipIdx pre.length) }) := by
  induction ss generalizing pre m t hb with
  | nil =>
    have : m = 0 := by simpa [sel] using hm.symm
    subst this
    refine ⟨[], rfl, by simp [sel], ?_⟩
    have e0 := blocks_append_nil hb (fun fam => leadEntries true (finalize B.d B.cell nhop valid) B.d B.cell
      indices Index3.zero fam ((sel jv []).zipIdx pre.length)) (fun _ => rfl)
    rw [e0]
    simp [systemLoop, sel]
  | cons s rest ih =>
    have hj' := hj s (by simp)
    have hjr : ∀ t ∈ rest, t.sliceIdx < jv.length := fun t ht => hj t (List.mem_cons_of_mem _ ht)
    have hsr : ∀ s ∈ rest, s.site.loc.sub < B.cell.length := fun t ht => hsub t (List.mem_cons_of_mem _ ht)
    unfold systemLoop
    rw [read_jv jv s hj', Res.bind_ok]
    by_cases h : jv.getD s.sliceIdx false = true
    · have e : sel jv (s :: rest) = s :: sel jv rest := by
        exact sel_pos h
      rw [e] at hv hidx hm
      have hon := hv s (by simp)
      have hi0 := hidx 0 s rfl
      simp only [Nat.add_zero] at hi0
      have hcell := hsub s (by simp)
      have hlt := (List.getElem?_eq_some_iff.1 hon.2).1
      rw [if_pos h, read_finalOf hl s hon, Res.bind_ok, hi0]
      simp only
      rw [List.getElem?_eq_getElem hcell]
      simp only
      rw [readAt_ok _ _ hon.1 (by rw [hp, ← hl]; exact hlt), Res.bind_ok]
      rw [addInside_eq _ _ _ _ _ (fun p hp => lt_of_lt_of_le
        (hok.target _ _ (mem_neighbors hp).1).2 hbl) (readable_neighbors hok hl _), Res.bind_ok]
      cases m with
      | zero => simp at hm
      | succ m =>
        have hset : (pre ++ List.replicate (m + 1) junk).set pre.length (shiftPos B.pos[s.site.flat.toNat]) =
            (pre ++ [shiftPos B.pos[s.site.flat.toNat]]) ++ List.replicate m junk := by
          rw [List.set_append_right _ _ (le_refl _)]
          simp [List.replicate_succ]
        rw [hset]
        obtain ⟨ps, p1, p2, p3⟩ := ih hjr (fun t ht => hv t (List.mem_cons_of_mem _ ht)) hsr
          (pre ++ [shiftPos B.pos[s.site.flat.toNat]]) m
          (Sublat.add t (B.cell[s.site.loc.sub]).aliasId (B.cell[s.site.loc.sub]).norb 1)
          { hb with blocks := hb.blocks.mapIdx (fun fam b => b ++
              (neighbors B.d B.cell s.site.loc).filterMap
                (leadEntry true (finalize B.d B.cell nhop valid) indices pre.length fam)) }
          (by simpa using hbl)
          (by
            intro i s' hs'
            have := hidx (i + 1) s' (by simpa using hs')
            simp only [List.length_append, List.length_singleton]
            rw [this]
            congr 1
            omega)
          (by simpa using hm)
        refine ⟨shiftPos B.pos[s.site.flat.toNat] :: ps, by simp [p1], ?_, ?_⟩
        · intro i
          rw [e]
          cases i with
          | zero =>
            simp only [List.getElem?_cons_zero, Option.bind_some]
            rw [List.getElem?_eq_getElem (by rw [hp, ← hl]; exact hlt)]
            rfl
          | succ i =>
            simp only [List.getElem?_cons_succ]
            exact p2 i
        · rw [p3, e]
          simp only [List.append_assoc, List.singleton_append, List.length_append, List.length_singleton,
            List.filterMap_cons, List.getElem?_eq_getElem hcell, Option.map_some, List.foldl_cons,
            List.zipIdx_cons, leadEntries, List.flatMap_cons]
          congr 4
          apply List.ext_getElem?
          intro i
          simp only [List.getElem?_mapIdx]
          rcases hb.blocks[i]? with _ | b
          · rfl
          · have hz : (⟨s.site.loc.idx.add Index3.zero, s.site.loc.sub⟩ : Loc) = s.site.loc := by
              simp [Index3.add, Index3.zero]
            simp [hz]
    · have e : sel jv (s :: rest) = sel jv rest := by
        exact sel_neg h
      rw [e] at hv hidx hm ⊢
      rw [if_neg h]
      exact ih hjr hv hsr pre m t hb hbl hidx hm

/-- `boundaryLoop` in closed form. -/
theorem boundaryLoop_eq (B : Base P) (sp : Spec P) (nhop : Nat) (hok : CellOK B.cell nhop)
    (valid : List Bool) (hl : valid.length = size B.d B.cell.length)
    (jv : List Bool) (indices : List Int) (ss : List SliceSite)
    (hj : ∀ s ∈ ss, s.sliceIdx < jv.length) (hv : ∀ s ∈ sel jv ss, SiteOn valid s)
    (m : Nat) (hb : Hopping.HoppingBlocks)
    (hbl : nhop ≤ hb.blocks.length)
    (hidx : ∀ i : Nat, ∀ s, (sel jv ss)[i]? = some s →
      leadIndex indices (finalOf valid s) = some (m + i)) :
    boundaryLoop B sp (finalize B.d B.cell nhop valid) jv indices ss hb = .ok
      { hb with
        blocks := hb.blocks.mapIdx fun fam b => b ++
          leadEntries false (finalize B.d B.cell nhop valid) B.d B.cell indices sp.shift fam
            ((sel jv ss).zipIdx m) } := by
  induction ss generalizing m hb with
  | nil =>
    have e0 := blocks_append_nil hb (fun fam => leadEntries false (finalize B.d B.cell nhop valid) B.d B.cell
      indices sp.shift fam ((sel jv []).zipIdx m)) (fun _ => rfl)
    rw [e0]
    simp [boundaryLoop]
  | cons s rest ih =>
    have hj' := hj s (by simp)
    have hjr : ∀ t ∈ rest, t.sliceIdx < jv.length := fun t ht => hj t (List.mem_cons_of_mem _ ht)
    unfold boundaryLoop
    rw [read_jv jv s hj', Res.bind_ok]
    by_cases h : jv.getD s.sliceIdx false = true
    · have e : sel jv (s :: rest) = s :: sel jv rest := by
        exact sel_pos h
      rw [e] at hv hidx
      have hon := hv s (by simp)
      have hi0 := hidx 0 s rfl
      simp only [Nat.add_zero] at hi0
      rw [if_pos h, read_finalOf hl s hon, Res.bind_ok, hi0]
      simp only
      rw [addBetween_eq _ _ _ _ _ (fun p hp => lt_of_lt_of_le
        (hok.target _ _ (mem_neighbors hp).1).2 hbl) (readable_neighbors hok hl _), Res.bind_ok]
      rw [ih hjr (fun t ht => hv t (List.mem_cons_of_mem _ ht)) (m + 1) _ (by simpa using hbl)
          (by
            intro i s' hs'
            have := hidx (i + 1) s' (by simpa using hs')
            rw [this]
            congr 1
            omega)]
      rw [e]
      simp only [List.zipIdx_cons, leadEntries, List.flatMap_cons]
      congr 2
      apply List.ext_getElem?
      intro i
      simp only [List.getElem?_mapIdx]
      rcases hb.blocks[i]? with _ | b
      · rfl
      · simp
    · have e : sel jv (s :: rest) = sel jv rest := by
        exact sel_neg h
      rw [e] at hv hidx ⊢
      rw [if_neg h]
      exact ih hjr hv m hb hbl hidx

end Verif.Leads
