import Verif.Symmetry.Model
import Verif.Foundation.Props2
import Verif.Hopping.Props

/-!
# Lemmas: translations and boundaries
-/

namespace Verif.Symmetry

open Verif.Lattice (CellSite CellHopping)
open Verif.Foundation

/-! ## The list of translations -/

/-- The translation stored for a direction. -/
def mkTranslation (a : Area) (D : Index3) : Translation :=
  ⟨D, ⟨axisSlice D.x a.left.x a.right.x, axisSlice D.y a.left.y a.right.y,
    axisSlice D.z a.left.z a.right.z⟩, cmul D a.middle⟩

theorem foldl_addTranslation (a : Area) (cands : List Index3) (ds : List Index3) (hnd : ds.Nodup) :
    ∃ ds' : List Index3, cands.foldl (addTranslation a) (ds.map (mkTranslation a)) = ds'.map (mkTranslation a) ∧
      ds'.Nodup ∧ ∀ D, D ∈ ds' ↔ D ∈ ds ∨ (D ≠ Index3.zero ∧ D ∈ cands) := by
  induction cands generalizing ds with
  | nil => exact ⟨ds, rfl, hnd, by simp⟩
  | cons c cands ih =>
    rw [List.foldl_cons]
    have hany : (ds.map (mkTranslation a)).any (fun t => decide (t.direction = c))
        = decide (c ∈ ds) := by
      rw [Bool.eq_iff_iff, List.any_eq_true, decide_eq_true_eq]
      constructor
      · rintro ⟨t, ht, h⟩
        obtain ⟨D, hD, rfl⟩ := List.mem_map.1 ht
        rw [decide_eq_true_eq] at h
        have : D = c := h
        exact this ▸ hD
      · intro h
        exact ⟨_, List.mem_map.2 ⟨c, h, rfl⟩, by simp [mkTranslation]⟩
    unfold addTranslation
    by_cases h0 : c = Index3.zero
    · rw [if_pos h0]
      obtain ⟨ds', e, h1, h2⟩ := ih ds hnd
      refine ⟨ds', e, h1, fun D => ?_⟩
      rw [h2 D, List.mem_cons]
      constructor
      · rintro (h | ⟨h, h'⟩)
        · exact Or.inl h
        · exact Or.inr ⟨h, Or.inr h'⟩
      · rintro (h | ⟨h, rfl | h'⟩)
        · exact Or.inl h
        · exact absurd h0 h
        · exact Or.inr ⟨h, h'⟩
    · rw [if_neg h0, hany]
      by_cases hm : c ∈ ds
      · rw [if_pos (by simpa using hm)]
        obtain ⟨ds', e, h1, h2⟩ := ih ds hnd
        refine ⟨ds', e, h1, fun D => ?_⟩
        rw [h2 D, List.mem_cons]
        constructor
        · rintro (h | ⟨h, h'⟩)
          · exact Or.inl h
          · exact Or.inr ⟨h, Or.inr h'⟩
        · rintro (h | ⟨h, rfl | h'⟩)
          · exact Or.inl h
          · exact Or.inl hm
          · exact Or.inr ⟨h, h'⟩
      · rw [if_neg (by simpa using hm)]
        have e0 : ds.map (mkTranslation a) ++ [mkTranslation a c]
            = (ds ++ [c]).map (mkTranslation a) := by simp
        obtain ⟨ds', e, h1, h2⟩ := ih (ds ++ [c]) (by
          rw [List.nodup_append]
          refine ⟨hnd, by simp, ?_⟩
          intro x hx y hy
          simp only [List.mem_singleton] at hy
          subst hy
          rintro rfl
          exact hm hx)
        refine ⟨ds', by rw [← e, ← e0]; rfl, h1, fun D => ?_⟩
        rw [h2 D, List.mem_cons, List.mem_append, List.mem_singleton]
        constructor
        · rintro ((h | rfl) | ⟨h, h'⟩)
          · exact Or.inl h
          · exact Or.inr ⟨h0, Or.inl rfl⟩
          · exact Or.inr ⟨h, Or.inr h'⟩
        · rintro (h | ⟨h, rfl | h'⟩)
          · exact Or.inl (Or.inl h)
          · exact Or.inl (Or.inr rfl)
          · exact Or.inr ⟨h, h'⟩

theorem mem_masks {p : Periods} {m : Index3} : m ∈ masks p ↔
    (m.x = 0 ∨ (m.x = 1 ∧ p.x.isSome)) ∧ (m.y = 0 ∨ (m.y = 1 ∧ p.y.isSome)) ∧
      (m.z = 0 ∨ (m.z = 1 ∧ p.z.isSome)) := by
  have hup : ∀ (n : Option Nat) (v : Int), v ∈ (if n.isSome then [0, 1] else [0] : List Int) ↔
      v = 0 ∨ (v = 1 ∧ n.isSome) := by
    intro n v
    cases n <;> simp
  unfold masks
  simp only [List.mem_flatMap, List.mem_map, hup]
  constructor
  · rintro ⟨i, hi, j, hj, k, hk, rfl⟩
    exact ⟨hi, hj, hk⟩
  · rintro ⟨h1, h2, h3⟩
    exact ⟨m.x, h1, m.y, h2, m.z, h3, rfl⟩

theorem translations_spec (d : Dims) (cell : List CellSite) (p : Periods) :
    ∃ ds : List Index3, translations d cell p = ds.map (mkTranslation (area d p)) ∧ ds.Nodup ∧
      ∀ D, D ∈ ds ↔ D ≠ Index3.zero ∧
        ∃ i, ∃ h ∈ hoppingsAt cell i, ∃ m ∈ masks p, D = cmul h.rel m := by
  obtain ⟨ds, e, h1, h2⟩ := foldl_addTranslation (area d p)
    (cell.flatMap fun s => s.hoppings.flatMap fun h => (masks p).map (cmul h.rel)) [] List.nodup_nil
  refine ⟨ds, e, h1, fun D => ?_⟩
  rw [h2 D]
  simp only [List.not_mem_nil, false_or, List.mem_flatMap, List.mem_map]
  constructor
  · rintro ⟨h0, s, hs, h, hh, m, hm, rfl⟩
    obtain ⟨i, hi, rfl⟩ := List.mem_iff_getElem.1 hs
    refine ⟨h0, i, h, ?_, m, hm, rfl⟩
    unfold hoppingsAt
    rw [List.getElem?_eq_getElem hi]
    exact hh
  · rintro ⟨h0, i, h, hh, m, hm, rfl⟩
    unfold hoppingsAt at hh
    rcases hc : cell[i]? with _ | s
    · simp [hc] at hh
    · rw [hc] at hh
      exact ⟨h0, s, List.mem_of_getElem? hc, h, hh, m, hm, rfl⟩

/-! ## One boundary -/

section
variable {cell : List CellSite} {nhop : Nat} {d : Dims} {valid : List Bool}

/-- The entries of one family in a boundary with the given shift. -/
def boundaryEntries (d : Dims) (cell : List CellSite) (nhop : Nat) (valid : List Bool)
    (shift : Index3) (ks : List Nat) (fam : Nat) : List Hopping.COO :=
  ks.flatMap fun k =>
    if valid[k]? = some true then
      (neighbors d cell ⟨(locOf d k).idx.add shift, (locOf d k).sub⟩).filterMap
        (entry (finalize d cell nhop valid) (rank valid k) fam)
    else []

theorem readIndex_siteAt (hl : valid.length = size d cell.length) {k : Nat}
    (hk : k < size d cell.length) :
    readIndex (finalize d cell nhop valid) (siteAt d k)
      = .ok (if valid[k]? = some true then (rank valid k : Int) else -1) := by
  unfold readIndex
  rw [if_neg (by simp [siteAt])]
  have e : (finalize d cell nhop valid).indices = ranks 0 valid := (finalize_eq d cell nhop valid hl).1
  have hv : valid[k]? = some (valid[k]'(by omega)) := List.getElem?_eq_getElem (by omega)
  have := getElem?_ranks 0 k valid _ hv
  simp only [siteAt, Int.toNat_natCast, e]
  rw [this, hv]
  cases valid[k]'(by omega) <;> simp [rank]

theorem boundaryLoop_eq (hok : CellOK cell nhop) (hl : valid.length = size d cell.length)
    (shift : Index3) (ss : List SliceSite) (ks : List Nat)
    (hks : ss.map (·.site) = ks.map (siteAt d)) (hlt : ∀ k ∈ ks, k < size d cell.length)
    (h : Hopping.HoppingBlocks) (hb : nhop ≤ h.blocks.length) :
    boundaryLoop d cell (finalize d cell nhop valid) shift ss h = .ok { h with
      blocks := h.blocks.mapIdx fun fam b =>
        b ++ boundaryEntries d cell nhop valid shift ks fam } := by
  induction ss generalizing ks h with
  | nil =>
    cases ks with
    | nil =>
      unfold boundaryLoop
      congr 1
      obtain ⟨n, bl, nm⟩ := h
      simp only [boundaryEntries, List.flatMap_nil, List.append_nil]
      congr 1
      apply List.ext_getElem?
      intro i
      rw [List.getElem?_mapIdx]
      cases bl[i]? <;> rfl
    | cons k ks => simp at hks
  | cons s ss ih =>
    cases ks with
    | nil => simp at hks
    | cons k ks =>
      simp only [List.map_cons, List.cons.injEq] at hks
      obtain ⟨h1, h2⟩ := hks
      have hk := hlt k List.mem_cons_self
      have hks' : ∀ k ∈ ks, k < size d cell.length := fun x hx => hlt x (List.mem_cons_of_mem _ hx)
      unfold boundaryLoop
      rw [h1, readIndex_siteAt hl hk, Res.bind_ok]
      by_cases hv : valid[k]? = some true
      · rw [if_pos hv]
        simp only [Int.toNat_natCast]
        rw [if_neg (by omega)]
        have hadd := addHoppings_eq (finalize d cell nhop valid) (rank valid k)
          (neighbors d cell ⟨(siteAt d k).loc.idx.add shift, (siteAt d k).loc.sub⟩) h (by
            intro p hp
            exact lt_of_lt_of_le (hok.target _ _ (mem_neighbors hp).1).2 hb)
        rw [hadd, Res.bind_ok, ih ks h2 hks' _ (by simpa using hb)]
        simp only [List.mapIdx_mapIdx, boundaryEntries, List.flatMap_cons, if_pos hv,
          List.append_assoc, siteAt, Function.comp_def]
      · rw [if_neg hv]
        rw [if_pos (by omega), ih ks h2 hks' h hb]
        simp only [boundaryEntries, List.flatMap_cons, if_neg hv, List.nil_append]

theorem count_boundaryEntries (hok : CellOK cell nhop) (hl : valid.length = size d cell.length)
    (shift : Index3) (ks : List Nat) (hnd : ks.Nodup) {k k' : Nat} (hk : valid[k]? = some true)
    (hk' : valid[k']? = some true) (fam : Nat) :
    (boundaryEntries d cell nhop valid shift ks fam).count ⟨rank valid k, rank valid k'⟩
      = if k ∈ ks then (hoppingsAt cell (locOf d k).sub).count
          ⟨(locOf d k').idx.sub ((locOf d k).idx.add shift), (locOf d k').sub, fam, false⟩ else 0 := by
  have hother : ∀ q ∈ ks, q ≠ k → ((if valid[q]? = some true then
      (neighbors d cell ⟨(locOf d q).idx.add shift, (locOf d q).sub⟩).filterMap
        (entry (finalize d cell nhop valid) (rank valid q) fam)
      else []).count ⟨rank valid k, rank valid k'⟩) = 0 := by
    intro q hq hne
    split
    · rename_i hqv
      rw [List.count_eq_zero]
      intro hm
      obtain ⟨x, -, hx⟩ := List.mem_filterMap.1 hm
      have := (entry_eq_some.1 hx).2.2.2
      simp only [Hopping.COO.mk.injEq] at this
      exact hne (rank_inj hqv hk this.1.symm)
    · simp
  unfold boundaryEntries
  by_cases hm : k ∈ ks
  · rw [if_pos hm, count_flatMap_unique ks _ _ k hm hnd hother, if_pos hk]
    exact count_site_at hok hl ⟨(locOf d k).idx.add shift, (locOf d k).sub⟩ hk' _ _
  · rw [if_neg hm, List.count_eq_zero]
    intro hc
    obtain ⟨q, hq, hqm⟩ := List.mem_flatMap.1 hc
    have := hother q hq (fun e => hm (e ▸ hq))
    rw [List.count_eq_zero] at this
    exact this hqm

theorem mem_boundaryEntries (hok : CellOK cell nhop) (hl : valid.length = size d cell.length)
    (shift : Index3) (ks : List Nat) (fam : Nat) (c : Hopping.COO)
    (h : c ∈ boundaryEntries d cell nhop valid shift ks fam) :
    ∃ k k' : Nat, valid[k]? = some true ∧ valid[k']? = some true ∧
      c = ⟨rank valid k, rank valid k'⟩ := by
  unfold boundaryEntries at h
  obtain ⟨q, hq, hm⟩ := List.mem_flatMap.1 h
  split at hm
  · rename_i hqv
    obtain ⟨p, hp, hp'⟩ := List.mem_filterMap.1 hm
    obtain ⟨e1, -, -, e4⟩ := entry_eq_some.1 hp'
    obtain ⟨f1, f2, f3⟩ := mem_neighbors hp
    have hin := (inBounds_iff d _ p.2.toIdx cell.length (hok.target _ _ f1).1).1 f2
    obtain ⟨k'', hk1, hk2, hk3⟩ := hin.flat
    have hat : p.1 = ⟨⟨((locOf d q).idx.add shift).add p.2.rel, p.2.toIdx⟩, (k'' : Int)⟩ := by
      rw [f3]; simp only [Site.at, hk2]
    rw [hat, finIndex_siteAt hl] at e1 e4
    split at e1
    · rename_i hv
      rw [if_pos hv, Int.toNat_natCast] at e4
      exact ⟨q, k'', hqv, hv, e4⟩
    · omega
  · simp at hm

end

/-! ## All boundaries -/

theorem translationLoop_eq (d : Dims) (cell : List CellSite) (f : Finalized)
    (nameMap : List (String × Nat)) (ts : List Translation)
    (g : Translation → Hopping.HoppingBlocks)
    (hg : ∀ t ∈ ts, boundaryLoop d cell f t.shift (sliceSites d cell.length t.slice)
      (Hopping.HoppingBlocks.make f.total nameMap) = .ok (g t)) (bs : List Boundary) :
    translationLoop d cell f nameMap ts bs = .ok (bs ++ ts.filterMap fun t =>
      if (g t).nnz > 0 then some ⟨t.shift, g t⟩ else none) := by
  induction ts generalizing bs with
  | nil => simp [translationLoop]
  | cons t ts ih =>
    unfold translationLoop
    rw [hg t List.mem_cons_self, Res.bind_ok, ih (fun x hx => hg x (List.mem_cons_of_mem _ hx)),
      List.filterMap_cons]
    split <;> simp_all

/-! ## The periodic area -/

/-- The periods fit into the foundation. -/
def Fits (d : Dims) (p : Periods) : Prop :=
  (∀ n, p.x = some n → 0 < n ∧ n ≤ d.sx) ∧ (∀ n, p.y = some n → 0 < n ∧ n ≤ d.sy) ∧
    (∀ n, p.z = some n → 0 < n ∧ n ≤ d.sz)

theorem axisArea_some {size n : Nat} (h : 0 < n ∧ n ≤ size) :
    0 ≤ (axisArea size (some n)).1 ∧ (axisArea size (some n)).2.1 = (axisArea size (some n)).1 + n - 1 ∧
      (axisArea size (some n)).2.1 < size ∧ (axisArea size (some n)).2.2 = n := by
  unfold axisArea
  simp only
  have e : ((size : Int) - n).tdiv 2 = ((size : Int) - n) / 2 :=
    Int.tdiv_eq_ediv_of_nonneg (by omega)
  rw [e]
  refine ⟨by omega, by simp, by omega, by simp⟩

/-- One direction: if `s + D m + r = t` with both `s` and `t` in the area and `|r| ≤ 1`, then `D` is
`-r` or zero and `s` is in the slice. -/
theorem axis_cover {size : Nat} {p : Option Nat} (hf : ∀ n, p = some n → 0 < n ∧ n ≤ size)
    {s t D r : Int} (hs : (axisArea size p).1 ≤ s ∧ s ≤ (axisArea size p).2.1)
    (ht : (axisArea size p).1 ≤ t ∧ t ≤ (axisArea size p).2.1) (hr : p.isSome → |r| ≤ 1 ∨ p = some 1)
    (hD : p = none → D = 0) (e : r = t - (s + D * (axisArea size p).2.2)) :
    ((D = 0 ∨ (D = -r ∧ p.isSome)) ∧
      (axisSlice D (axisArea size p).1 (axisArea size p).2.1).Selects size s) := by
  cases p with
  | none =>
    have := hD rfl
    subst this
    refine ⟨Or.inl rfl, ?_⟩
    simp only [axisArea] at hs
    simp [axisSlice, SliceIndex.whole, SliceIndex.Selects]
    omega
  | some n =>
    obtain ⟨a1, a2, a3, a4⟩ := axisArea_some (hf n rfl)
    have hn := hf n rfl
    rw [a4] at e
    rcases hr rfl with hr | h1
    swap
    · simp only [Option.some.injEq] at h1
      subst h1
      generalize (axisArea size (some 1)).1 = L at *
      generalize (axisArea size (some 1)).2.1 = R at *
      have hst : t = s := by omega
      subst hst
      refine ⟨Or.inr ⟨by push_cast at e; omega, rfl⟩, ?_⟩
      unfold axisSlice
      split
      · simp only [SliceIndex.single, SliceIndex.Selects]
        omega
      · split
        · simp only [SliceIndex.single, SliceIndex.Selects]
          omega
        · simp only [SliceIndex.whole, SliceIndex.Selects]
          simp
          omega
    have hr := abs_le.1 hr
    generalize (axisArea size (some n)).1 = L at *
    generalize (axisArea size (some n)).2.1 = R at *
    have hDn : D = 0 ∨ D = 1 ∨ D = -1 := by
      have h1 : D * n ≤ n := by nlinarith
      have h2 : -(n : Int) ≤ D * n := by nlinarith
      have hn' : (0 : Int) < n := by exact_mod_cast hn.1
      have h3 : D ≤ 1 := by
        by_contra hc
        have : 2 * (n : Int) ≤ D * n := Int.mul_le_mul_of_nonneg_right (by omega) (by omega)
        omega
      have h4 : -1 ≤ D := by
        by_contra hc
        have : D * n ≤ (-2) * (n : Int) := Int.mul_le_mul_of_nonneg_right (by omega) (by omega)
        omega
      omega
    rcases hDn with rfl | rfl | rfl
    · refine ⟨Or.inl rfl, ?_⟩
      simp [axisSlice, SliceIndex.whole, SliceIndex.Selects]
      omega
    · refine ⟨Or.inr ⟨by omega, rfl⟩, ?_⟩
      simp only [axisSlice, SliceIndex.single, SliceIndex.Selects]
      rw [if_pos (by omega)]
      simp only
      omega
    · refine ⟨Or.inr ⟨by omega, rfl⟩, ?_⟩
      simp only [axisSlice, SliceIndex.single, SliceIndex.Selects]
      rw [if_neg (by omega), if_pos (by omega)]
      simp only
      omega

/-- Whatever a boundary slice selects lies inside the foundation. -/
theorem axisSlice_inside {size : Nat} {p : Option Nat} (hf : ∀ n, p = some n → 0 < n ∧ n ≤ size)
    {D s : Int} (hD : p = none → D = 0)
    (h : (axisSlice D (axisArea size p).1 (axisArea size p).2.1).Selects size s) :
    0 ≤ s ∧ s < size := by
  cases p with
  | none =>
    have := hD rfl
    subst this
    simp [axisSlice, SliceIndex.whole, SliceIndex.Selects] at h
    exact h
  | some n =>
    obtain ⟨a1, a2, a3, a4⟩ := axisArea_some (hf n rfl)
    have hn := hf n rfl
    generalize (axisArea size (some n)).1 = L at *
    generalize (axisArea size (some n)).2.1 = R at *
    unfold axisSlice at h
    split at h
    · simp only [SliceIndex.single, SliceIndex.Selects] at h
      omega
    · split at h
      · simp only [SliceIndex.single, SliceIndex.Selects] at h
        omega
      · simp [SliceIndex.whole, SliceIndex.Selects] at h
        exact h

end Verif.Symmetry
