import Verif.Foundation.Spec
import Verif.Foundation.PopulateSpec
import Verif.Foundation.Dangling
import Verif.Foundation.Bounds

/-!
# Properties C14-C19: foundations

The unit cell `cell` is a parameter.  `CellOK` collects what the optimised unit cell of a lattice
guarantees, and `cell_of_lattice` shows that every lattice which can be built through the API meets
it; theorems ending in `_lattice` are stated for such lattices directly.
-/

namespace Verif.Foundation

open Verif.Lattice (CellSite CellHopping HoppingFamily HoppingTerm Sublattice optimizedUnitCell)
open Verif.Lattice.Lattice (run empty allTerms)

/-! ## C14 -/

/-- **C14**: iterating over a foundation visits every site exactly once, and the running index is
the position of the visit, which is also the flat index of the site. -/
theorem C14_sites (d : Dims) (nsub : Nat) :
    ((sites d nsub).map (·.loc)).Nodup ∧
    (∀ l : Loc, l ∈ (sites d nsub).map (·.loc) ↔
      0 ≤ l.idx.x ∧ l.idx.x < d.sx ∧ 0 ≤ l.idx.y ∧ l.idx.y < d.sy ∧ 0 ≤ l.idx.z ∧ l.idx.z < d.sz ∧
        l.sub < nsub) ∧
    (sites d nsub).length = d.sx * d.sy * d.sz * nsub ∧
    ∀ (i : Nat) s, (sites d nsub)[i]? = some s → s.flat = i ∧ flatIdx d s.loc = i := by
  have e : (sites d nsub).map (·.loc) = (List.range (size d nsub)).map (locOf d) := by
    rw [sites_eq, List.map_map]; rfl
  refine ⟨?_, ?_, ?_, ?_⟩
  · rw [e]; exact nodup_locs d _
  · intro l
    rw [e]
    exact mem_locs d nsub l
  · simp [sites_eq, size, Dims.prod]
  · intro i s hs
    rw [sites_eq, List.getElem?_map] at hs
    rcases h : (List.range (size d nsub))[i]? with _ | j
    · simp [h] at hs
    · rw [h] at hs
      have hj : j = i := by
        rw [List.getElem?_eq_some_iff] at h
        obtain ⟨hi, rfl⟩ := h
        simp
      subst hj
      simp only [Option.map_some, Option.some.injEq] at hs
      subst hs
      exact ⟨rfl, flatIdx_locOf d j⟩

/-- Slices as half-open intervals. -/
theorem selects_normalize (n : Nat) (s : SliceIndex) (i : Int) :
    s.Selects n i ↔ (s.normalize n).start ≤ i ∧ i < (s.normalize n).stop := by
  unfold SliceIndex.Selects SliceIndex.normalize
  split
  · simp only; constructor
    · rintro ⟨h1, h2, -⟩; exact ⟨h1, h2 ‹_›⟩
    · rintro ⟨h1, h2⟩; exact ⟨h1, fun _ => h2, fun h => absurd h (by omega)⟩
  · constructor
    · rintro ⟨h1, -, h2⟩; exact ⟨h1, h2 (by omega)⟩
    · rintro ⟨h1, h2⟩; exact ⟨h1, fun h => absurd h (by omega), fun _ => h2⟩

theorem slice_core (d : Dims) (nsub : Nat) (rx ry rz : SliceIndex) :
    let w := sliceWalk d ⟨rx.start, ry.start, rz.start⟩ ⟨rx.stop, ry.stop, rz.stop⟩
      (rx.size * ry.size * rz.size * nsub) ⟨Site.at d ⟨rx.start, ry.start, rz.start⟩ 0, 0⟩
    (w.map (·.site.loc)).Nodup ∧
    (∀ l : Loc, l ∈ w.map (·.site.loc) ↔
      (rx.start ≤ l.idx.x ∧ l.idx.x < rx.stop) ∧ (ry.start ≤ l.idx.y ∧ l.idx.y < ry.stop) ∧
        (rz.start ≤ l.idx.z ∧ l.idx.z < rz.stop) ∧ l.sub < nsub) ∧
    ∀ (i : Nat) s, w[i]? = some s → s.sliceIdx = i ∧ s.site.flat = flatIdx d s.site.loc := by
  intro w
  by_cases h : rx.start < rx.stop ∧ ry.start < ry.stop ∧ rz.start < rz.stop
  · obtain ⟨hx, hy, hz⟩ := h
    have hwd : w = sliceWalk d ⟨rx.start, ry.start, rz.start⟩ ⟨rx.stop, ry.stop, rz.stop⟩
      (rx.size * ry.size * rz.size * nsub) ⟨Site.at d ⟨rx.start, ry.start, rz.start⟩ 0, 0⟩ := rfl
    rw [hwd]
    clear hwd w
    have ex : rx.size = (rx.stop - rx.start).toNat := if_pos hx
    have ey : ry.size = (ry.stop - ry.start).toNat := if_pos hy
    have ez : rz.size = (rz.stop - rz.start).toNat := if_pos hz
    rw [ex, ey, ez]
    set lo : Index3 := ⟨rx.start, ry.start, rz.start⟩ with hlo
    set hi : Index3 := ⟨rx.stop, ry.stop, rz.stop⟩ with hhi
    have hw := sliceWalk_eq d lo hi hx hy hz
      ((rx.stop - rx.start).toNat * (ry.stop - ry.start).toNat * (rz.stop - rz.start).toNat * nsub) 0 0
    have hz0 : ((locOf (extent lo hi) 0).shift lo).idx = lo := by
      rw [locOf_zero]; simp [Loc.shift, Index3.add, Index3.zero]
    rw [hz0, locOf_zero] at hw
    simp only [Nat.zero_add] at hw
    rw [hw]
    have hsz : (rx.stop - rx.start).toNat * (ry.stop - ry.start).toNat * (rz.stop - rz.start).toNat
        * nsub = size (extent lo hi) nsub := rfl
    rw [hsz]
    have e : (((List.range (size (extent lo hi) nsub)).map fun i : Nat =>
        (⟨Site.at d ((locOf (extent lo hi) i).shift lo).idx (locOf (extent lo hi) i).sub, i⟩ :
          SliceSite)).map (·.site.loc))
        = ((List.range (size (extent lo hi) nsub)).map (locOf (extent lo hi))).map (Loc.shift lo) := by
      rw [List.map_map, List.map_map]; rfl
    have hinj : ∀ a b : Loc, a.shift lo = b.shift lo → a = b := by
      rintro ⟨⟨ax, ay, az⟩, an⟩ ⟨⟨bx, b_y, bz⟩, bn⟩ hab
      simp only [Loc.shift, Index3.add, Loc.mk.injEq, Index3.mk.injEq] at hab ⊢
      omega
    refine ⟨?_, ?_, ?_⟩
    · rw [e]
      exact (nodup_locs _ _).map (fun a b hab => hinj a b hab)
    · intro l
      rw [e, List.mem_map]
      constructor
      · rintro ⟨a, ha, rfl⟩
        have := (mem_locs (extent lo hi) nsub a).1 ha
        obtain ⟨h1, h2, h3, h4, h5, h6, h7⟩ := this
        simp only [extent, hlo, hhi] at h2 h4 h6
        simp only [Loc.shift, Index3.add, hlo]
        refine ⟨⟨?_, ?_⟩, ⟨?_, ?_⟩, ⟨?_, ?_⟩, h7⟩ <;> omega
      · rintro ⟨⟨h1, h2⟩, ⟨h3, h4⟩, ⟨h5, h6⟩, h7⟩
        refine ⟨⟨l.idx.sub lo, l.sub⟩, (mem_locs (extent lo hi) nsub _).2 ?_, ?_⟩
        · refine ⟨?_, ?_, ?_, ?_, ?_, ?_, h7⟩ <;>
            simp only [extent, hlo, hhi, Index3.sub] <;> omega
        · obtain ⟨⟨x, y, z⟩, n⟩ := l
          simp only [Loc.shift, Index3.add, Index3.sub, Loc.mk.injEq, Index3.mk.injEq]
          simp
    · intro i s hs
      rw [List.getElem?_map] at hs
      rcases h : (List.range (size (extent lo hi) nsub))[i]? with _ | j
      · simp [h] at hs
      · rw [h] at hs
        have hj : j = i := by
          rw [List.getElem?_eq_some_iff] at h
          obtain ⟨hi, rfl⟩ := h
          simp
        subst hj
        simp only [Option.map_some, Option.some.injEq] at hs
        subst hs
        exact ⟨rfl, rfl⟩
  · have h0 : rx.size * ry.size * rz.size * nsub = 0 := by
      unfold SliceIndex.size
      by_cases hx : rx.start < rx.stop
      · by_cases hy : ry.start < ry.stop
        · have hz : ¬ rz.start < rz.stop := fun hz => h ⟨hx, hy, hz⟩
          simp [hz]
        · simp [hy]
      · simp [hx]
    have hw : w = [] := by simp only [w]; rw [h0]; rfl
    rw [hw]
    refine ⟨by simp, ?_, by simp⟩
    intro l
    simp only [List.map_nil, List.not_mem_nil, false_iff]
    rintro ⟨⟨h1, h2⟩, ⟨h3, h4⟩, ⟨h5, h6⟩, -⟩
    exact h ⟨by omega, by omega, by omega⟩

/-- **C14**: iterating over a spatial slice visits exactly the sites selected in every direction (on
all sublattices), each once; the slice index counts the visits and the flat index is right. -/
theorem C14_slice (d : Dims) (nsub : Nat) (r : Slice3) :
    ((sliceSites d nsub r).map (·.site.loc)).Nodup ∧
    (∀ l : Loc, l ∈ (sliceSites d nsub r).map (·.site.loc) ↔
      r.x.Selects d.sx l.idx.x ∧ r.y.Selects d.sy l.idx.y ∧ r.z.Selects d.sz l.idx.z ∧
        l.sub < nsub) ∧
    ∀ (i : Nat) s, (sliceSites d nsub r)[i]? = some s →
      s.sliceIdx = i ∧ s.site.flat = flatIdx d s.site.loc := by
  simp only [selects_normalize]
  exact slice_core d nsub (r.x.normalize d.sx) (r.y.normalize d.sy) (r.z.normalize d.sz)

/-- The slices used by the API: a whole direction, a single index. -/
example : SliceIndex.whole.Selects 5 4 ∧ ¬ SliceIndex.whole.Selects 5 5 ∧
    (SliceIndex.single 3).Selects 5 3 ∧ ¬ (SliceIndex.single 3).Selects 5 4 := by
  refine ⟨?_, ?_, ?_, ?_⟩ <;> simp [SliceIndex.Selects, SliceIndex.whole, SliceIndex.single]

/-- **C14**: iterating over one sublattice visits, in order, exactly the flat indices of its sites.
Partial: the reported sublattice index is that of the first sublattice instead
(`C14_sublattice_witness`). -/
theorem C14_sublattice_partial (d : Dims) (nsub n : Nat) (hn : n < nsub) :
    (sublatticeSites d n).map (·.flat)
      = ((sites d nsub).filter (fun s => s.loc.sub = n)).map (·.flat) ∧
    (sublatticeSites d n).map (·.loc.idx)
      = ((sites d nsub).filter (fun s => s.loc.sub = n)).map (·.loc.idx) := by
  have key : (sites d nsub).filter (fun s => s.loc.sub = n)
      = (List.range d.prod).map fun i : Nat => siteAt d (n * d.prod + i) := by
    rw [sites_eq, List.filter_map]
    have hr : List.range (size d nsub) = List.range' 0 (n * d.prod) ++
        (List.range' (n * d.prod) d.prod ++ List.range' ((n + 1) * d.prod) ((nsub - n - 1) * d.prod)) := by
      have a1 : List.range' (n * d.prod) d.prod ++ List.range' ((n + 1) * d.prod)
          ((nsub - n - 1) * d.prod)
          = List.range' (n * d.prod) (d.prod + (nsub - n - 1) * d.prod) := by
        rw [show (n + 1) * d.prod = n * d.prod + d.prod by ring, List.range'_append_1]
      have a2 : List.range' 0 (n * d.prod) ++
          List.range' (n * d.prod) (d.prod + (nsub - n - 1) * d.prod)
          = List.range' 0 (n * d.prod + (d.prod + (nsub - n - 1) * d.prod)) := by
        conv_lhs => rw [show List.range' (n * d.prod) (d.prod + (nsub - n - 1) * d.prod)
          = List.range' (0 + n * d.prod) (d.prod + (nsub - n - 1) * d.prod) by rw [Nat.zero_add]]
        rw [List.range'_append_1]
      rw [a1, a2, List.range_eq_range']
      congr 1
      unfold size
      obtain ⟨m, rfl⟩ := Nat.exists_eq_add_of_lt hn
      rw [show n + m + 1 - n - 1 = m by omega]
      ring
    rw [hr, List.filter_append, List.filter_append]
    have h1 : (List.range' 0 (n * d.prod)).filter ((fun s : Site => decide (s.loc.sub = n)) ∘
        fun i : Nat => (⟨locOf d i, (i : Int)⟩ : Site)) = [] := by
      rw [List.filter_eq_nil_iff]
      intro k hk
      simp only [List.mem_range'_1, Nat.zero_le, true_and, Nat.zero_add] at hk
      simp only [Function.comp_apply, decide_eq_true_eq, locOf_sub]
      have : k / d.prod < n := Nat.div_lt_of_lt_mul (by rw [Nat.mul_comm]; exact hk)
      omega
    have h3 : (List.range' ((n + 1) * d.prod) ((nsub - n - 1) * d.prod)).filter
        ((fun s : Site => decide (s.loc.sub = n)) ∘
        fun i : Nat => (⟨locOf d i, (i : Int)⟩ : Site)) = [] := by
      rw [List.filter_eq_nil_iff]
      intro k hk
      simp only [List.mem_range'_1] at hk
      simp only [Function.comp_apply, decide_eq_true_eq, locOf_sub]
      have hp : 0 < d.prod := by
        rcases Nat.eq_zero_or_pos d.prod with h | h
        · simp [h] at hk
        · exact h
      have : n + 1 ≤ k / d.prod := (Nat.le_div_iff_mul_le hp).2 hk.1
      omega
    have h2 : (List.range' (n * d.prod) d.prod).filter ((fun s : Site => decide (s.loc.sub = n)) ∘
        fun i : Nat => (⟨locOf d i, (i : Int)⟩ : Site)) = List.range' (n * d.prod) d.prod := by
      rw [List.filter_eq_self]
      intro k hk
      simp only [List.mem_range'_1] at hk
      simp only [Function.comp_apply, decide_eq_true_eq, locOf_sub]
      rw [Nat.div_eq_iff (by omega)]
      constructor
      · exact hk.1
      · omega
    rw [h1, h2, h3, List.nil_append, List.append_nil, List.range'_eq_map_range, List.map_map]
    rfl
  rw [key, sublatticeSites_eq]
  constructor
  · simp only [List.map_map]
    apply List.map_congr_left
    intro i _
    simp [siteAt]
  · simp only [List.map_map]
    apply List.map_congr_left
    intro i hi
    have hi := List.mem_range.1 hi
    have hp : 0 < d.sx ∧ 0 < d.sy ∧ 0 < d.sz := by
      by_contra hc
      rw [prod_eq_zero hc] at hi
      omega
    simp only [Function.comp_apply, siteAt, locOf]
    have e0 : n * d.prod + i = i + d.sx * (d.sy * d.sz * n) := by unfold Dims.prod; ring
    have e1 : (n * d.prod + i) % d.sx = i % d.sx := by rw [e0, Nat.add_mul_mod_self_left]
    have e2 : (n * d.prod + i) / d.sx = i / d.sx + d.sy * (d.sz * n) := by
      rw [e0, Nat.add_mul_div_left _ _ hp.1]; ring
    rw [e1, e2, Nat.add_mul_mod_self_left, Nat.add_mul_div_left _ _ hp.2.1, Nat.add_mul_mod_self_left]

/-- **C14** is false for the sublattice index during sublattice iteration: on the second sublattice
the iterator reports the first one. -/
theorem C14_sublattice_witness :
    (sublatticeSites ⟨2, 1, 1⟩ 1).map (·.loc.sub)
      ≠ ((sites ⟨2, 1, 1⟩ 2).filter (fun s => s.loc.sub = 1)).map (·.loc.sub) := by decide

section
variable {F : Type} [Field F] [LinearOrder F] [IsStrictOrderedRing F]
open Verif.Lattice

/-- **C14**: the position array is indexed the same way: entry `k` is the position which the lattice
assigns to the `k`-th visited site, counted from the lower bound of the foundation.  The hypotheses
say that the foundation is flat in the directions the lattice does not have. -/
theorem C14_positions (vectors : List (Cart F)) (hd : 0 < vectors.length ∧ vectors.length ≤ 3)
    (offset : Cart F) (lo : Index3) (d : Dims)
    (h1 : 1 < d.sy → 1 < vectors.length) (h2 : 1 < d.sz → 2 < vectors.length)
    (subs : List (Cart F)) :
    ∃ ps, generatePositions vectors (calcPosition vectors offset [lo.x, lo.y, lo.z] 0) d subs = .ok ps ∧
      ps.length = (sites d subs.length).length ∧
      ∀ (k : Nat) s p, (sites d subs.length)[k]? = some s → subs[s.loc.sub]? = some p →
        ps[k]? = some (calcPosition vectors offset
          [lo.x + s.loc.idx.x, lo.y + s.loc.idx.y, lo.z + s.loc.idx.z] p) := by
  obtain ⟨ps, e, hlen, hget⟩ := generatePositions_spec vectors
    (calcPosition vectors offset [lo.x, lo.y, lo.z] 0) d subs hd.1 h1 h2
  refine ⟨ps, e, by rw [hlen, sites_eq]; simp, ?_⟩
  intro k s p hs hp
  rw [sites_eq, List.getElem?_map] at hs
  rcases h : (List.range (size d subs.length))[k]? with _ | j
  · simp [h] at hs
  · rw [h] at hs
    rw [List.getElem?_eq_some_iff] at h
    obtain ⟨hi, rfl⟩ := h
    simp only [List.length_range] at hi
    simp only [List.getElem_range, Option.map_some, Option.some.injEq] at hs
    subst hs
    rw [hget k hi p hp]
    have hin := locOf_in hi
    generalize locOf d k = l at *
    congr 1
    have hy : vectors.length ≤ 1 → l.idx.y = 0 := by
      intro hc
      have : d.sy ≤ 1 := by by_contra hn; have := h1 (by omega); omega
      have := hin.2.2.1; have := hin.2.2.2.1; omega
    have hz : vectors.length ≤ 2 → l.idx.z = 0 := by
      intro hc
      have : d.sz ≤ 1 := by by_contra hn; have := h2 (by omega); omega
      have := hin.2.2.2.2.1; have := hin.2.2.2.2.2.1; omega
    rcases vectors with _ | ⟨v1, _ | ⟨v2, _ | ⟨v3, _ | ⟨v4, vs⟩⟩⟩⟩
    · simp at hd
    · have hy := hy (by simp)
      have hz := hz (by simp)
      funext i
      simp [calcPosition, bravais, hy, hz]
      ring
    · have hz := hz (by simp)
      funext i
      simp [calcPosition, bravais, hz]
      ring
    · funext i
      simp [calcPosition, bravais]
      ring
    · exfalso
      have := hd.2
      simp only [List.length_cons] at this
      omega

end

/-- The hypotheses of `C14_positions` hold for a 3 × 2 foundation of a two-dimensional lattice. -/
example : generatePositions [![(1 : Rat), 0, 0], ![0, 1, 0]]
    (Verif.Lattice.calcPosition [![1, 0, 0], ![0, 1, 0]] 0 [-1, -1, 0] 0) ⟨3, 2, 1⟩
    [![0, 0, 0], ![1/2, 1/2, 0]] ≠ .ub := by
  simp [generatePositions]

/-! ## C15 -/

section
variable {cell : List CellSite} {nhop : Nat}

/-- **C15**: only sites inside the foundation are visited, with the right flat index, and every
visit goes along a hopping of the unit cell. -/
theorem C15_inside (hok : CellOK cell nhop) (d : Dims) (l : Loc) :
    ∀ p ∈ neighbors d cell l, p.1.loc.In d cell.length ∧ p.1.flat = flatIdx d p.1.loc ∧
      p.2 ∈ hoppingsAt cell l.sub ∧ p.1.loc = ⟨l.idx.add p.2.rel, p.2.toIdx⟩ := by
  intro p hp
  obtain ⟨h1, h2, h3⟩ := mem_neighbors hp
  have ht := (hok.target _ _ h1).1
  rw [h3]
  exact ⟨(inBounds_iff d _ _ _ ht).1 h2, rfl, h1, rfl⟩

theorem count_neighbors (d : Dims) (l m : Loc) (h : CellHopping) :
    (neighbors d cell l).count (Site.at d m.idx m.sub, h)
      = if inBounds d m.idx = true ∧ h.toIdx = m.sub ∧ l.idx.add h.rel = m.idx then
          (hoppingsAt cell l.sub).count h else 0 := by
  unfold neighbors
  simp only
  rw [List.count_filterMap]
  split
  · rename_i hc
    obtain ⟨h1, h2, h3⟩ := hc
    rw [List.count_eq_countP]
    apply List.countP_congr
    intro x _
    constructor
    · intro hx
      rw [beq_iff_eq] at hx
      split at hx
      · simp only [Option.some.injEq, Prod.mk.injEq] at hx
        simp [hx.2]
      · simp at hx
    · intro hx
      simp only [beq_iff_eq] at hx
      subst hx
      rw [beq_iff_eq, h3, if_pos h1, h2]
  · rename_i hc
    rw [List.countP_eq_zero]
    intro x _ hx
    rw [beq_iff_eq] at hx
    split at hx
    · rename_i hb
      simp only [Option.some.injEq, Prod.mk.injEq, Site.at, Site.mk.injEq, Loc.mk.injEq] at hx
      obtain ⟨⟨⟨e1, e2⟩, -⟩, rfl⟩ := hx
      exact hc ⟨e1 ▸ hb, e2, e1⟩
    · simp at hx

/-- **C15**: a neighbour is visited from a site along a hopping exactly as often as the site is
visited from the neighbour along the opposite hopping. -/
theorem C15_symmetric (hok : CellOK cell nhop) (d : Dims) (a b : Loc) (ha : a.In d cell.length)
    (hb : b.In d cell.length) (r : Index3) (f : Nat) (c : Bool) :
    (neighbors d cell a).count (Site.at d b.idx b.sub, ⟨r, b.sub, f, c⟩)
      = (neighbors d cell b).count (Site.at d a.idx a.sub, ⟨r.neg, a.sub, f, !c⟩) := by
  have ha' := (inBounds_iff d a.idx a.sub cell.length ha.2.2.2.2.2.2).2 ha
  have hb' := (inBounds_iff d b.idx b.sub cell.length hb.2.2.2.2.2.2).2 hb
  rw [count_neighbors, count_neighbors]
  simp only [ha', hb', true_and]
  have e : a.idx.add r = b.idx ↔ b.idx.add r.neg = a.idx := by
    obtain ⟨⟨ax, ay, az⟩, an⟩ := a
    obtain ⟨⟨bx, b_y, bz⟩, bn⟩ := b
    obtain ⟨rx, ry, rz⟩ := r
    simp only [Index3.add, Index3.neg, Index3.mk.injEq]
    omega
  rw [hok.sym a.sub b.sub ha.2.2.2.2.2.2 hb.2.2.2.2.2.2 r f c]
  by_cases h : a.idx.add r = b.idx
  · rw [if_pos h, if_pos (e.1 h)]
  · rw [if_neg h, if_neg (fun h' => h (e.2 h'))]

/-- **C15**: the neighbour count computed up front is the number of visits. -/
theorem C15_count (d : Dims) (l : Loc) : neighborCount d cell l = (neighbors d cell l).length := by
  unfold neighborCount neighbors
  generalize hoppingsAt cell l.sub = hs
  have key : ∀ (hs : List CellHopping) (n : Int),
      hs.foldl (fun n h => if inBounds d (l.idx.add h.rel) then n else n - 1) (n + hs.length)
      = n + ((hs.filterMap fun h => if inBounds d (l.idx.add h.rel) then
          some (Site.at d (l.idx.add h.rel) h.toIdx, h) else none).length : Int) := by
    intro hs
    induction hs with
    | nil => intro n; simp
    | cons h hs ih =>
      intro n
      rw [List.foldl_cons, List.filterMap_cons]
      by_cases hb : inBounds d (l.idx.add h.rel) = true
      · rw [if_pos hb]
        have := ih (n + 1)
        simp only [hb, if_true, List.length_cons] at this ⊢
        rw [show n + ((hs.length + 1 : Nat) : Int) = n + 1 + (hs.length : Int) by push_cast; ring, this]
        push_cast; ring
      · rw [if_neg hb]
        have := ih n
        simp only [hb, List.length_cons] at this ⊢
        rw [show n + ((hs.length + 1 : Nat) : Int) - 1 = n + (hs.length : Int) by push_cast; ring, this]
        simp
  have := key hs 0
  simpa using this

/-- **C15**, by flat index: the neighbour lists are symmetric, without repetition, without the site
itself and within the foundation. -/
theorem C15_flat (hok : CellOK cell nhop) (d : Dims) :
    (∀ u v, (flatNeighbors d cell u).count v = (flatNeighbors d cell v).count u) ∧
    (∀ u, ∀ v ∈ flatNeighbors d cell u, v < size d cell.length) ∧
    (∀ u, u ∉ flatNeighbors d cell u) ∧ (∀ u, (flatNeighbors d cell u).Nodup) := by
  have hlt : ∀ u, ∀ v ∈ flatNeighbors d cell u,
      u < size d cell.length ∧ v < size d cell.length := by
    intro u v hv
    obtain ⟨p, hp, rfl⟩ := List.mem_map.1 hv
    obtain ⟨hin, hf, hm, hloc⟩ := C15_inside hok d _ p hp
    obtain ⟨k, hk, e1, -⟩ := hin.flat
    rw [hf, e1]
    refine ⟨?_, by simpa using hk⟩
    have hs : (locOf d u).sub < cell.length := by
      by_contra hc
      unfold hoppingsAt at hm
      rw [List.getElem?_eq_none (by omega)] at hm
      simp at hm
    have hpos : 0 < d.prod := by
      rcases Nat.eq_zero_or_pos d.prod with h | h
      · rw [size, h] at hk; omega
      · exact h
    rw [locOf_sub] at hs
    have := (Nat.div_lt_iff_lt_mul hpos).1 hs
    unfold size
    rw [Nat.mul_comm]
    exact this
  have hcount : ∀ u v, u < size d cell.length → v < size d cell.length →
      (flatNeighbors d cell u).count v = (hoppingsAt cell (locOf d u).sub).countP (fun h =>
        h.rel = (locOf d v).idx.sub (locOf d u).idx ∧ h.toIdx = (locOf d v).sub) := by
    intro u v hu hv
    unfold flatNeighbors neighbors
    rw [List.map_filterMap, List.count_filterMap]
    apply List.countP_congr
    intro h hh
    have ht := (hok.target _ _ hh).1
    have hvin := locOf_in hv
    constructor
    · intro hx
      rw [beq_iff_eq] at hx
      simp only at hx
      split at hx
      · rename_i hb
        have hin := (inBounds_iff d _ _ _ ht).1 hb
        simp only [Option.map_some, Option.some.injEq, Site.at] at hx
        obtain ⟨k, hk, e1, e2⟩ := hin.flat
        rw [e1] at hx
        have hkv : k = v := by simpa using hx
        subst hkv
        rw [decide_eq_true_eq, e2]
        exact ⟨(add_sub_cancel' _ _ _).1 rfl, rfl⟩
      · simp at hx
    · intro hx
      rw [decide_eq_true_eq] at hx
      have e := (add_sub_cancel' _ _ _).2 hx.1
      rw [beq_iff_eq]
      simp only
      rw [e, hx.2]
      have hb : inBounds d (locOf d v).idx = true :=
        (inBounds_iff d _ _ _ hvin.2.2.2.2.2.2).2 hvin
      rw [if_pos hb]
      simp only [Option.map_some, Site.at]
      have := flatIdx_locOf d v
      rw [this]
      simp
  have hz : ∀ u v, ¬ (u < size d cell.length ∧ v < size d cell.length) →
      (flatNeighbors d cell u).count v = 0 := by
    intro u v h
    rw [List.count_eq_zero]
    intro hv
    exact h (hlt u v hv)
  refine ⟨?_, fun u v hv => (hlt u v hv).2, ?_, ?_⟩
  · intro u v
    by_cases h : u < size d cell.length ∧ v < size d cell.length
    · rw [hcount u v h.1 h.2, hcount v u h.2 h.1]
      -- compare entry by entry: split by family and direction
      have hs1 := (locOf_in h.1).2.2.2.2.2.2
      have hs2 := (locOf_in h.2).2.2.2.2.2.2
      set i := (locOf d u).sub
      set j := (locOf d v).sub
      set r := (locOf d v).idx.sub (locOf d u).idx
      have hr : (locOf d u).idx.sub (locOf d v).idx = r.neg := by
        simp only [r, Index3.sub, Index3.neg, Index3.mk.injEq]; omega
      rw [hr]
      have o1 := hok.once i r j
      have o2 := hok.once j r.neg i
      have imp : ∀ (i j : Nat) (r : Index3), i < cell.length → j < cell.length →
          0 < (hoppingsAt cell i).countP (fun h => h.rel = r ∧ h.toIdx = j) →
          0 < (hoppingsAt cell j).countP (fun h => h.rel = r.neg ∧ h.toIdx = i) := by
        intro i j r hi hj hp
        obtain ⟨⟨r', j', f, c⟩, hm, hx⟩ := List.countP_pos_iff.1 hp
        simp only [decide_eq_true_eq] at hx
        obtain ⟨rfl, rfl⟩ := hx
        have := hok.sym i j' hi hj r' f c
        have hpos : 0 < (hoppingsAt cell j').count ⟨r'.neg, i, f, !c⟩ := by
          rw [← this]; exact List.count_pos_iff.2 hm
        refine List.countP_pos_iff.2 ⟨_, List.count_pos_iff.1 hpos, by simp⟩
      have i1 := imp i j r hs1 hs2
      have i2 := imp j i r.neg hs2 hs1
      rw [Index3.neg_neg] at i2
      omega
    · rw [hz u v h, hz v u (fun h' => h ⟨h'.2, h'.1⟩)]
  · intro u hu
    obtain ⟨h1, -⟩ := hlt u u hu
    have := hcount u u h1 h1
    have hp : 0 < (flatNeighbors d cell u).count u := List.count_pos_iff.2 hu
    rw [this] at hp
    obtain ⟨h, hm, hx⟩ := List.countP_pos_iff.1 hp
    simp only [decide_eq_true_eq] at hx
    refine hok.noSelf _ h hm ⟨?_, hx.2⟩
    rw [hx.1]
    simp [Index3.sub, Index3.zero]
  · intro u
    rw [List.nodup_iff_count_le_one]
    intro v
    by_cases h : u < size d cell.length ∧ v < size d cell.length
    · rw [hcount u v h.1 h.2]
      exact hok.once _ _ _
    · rw [hz u v h]; omega

end

end Verif.Foundation
