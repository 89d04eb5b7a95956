import Verif.Leads.Fill

/-!
# Lemmas: the layers of a slice
-/

namespace Verif.Leads

open Verif.Foundation

variable {P : Type}

/-- All slices with a single index along an axis visit the same columns in the same order. -/
theorem slice_columns (d : Dims) (nsub : Nat) (r : Slice3) (a : Nat) (ha : a < 3) :
    ∃ (N : Nat) (base : Nat → Loc), (∀ k k', k ≤ k' → (base k).sub ≤ (base k').sub) ∧ ∀ i : Int, 0 ≤ i →
      sliceSites d nsub (Slice3.set r a (.single i)) = (List.range N).map fun k : Nat =>
        ⟨Site.at d (along (base k) a i).idx (along (base k) a i).sub, k⟩ := by
  have hmono : ∀ (D : Dims) (lo : Index3) (k k' : Nat), k ≤ k' →
      ((locOf D k).shift lo).sub ≤ ((locOf D k').shift lo).sub := by
    intro D lo k k' hk
    simp only [locOf, Loc.shift]
    exact Nat.div_le_div_right (Nat.div_le_div_right (Nat.div_le_div_right hk))
  have single_norm : ∀ (i : Int) (n : Nat), 0 ≤ i → (SliceIndex.single i).normalize n = .single i := by
    intro i n hi
    simp [SliceIndex.normalize, SliceIndex.single, show ¬ i + 1 < 0 by omega]
  have single_size : ∀ i : Int, (SliceIndex.single i).size = 1 := by
    intro i
    have : i + 1 - i = 1 := by ring
    simp [SliceIndex.size, SliceIndex.single, this]
  have hext : ∀ i : Int, (i + 1 - i).toNat = 1 := by
    intro i
    have : i + 1 - i = 1 := by ring
    simp [this]
  have h0 : ∀ (lo hi : Index3), ((locOf (extent lo hi) 0).shift lo).idx = lo := by
    intro lo hi
    rw [locOf_zero]
    simp [Loc.shift, Index3.add, Index3.zero]
  obtain rfl | rfl | rfl : a = 0 ∨ a = 1 ∨ a = 2 := by omega
  · set ry := r.y.normalize d.sy
    set rz := r.z.normalize d.sz
    by_cases hc : ry.start < ry.stop ∧ rz.start < rz.stop
    · refine ⟨ry.size * rz.size * nsub, fun k =>
        (locOf ⟨1, (ry.stop - ry.start).toNat, (rz.stop - rz.start).toNat⟩ k).shift
          ⟨0, ry.start, rz.start⟩, hmono _ _, ?_⟩
      intro i hi
      have hw := sliceWalk_eq d ⟨i, ry.start, rz.start⟩ ⟨i + 1, ry.stop, rz.stop⟩ (by simp)
        hc.1 hc.2 (ry.size * rz.size * nsub) 0 0
      rw [h0, locOf_zero] at hw
      simp only [Nat.zero_add] at hw
      have e : sliceSites d nsub (Slice3.set r 0 (.single i)) =
          sliceWalk d ⟨i, ry.start, rz.start⟩ ⟨i + 1, ry.stop, rz.stop⟩
            (ry.size * rz.size * nsub) ⟨Site.at d ⟨i, ry.start, rz.start⟩ 0, 0⟩ := by
        simp only [sliceSites, Slice3.set, Slice3.normalize, Slice3.size, single_norm i _ hi, single_size,
          Nat.one_mul]
        rfl
      rw [e, hw]
      apply List.map_congr_left
      intro k _
      simp only [extent, hext, along, setComp, Loc.shift, Index3.add, locOf, Nat.mod_one,
        Int.natCast_zero, Int.add_zero]
    · refine ⟨0, fun _ => ⟨Index3.zero, 0⟩, fun _ _ _ => le_rfl, fun i hi => ?_⟩
      have e : ry.size * rz.size = 0 := by
        rcases not_and_or.mp hc with h | h
        · rw [show ry.size = 0 from if_neg h, Nat.zero_mul]
        · rw [show rz.size = 0 from if_neg h, Nat.mul_zero]
      have e' : (SliceIndex.single i).size * ry.size * rz.size * nsub = 0 := by
        rw [single_size, Nat.one_mul, e, Nat.zero_mul]
      simp only [sliceSites, Slice3.set, Slice3.normalize, Slice3.size, single_norm i _ hi]
      change sliceWalk d _ _ ((SliceIndex.single i).size * ry.size * rz.size * nsub) _ = _
      rw [e']
      rfl
  · set rx := r.x.normalize d.sx
    set rz := r.z.normalize d.sz
    by_cases hc : rx.start < rx.stop ∧ rz.start < rz.stop
    · refine ⟨rx.size * rz.size * nsub, fun k =>
        (locOf ⟨(rx.stop - rx.start).toNat, 1, (rz.stop - rz.start).toNat⟩ k).shift
          ⟨rx.start, 0, rz.start⟩, hmono _ _, ?_⟩
      intro i hi
      have hw := sliceWalk_eq d ⟨rx.start, i, rz.start⟩ ⟨rx.stop, i + 1, rz.stop⟩ hc.1 (by simp)
        hc.2 (rx.size * rz.size * nsub) 0 0
      rw [h0, locOf_zero] at hw
      simp only [Nat.zero_add] at hw
      have e : sliceSites d nsub (Slice3.set r 1 (.single i)) =
          sliceWalk d ⟨rx.start, i, rz.start⟩ ⟨rx.stop, i + 1, rz.stop⟩
            (rx.size * rz.size * nsub) ⟨Site.at d ⟨rx.start, i, rz.start⟩ 0, 0⟩ := by
        simp only [sliceSites, Slice3.set, Slice3.normalize, Slice3.size, single_norm i _ hi, single_size,
          Nat.mul_one]
        rfl
      rw [e, hw]
      apply List.map_congr_left
      intro k _
      simp only [extent, hext, along, setComp, Loc.shift, Index3.add, locOf, Nat.mod_one,
        Int.natCast_zero, Int.add_zero]
    · refine ⟨0, fun _ => ⟨Index3.zero, 0⟩, fun _ _ _ => le_rfl, fun i hi => ?_⟩
      have e' : rx.size * (SliceIndex.single i).size * rz.size * nsub = 0 := by
        rcases not_and_or.mp hc with h | h
        · rw [show rx.size = 0 from if_neg h, Nat.zero_mul, Nat.zero_mul, Nat.zero_mul]
        · rw [show rz.size = 0 from if_neg h, Nat.mul_zero, Nat.zero_mul]
      simp only [sliceSites, Slice3.set, Slice3.normalize, Slice3.size, single_norm i _ hi]
      change sliceWalk d _ _ (rx.size * (SliceIndex.single i).size * rz.size * nsub) _ = _
      rw [e']
      rfl
  · set rx := r.x.normalize d.sx
    set ry := r.y.normalize d.sy
    by_cases hc : rx.start < rx.stop ∧ ry.start < ry.stop
    · refine ⟨rx.size * ry.size * nsub, fun k =>
        (locOf ⟨(rx.stop - rx.start).toNat, (ry.stop - ry.start).toNat, 1⟩ k).shift
          ⟨rx.start, ry.start, 0⟩, hmono _ _, ?_⟩
      intro i hi
      have hw := sliceWalk_eq d ⟨rx.start, ry.start, i⟩ ⟨rx.stop, ry.stop, i + 1⟩ hc.1
        hc.2 (by simp) (rx.size * ry.size * nsub) 0 0
      rw [h0, locOf_zero] at hw
      simp only [Nat.zero_add] at hw
      have e : sliceSites d nsub (Slice3.set r 2 (.single i)) =
          sliceWalk d ⟨rx.start, ry.start, i⟩ ⟨rx.stop, ry.stop, i + 1⟩
            (rx.size * ry.size * nsub) ⟨Site.at d ⟨rx.start, ry.start, i⟩ 0, 0⟩ := by
        simp only [sliceSites, Slice3.set, Slice3.normalize, Slice3.size, single_norm i _ hi, single_size,
          Nat.mul_one]
        rfl
      rw [e, hw]
      apply List.map_congr_left
      intro k _
      simp only [extent, hext, along, setComp, Loc.shift, Index3.add, locOf, Nat.mod_one,
        Int.natCast_zero, Int.add_zero]
    · refine ⟨0, fun _ => ⟨Index3.zero, 0⟩, fun _ _ _ => le_rfl, fun i hi => ?_⟩
      have e' : rx.size * ry.size * (SliceIndex.single i).size * nsub = 0 := by
        rcases not_and_or.mp hc with h | h
        · rw [show rx.size = 0 from if_neg h, Nat.zero_mul, Nat.zero_mul, Nat.zero_mul]
        · rw [show ry.size = 0 from if_neg h, Nat.mul_zero, Nat.zero_mul, Nat.zero_mul]
      simp only [sliceSites, Slice3.set, Slice3.normalize, Slice3.size, single_norm i _ hi]
      change sliceWalk d _ _ (rx.size * ry.size * (SliceIndex.single i).size * nsub) _ = _
      rw [e']
      rfl

/-! ### Components -/

theorem comp_setComp_self (i : Index3) (a : Nat) (v : Int) : comp (setComp i a v) a = v := by
  match a with
  | 0 => rfl
  | 1 => rfl
  | _ + 2 => rfl

theorem comp_setComp_ne (i : Index3) (a c : Nat) (v : Int) (ha : a < 3) (hc : c < 3) (h : c ≠ a) :
    comp (setComp i a v) c = comp i c := by
  obtain rfl | rfl | rfl : a = 0 ∨ a = 1 ∨ a = 2 := by omega
  all_goals obtain rfl | rfl | rfl : c = 0 ∨ c = 1 ∨ c = 2 := by omega
  all_goals first | rfl | exact absurd rfl h

theorem index_ext {i j : Index3} (h : ∀ c < 3, comp i c = comp j c) : i = j := by
  have h0 := h 0 (by omega)
  have h1 := h 1 (by omega)
  have h2 := h 2 (by omega)
  obtain ⟨x, y, z⟩ := i
  obtain ⟨x', y', z'⟩ := j
  simp only [comp] at h0 h1 h2
  subst h0 h1 h2
  rfl

theorem along_along (l : Loc) (a : Nat) (i j : Int) (ha : a < 3) :
    along (along l a i) a j = along l a j := by
  obtain rfl | rfl | rfl : a = 0 ∨ a = 1 ∨ a = 2 := by omega
  all_goals rfl

theorem along_self (l : Loc) (a : Nat) (ha : a < 3) : along l a (comp l.idx a) = l := by
  obtain rfl | rfl | rfl : a = 0 ∨ a = 1 ∨ a = 2 := by omega
  all_goals rfl

theorem inBase_iff (B : Base P) (l : Loc) : InBase B l ↔ l.In B.d B.cell.length := by
  unfold InBase Loc.In
  constructor
  · rintro ⟨h, hs⟩
    have h0 := h 0 (by omega)
    have h1 := h 1 (by omega)
    have h2 := h 2 (by omega)
    simp only [comp, extentOf] at h0 h1 h2
    exact ⟨h0.1, h0.2, h1.1, h1.2, h2.1, h2.2, hs⟩
  · rintro ⟨h1, h2, h3, h4, h5, h6, hs⟩
    refine ⟨fun c hc => ?_, hs⟩
    obtain rfl | rfl | rfl : c = 0 ∨ c = 1 ∨ c = 2 := by omega
    · exact ⟨h1, h2⟩
    · exact ⟨h3, h4⟩
    · exact ⟨h5, h6⟩

theorem InSection.along {B : Base P} {sp : Spec P} {l : Loc} (h : InSection B sp l)
    (ha : sp.axis.toNat < 3) {i : Int} (h0 : 0 ≤ i) (hi : i < extentOf B.d sp.axis.toNat) :
    InSection B sp (along l sp.axis.toNat i) := by
  refine ⟨⟨fun c hc => ?_, h.1.2⟩, fun c hc hne => ?_⟩
  · by_cases hca : c = sp.axis.toNat
    · subst hca
      simp only [Leads.along, comp_setComp_self]
      exact ⟨h0, hi⟩
    · simp only [Leads.along, comp_setComp_ne _ _ _ _ ha hc hca]
      exact h.1.1 c hc
  · simp only [Leads.along, comp_setComp_ne _ _ _ _ ha hc hne]
    exact h.2 c hc hne

/-- The sites of a layer of the shape of a lead. -/
theorem layer_mem (B : Base P) (sp : Spec P) (hd : Directed sp) (hm : Meets B sp) (i : Int)
    (h0 : 0 ≤ i) (hi : i < extentOf B.d sp.axis.toNat) (l : Loc) :
    l ∈ (layer B sp (shapeSlice B sp) i).map (·.site.loc) ↔
      InSection B sp l ∧ comp l.idx sp.axis.toNat = i := by
  have ha : sp.axis.toNat < 3 := by
    have := hd.2.1
    have := hd.1
    omega
  unfold layer
  rw [(C14_slice B.d B.cell.length _).2.1 l]
  obtain ⟨a, ha'⟩ : ∃ a, a = sp.axis.toNat := ⟨_, rfl⟩
  unfold InSection
  rw [← ha'] at ha hi ⊢
  have m0 := hm 0 (by omega)
  have m1 := hm 1 (by omega)
  have m2 := hm 2 (by omega)
  simp only [comp, extentOf] at m0 m1 m2
  obtain ⟨i0, m0⟩ := m0
  obtain ⟨i1, m1⟩ := m1
  obtain ⟨i2, m2⟩ := m2
  rw [inBase_iff]
  simp only [Loc.In]
  obtain rfl | rfl | rfl : a = 0 ∨ a = 1 ∨ a = 2 := by omega
  · simp only [Slice3.set, shapeSlice, axisSlice, SliceIndex.Selects, SliceIndex.single, comp, extentOf] at hi ⊢
    constructor
    · rintro ⟨a1, a2, a3, a4⟩
      refine ⟨⟨⟨by omega, by omega, by omega, by omega, by omega, by omega, a4⟩, ?_⟩, by omega⟩
      intro c hc hne
      obtain rfl | rfl : c = 1 ∨ c = 2 := by omega
      · simp only [comp]; omega
      · simp only [comp]; omega
    · rintro ⟨⟨⟨b1, b2, b3, b4, b5, b6, b7⟩, b8⟩, b9⟩
      have c1 := b8 1 (by omega) (by omega)
      have c2 := b8 2 (by omega) (by omega)
      simp only [comp] at c1 c2
      refine ⟨?_, ?_, ?_, b7⟩ <;> omega
  · simp only [Slice3.set, shapeSlice, axisSlice, SliceIndex.Selects, SliceIndex.single, comp, extentOf] at hi ⊢
    constructor
    · rintro ⟨a1, a2, a3, a4⟩
      refine ⟨⟨⟨by omega, by omega, by omega, by omega, by omega, by omega, a4⟩, ?_⟩, by omega⟩
      intro c hc hne
      obtain rfl | rfl : c = 0 ∨ c = 2 := by omega
      · simp only [comp]; omega
      · simp only [comp]; omega
    · rintro ⟨⟨⟨b1, b2, b3, b4, b5, b6, b7⟩, b8⟩, b9⟩
      have c1 := b8 0 (by omega) (by omega)
      have c2 := b8 2 (by omega) (by omega)
      simp only [comp] at c1 c2
      refine ⟨?_, ?_, ?_, b7⟩ <;> omega
  · simp only [Slice3.set, shapeSlice, axisSlice, SliceIndex.Selects, SliceIndex.single, comp, extentOf] at hi ⊢
    constructor
    · rintro ⟨a1, a2, a3, a4⟩
      refine ⟨⟨⟨by omega, by omega, by omega, by omega, by omega, by omega, a4⟩, ?_⟩, by omega⟩
      intro c hc hne
      obtain rfl | rfl : c = 0 ∨ c = 1 := by omega
      · simp only [comp]; omega
      · simp only [comp]; omega
    · rintro ⟨⟨⟨b1, b2, b3, b4, b5, b6, b7⟩, b8⟩, b9⟩
      have c1 := b8 0 (by omega) (by omega)
      have c2 := b8 1 (by omega) (by omega)
      simp only [comp] at c1 c2
      refine ⟨?_, ?_, ?_, b7⟩ <;> omega

/-- The columns of a lead: `base k` is the column visited at position `k` of every layer. -/
theorem layer_columns (B : Base P) (sp : Spec P) (hd : Directed sp) (hm : Meets B sp) :
    ∃ (N : Nat) (base : Nat → Loc),
      (∀ i : Int, 0 ≤ i → layer B sp (shapeSlice B sp) i = (List.range N).map fun k : Nat =>
        ⟨Site.at B.d (along (base k) sp.axis.toNat i).idx (along (base k) sp.axis.toNat i).sub, k⟩) ∧
      (∀ k < N, InSection B sp (base k) ∧ comp (base k).idx sp.axis.toNat = 0) ∧
      (∀ k < N, ∀ k' < N, base k = base k' → k = k') ∧
      (∀ l, InSection B sp l → ∃ k < N, along (base k) sp.axis.toNat (comp l.idx sp.axis.toNat) = l) ∧
      (∀ k k', k ≤ k' → (base k).sub ≤ (base k').sub) := by
  have ha : sp.axis.toNat < 3 := by
    have := hd.2.1
    have := hd.1
    omega
  obtain ⟨N, base, hbm, hb⟩ := slice_columns B.d B.cell.length (shapeSlice B sp) sp.axis.toNat ha
  have hpos : 0 < extentOf B.d sp.axis.toNat := by
    obtain ⟨i, h1, h2, _⟩ := hm sp.axis.toNat ha
    omega
  have hl : ∀ i : Int, 0 ≤ i → (layer B sp (shapeSlice B sp) i).map (·.site.loc) =
      (List.range N).map fun k => along (base k) sp.axis.toNat i := by
    intro i hi
    unfold layer
    rw [hb i hi, List.map_map]
    rfl
  refine ⟨N, fun k => along (base k) sp.axis.toNat 0, ?_, ?_, ?_, ?_, fun k k' hk => hbm k k' hk⟩
  · intro i hi
    unfold layer
    rw [hb i hi]
    apply List.map_congr_left
    intro k _
    simp only [along_along _ _ _ _ ha]
  · intro k hk
    have hmem : along (base k) sp.axis.toNat 0 ∈ (layer B sp (shapeSlice B sp) 0).map (·.site.loc) := by
      rw [hl 0 le_rfl]
      exact List.mem_map.mpr ⟨k, List.mem_range.mpr hk, rfl⟩
    exact (layer_mem B sp hd hm 0 le_rfl (by omega) _).mp hmem
  · intro k hk k' hk' e
    have hn := (C14_slice B.d B.cell.length (Slice3.set (shapeSlice B sp) sp.axis.toNat (.single 0))).1
    have h' := hl 0 le_rfl
    unfold layer at h'
    rw [h'] at hn
    exact List.inj_on_of_nodup_map hn (List.mem_range.mpr hk) (List.mem_range.mpr hk') e
  · intro l hlm
    have hin := hlm.1.1 sp.axis.toNat ha
    have hmem := (layer_mem B sp hd hm (comp l.idx sp.axis.toNat) hin.1 hin.2 l).mpr ⟨hlm, rfl⟩
    rw [hl _ hin.1] at hmem
    obtain ⟨k, hk, e⟩ := List.mem_map.mp hmem
    exact ⟨k, List.mem_range.mp hk, by rw [along_along _ _ _ _ ha]; exact e⟩

end Verif.Leads
