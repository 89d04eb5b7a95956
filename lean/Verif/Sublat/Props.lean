import Verif.Sublat.Lemmas

/-!
# Properties C01, C02, C03, C04 (first half) and C40
-/

namespace Verif.Sublat

/-! ## C01 -/

/-- C01.  After any history of `add` calls, the decompressed array has every entry written, is the
sequence of labels in the order of addition, and has the advertised size. -/
theorem C01_labels_roundtrip (ops : List Spec.AddOp) :
    decompressed (runAdds ops) = (Spec.labels ops).map some ∧
    decompressedSize (runAdds ops) = (ops.map (·.count)).sum := by
  constructor
  · rw [decompressed_eq, tableLabels_runAdds]
  · rw [← length_tableLabels, tableLabels_runAdds]
    induction ops with
    | nil => rfl
    | cons o ops ih =>
      simp only [Spec.labels, List.flatMap_cons, List.length_append, List.length_replicate,
        List.map_cons, List.sum_cons] at ih ⊢
      rw [ih]

/-- C01, second part.  When sites with the same label have the same number of orbitals, the size of
the Hamiltonian is the number of orbitals of all added sites. -/
theorem C01_hamiltonian_size (ops : List Spec.AddOp) (h : Spec.Consistent ops) :
    hamiltonianSize (runAdds ops) = (ops.map fun o => o.count * o.norb).sum := by
  rw [hamiltonianSize_eq, tableNorbs_runAdds ops h]
  clear h
  induction ops with
  | nil => rfl
  | cons o ops ih =>
    simp only [Spec.norbs, List.flatMap_cons, List.sum_append, List.sum_replicate_nat,
      List.map_cons, List.sum_cons] at ih ⊢
    rw [ih]

example : Spec.Consistent [⟨1, 2, 3⟩, ⟨0, 1, 5⟩, ⟨1, 2, 4⟩] ∧
    decompressed (runAdds [⟨1, 2, 3⟩, ⟨1, 2, 1⟩, ⟨0, 1, 2⟩])
      = [some 1, some 1, some 1, some 1, some 0, some 0] := by
  constructor
  · intro a ha b hb; simp at ha hb; rcases ha with rfl | rfl | rfl <;> rcases hb with rfl | rfl | rfl <;> simp
  · decide

/-- The consistency hypothesis of `C01_hamiltonian_size` is necessary: a later `add` of the same
label with another orbital count keeps the first count. -/
theorem C01_inconsistent_norb_witness :
    hamiltonianSize (runAdds [⟨0, 1, 1⟩, ⟨0, 2, 1⟩]) ≠ 1 * 1 + 1 * 2 := by decide

/-! ## C02 -/

/-- C02.  With a mask that covers the system, filtering succeeds and the new label array (and the
array of orbital counts per site) is the old one with exactly the masked-out positions deleted. -/
theorem C02_filter_labels (data : Table) (keep : List Bool)
    (h : keep.length = decompressedSize data) :
    ∃ out, filter data keep = .ok out ∧
      decompressed out = maskFilter keep (decompressed data) ∧
      decompressedSize out = keep.count true ∧
      hamiltonianSize out = (maskFilter keep (tableNorbs data)).sum ∧
      aliasIds out = aliasIds data := by
  have hm : ∀ {α : Type} {β : Type} (f : α → β) (ks : List Bool) (xs : List α),
      maskFilter ks (xs.map f) = (maskFilter ks xs).map f := by
    intro α β f ks
    induction ks with
    | nil => intro xs; simp
    | cons k ks ih => intro xs; cases xs <;> cases k <;> simp [maskFilter, ih]
  refine ⟨filterCore keep 0 data, filter_ok data keep (by omega), ?_, ?_, ?_, ?_⟩
  · rw [decompressed_eq, decompressed_eq,
      tableLabels_filterCore keep 0 data (by rw [← decompressedSize_eq]; omega)]
    simp only [List.drop_zero]
    rw [← decompressedSize_eq, ← h, List.take_length, hm]
  · rw [← length_tableLabels, tableLabels_filterCore keep 0 data (by rw [← decompressedSize_eq]; omega)]
    simp only [List.drop_zero]
    rw [← decompressedSize_eq, ← h, List.take_length, length_maskFilter_eq]
    rw [h, length_tableLabels]
  · rw [hamiltonianSize_eq, tableNorbs_filterCore keep 0 data (by rw [← decompressedSize_eq]; omega)]
    simp only [List.drop_zero]
    rw [← decompressedSize_eq, ← h, List.take_length]
  · have : ∀ (d : Table) (s : Nat), aliasIds (filterCore keep s d) = aliasIds d := by
      intro d
      induction d with
      | nil => intro s; rfl
      | cons e d ih =>
        intro s
        simp only [filterCore, aliasIds, List.map_cons] at *
        rw [ih]
    exact this data 0

/-- C02, repetition.  Two successive filters equal one filter with the combined mask. -/
theorem C02_filter_twice (data out₁ out₂ : Table) (k₁ k₂ : List Bool)
    (h₁ : k₁.length = decompressedSize data) (h₂ : k₂.length = k₁.count true)
    (f₁ : filter data k₁ = .ok out₁) (f₂ : filter out₁ k₂ = .ok out₂) :
    ∃ out, filter data (Spec.combine k₁ k₂) = .ok out ∧
      decompressed out = decompressed out₂ ∧ hamiltonianSize out = hamiltonianSize out₂ := by
  have hlen : ∀ a b : List Bool, (Spec.combine a b).length = a.length := by
    intro a
    induction a with
    | nil => intro b; rfl
    | cons k ks ih => intro b; cases k <;> cases b <;> simp [Spec.combine, ih]
  obtain ⟨o₁, e₁, a₁, b₁, c₁, -⟩ := C02_filter_labels data k₁ h₁
  obtain rfl : o₁ = out₁ := by rw [e₁] at f₁; exact Res.ok.inj f₁
  obtain ⟨o₂, e₂, a₂, b₂, c₂, -⟩ := C02_filter_labels o₁ k₂ (by rw [h₂, b₁])
  obtain rfl : o₂ = out₂ := by rw [e₂] at f₂; exact Res.ok.inj f₂
  obtain ⟨o, e, a, b, c, -⟩ := C02_filter_labels data (Spec.combine k₁ k₂) (by rw [hlen, h₁])
  refine ⟨o, e, ?_, ?_⟩
  · rw [a, a₂, a₁, maskFilter_combine]
  · rw [c, c₂]
    obtain rfl : filterCore k₁ 0 data = o₁ := by
      rw [filter_ok data k₁ (by omega)] at e₁; exact Res.ok.inj e₁
    rw [tableNorbs_filterCore k₁ 0 data (by rw [← decompressedSize_eq]; omega)]
    simp only [List.drop_zero]
    rw [← decompressedSize_eq, ← h₁, List.take_length, maskFilter_combine]

/-- C02, outside the hypothesis: a mask shorter than the system is read past its end. -/
theorem C02_short_mask_ub (data : Table) (keep : List Bool) (hne : data ≠ [])
    (h : keep.length < decompressedSize data) :
    filter data keep = .ub := by
  unfold filter
  rw [if_neg]
  intro hc
  rw [List.all_eq_true] at hc
  have key : ∀ (d : Table) (s hh : Nat), d ≠ [] →
      ∃ sub ∈ itersFrom s hh d, sub.sysEnd = s + (d.map (·.numSites)).sum := by
    intro d
    induction d with
    | nil => intro s hh h; exact absurd rfl h
    | cons e d ih =>
      intro s hh _
      cases d with
      | nil => exact ⟨⟨e, s, hh⟩, by simp [itersFrom], by simp⟩
      | cons e' d =>
        obtain ⟨sub, hs, he⟩ := ih (s + e.numSites) (hh + e.numSites * e.numOrb) (by simp)
        exact ⟨sub, by rw [itersFrom]; exact List.mem_cons_of_mem _ hs, by rw [he]; simp; omega⟩
  obtain ⟨sub, hs, he⟩ := key data 0 0 hne
  have := hc sub hs
  rw [he, ← decompressedSize_eq] at this
  simp at this
  omega

example : filter [⟨1, 3, 1⟩, ⟨0, 2, 2⟩] [true, false, true, false, true]
    = .ok [⟨1, 2, 1⟩, ⟨0, 1, 2⟩] ∧ ([true, false, true, false, true] : List Bool).length
      = decompressedSize [⟨1, 3, 1⟩, ⟨0, 2, 2⟩] := by decide

/-! ## C03 -/

/-- C03, size.  The Hamiltonian has one row per orbital of each site. -/
theorem C03_size (ops : List Spec.AddOp) (h : Spec.Consistent ops) :
    hamiltonianSize (runAdds ops) = (Spec.norbs ops).sum := by
  rw [hamiltonianSize_eq, tableNorbs_runAdds ops h]

/-- C03, rows.  For a site inside the system, `to_hamiltonian_indices` returns the consecutive rows
that start after the orbitals of all earlier sites, one per orbital of this site; for a site outside
the system it throws. -/
theorem C03_rows (ops : List Spec.AddOp) (h : Spec.Consistent ops) (i : Nat) :
    (∀ n, (Spec.norbs ops)[i]? = some n →
      toHamiltonianIndices (runAdds ops) i
        = .ok (List.range' (Spec.firstRow (Spec.norbs ops) i) n)) ∧
    ((Spec.norbs ops).length ≤ i →
      toHamiltonianIndices (runAdds ops) i = .err .runtimeError) := by
  have hn := tableNorbs_runAdds ops h
  constructor
  · intro n hi
    have hlt : i < (Spec.norbs ops).length := by
      rcases List.getElem?_eq_some_iff.1 hi with ⟨h, -⟩; exact h
    obtain ⟨sub, h1, h2, h3⟩ := find_site (runAdds ops) 0 0 i (Nat.zero_le _) (by rw [hn]; omega)
    rw [Nat.sub_zero, hn, hi] at h2
    have h2' : n = sub.elem.numOrb := Option.some.inj h2
    simp only [toHamiltonianIndices, iters, h1]
    rw [range_map_add, h3, hn, h2']
    simp [Spec.firstRow]
  · intro hi
    simp only [toHamiltonianIndices, iters]
    rw [find_site_none (runAdds ops) 0 0 i (by rw [hn]; omega)]

/-- C03, tiling.  The rows of all sites, listed in site order, are exactly `0 .. size-1`: no gap, no
overlap. -/
theorem C03_tiling (ops : List Spec.AddOp) (h : Spec.Consistent ops) :
    (List.range (Spec.norbs ops).length).flatMap (fun i =>
      match toHamiltonianIndices (runAdds ops) i with
      | .ok rows => rows
      | _ => []) = List.range (hamiltonianSize (runAdds ops)) := by
  rw [C03_size ops h, List.range_eq_range' (n := (Spec.norbs ops).sum), ← rows_tile]
  have hc : ∀ i ∈ List.range (Spec.norbs ops).length,
      (match toHamiltonianIndices (runAdds ops) i with | .ok rows => rows | _ => [])
        = List.range' (0 + ((Spec.norbs ops).take i).sum) ((Spec.norbs ops)[i]?.getD 0) := by
    intro i hi
    have hi' := List.mem_range.1 hi
    have := (C03_rows ops h i).1 _ (List.getElem?_eq_getElem hi')
    rw [this]
    simp [Spec.firstRow, List.getElem?_eq_getElem hi']
  rw [List.flatMap_def, List.flatMap_def, List.map_congr_left hc]

/-- C03, unique owner.  Every Hamiltonian row belongs to exactly one (site, orbital) pair. -/
theorem C03_unique_owner (ops : List Spec.AddOp) (h : Spec.Consistent ops) (r : Nat)
    (hr : r < hamiltonianSize (runAdds ops)) :
    ∃ i k : Nat, (∃ rows, toHamiltonianIndices (runAdds ops) i = .ok rows ∧ rows[k]? = some r) ∧
      ∀ (i' k' : Nat) (rows' : List Nat), toHamiltonianIndices (runAdds ops) i' = .ok rows' → rows'[k']? = some r →
        i' = i ∧ k' = k := by
  rw [C03_size ops h] at hr
  -- the sum of a list prefix is monotone, so the rows of different sites are disjoint
  have mono : ∀ (l : List Nat) (a b n : Nat), a < b → l[a]? = some n →
      (l.take a).sum + n ≤ (l.take b).sum := by
    intro l
    induction l with
    | nil => intro a b n _ h; simp at h
    | cons x l ih =>
      intro a b n hab hn
      cases b with
      | zero => omega
      | succ b =>
        cases a with
        | zero => simp at hn; subst hn; simp
        | succ a =>
          have := ih a b n (by omega) (by simpa using hn)
          simp only [List.take_succ_cons, List.sum_cons]; omega
  have exist : ∀ (l : List Nat) (r : Nat), r < l.sum →
      ∃ i n, l[i]? = some n ∧ (l.take i).sum ≤ r ∧ r < (l.take i).sum + n := by
    intro l
    induction l with
    | nil => intro r h; simp at h
    | cons x l ih =>
      intro r hr
      by_cases hx : r < x
      · exact ⟨0, x, by simp, by simp, by simpa using hx⟩
      · obtain ⟨i, n, h1, h2, h3⟩ := ih (r - x) (by simp at hr; omega)
        exact ⟨i + 1, n, by simpa using h1, by simp; omega, by simp; omega⟩
  obtain ⟨i, n, hi, hlo, hhi⟩ := exist _ r hr
  refine ⟨i, r - ((Spec.norbs ops).take i).sum, ⟨_, (C03_rows ops h i).1 n hi, ?_⟩, ?_⟩
  · rw [List.getElem?_range' (by omega)]
    simp [Spec.firstRow]; omega
  · intro i' k' rows' h1 h2
    have hi' : ∃ n', (Spec.norbs ops)[i']? = some n' := by
      rcases hq : (Spec.norbs ops)[i']? with _ | n'
      · rw [(C03_rows ops h i').2 (List.getElem?_eq_none_iff.1 hq)] at h1; cases h1
      · exact ⟨n', rfl⟩
    obtain ⟨n', hn'⟩ := hi'
    rw [(C03_rows ops h i').1 n' hn'] at h1
    cases h1
    obtain ⟨hk, hk2⟩ := List.getElem?_eq_some_iff.1 h2
    simp only [List.length_range'] at hk
    simp [Spec.firstRow] at hk2
    have : i' = i := by
      rcases Nat.lt_trichotomy i' i with hlt | heq | hgt
      · have := mono _ i' i n' hlt hn'; omega
      · exact heq
      · have := mono _ i i' n hgt hi; omega
    subst this
    exact ⟨rfl, by omega⟩

/-- C03, positions per row.  `expanded_positions` repeats the position of every site once per
orbital, in site order, and leaves no entry unwritten. -/
theorem C03_expanded_positions {α : Type u} (ops : List Spec.AddOp) (h : Spec.Consistent ops)
    (pos : List α) (hp : pos.length = (Spec.norbs ops).length) :
    expandedPositions (runAdds ops) pos
      = ((pos.zip (Spec.norbs ops)).flatMap fun p => List.replicate p.2 p.1).map some := by
  have hn := tableNorbs_runAdds ops h
  have := fold_expand pos (runAdds ops) 0 0 [] [] rfl
    (by rw [← decompressedSize_eq, ← length_tableNorbs, hn]; omega)
  simp only [List.nil_append, List.append_nil, List.drop_zero, hn] at this
  rw [expandedPositions, hamiltonianSize_eq, sum_tableNorbs, iters, this, List.map_flatMap]
  simp [List.map_replicate]

example : Spec.Consistent [⟨1, 1, 2⟩, ⟨0, 3, 2⟩] ∧
    toHamiltonianIndices (runAdds [⟨1, 1, 2⟩, ⟨0, 3, 2⟩]) 3 = .ok [5, 6, 7] ∧
    toHamiltonianIndices (runAdds [⟨1, 1, 2⟩, ⟨0, 3, 2⟩]) 4 = .err .runtimeError := by
  refine ⟨?_, by decide, by decide⟩
  intro a ha b hb; simp at ha hb; rcases ha with rfl | rfl <;> rcases hb with rfl | rfl <;> simp

/-! ## C04, sublattice table -/

/-- C04 (sublattices).  Writing out the three arrays and rebuilding gives the same table. -/
theorem C04_sublattices_roundtrip (data : Table) :
    fromArrays (aliasIds data) (siteCounts data) (orbitalCounts data) = .ok data := by
  unfold fromArrays
  rw [if_pos (by simp [aliasIds, siteCounts, orbitalCounts])]
  congr 1
  induction data with
  | nil => rfl
  | cons e d ih =>
    simp only [aliasIds, siteCounts, orbitalCounts, List.map_cons, List.zip_cons_cons,
      List.zipWith_cons_cons] at *
    rw [ih]

/-- C04 (sublattices), the other direction: rebuilding and writing out returns the arrays. -/
theorem C04_sublattices_roundtrip' (ids : List Int) (counts norbs : List Nat)
    (h₁ : counts.length = ids.length) (h₂ : norbs.length = ids.length) :
    ∃ data, fromArrays ids counts norbs = .ok data ∧ aliasIds data = ids ∧
      siteCounts data = counts ∧ orbitalCounts data = norbs := by
  refine ⟨_, by rw [fromArrays, if_pos ⟨by omega, by omega⟩], ?_⟩
  induction ids generalizing counts norbs with
  | nil =>
    obtain rfl := List.length_eq_zero_iff.1 h₁
    obtain rfl := List.length_eq_zero_iff.1 h₂
    simp [aliasIds, siteCounts, orbitalCounts]
  | cons i ids ih =>
    cases counts with
    | nil => simp at h₁
    | cons c counts =>
      cases norbs with
      | nil => simp at h₂
      | cons n norbs =>
        have := ih counts norbs (by simpa using h₁) (by simpa using h₂)
        simp only [aliasIds, siteCounts, orbitalCounts, List.zip_cons_cons,
          List.zipWith_cons_cons, List.map_cons] at *
        exact ⟨by rw [this.1], by rw [this.2.1], by rw [this.2.2]⟩

example : fromArrays [1, 0] [3, 2] [1, 2] = .ok [⟨1, 3, 1⟩, ⟨0, 2, 2⟩] := by decide

/-! ## The consistency check -/

/-- `verify` accepts exactly the tables with the right total, unique labels, and blocks ordered by
orbital count. -/
theorem C03_verify_iff (data : Table) (n : Nat) :
    (verify data n = .ok () ↔
      (decompressed data).length = n ∧ (aliasIds data).Nodup ∧
      (orbitalCounts data).Pairwise (· ≤ ·)) ∧ verify data n ≠ .ub := by
  constructor
  · rw [verify_iff, decompressed_eq, List.length_map, length_tableLabels]
    rfl
  · unfold verify; simp only []; split <;> simp

example : verify [⟨1, 3, 1⟩, ⟨0, 2, 2⟩] 5 = .ok () ∧
    verify [⟨1, 3, 1⟩, ⟨1, 2, 2⟩] 5 = .err .runtimeError ∧
    verify [⟨1, 3, 2⟩, ⟨0, 2, 1⟩] 5 = .err .runtimeError := by
  decide

/-! ## C40 -/

/-- C40, by sublattice.  The full statement (for every known sublattice) is false, see the witnesses
below; this is the part for a label that still has at least one site.  On a verified table, for a label that occurs, `find_nearest` returns a site
with that label, at minimal distance among the sites with that label, the lowest index among ties. -/
theorem C40_find_nearest_sublattice_partial {K : Type u} [LinearOrder K] (data : Table) (n : Nat)
    (hv : verify data n = .ok ()) (t : Int) (ht : some t ∈ decompressed data) (dist : Nat → K) :
    ∃ r, findNearest data n dist (some t) = .ok r ∧ (decompressed data)[r]? = some (some t) ∧
      ∀ j, (decompressed data)[j]? = some (some t) →
        dist r ≤ dist j ∧ (dist j = dist r → r ≤ j) := by
  obtain ⟨hn, hid, -⟩ := (verify_iff data n).1 hv
  rw [decompressed_eq] at ht ⊢
  have ht' : t ∈ tableLabels data := by simpa using ht
  have hlab : ∀ j : Nat, ((tableLabels data).map some)[j]? = some (some t) ↔
      (tableLabels data)[j]? = some t := by
    intro j
    rw [List.getElem?_map]
    cases (tableLabels data)[j]? <;> simp
  rcases hf : (iters data).find? (fun sub => sub.elem.id == t) with _ | sub
  · exact absurd (mem_ids_of_mem_labels data t ht') ((find_block_none data 0 0 t).1 hf)
  · have hb : ∀ p : Nat, (tableLabels data)[p]? = some t ↔ sub.sysStart ≤ p ∧ p < sub.sysEnd := by
      intro p
      simpa using find_block data 0 0 t hid sub hf p (Nat.zero_le _)
    obtain ⟨p, hp⟩ := List.getElem?_of_mem ht'
    have hp' := (hb p).1 hp
    have hend := iters_sysEnd_le data 0 0 sub (List.mem_of_find?_eq_some hf)
    rw [← decompressedSize_eq, hn, Nat.zero_add] at hend
    obtain ⟨h1, h2⟩ := nearestLoop_range dist sub.sysStart sub.sysEnd (by omega)
    refine ⟨_, ?_, (hlab _).2 ((hb _).2 h1), ?_⟩
    · simp only [findNearest, sublatticeRange, hf]
      rw [if_pos ⟨by omega, fun _ => hend⟩]
    · intro j hj
      have := (hb j).1 ((hlab j).1 hj)
      exact h2 j this.1 this.2

/-- C40, whole system.  Without a label, the result is the first nearest of all sites. -/
theorem C40_find_nearest_any {K : Type u} [LinearOrder K] (data : Table) (n : Nat) (hn : 0 < n)
    (dist : Nat → K) :
    ∃ r, findNearest data n dist none = .ok r ∧ r < n ∧
      ∀ j, j < n → dist r ≤ dist j ∧ (dist j = dist r → r ≤ j) := by
  obtain ⟨h1, h2⟩ := nearestLoop_range dist 0 n hn
  refine ⟨_, ?_, h1.2, fun j hj => h2 j (Nat.zero_le _) hj⟩
  simp only [findNearest, sublatticeRange]
  rw [if_pos ⟨hn, fun _ => Nat.le_refl _⟩]

/-- C40, unknown label: rejected. -/
theorem C40_unknown_label {K : Type u} [LinearOrder K] (data : Table) (n : Nat) (t : Int)
    (ht : t ∉ aliasIds data) (dist : Nat → K) :
    findNearest data n dist (some t) = .err .runtimeError := by
  have := (find_block_none data 0 0 t).2 ht
  simp only [findNearest, sublatticeRange, iters, this]

/-- C40 is false for a label whose block is empty (all its sites removed by a modifier).  The call
does not fail: it returns a site of another sublattice. -/
theorem C40_empty_block_wrong_sublattice :
    verify [⟨0, 0, 1⟩, ⟨1, 2, 1⟩] 2 = .ok () ∧
    findNearest [⟨0, 0, 1⟩, ⟨1, 2, 1⟩] 2 (fun i => i) (some 0) = .ok 0 ∧
    (decompressed [⟨0, 0, 1⟩, ⟨1, 2, 1⟩])[0]? = some (some 1) := by
  decide

/-- C40, second failure: when the empty block is the last one, or the system is empty, the position
array is read out of range. -/
theorem C40_empty_block_ub :
    findNearest [⟨1, 2, 1⟩, ⟨0, 0, 1⟩] 2 (fun i => i) (some 0) = .ub ∧
    findNearest [] 0 (fun i => i) none = .ub := by decide

example : verify [⟨0, 2, 1⟩, ⟨1, 3, 1⟩] 5 = .ok () ∧
    some 1 ∈ decompressed [⟨0, 2, 1⟩, ⟨1, 3, 1⟩] ∧
    findNearest [⟨0, 2, 1⟩, ⟨1, 3, 1⟩] 5 (fun i => (i - 3 : Int).natAbs) (some 1) = .ok 3 := by
  decide

end Verif.Sublat
