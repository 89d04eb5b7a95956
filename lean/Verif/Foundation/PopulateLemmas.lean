import Verif.Foundation.Populate

/-!
# Lemmas: the populated system in terms of validity ranks
-/

namespace Verif.Foundation

open Verif.Lattice (CellSite CellHopping)

/-- How many sites before `k` are valid. -/
def rank (valid : List Bool) (k : Nat) : Nat := (valid.take k).count true

theorem rank_lt {valid : List Bool} {k k' : Nat} (h : valid[k]? = some true) (hk : k < k') :
    rank valid k < rank valid k' := by
  unfold rank
  have hlt := (List.getElem?_eq_some_iff.1 h).1
  have h1 : valid.take (k + 1) = valid.take k ++ [true] := by
    rw [List.take_add_one, h]; rfl
  have h2 : (valid.take (k + 1)).Sublist (valid.take k') := by
    rw [show valid.take (k + 1) = (valid.take k').take (k + 1) by
      rw [List.take_take, Nat.min_eq_left hk]]
    exact List.take_sublist _ _
  have := h2.count_le true
  rw [h1] at this
  simp at this
  omega

theorem rank_inj {valid : List Bool} {k k' : Nat} (h : valid[k]? = some true)
    (h' : valid[k']? = some true) (e : rank valid k = rank valid k') : k = k' := by
  rcases Nat.lt_trichotomy k k' with hlt | he | hlt
  · have := rank_lt h hlt; omega
  · exact he
  · have := rank_lt h' hlt; omega

theorem rank_lt_count {valid : List Bool} {k : Nat} (h : valid[k]? = some true) :
    rank valid k < valid.count true := by
  have := rank_lt h (Nat.lt_succ_of_lt (List.getElem?_eq_some_iff.1 h).1)
  rw [show rank valid (valid.length.succ) = valid.count true by
    unfold rank; rw [List.take_of_length_le (by omega)]] at this
  exact this

theorem exists_rank (valid : List Bool) (m : Nat) (h : m < valid.count true) :
    ∃ k : Nat, valid[k]? = some true ∧ rank valid k = m := by
  induction valid generalizing m with
  | nil => simp at h
  | cons v valid ih =>
    cases v
    · obtain ⟨k, h1, h2⟩ := ih m (by simpa using h)
      exact ⟨k + 1, by simpa using h1, by simpa [rank] using h2⟩
    · cases m with
      | zero => exact ⟨0, rfl, by simp [rank]⟩
      | succ m =>
        obtain ⟨k, h1, h2⟩ := ih m (by simpa using h)
        exact ⟨k + 1, by simpa using h1, by simpa [rank] using h2⟩

/-- The valid indices with their ranks. -/
def validPairs (valid : List Bool) : List (Nat × Nat) :=
  (List.range valid.length).filterMap fun k =>
    if valid.getD k false = true then some (k, rank valid k) else none

theorem validPairs_concat (valid : List Bool) (v : Bool) :
    validPairs (valid ++ [v])
      = validPairs valid ++ (if v = true then [(valid.length, valid.count true)] else []) := by
  unfold validPairs
  rw [List.length_append, List.length_singleton, List.range_succ, List.filterMap_append]
  congr 1
  · apply List.filterMap_congr
    intro k hk
    have hk := List.mem_range.1 hk
    rw [List.getD_eq_getElem?_getD, List.getD_eq_getElem?_getD, List.getElem?_append_left hk]
    unfold rank
    rw [List.take_append_of_le_length (Nat.le_of_lt hk)]
  · rw [List.filterMap_cons, List.filterMap_nil, List.getD_eq_getElem?_getD,
      List.getElem?_append_right (Nat.le_refl _)]
    simp only [Nat.sub_self, List.getElem?_cons_zero, Option.getD_some]
    cases v <;> simp [rank]

theorem map_snd_validPairs (valid : List Bool) :
    (validPairs valid).map (·.2) = List.range (valid.count true) := by
  induction valid using List.reverseRecOn with
  | nil => rfl
  | append_singleton valid v ih =>
    rw [validPairs_concat, List.map_append, ih, List.count_append]
    cases v
    · simp
    · simp [List.range_succ]

theorem map_fst_validPairs {α : Type} (valid : List Bool) (g : Nat → α) :
    (validPairs valid).map (fun p => g p.1)
      = maskFilter valid ((List.range valid.length).map g) := by
  induction valid using List.reverseRecOn with
  | nil => rfl
  | append_singleton valid v ih =>
    rw [validPairs_concat, List.map_append, ih, List.length_append, List.length_singleton,
      List.range_succ, List.map_append, maskFilter_append _ _ _ _ (by simp)]
    cases v <;> simp [maskFilter]

theorem mem_validPairs {valid : List Bool} {p : Nat × Nat} :
    p ∈ validPairs valid ↔ valid[p.1]? = some true ∧ p.2 = rank valid p.1 := by
  unfold validPairs
  simp only [List.mem_filterMap, List.mem_range]
  constructor
  · rintro ⟨k, hk, h⟩
    split at h
    · rename_i hv
      simp only [Option.some.injEq] at h
      subst h
      rw [List.getD_eq_getElem?_getD, List.getElem?_eq_getElem hk] at hv
      simp only [Option.getD_some] at hv
      exact ⟨by rw [List.getElem?_eq_getElem hk, hv], rfl⟩
    · simp at h
  · rintro ⟨h1, h2⟩
    have hk := (List.getElem?_eq_some_iff.1 h1).1
    refine ⟨p.1, hk, ?_⟩
    rw [List.getD_eq_getElem?_getD, h1]
    simp [← h2]

section
variable {d : Dims} {cell : List CellSite} {nhop : Nat} {valid : List Bool}

/-- The site with flat index `k`. -/
def siteAt (d : Dims) (k : Nat) : Site := ⟨locOf d k, (k : Int)⟩

theorem finIndex_siteAt (hl : valid.length = size d cell.length) (k : Nat) (l : Loc) :
    finIndex (finalize d cell nhop valid) ⟨l, (k : Int)⟩
      = if valid[k]? = some true then (rank valid k : Int) else -1 := by
  unfold finIndex
  rw [(finalize_eq d cell nhop valid hl).1]
  simp only [Int.toNat_natCast, List.getD_eq_getElem?_getD]
  rcases hv : valid[k]? with _ | v
  · have : (ranks 0 valid)[k]? = none := by
      rw [List.getElem?_eq_none_iff] at hv ⊢; simpa using hv
    rw [this]
    simp
  · rw [getElem?_ranks 0 k valid v hv]
    cases v <;> simp [rank]

theorem numbered_sites (hl : valid.length = size d cell.length) :
    numbered (finalize d cell nhop valid) (sites d cell.length)
      = (validPairs valid).map fun p => (siteAt d p.1, p.2) := by
  unfold numbered validPairs
  rw [sites_eq, List.filterMap_map, List.map_filterMap, ← hl]
  apply List.filterMap_congr
  intro k hk
  have hk := List.mem_range.1 hk
  simp only [Function.comp]
  rw [finIndex_siteAt hl, List.getElem?_eq_getElem hk, List.getD_eq_getElem?_getD,
    List.getElem?_eq_getElem hk]
  rcases valid[k] with _ | _
  · simp
  · simp only [if_true, Option.getD_some, Option.map_some, Int.toNat_natCast]
    rw [if_neg (by omega)]
    rfl

theorem addOps_eq (hl : valid.length = size d cell.length) :
    addOps cell ((validPairs valid).map fun p => (siteAt d p.1, p.2))
      = maskFilter valid ((List.range valid.length).map fun k : Nat =>
          match cell[(locOf d k).sub]? with
          | some c => (⟨c.aliasId, c.norb, 1⟩ : Sublat.Spec.AddOp)
          | none => ⟨0, 0, 0⟩) := by
  rw [← map_fst_validPairs]
  unfold addOps
  rw [List.filterMap_map]
  have : ∀ p ∈ validPairs valid,
      ((fun p : Site × Nat => (cell[p.1.loc.sub]?).map
        fun c => (⟨c.aliasId, c.norb, 1⟩ : Sublat.Spec.AddOp)) ∘
        fun p : Nat × Nat => (siteAt d p.1, p.2)) p = some (match cell[(locOf d p.1).sub]? with
          | some c => (⟨c.aliasId, c.norb, 1⟩ : Sublat.Spec.AddOp)
          | none => ⟨0, 0, 0⟩) := by
    intro p hp
    have hk := (List.getElem?_eq_some_iff.1 (mem_validPairs.1 hp).1).1
    rw [hl] at hk
    have := (locOf_in hk).2.2.2.2.2.2
    simp only [Function.comp, siteAt]
    rw [List.getElem?_eq_getElem this]
    rfl
  rw [List.filterMap_congr this, List.filterMap_eq_map']

/-! ## Counting entries -/

theorem count_flatMap_unique {α β : Type} [DecidableEq β] (ps : List α) (g : α → List β) (x : β)
    (p : α) (hp : p ∈ ps) (hnd : ps.Nodup) (h : ∀ q ∈ ps, q ≠ p → (g q).count x = 0) :
    (ps.flatMap g).count x = (g p).count x := by
  induction ps with
  | nil => simp at hp
  | cons q ps ih =>
    rw [List.flatMap_cons, List.count_append]
    rw [List.nodup_cons] at hnd
    by_cases hq : q = p
    · subst hq
      have : (ps.flatMap g).count x = 0 := by
        rw [List.count_eq_zero]
        intro hm
        obtain ⟨r, hr, hr'⟩ := List.mem_flatMap.1 hm
        have hne : r ≠ q := fun e => hnd.1 (e ▸ hr)
        have := h r (List.mem_cons_of_mem _ hr) hne
        rw [List.count_eq_zero] at this
        exact this hr'
      omega
    · rw [h q List.mem_cons_self hq, Nat.zero_add]
      refine ih ?_ hnd.2 (fun r hr => h r (List.mem_cons_of_mem _ hr))
      rcases List.mem_cons.1 hp with e | e
      · exact absurd e.symm hq
      · exact e

theorem inBounds_iff (d : Dims) (i : Index3) (n nsub : Nat) (hn : n < nsub) :
    inBounds d i = true ↔ (⟨i, n⟩ : Loc).In d nsub := by
  unfold inBounds Loc.In
  rw [decide_eq_true_eq]
  simp only
  omega

theorem entry_eq_some {f : Finalized} {index fam : Nat} {p : Site × CellHopping} {c : Hopping.COO} :
    entry f index fam p = some c ↔
      0 ≤ finIndex f p.1 ∧ p.2.isConjugate = false ∧ p.2.familyId = fam ∧
        c = ⟨index, (finIndex f p.1).toNat⟩ := by
  unfold entry
  split
  · constructor
    · intro h; simp at h
    · intro h; omega
  · split
    · constructor
      · intro h; simp at h
      · intro h
        have := h.2.1
        simp_all
    · split
      · rename_i h1 h2 h3
        simp only [Bool.not_eq_true] at h2
        constructor
        · intro h
          simp only [Option.some.injEq] at h
          exact ⟨by omega, h2, h3, h.symm⟩
        · intro h
          rw [h.2.2.2]
      · rename_i h1 h2 h3
        constructor
        · intro h; simp at h
        · intro h; exact absurd h.2.2.1 h3

theorem add_sub_cancel' (a b r : Index3) : a.add r = b ↔ r = b.sub a := by
  cases a; cases b; cases r
  simp only [Index3.add, Index3.sub, Index3.mk.injEq]
  omega

/-- The pairs stored for one site, counted. -/
theorem count_site_at (hok : CellOK cell nhop) (hl : valid.length = size d cell.length) (l : Loc)
    {k' : Nat} (hk' : valid[k']? = some true) (m fam : Nat) :
    ((neighbors d cell l).filterMap
      (entry (finalize d cell nhop valid) m fam)).count ⟨m, rank valid k'⟩
      = (hoppingsAt cell l.sub).count
          ⟨(locOf d k').idx.sub l.idx, (locOf d k').sub, fam, false⟩ := by
  have hin' : (locOf d k').In d cell.length :=
    locOf_in (by rw [← hl]; exact (List.getElem?_eq_some_iff.1 hk').1)
  unfold neighbors
  rw [List.filterMap_filterMap, List.count_filterMap, List.count]
  apply List.countP_congr
  intro h hm
  have htgt := (hok.target _ h hm).1
  simp only [beq_iff_eq]
  by_cases hb : inBounds d (l.idx.add h.rel) = true
  · simp only [hb, if_true, Option.bind_some, entry_eq_some]
    have hin := (inBounds_iff d _ h.toIdx cell.length htgt).1 hb
    obtain ⟨k'', hk1, hk2, hk3⟩ := hin.flat
    have hat : Site.at d (l.idx.add h.rel) h.toIdx
        = ⟨⟨l.idx.add h.rel, h.toIdx⟩, (k'' : Int)⟩ := by
      simp only [Site.at, hk2]
    rw [hat, finIndex_siteAt hl]
    constructor
    · rintro ⟨h1, h2, h3, h4⟩
      split at h1
      · rename_i hv
        rw [if_pos hv] at h4
        simp only [Int.toNat_natCast, Hopping.COO.mk.injEq, true_and] at h4
        have := rank_inj hk' hv h4
        subst this
        rw [hk3]
        obtain ⟨rel, ti, fi, cj⟩ := h
        simp only at *
        subst h2 h3
        congr 1
        exact (add_sub_cancel' _ _ _).1 rfl
      · omega
    · intro he
      subst he
      simp only at *
      have hloc : (⟨l.idx.add ((locOf d k').idx.sub l.idx), (locOf d k').sub⟩ : Loc)
          = locOf d k' := by
        rw [(add_sub_cancel' _ _ _).2 rfl]
      rw [hloc, flatIdx_locOf] at hk2
      have : k'' = k' := by omega
      subst this
      rw [if_pos hk']
      simp
  · simp only [hb, Bool.false_eq_true, if_false, Option.bind_none, reduceCtorEq, false_iff]
    intro he
    subst he
    apply hb
    simp only at *
    rw [(add_sub_cancel' _ _ _).2 rfl]
    exact (inBounds_iff d _ _ cell.length htgt).2 hin'

theorem count_site (hok : CellOK cell nhop) (hl : valid.length = size d cell.length) {k k' : Nat}
    (hk' : valid[k']? = some true) (m fam : Nat) :
    ((neighbors d cell (locOf d k)).filterMap
      (entry (finalize d cell nhop valid) m fam)).count ⟨m, rank valid k'⟩
      = (hoppingsAt cell (locOf d k).sub).count
          ⟨(locOf d k').idx.sub (locOf d k).idx, (locOf d k').sub, fam, false⟩ :=
  count_site_at hok hl (locOf d k) hk' m fam

theorem validPairs_nodup (valid : List Bool) : (validPairs valid).Nodup := by
  apply List.Nodup.of_map (·.2)
  rw [map_snd_validPairs]
  exact List.nodup_range

/-- The stored pairs between two valid sites, counted over the whole system. -/
theorem count_siteEntries (hok : CellOK cell nhop) (hl : valid.length = size d cell.length)
    {k k' : Nat} (hk : valid[k]? = some true) (hk' : valid[k']? = some true) (fam : Nat) :
    (siteEntries d cell (finalize d cell nhop valid) fam
      ((validPairs valid).map fun p => (siteAt d p.1, p.2))).count ⟨rank valid k, rank valid k'⟩
      = (hoppingsAt cell (locOf d k).sub).count
          ⟨(locOf d k').idx.sub (locOf d k).idx, (locOf d k').sub, fam, false⟩ := by
  unfold siteEntries
  rw [List.flatMap_map]
  rw [count_flatMap_unique _ _ _ (k, rank valid k) (mem_validPairs.2 ⟨hk, rfl⟩)
    (validPairs_nodup valid)]
  · exact count_site hok hl hk' _ _
  · intro q hq hne
    rw [List.count_eq_zero]
    intro hm
    obtain ⟨p, -, hp⟩ := List.mem_filterMap.1 hm
    have := (entry_eq_some.1 hp).2.2.2
    simp only [Hopping.COO.mk.injEq] at this
    obtain ⟨h1, h2⟩ := mem_validPairs.1 hq
    apply hne
    have : k = q.1 := rank_inj hk h1 (by rw [← h2]; exact this.1)
    rw [Prod.ext_iff]
    exact ⟨this.symm, by rw [h2, this]⟩

theorem mem_siteEntries (hok : CellOK cell nhop) (hl : valid.length = size d cell.length) (fam : Nat)
    (c : Hopping.COO) (h : c ∈ siteEntries d cell (finalize d cell nhop valid) fam
      ((validPairs valid).map fun p => (siteAt d p.1, p.2))) :
    ∃ k k' : Nat, valid[k]? = some true ∧ valid[k']? = some true ∧
      c = ⟨rank valid k, rank valid k'⟩ := by
  unfold siteEntries at h
  rw [List.flatMap_map] at h
  obtain ⟨q, hq, hm⟩ := List.mem_flatMap.1 h
  obtain ⟨h1, h2⟩ := mem_validPairs.1 hq
  obtain ⟨p, hp, hp'⟩ := List.mem_filterMap.1 hm
  obtain ⟨e1, -, -, e4⟩ := entry_eq_some.1 hp'
  obtain ⟨f1, f2, f3⟩ := mem_neighbors hp
  have hin := (inBounds_iff d _ p.2.toIdx cell.length (hok.target _ _ f1).1).1 f2
  obtain ⟨k'', hk1, hk2, hk3⟩ := hin.flat
  have hat : p.1 = ⟨⟨((siteAt d q.1).loc).idx.add p.2.rel, p.2.toIdx⟩, (k'' : Int)⟩ := by
    rw [f3]; simp only [Site.at, hk2]
  rw [hat, finIndex_siteAt hl] at e1 e4
  split at e1
  · rename_i hv
    rw [if_pos hv, Int.toNat_natCast] at e4
    exact ⟨q.1, k'', h1, hv, by rw [e4, h2]⟩
  · omega

end

/-! ## Reserved sizes -/

theorem length_siteEntries_le (d : Dims) (cell : List CellSite) (f : Finalized) (fam : Nat)
    (ps : List (Site × Nat)) :
    (siteEntries d cell f fam ps).length
      ≤ (ps.map fun p => (hoppingsAt cell p.1.loc.sub).countP
          (fun x => x.isConjugate = false ∧ x.familyId = fam)).sum := by
  induction ps with
  | nil => simp [siteEntries]
  | cons p ps ih =>
    unfold siteEntries at ih ⊢
    rw [List.flatMap_cons, List.length_append, List.map_cons, List.sum_cons]
    refine Nat.add_le_add ?_ ih
    unfold neighbors
    rw [List.filterMap_filterMap, List.length_filterMap_eq_countP]
    apply List.countP_mono_left
    intro h _ hs
    simp only at hs
    split at hs
    · simp only [Option.bind_some] at hs
      obtain ⟨c, hc⟩ := Option.isSome_iff_exists.1 hs
      obtain ⟨-, h2, h3, -⟩ := entry_eq_some.1 hc
      simp only at h2 h3
      exact decide_eq_true ⟨h2, h3⟩
    · simp at hs

theorem sum_validPairs (valid : List Bool) (g : Nat → Nat) :
    ((validPairs valid).map fun p => g p.1).sum
      = ((List.range valid.length).map fun k => if valid.getD k false = true then g k else 0).sum := by
  unfold validPairs
  rw [List.map_filterMap]
  induction List.range valid.length with
  | nil => rfl
  | cons k ks ih =>
    rw [List.filterMap_cons, List.map_cons, List.sum_cons, ← ih]
    by_cases h : valid.getD k false = true <;> simp only [h] <;> simp

theorem sum_range_block (valid : List Bool) (s n : Nat) (c : Nat) (h : s + n ≤ valid.length) :
    ((List.range n).map fun k => if valid.getD (s + k) false = true then c else 0).sum
      = c * ((valid.drop s).take n).count true := by
  induction n with
  | zero => simp
  | succ n ih =>
    have hlt : s + n < valid.length := by omega
    rw [List.range_succ, List.map_append, List.sum_append, ih (by omega), List.take_add_one,
      List.getElem?_drop, List.getElem?_eq_getElem hlt, List.count_append]
    simp only [List.map_cons, List.map_nil, List.sum_cons, List.sum_nil, Option.getD_some,
      Option.toList_some, Nat.mul_add, List.getD_eq_getElem?_getD, List.getElem?_eq_getElem hlt]
    rcases valid[s + n] with _ | _ <;> simp

theorem sum_blocks (valid : List Bool) (g : Nat → Nat) (block N : Nat) (hb : 0 < block)
    (h : N * block ≤ valid.length) :
    ((List.range (N * block)).map fun k => if valid.getD k false = true then g (k / block) else 0).sum
      = ((List.range N).map fun n => g n * validIn valid block n).sum := by
  induction N with
  | zero => simp
  | succ N ih =>
    have h1 : N * block + block ≤ valid.length := by
      calc N * block + block = (N + 1) * block := by ring
        _ ≤ _ := h
    rw [show (N + 1) * block = N * block + block by ring, List.range_add, List.map_append,
      List.sum_append, ih (by omega), List.range_succ, List.map_append, List.sum_append]
    congr 1
    rw [List.map_map]
    have : ∀ k ∈ List.range block, ((fun k => if valid.getD k false = true then g (k / block) else 0) ∘
        fun x => N * block + x) k = if valid.getD (N * block + k) false = true then g N else 0 := by
      intro k hk
      have hk := List.mem_range.1 hk
      simp only [Function.comp]
      rw [show (N * block + k) / block = N by
        rw [Nat.mul_comm, Nat.mul_add_div hb, Nat.div_eq_of_lt hk, Nat.add_zero]]
    rw [List.map_congr_left this, sum_range_block valid _ _ _ h1]
    simp [validIn]

theorem locOf_sub (d : Dims) (k : Nat) : (locOf d k).sub = k / d.prod := by
  simp only [locOf, Dims.prod, Nat.div_div_eq_div_mul]

theorem reserve_enough {d : Dims} {cell : List CellSite} {nhop : Nat} {valid : List Bool}
    (hl : valid.length = size d cell.length) (fam : Nat) (hf : fam < nhop) :
    ∃ n, (finalize d cell nhop valid).hoppingCounts[fam]? = some n ∧
      (siteEntries d cell (finalize d cell nhop valid) fam
        ((validPairs valid).map fun p => (siteAt d p.1, p.2))).length ≤ n := by
  have hl' : cell.length * d.prod = valid.length := by rw [hl, size, Nat.mul_comm]
  obtain ⟨-, -, h3⟩ := finLoop_eq valid d.prod 0 cell ⟨[], List.replicate nhop 0, 0⟩ (by
    rw [Nat.zero_add, hl'])
  unfold finalize at *
  rw [h3, foldl_addCounts _ _ fam 0 (by simp [hf])]
  refine ⟨_, rfl, ?_⟩
  rw [Nat.zero_add]
  refine Nat.le_trans (length_siteEntries_le _ _ _ _ _) ?_
  rw [List.map_map]
  have e1 : ((validPairs valid).map ((fun p : Site × Nat => (hoppingsAt cell p.1.loc.sub).countP
      (fun x => x.isConjugate = false ∧ x.familyId = fam)) ∘ fun p => (siteAt d p.1, p.2)))
      = (validPairs valid).map (fun p => (fun k => (fun n => (hoppingsAt cell n).countP
        (fun x => x.isConjugate = false ∧ x.familyId = fam)) (k / d.prod)) p.1) := by
    apply List.map_congr_left
    intro p _
    simp only [Function.comp, siteAt, locOf_sub]
  rw [e1, sum_validPairs valid (fun k => (fun n => (hoppingsAt cell n).countP
        (fun x => x.isConjugate = false ∧ x.familyId = fam)) (k / d.prod))]
  rcases Nat.eq_zero_or_pos d.prod with hz | hpos
  · rw [hz, Nat.mul_zero] at hl'
    rw [← hl']
    simp
  · rw [← hl', sum_blocks valid (fun n => (hoppingsAt cell n).countP
        (fun x => x.isConjugate = false ∧ x.familyId = fam)) d.prod cell.length hpos (by omega)]
    apply Nat.le_of_eq
    congr 1
    apply List.ext_getElem?
    intro i
    simp only [List.getElem?_map, List.getElem?_mapIdx, Nat.zero_add]
    rcases Nat.lt_or_ge i cell.length with hi | hi
    · rw [List.getElem?_range hi, List.getElem?_eq_getElem hi]
      simp [hoppingsAt, List.getElem?_eq_getElem hi]
    · rw [List.getElem?_eq_none (by simpa using hi), List.getElem?_eq_none (by simpa using hi)]
      rfl

/-! ## The sublattice table -/

/-- Strict order of blocks by (orbitals, id). -/
def blockLt (a b : Sublat.Elem) : Prop := a.numOrb < b.numOrb ∨ (a.numOrb = b.numOrb ∧ a.id < b.id)

theorem foldl_add_sorted (nf : Int → Nat) (ops : List Sublat.Spec.AddOp) (t : Sublat.Table)
    (ht : t.Pairwise blockLt)
    (hto : ∀ e ∈ t, ∀ o ∈ ops, e.numOrb < o.norb ∨ (e.numOrb = o.norb ∧ e.id ≤ o.id))
    (hops : ops.Pairwise (fun a b => a.norb < b.norb ∨ (a.norb = b.norb ∧ a.id ≤ b.id)))
    (hnt : ∀ e ∈ t, e.numOrb = nf e.id) (hno : ∀ o ∈ ops, o.norb = nf o.id) :
    (ops.foldl (fun t o => Sublat.add t o.id o.norb o.count) t).Pairwise blockLt ∧
    ∀ e ∈ ops.foldl (fun t o => Sublat.add t o.id o.norb o.count) t, e.numOrb = nf e.id := by
  induction ops generalizing t with
  | nil => exact ⟨ht, hnt⟩
  | cons o ops ih =>
    rw [List.foldl_cons]
    rw [List.pairwise_cons] at hops
    have ho := hno o List.mem_cons_self
    have hno' : ∀ o ∈ ops, o.norb = nf o.id := fun x hx => hno x (List.mem_cons_of_mem _ hx)
    rcases Sublat.add_cases t o.id o.norb o.count with ⟨h, hlast⟩ | ⟨pre, back, h1, h2, h3⟩
    · rw [h]
      have hnew : ∀ e ∈ t, blockLt e ⟨o.id, o.count, o.norb⟩ := by
        rcases List.eq_nil_or_concat t with he | ⟨pre, back, he⟩
        · subst he; simp
        · rw [List.concat_eq_append] at he
          have hb : blockLt back ⟨o.id, o.count, o.norb⟩ := by
            have hbm : back ∈ t := by rw [he]; simp
            have hne := hlast back (by rw [he]; simp)
            rcases hto back hbm o List.mem_cons_self with hc | ⟨hc1, hc2⟩
            · exact .inl hc
            · exact .inr ⟨hc1, by simp only; omega⟩
          intro e hem
          rw [he, List.mem_append, List.mem_singleton] at hem
          rcases hem with hem | rfl
          · have : blockLt e back := by
              rw [he, List.pairwise_append] at ht
              exact ht.2.2 e hem back (by simp)
            unfold blockLt at *
            simp only at *
            omega
          · exact hb
      refine ih (t ++ [⟨o.id, o.count, o.norb⟩]) ?_ ?_ hops.2 ?_ hno'
      · rw [List.pairwise_append]
        exact ⟨ht, by simp, fun a ha b hb => by
          rw [List.mem_singleton] at hb; subst hb; exact hnew a ha⟩
      · intro e he o' ho'
        rw [List.mem_append, List.mem_singleton] at he
        rcases he with he | rfl
        · exact hto e he o' (List.mem_cons_of_mem _ ho')
        · exact hops.1 o' ho'
      · intro e he
        rw [List.mem_append, List.mem_singleton] at he
        rcases he with he | rfl
        · exact hnt e he
        · exact ho
    · rw [h3]
      subst h1
      refine ih _ ?_ ?_ hops.2 ?_ hno'
      · rw [List.pairwise_append] at ht ⊢
        refine ⟨ht.1, by simp, fun a ha b hb => ?_⟩
        rw [List.mem_singleton] at hb
        subst hb
        exact ht.2.2 a ha back (by simp)
      · intro e he o' ho'
        rw [List.mem_append, List.mem_singleton] at he
        rcases he with he | rfl
        · exact hto e (by simp [he]) o' (List.mem_cons_of_mem _ ho')
        · exact hto back (by simp) o' (List.mem_cons_of_mem _ ho')
      · intro e he
        rw [List.mem_append, List.mem_singleton] at he
        rcases he with he | rfl
        · exact hnt e (by simp [he])
        · exact hnt back (by simp)

theorem runAdds_sorted (ops : List Sublat.Spec.AddOp)
    (hops : ops.Pairwise (fun a b => a.norb < b.norb ∨ (a.norb = b.norb ∧ a.id ≤ b.id)))
    (hc : Sublat.Spec.Consistent ops) :
    ((Sublat.runAdds ops).map (·.id)).Nodup ∧
    ((Sublat.runAdds ops).map (·.numOrb)).Pairwise (· ≤ ·) := by
  obtain ⟨nf, hnf⟩ := Sublat.consistent_fun ops hc
  obtain ⟨h1, h2⟩ := foldl_add_sorted nf ops [] (by simp) (by simp) hops (by simp) hnf
  constructor
  · unfold Sublat.runAdds List.Nodup
    rw [List.pairwise_map]
    refine List.Pairwise.imp_of_mem ?_ h1
    intro a b ha hb hlt hid
    have e1 := h2 a ha
    have e2 := h2 b hb
    rw [hid] at e1
    unfold blockLt at hlt
    omega
  · unfold Sublat.runAdds
    rw [List.pairwise_map]
    refine h1.imp ?_
    intro a b hlt
    unfold blockLt at hlt
    omega

end Verif.Foundation
