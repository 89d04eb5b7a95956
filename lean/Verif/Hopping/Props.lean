import Verif.Hopping.Lemmas

/-!
# Properties C04 (hopping blocks), C05, C06, C07 and C47
-/

namespace Verif.Hopping

open Spec HoppingBlocks

/-! ## C04, hopping blocks -/

/-- C04 (hoppings).  The serialised arrays rebuild the same object. -/
theorem C04_hoppings_roundtrip (h : HoppingBlocks) :
    deserialize h.numSites h.serialize h.nameMap = .ok h := by
  have key : ∀ bs : List (List COO),
      blocksOfArrays (bs.map fun b => (b.map (·.row), b.map (·.col))) = .ok bs := by
    intro bs
    induction bs with
    | nil => rfl
    | cons b bs ih =>
      have hz : List.zipWith COO.mk (b.map (·.row)) (b.map (·.col)) = b := by
        induction b with
        | nil => rfl
        | cons c b ihb => simp [ihb]
      simp only [List.map_cons, blocksOfArrays, blockOfArrays, List.length_map, Nat.le_refl,
        if_true, hz, ih]
      rfl
  simp only [deserialize, serialize, key]
  rfl

/-- C04 (CSR).  If all indices are inside the system and no site pair is stored twice (in the same
orientation, over all families), the export succeeds, the rows are sorted by column, and row `i`
contains column `j` with value `f` exactly when family `f` stores the pair `(i, j)`; the number of
stored entries is the number of hoppings. -/
theorem C04_tocsr (h : HoppingBlocks) (hin : InRange h.numSites h.blocks.flatten)
    (hnd : h.blocks.flatten.Nodup) :
    ∃ m, h.tocsr = .ok m ∧ m.length = h.numSites ∧
      (∀ r ∈ m, (r.map (·.1)).Pairwise (· < ·)) ∧
      (∀ i j f, (∃ r, m[i]? = some r ∧ (j, f) ∈ r) ↔
        ∃ b, h.blocks[f]? = some b ∧ (⟨i, j⟩ : COO) ∈ b) ∧
      (m.map List.length).sum = h.nnz := by
  have hempty : ∀ i, csrEntries (List.replicate h.numSites ([] : List (Nat × Nat))) i = [] := by
    intro i
    simp only [csrEntries, List.getElem?_replicate]
    split <;> rfl
  obtain ⟨m, e, l, s, p⟩ := csrBlocks_ok h.numSites 0 h.blocks (List.replicate h.numSites [])
    (by intro r hr; rw [(List.mem_replicate.1 hr).2]; simp [RowSorted]) (by simp) hin hnd
    (by intro c _; rw [hempty]; simp)
  have hmem : ∀ i j f, (j, f) ∈ csrEntries m i ↔ ∃ b, h.blocks[f]? = some b ∧ (⟨i, j⟩ : COO) ∈ b := by
    intro i j f
    rw [(p i).mem_iff, hempty, List.append_nil]
    simp only [List.mem_flatMap, List.mem_map, List.mem_filter]
    constructor
    · rintro ⟨⟨b, g⟩, hb, c, ⟨hc, hci⟩, hcj⟩
      simp only [Prod.mk.injEq] at hcj
      obtain ⟨rfl, rfl⟩ := hcj
      refine ⟨b, List.mem_zipIdx_iff_getElem?.1 hb, ?_⟩
      have : c.row = i := by simpa using hci
      subst this; exact hc
    · rintro ⟨b, hb, hc⟩
      exact ⟨(b, f), List.mem_zipIdx_iff_getElem?.2 hb, ⟨i, j⟩, ⟨hc, by simp⟩, rfl⟩
  refine ⟨m, e, l, s, ?_, ?_⟩
  · intro i j f
    rw [← hmem i j f]
    constructor
    · rintro ⟨r, hr, hjf⟩; simpa [csrEntries, hr] using hjf
    · intro hjf
      rcases hq : m[i]? with _ | r
      · simp [csrEntries, hq] at hjf
      · exact ⟨r, rfl, by simpa [csrEntries, hq] using hjf⟩
  · have hlen : ∀ i, (csrEntries m i).length = h.blocks.flatten.countP (fun c => c.row = i) := by
      intro i
      rw [(p i).length_eq, hempty, List.append_nil]
      have key : ∀ (bs : List (List COO)) (k : Nat),
          ((bs.zipIdx k).flatMap fun p =>
            (p.1.filter (fun c => c.row = i)).map (fun c => (c.col, p.2))).length
            = bs.flatten.countP (fun c => c.row = i) := by
        intro bs
        induction bs with
        | nil => intro k; rfl
        | cons b bs ih =>
          intro k
          simp only [List.zipIdx_cons, List.flatMap_cons, List.length_append, List.length_map, ih,
            List.flatten_cons, List.countP_append]
          rw [List.countP_eq_length_filter (l := b)]
      exact key _ _
    have hsum : (m.map List.length).sum
        = ((List.range m.length).map fun i => (csrEntries m i).length).sum := by
      congr 1
      apply List.ext_getElem
      · simp
      · intro i h1 h2
        simp only [List.length_map] at h1
        simp [csrEntries, List.getElem?_eq_getElem h1]
    rw [hsum, l, nnz_eq]
    have : (fun i => (csrEntries m i).length)
        = fun i => h.blocks.flatten.countP (fun c => c.row = i) := funext hlen
    rw [this]
    exact sum_countP_eq _ (·.row) _ (fun c hc => (hin c hc).1)

/-- C04 (CSR), outside the hypotheses: a pair stored by two families is inserted twice, which is
undefined behaviour. -/
theorem C04_tocsr_duplicate_ub :
    (HoppingBlocks.mk 2 [[⟨0, 1⟩], [⟨0, 1⟩]] [("a", 0), ("b", 1)]).tocsr = .ub := by decide

example : InRange 3 [[⟨0, 1⟩, ⟨2, 0⟩], [⟨1, 2⟩]].flatten ∧
    ([[⟨0, 1⟩, ⟨2, 0⟩], [⟨1, 2⟩]].flatten : List COO).Nodup ∧
    (HoppingBlocks.mk 3 [[⟨0, 1⟩, ⟨2, 0⟩], [⟨1, 2⟩]] [("a", 0), ("b", 1)]).tocsr
      = .ok [[(1, 0)], [(2, 1)], [(0, 0)]] := by
  refine ⟨?_, by decide, by decide⟩
  intro c hc; simp at hc; rcases hc with rfl | rfl | rfl <;> simp

/-! ## C05 -/

/-- C05.  With index arrays of equal length and an existing family, `append` succeeds; the family's
list is then strictly increasing, and contains exactly the old pairs and, for each generated pair,
the pair with the lower index first; other families and the number of sites are unchanged. -/
theorem C05_append (h : HoppingBlocks) (f : Nat) (rows cols : List Nat) (b : List COO)
    (hl : rows.length = cols.length) (hb : h.blocks[f]? = some b) :
    ∃ h' b', h.append f rows cols = (h', .ok ()) ∧ h'.blocks[f]? = some b' ∧
      b'.Pairwise Lt ∧
      (∀ c, c ∈ b' ↔ c ∈ b ∨ ∃ i m n : Nat, rows[i]? = some m ∧ cols[i]? = some n ∧
        c = ⟨min m n, max m n⟩) ∧
      (∀ g, g ≠ f → h'.blocks[g]? = h.blocks[g]?) ∧
      h'.numSites = h.numSites ∧ h'.nameMap = h.nameMap := by
  have hf : f < h.blocks.length := (List.getElem?_eq_some_iff.1 hb).1
  refine ⟨{ h with blocks := h.blocks.modify f (fun b => appendBlock b rows cols) },
    appendBlock b rows cols, ?_, ?_, pairwise_appendBlock b rows cols,
    mem_appendBlock b rows cols, ?_, rfl, rfl⟩
  · rw [append, if_neg (by omega), if_pos hf]
  · simp [List.getElem?_modify, hb]
  · intro g hg
    simp [List.getElem?_modify, Ne.symm hg]

/-- C05, each unordered pair once.  The full claim (for every existing list) is false, see
`C05_duplicate_bond_witness`; this is the part for a family whose stored pairs already have the
lower index first.  Then after `append` all pairs have the lower index first and no two of them
connect the same sites. -/
theorem C05_unordered_unique_partial (b : List COO) (rows cols : List Nat)
    (hu : ∀ c ∈ b, Upper c) :
    (∀ c ∈ appendBlock b rows cols, Upper c) ∧
    (appendBlock b rows cols).Pairwise (fun x y => ¬ SameBond x y) := by
  have hup : ∀ c ∈ appendBlock b rows cols, Upper c := by
    intro c hc
    rcases (mem_appendBlock b rows cols c).1 hc with hc | ⟨i, m, n, -, -, rfl⟩
    · exact hu c hc
    · simp only [Upper]; omega
  refine ⟨hup, ?_⟩
  have hp := pairwise_appendBlock b rows cols
  refine List.Pairwise.imp_of_mem ?_ hp
  intro x y hx hy hlt hs
  have h1 := hup x hx
  have h2 := hup y hy
  simp only [Upper] at h1 h2
  simp only [Lt] at hlt
  rcases hs with rfl | ⟨h3, h4⟩ <;> omega

/-- C05, repetition.  Appending the same pairs again, or with the two ends swapped, changes
nothing. -/
theorem C05_append_idempotent (b : List COO) (rows cols : List Nat) :
    appendBlock (appendBlock b rows cols) rows cols = appendBlock b rows cols ∧
    appendBlock (appendBlock b rows cols) cols rows = appendBlock b rows cols := by
  constructor
  · apply eq_of_pairwise_lt _ _ (pairwise_appendBlock _ _ _) (pairwise_appendBlock _ _ _)
    intro x
    rw [mem_appendBlock]
    constructor
    · rintro (h | h)
      · exact h
      · rw [mem_appendBlock]; exact Or.inr h
    · exact Or.inl
  · apply eq_of_pairwise_lt _ _ (pairwise_appendBlock _ _ _) (pairwise_appendBlock _ _ _)
    intro x
    rw [mem_appendBlock]
    constructor
    · rintro (h | ⟨i, m, n, h1, h2, h3⟩)
      · exact h
      · rw [mem_appendBlock]
        exact Or.inr ⟨i, n, m, h2, h1, by rw [h3, Nat.min_comm, Nat.max_comm]⟩
    · exact Or.inl

/-- C05, rejection.  Arrays of different length are rejected and the object is unchanged; a family
id that does not exist is undefined behaviour. -/
theorem C05_append_rejects (h : HoppingBlocks) (f : Nat) (rows cols : List Nat) :
    (rows.length ≠ cols.length → h.append f rows cols = (h, .err .runtimeError)) ∧
    (rows.length = cols.length → h.blocks.length ≤ f → (h.append f rows cols).2 = .ub) := by
  constructor
  · intro hl; rw [append, if_pos hl]
  · intro hl hf; rw [append, if_neg (by omega), if_neg (by omega)]

/-- C05 is false for a family that stores a pair with the higher index first (the system builder
does so for hoppings that point to an earlier site, System.cpp:118-120): the generated pair is not
recognised as the same bond and the bond is stored twice. -/
theorem C05_duplicate_bond_witness :
    (HoppingBlocks.mk 2 [[⟨1, 0⟩]] [("a", 0)]).append 0 [1] [0]
      = (⟨2, [[⟨0, 1⟩, ⟨1, 0⟩]], [("a", 0)]⟩, .ok ()) ∧
    SameBond ⟨0, 1⟩ ⟨1, 0⟩ := by
  constructor
  · decide
  · simp [SameBond]

/-- C05: nothing checks that generated indices exist: an index beyond the system is stored. -/
theorem C05_out_of_range_witness :
    ((HoppingBlocks.mk 2 [[]] [("a", 0)]).append 0 [0] [7]).1.countNeighbors = .ub := by decide

example : (HoppingBlocks.mk 4 [[⟨0, 1⟩], [⟨2, 3⟩]] [("a", 0), ("b", 1)]).append 1 [3, 1, 2] [2, 0, 3]
    = (⟨4, [[⟨0, 1⟩], [⟨0, 1⟩, ⟨2, 3⟩]], [("a", 0), ("b", 1)]⟩, .ok ()) := by decide

/-! ## C06 -/

/-- C06.  With all indices inside the system, `count_neighbors` returns one number per site: the
number of hopping ends at that site, i.e. the number of hoppings that touch it when no hopping
connects a site to itself. -/
theorem C06_count_neighbors (h : HoppingBlocks) (hin : InRange h.numSites h.blocks.flatten) :
    ∃ counts, h.countNeighbors = .ok counts ∧ counts.length = h.numSites ∧
      (∀ i, i < h.numSites → counts[i]? = some (degree h.blocks.flatten i)) ∧
      ((∀ c ∈ h.blocks.flatten, c.row ≠ c.col) →
        ∀ i, i < h.numSites → counts[i]? = some (touching h.blocks.flatten i)) ∧
      counts.sum = 2 * h.nnz := by
  obtain ⟨out, e, l, p⟩ := countBlocks_ok h.blocks (List.replicate h.numSites 0) (by simpa using hin)
  rw [List.length_replicate] at l
  have hdeg : ∀ i, i < h.numSites → out[i]? = some (degree h.blocks.flatten i) := by
    intro i hi
    rw [p i, List.getElem?_replicate, if_pos hi]; simp
  refine ⟨out, e, l, hdeg, ?_, ?_⟩
  · intro hself i hi
    rw [hdeg i hi]
    congr 1
    clear hdeg e p hin
    generalize h.blocks.flatten = cs at hself
    induction cs with
    | nil => rfl
    | cons c cs ih =>
      have := ih (fun x hx => hself x (by simp [hx]))
      have hc := hself c (by simp)
      simp only [degree, touching, List.countP_cons, decide_eq_true_eq] at this ⊢
      split <;> split <;> split <;> omega
  · have hsum : out.sum = ((List.range h.numSites).map fun i => degree h.blocks.flatten i).sum := by
      congr 1
      apply List.ext_getElem
      · simp [l]
      · intro i h1 h2
        have := hdeg i (by omega)
        rw [List.getElem?_eq_getElem h1] at this
        simpa using this
    rw [hsum, nnz_eq]
    have h1 := sum_countP_eq h.blocks.flatten (·.row) h.numSites (fun c hc => (hin c hc).1)
    have h2 := sum_countP_eq h.blocks.flatten (·.col) h.numSites (fun c hc => (hin c hc).2)
    have hadd : ∀ (n : Nat) (f g : Nat → Nat), ((List.range n).map fun i => f i + g i).sum
        = ((List.range n).map f).sum + ((List.range n).map g).sum := by
      intro n f g
      induction n with
      | zero => rfl
      | succ n ih => simp only [List.range_succ, List.map_append, List.sum_append, ih]; simp; omega
    simp only [degree]
    rw [hadd, h1, h2]; omega

/-- C06, guard.  If some stored index is outside the system the counters are written out of range. -/
theorem C06_out_of_range_ub (h : HoppingBlocks) (hin : ¬ InRange h.numSites h.blocks.flatten) :
    h.countNeighbors = .ub :=
  countBlocks_ub _ _ (by simpa using hin)

example : InRange 3 ([[⟨0, 1⟩, ⟨2, 0⟩]].flatten : List COO) ∧
    (HoppingBlocks.mk 3 [[⟨0, 1⟩, ⟨2, 0⟩]] [("a", 0)]).countNeighbors = .ok [2, 1, 1] := by
  refine ⟨?_, by decide⟩
  intro c hc; simp at hc; rcases hc with rfl | rfl <;> simp

/-! ## C07 -/

/-- C07, exactly when.  `filter` keeps exactly the hoppings between surviving sites, but in the old
numbering.  So the result is the correct one (hoppings between survivors in the new numbering)
if and only if no end of a surviving hopping changes its number. -/
theorem C07_filter_correct_iff (h : HoppingBlocks) (keep : List Bool)
    (hin : InRange keep.length h.blocks.flatten) :
    ∃ h', h.filter keep = .ok h' ∧ h'.numSites = keep.count true ∧
      (h'.blocks = h.blocks.map (survivors keep) ↔
        ∀ c ∈ h.blocks.flatten, keep[c.row]? = some true → keep[c.col]? = some true →
          newIndex keep c.row = c.row ∧ newIndex keep c.col = c.col) := by
  have hall : h.blocks.all (fun b => b.all fun c =>
      decide (c.row < keep.length ∧ c.col < keep.length)) = true := by
    rw [List.all_eq_true]
    intro b hb
    rw [List.all_eq_true]
    intro c hc
    exact decide_eq_true (hin c (List.mem_flatten.2 ⟨b, hb, hc⟩))
  refine ⟨_, by rw [HoppingBlocks.filter, if_pos hall], rfl, ?_⟩
  simp only []
  have hblock : ∀ b : List COO,
      (b.filter (fun c => keep.getD c.row false && keep.getD c.col false) = survivors keep b ↔
        ∀ c ∈ b, keep[c.row]? = some true → keep[c.col]? = some true →
          newIndex keep c.row = c.row ∧ newIndex keep c.col = c.col) := by
    intro b
    induction b with
    | nil => simp [survivors]
    | cons c b ih =>
      by_cases hk : keep[c.row]? = some true ∧ keep[c.col]? = some true
      · have h1 : (keep.getD c.row false && keep.getD c.col false) = true := by
          rw [Bool.and_eq_true, getD_eq_true, getD_eq_true]; exact hk
        have h2 : survivors keep (c :: b)
            = ⟨newIndex keep c.row, newIndex keep c.col⟩ :: survivors keep b := by
          simp [survivors, hk]
        rw [List.filter_cons_of_pos (by exact h1), h2, List.cons.injEq, ih]
        constructor
        · rintro ⟨heq, hrest⟩ x hx
          rcases List.mem_cons.1 hx with rfl | hx
          · intro _ _
            have e1 := congrArg COO.row heq
            have e2 := congrArg COO.col heq
            exact ⟨e1.symm, e2.symm⟩
          · exact hrest x hx
        · intro hx
          have := hx c (by simp) hk.1 hk.2
          refine ⟨?_, fun x hx' => hx x (by simp [hx'])⟩
          rw [this.1, this.2]
      · have h1 : ¬ (keep.getD c.row false && keep.getD c.col false) = true := by
          rw [Bool.and_eq_true, getD_eq_true, getD_eq_true]; exact hk
        have h2 : survivors keep (c :: b) = survivors keep b := by
          simp [survivors, hk]
        rw [List.filter_cons_of_neg (by exact h1), h2, ih]
        constructor
        · intro hrest x hx h3 h4
          rcases List.mem_cons.1 hx with rfl | hx
          · exact absurd ⟨h3, h4⟩ hk
          · exact hrest x hx h3 h4
        · intro hx x hx'; exact hx x (by simp [hx'])
  have hb2 : ∀ bs : List (List COO),
      (bs.map (fun b => b.filter fun c => keep.getD c.row false && keep.getD c.col false)
        = bs.map (survivors keep) ↔
      ∀ c ∈ bs.flatten, keep[c.row]? = some true → keep[c.col]? = some true →
          newIndex keep c.row = c.row ∧ newIndex keep c.col = c.col) := by
    intro bs
    induction bs with
    | nil => simp
    | cons b bs ih =>
      rw [List.map_cons, List.map_cons, List.cons.injEq, hblock, ih]
      constructor
      · rintro ⟨h1, h2⟩ c hc
        rw [List.flatten_cons, List.mem_append] at hc
        rcases hc with hc | hc
        · exact h1 c hc
        · exact h2 c hc
      · intro hx
        exact ⟨fun c hc => hx c (by simp [hc]), fun c hc => hx c (by
          rw [List.flatten_cons, List.mem_append]; exact Or.inr hc)⟩
  exact hb2 h.blocks

theorem filterAll_map (keep : List Bool) (r : HoppingBlocks → HoppingBlocks) :
    ∀ bs : List HoppingBlocks, (∀ b ∈ bs, b.filter keep = .ok (r b)) → filterAll keep bs = .ok (bs.map r)
  | [], _ => rfl
  | b :: bs, h => by
    rw [filterAll, h b (by simp), Res.bind_ok, filterAll_map keep r bs fun x hx => h x (by simp [hx])]
    rfl

/-- C07 for the whole system, exactly when.  The hoppings and the boundaries of a periodic system are all reduced to the
hoppings between surviving sites; they are all correct if and only if no end of a surviving hopping changes its
number. -/
theorem C07_system_correct_iff {P : Type u} (s : System P) (hne : s.isValid ≠ [])
    (hsub : Sublat.decompressedSize s.sublattices = s.isValid.length)
    (hin : ∀ h ∈ s.hoppings :: s.boundaries, InRange s.isValid.length h.blocks.flatten) :
    ∃ s', removeInvalid s = .ok s' ∧ s'.positions = maskFilter s.isValid s.positions ∧ s'.isValid = [] ∧
      (∀ h ∈ s'.hoppings :: s'.boundaries, h.numSites = s.isValid.count true) ∧
      ((s'.hoppings :: s'.boundaries).map (·.blocks) =
          (s.hoppings :: s.boundaries).map (fun h => h.blocks.map (survivors s.isValid)) ↔
        ∀ h ∈ s.hoppings :: s.boundaries, ∀ c ∈ h.blocks.flatten,
          s.isValid[c.row]? = some true → s.isValid[c.col]? = some true →
            newIndex s.isValid c.row = c.row ∧ newIndex s.isValid c.col = c.col) := by
  have hr : ∀ h : HoppingBlocks, ∃ h', h ∈ s.hoppings :: s.boundaries → (h.filter s.isValid = .ok h' ∧
      h'.numSites = s.isValid.count true ∧ (h'.blocks = h.blocks.map (survivors s.isValid) ↔
        ∀ c ∈ h.blocks.flatten, s.isValid[c.row]? = some true → s.isValid[c.col]? = some true →
          newIndex s.isValid c.row = c.row ∧ newIndex s.isValid c.col = c.col)) := by
    intro h
    by_cases hm : h ∈ s.hoppings :: s.boundaries
    · obtain ⟨h', e⟩ := C07_filter_correct_iff h s.isValid (hin h hm)
      exact ⟨h', fun _ => e⟩
    · exact ⟨h, fun x => absurd x hm⟩
  choose r hr using hr
  have e1 := Sublat.filter_ok s.sublattices s.isValid (by omega)
  have e2 := (hr s.hoppings (by simp)).1
  have e3 := filterAll_map s.isValid r s.boundaries fun b hb => (hr b (by simp [hb])).1
  refine ⟨_, by rw [removeInvalid, if_neg (by simpa using hne), e1, e2, e3], rfl, rfl, ?_, ?_⟩
  · intro h hh
    rcases List.mem_cons.1 hh with rfl | hh
    · exact (hr s.hoppings (by simp)).2.1
    · obtain ⟨b, hb, rfl⟩ := List.mem_map.1 hh
      exact (hr b (by simp [hb])).2.1
  · rw [← List.map_cons (f := r), List.map_map, List.map_inj_left]
    exact forall₂_congr fun h hh => (hr h hh).2.2

/-- A periodic chain of three sites of which the last is removed. -/
example : ∃ s' : System Nat, removeInvalid (P := Nat)
      ⟨[10, 11, 12], [⟨0, 3, 1⟩], ⟨3, [[⟨0, 1⟩, ⟨1, 2⟩]], [("t", 0)]⟩, [⟨3, [[⟨2, 0⟩, ⟨0, 0⟩]], [("t", 0)]⟩],
        [true, true, false]⟩ = .ok s' ∧ s'.hoppings.blocks = [[⟨0, 1⟩]] ∧ s'.boundaries.map (·.blocks) = [[[⟨0, 0⟩]]] :=
  ⟨⟨[10, 11], [⟨0, 2, 1⟩], ⟨2, [[⟨0, 1⟩]], [("t", 0)]⟩, [⟨2, [[⟨0, 0⟩]], [("t", 0)]⟩], []⟩, by rfl, rfl, rfl⟩

/-- C07, the provable part.  The full statement (for every set of removed sites) is false, see
`C07_witness`.  When all removed sites come after all surviving ones, the surviving hoppings are
correct and every stored index is below the new number of sites. -/
theorem C07_suffix_removed_partial (h : HoppingBlocks) (a r : Nat)
    (hin : InRange (a + r) h.blocks.flatten) :
    ∃ h', h.filter (List.replicate a true ++ List.replicate r false) = .ok h' ∧
      h'.numSites = a ∧
      h'.blocks = h.blocks.map (survivors (List.replicate a true ++ List.replicate r false)) ∧
      InRange h'.numSites h'.blocks.flatten := by
  obtain ⟨h', e, n, i⟩ := C07_filter_correct_iff h (List.replicate a true ++ List.replicate r false)
    (by simpa using hin)
  have hkept : ∀ k : Nat, (List.replicate a true ++ List.replicate r false)[k]? = some true →
      k < a ∧ newIndex (List.replicate a true ++ List.replicate r false) k = k := by
    intro k hk
    have hka : k < a := by
      by_contra hge
      rw [List.getElem?_append_right (by simpa using hge)] at hk
      simp [List.getElem?_replicate] at hk
    refine ⟨hka, ?_⟩
    rw [newIndex, List.take_append_of_le_length (by simp; omega), List.take_replicate,
      Nat.min_eq_left (by omega)]
    simp
  have hcount : (List.replicate a true ++ List.replicate r false).count true = a := by
    simp [List.count_replicate]
  have hblocks := i.2 (fun c _ h1 h2 => ⟨(hkept _ h1).2, (hkept _ h2).2⟩)
  refine ⟨h', e, by rw [n, hcount], hblocks, ?_⟩
  rw [n, hcount, hblocks]
  intro c hc
  obtain ⟨l, hl, hcl⟩ := List.mem_flatten.1 hc
  obtain ⟨b, -, rfl⟩ := List.mem_map.1 hl
  simp only [survivors, List.mem_filterMap] at hcl
  obtain ⟨x, -, hx⟩ := hcl
  split at hx
  · rename_i hk
    cases hx
    have h1 := hkept _ hk.1
    have h2 := hkept _ hk.2
    simp only []
    omega
  · cases hx

/-- C07 is false in general: removing site 0 of three leaves the hopping `(1, 2)` in a system with
two sites, instead of `(0, 1)`; counting neighbours then writes out of range. -/
theorem C07_witness :
    let s : System Nat := ⟨[10, 11, 12], [⟨0, 3, 1⟩], ⟨3, [[⟨0, 1⟩, ⟨1, 2⟩]], [("t", 0)]⟩, [],
      [false, true, true]⟩
    (∃ s', removeInvalid s = .ok s' ∧ s'.positions = [11, 12] ∧
      s'.hoppings = ⟨2, [[⟨1, 2⟩]], [("t", 0)]⟩ ∧ s'.hoppings.countNeighbors = .ub) ∧
    survivors s.isValid [⟨0, 1⟩, ⟨1, 2⟩] = [⟨0, 1⟩] := by
  refine ⟨⟨⟨[11, 12], [⟨0, 2, 1⟩], ⟨2, [[⟨1, 2⟩]], [("t", 0)]⟩, [], []⟩, rfl, rfl, rfl, ?_⟩, ?_⟩ <;>
    decide

example : InRange (2 + 1) ([[⟨0, 1⟩, ⟨1, 2⟩]].flatten : List COO) ∧
    (HoppingBlocks.mk 3 [[⟨0, 1⟩, ⟨1, 2⟩]] [("t", 0)]).filter [true, true, false]
      = .ok ⟨2, [[⟨0, 1⟩]], [("t", 0)]⟩ := by
  refine ⟨?_, by decide⟩
  intro c hc; simp at hc; rcases hc with rfl | rfl <;> simp

/-! ## C47 -/

/-- The parts of a system agree on the number of sites. -/
def Coherent {P : Type u} (s : System P) : Prop :=
  Sublat.decompressedSize s.sublattices = s.positions.length ∧
  s.hoppings.numSites = s.positions.length ∧
  (s.isValid = [] ∨ s.isValid.length = s.positions.length)

theorem length_maskFilter_pos {P : Type u} (ks : List Bool) (xs : List P)
    (h : ks.length = xs.length) : (maskFilter ks xs).length = ks.count true :=
  Sublat.length_maskFilter_eq ks xs h

theorem removeInvalid_coherent {P : Type u} (s s' : System P) (h : Coherent s)
    (he : removeInvalid s = .ok s') : Coherent s' ∧ s'.isValid = [] := by
  obtain ⟨h1, h2, h3⟩ := h
  unfold removeInvalid at he
  split at he
  · rename_i h0
    cases he
    have : s.isValid = [] := List.length_eq_zero_iff.1 h0
    exact ⟨⟨h1, h2, Or.inl this⟩, this⟩
  · rename_i h0
    have hlen : s.isValid.length = s.positions.length := by
      rcases h3 with h3 | h3
      · simp [h3] at h0
      · exact h3
    split at he
    · rename_i sub hop bds e1 e2 e3
      cases he
      refine ⟨⟨?_, ?_, Or.inl rfl⟩, rfl⟩
      · rw [Sublat.filter_ok _ _ (by omega)] at e1
        cases e1
        rw [← Sublat.length_tableLabels, Sublat.tableLabels_filterCore _ _ _
          (by rw [← Sublat.decompressedSize_eq]; omega)]
        simp only [List.drop_zero]
        rw [← Sublat.decompressedSize_eq, h1, ← hlen, List.take_length]
        rw [length_maskFilter_pos _ _ hlen, length_maskFilter_pos]
        rw [hlen, Sublat.length_tableLabels, h1]
      · simp only [HoppingBlocks.filter] at e2
        split at e2
        · cases e2
          simp only []
          rw [length_maskFilter_pos _ _ hlen]
        · cases e2
    · cases he

theorem length_overwrite {α : Type u} (old new : List α) :
    (overwrite old new).length = old.length := by
  simp only [overwrite, List.length_append, List.length_take, List.length_drop]; omega

/-- C47, one modifier. -/
theorem applyModifier_coherent {P : Type u} (m : Modifier P) (s s' : System P) (h : Coherent s)
    (he : applyModifier m s = .ok s') : Coherent s' := by
  cases m with
  | siteState f k =>
    simp only [applyModifier] at he
    split at he
    · cases he
    · cases he
      obtain ⟨h1, h2, h3⟩ := h
      refine ⟨h1, h2, Or.inr ?_⟩
      simp only [length_overwrite]
      split
      · simp
      · rename_i h0
        rcases h3 with h3 | h3
        · simp [h3] at h0
        · exact h3
  | position f =>
    simp only [applyModifier] at he
    cases he
    obtain ⟨h1, h2, h3⟩ := h
    exact ⟨by simpa [length_overwrite] using h1, by simpa [length_overwrite] using h2,
      by simpa [length_overwrite] using h3⟩
  | siteGenerator id norb make =>
    simp only [applyModifier] at he
    rcases hr : removeInvalid s with s₁ | x | _ <;> rw [hr] at he
    · simp only [Res.bind_ok] at he
      cases he
      obtain ⟨⟨h1, h2, -⟩, h3⟩ := removeInvalid_coherent s s₁ h hr
      refine ⟨?_, ?_, Or.inl h3⟩
      · rw [← Sublat.length_tableLabels, Sublat.tableLabels_add, List.length_append,
          Sublat.length_tableLabels, h1]
        simp
      · simp [HoppingBlocks.addSites, h2]
    · cases he
    · cases he
  | hoppingGenerator family make =>
    simp only [applyModifier] at he
    rcases hr : removeInvalid s with s₁ | x | _ <;> rw [hr] at he
    · simp only [Res.bind_ok] at he
      obtain ⟨⟨h1, h2, -⟩, h3⟩ := removeInvalid_coherent s s₁ h hr
      split at he
      · rename_i hb heq
        cases he
        refine ⟨h1, ?_, Or.inl h3⟩
        simp only []
        rw [← h2]
        simp only [HoppingBlocks.append] at heq
        split at heq
        · cases heq
        · split at heq
          · cases heq; rfl
          · cases heq
      · cases he
      · cases he
    · cases he
    · cases he

/-- C47.  After any sequence of system-level modifiers (site state, position, site generators,
hopping generators, in any order, with arbitrary callbacks) that completes, the label table, the
position array and the hopping table agree on the number of sites, no removal is pending, and the
system is not empty. -/
theorem C47_modifiers_coherent {P : Type u} (ms : List (Modifier P)) (s s' : System P)
    (h : Coherent s) (he : applyModifiers ms s = .ok s') :
    Sublat.decompressedSize s'.sublattices = s'.positions.length ∧
    s'.hoppings.numSites = s'.positions.length ∧ s'.isValid = [] ∧ 0 < s'.positions.length := by
  induction ms generalizing s with
  | nil =>
    simp only [applyModifiers] at he
    rcases hr : removeInvalid s with s₁ | x | _ <;> rw [hr] at he
    · simp only [Res.bind_ok] at he
      obtain ⟨⟨h1, h2, -⟩, h3⟩ := removeInvalid_coherent s s₁ h hr
      split at he
      · cases he
      · cases he
        exact ⟨h1, h2, h3, by omega⟩
    · cases he
    · cases he
  | cons m ms ih =>
    simp only [applyModifiers] at he
    rcases hr : applyModifier m s with s₁ | x | _ <;> rw [hr] at he
    · simp only [Res.bind_ok] at he
      exact ih s₁ (applyModifier_coherent m s s₁ h hr) he
    · cases he
    · cases he

/-- C47 does not extend to the boundaries of a periodic system: a site generator does not update
their size. -/
theorem C47_boundary_size_witness :
    let s : System Nat := ⟨[10, 11], [⟨0, 2, 1⟩], ⟨2, [[]], [("t", 0)]⟩,
      [⟨2, [[⟨1, 0⟩]], [("t", 0)]⟩], []⟩
    ∃ s', applyModifiers [.siteGenerator 1 1 (fun _ => [12])] s = .ok s' ∧
      s'.positions.length = 3 ∧ s'.boundaries.map (·.numSites) = [2] :=
  ⟨⟨[10, 11, 12], [⟨0, 2, 1⟩, ⟨1, 1, 1⟩], ⟨3, [[]], [("t", 0)]⟩, [⟨2, [[⟨1, 0⟩]], [("t", 0)]⟩], []⟩,
    rfl, rfl, rfl⟩

example : Coherent (⟨[10, 11], [⟨0, 2, 1⟩], ⟨2, [[⟨0, 1⟩]], [("t", 0)]⟩, [], []⟩ : System Nat) ∧
    (applyModifiers [.siteGenerator 1 1 (fun _ => [12]), .hoppingGenerator 0 (fun _ => ([2], [1])),
        .siteState (fun _ _ => [true, true, false]) 0]
      (⟨[10, 11], [⟨0, 2, 1⟩], ⟨2, [[⟨0, 1⟩]], [("t", 0)]⟩, [], []⟩ : System Nat)).isOk = true := by
  refine ⟨⟨rfl, rfl, Or.inl rfl⟩, rfl⟩

end Verif.Hopping
