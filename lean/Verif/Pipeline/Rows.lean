import Verif.Pipeline.System

/-!
# Counting the elements of a row
-/

namespace Verif.Pipeline

open Verif.Lattice (Sublattice HoppingFamily HoppingTerm Registry CellSite CellHopping Inv)
open Verif.Lattice.Lattice (run empty allTerms)
open Verif.Foundation (Dims CellOK size locOf rank validPairs cellAt crystalSite hoppingsAt popOps siteEntries
  finalize)
open Verif.Sublat (tableNorbs)
open Verif.Hamiltonian (HopOK SimpleBonds Fits allPairs diagPairs swapCoo)
open Verif.Hopping (COO)

variable {C L P : Type}

theorem sum_countP_le {α : Type} (K : List Nat) (hK : K.Nodup) (p : Nat → α → Bool) (q : α → Bool)
    (l : List α) (hpq : ∀ k ∈ K, ∀ x, p k x = true → q x = true)
    (huniq : ∀ k ∈ K, ∀ k' ∈ K, ∀ x, p k x = true → p k' x = true → k = k') :
    (K.map fun k => l.countP (p k)).sum ≤ l.countP q := by
  induction l with
  | nil =>
    have : (K.map fun k => ([] : List α).countP (p k)).sum = 0 := by simp
    omega
  | cons x l ih =>
    have e : (K.map fun k => (x :: l).countP (p k)).sum
        = (K.map fun k => l.countP (p k)).sum + K.countP (fun k => p k x) := by
      clear ih hpq huniq hK
      induction K with
      | nil => rfl
      | cons k K ih =>
        simp only [List.map_cons, List.sum_cons, List.countP_cons] at ih ⊢
        omega
    rw [e, List.countP_cons]
    have h1 : K.countP (fun k => p k x) ≤ if q x = true then 1 else 0 := by
      by_cases hex : ∃ k ∈ K, p k x = true
      · obtain ⟨k, hk, hkx⟩ := hex
        rw [if_pos (hpq k hk x hkx)]
        have : K.countP (fun k => p k x) ≤ K.countP (fun k' => k' == k) := by
          apply List.countP_mono_left
          intro k' hk' h'
          simpa using huniq k' hk' k hk x h' hkx
        refine le_trans this ?_
        exact List.nodup_iff_count_le_one.1 hK k
      · have : K.countP (fun k => p k x) = 0 := by
          rw [List.countP_eq_zero]
          intro k hk hkx
          exact hex ⟨k, hk, hkx⟩
        omega
    omega

theorem countP_le_sum_count {α : Type} [DecidableEq α] (l : List α) (p : α → Bool) (K : List Nat)
    (g : Nat → α) (h : ∀ x ∈ l, p x = true → ∃ k ∈ K, x = g k) :
    l.countP p ≤ (K.map fun k => l.count (g k)).sum := by
  induction l with
  | nil => simp
  | cons x l ih =>
    have e : (K.map fun k => (x :: l).count (g k)).sum
        = (K.map fun k => l.count (g k)).sum + K.countP (fun k => decide (x = g k)) := by
      clear ih h
      induction K with
      | nil => rfl
      | cons k K ih =>
        simp only [List.map_cons, List.sum_cons, List.countP_cons, List.count_cons, beq_iff_eq,
          decide_eq_true_eq] at ih ⊢
        omega
    rw [e, List.countP_cons]
    have h2 := ih (fun y hy => h y (List.mem_cons_of_mem _ hy))
    split
    · rename_i hp
      obtain ⟨k, hk, hx⟩ := h x List.mem_cons_self hp
      have : 0 < K.countP (fun k => decide (x = g k)) :=
        List.countP_pos_iff.2 ⟨k, hk, by simpa using hx⟩
      omega
    · omega

theorem sum_families {α : Type} (l : List α) (n : Nat) (w : Nat → Nat) (f : α → Nat) (p : α → Bool)
    (hf : ∀ x ∈ l, f x < n) :
    ((List.range n).map fun fam => w fam * l.countP (fun x => p x && decide (f x = fam))).sum
      = (l.map fun x => if p x = true then w (f x) else 0).sum := by
  induction l with
  | nil => simp
  | cons x l ih =>
    rw [List.map_cons, List.sum_cons, ← ih (fun y hy => hf y (List.mem_cons_of_mem _ hy))]
    have e : ((List.range n).map fun fam =>
        w fam * (x :: l).countP (fun x => p x && decide (f x = fam))).sum
        = ((List.range n).map fun fam => (if p x = true ∧ fam = f x then w fam else 0)).sum
        + ((List.range n).map fun fam => w fam * l.countP (fun x => p x && decide (f x = fam))).sum := by
      generalize List.range n = R
      induction R with
      | nil => rfl
      | cons r R ihR =>
        rw [List.map_cons, List.sum_cons, ihR, List.map_cons, List.sum_cons, List.map_cons, List.sum_cons,
          List.countP_cons]
        have e1 : w r * (l.countP (fun x => p x && decide (f x = r)) +
            if (p x && decide (f x = r)) = true then 1 else 0)
            = w r * l.countP (fun x => p x && decide (f x = r)) +
              (if p x = true ∧ r = f x then w r else 0) := by
          rw [Nat.mul_add]
          congr 1
          by_cases hp : p x = true
          · by_cases hfr : f x = r
            · simp [hp, hfr]
            · have : ¬ r = f x := fun e => hfr e.symm
              simp [hp, hfr, this]
          · simp [hp]
        rw [e1]
        omega
    rw [e]
    congr 1
    by_cases hp : p x = true
    · simp only [hp, true_and, if_true]
      have := Hamiltonian.sum_eq_of_unique (K := Nat) (f := fun fam => if fam = f x then w fam else 0) (f x)
        (List.mem_range.2 (hf x List.mem_cons_self)) List.nodup_range (fun k _ hk => if_neg hk)
      simpa using this
    · simp [hp]

/-- The flat indices of the valid sites. -/
def validKs (valid : List Bool) : List Nat := (validPairs valid).map (·.1)

theorem mem_validKs {valid : List Bool} {k : Nat} : k ∈ validKs valid ↔ valid[k]? = some true := by
  unfold validKs
  constructor
  · intro h
    obtain ⟨p, hp, rfl⟩ := List.mem_map.1 h
    exact (Foundation.mem_validPairs.1 hp).1
  · intro h
    exact List.mem_map.2 ⟨(k, rank valid k), Foundation.mem_validPairs.2 ⟨h, rfl⟩, rfl⟩

theorem validKs_nodup (valid : List Bool) : (validKs valid).Nodup := by
  unfold validKs
  refine (List.nodup_map_iff_inj_on (Foundation.validPairs_nodup valid)).2 ?_
  intro x hx y hy e
  have h1 := (Foundation.mem_validPairs.1 hx).2
  have h2 := (Foundation.mem_validPairs.1 hy).2
  exact Prod.ext e (by rw [h1, h2, e])

theorem locOf_inj {d : Dims} {k k' : Nat} (h : locOf d k = locOf d k') : k = k' := by
  have h1 := Foundation.flatIdx_locOf d k
  have h2 := Foundation.flatIdx_locOf d k'
  rw [h] at h1
  omega

section
variable [Zero C] [Star C] {l : Lattice.Lattice C L} {sr hr : Registry C} {cell : List CellSite}
  {d : Dims} {valid : List Bool}

/-- A cell site and a cell index identify a foundation site. -/
theorem Parts.site_inj (h : Parts l sr hr cell) {k k' : Nat} {a b : CellSite}
    (ha : cellAt d cell k = some a) (hb : cellAt d cell k' = some b) (hu : a.uniqueId = b.uniqueId)
    (hi : (locOf d k).idx = (locOf d k').idx) : k = k' := by
  apply locOf_inj (d := d)
  have := h.uid _ _ a b ha hb hu
  rcases h1 : locOf d k with ⟨x, y⟩
  rcases h2 : locOf d k' with ⟨x', y'⟩
  rw [h1, h2] at hi this
  simp only at hi this
  rw [hi, this]

/-- No more bonds leave a site than there are terms leaving its sublattice. -/
theorem Parts.out_le (h : Parts l sr hr cell) (hl : valid.length = size d cell.length) {k : Nat} {a : CellSite}
    (hk : valid[k]? = some true) (ha : cellAt d cell k = some a) (fam : Nat) :
    (siteEntries d cell (finalize d cell l.hops.length valid) fam
        ((validPairs valid).map fun p => (Foundation.siteAt d p.1, p.2))).countP
          (fun c => decide (c.row = rank valid k))
      ≤ (allTerms l.hops).countP (fun p => decide (p.2.src = a.uniqueId) && decide (p.1.familyId = fam)) := by
  refine le_trans (countP_le_sum_count _ _ (validKs valid) (fun k' => ⟨rank valid k, rank valid k'⟩) ?_) ?_
  · intro c hc hr
    obtain ⟨k1, k2, h1, h2, rfl⟩ := Foundation.mem_siteEntries h.cellOK hl fam c hc
    refine ⟨k2, mem_validKs.2 h2, ?_⟩
    simp only [decide_eq_true_eq] at hr
    rw [hr]
  · have e : ((validKs valid).map fun k' => (siteEntries d cell (finalize d cell l.hops.length valid) fam
          ((validPairs valid).map fun p => (Foundation.siteAt d p.1, p.2))).count
            ⟨rank valid k, rank valid k'⟩)
        = (validKs valid).map fun k' => (allTerms l.hops).countP (fun p =>
            decide (∃ b, cellAt d cell k' = some b ∧ p.2.src = a.uniqueId ∧
              p.2.rel = (locOf d k').idx.sub (locOf d k).idx ∧ p.2.dst = b.uniqueId ∧ p.1.familyId = fam)) := by
      apply List.map_congr_left
      intro k' hk'
      have hk' := mem_validKs.1 hk'
      obtain ⟨b, hb, -⟩ := cellAt_some (d := d) (cell := cell) hl hk'
      rw [Foundation.count_siteEntries h.cellOK hl hk hk' fam, h.counts _ _ a b ha hb]
      apply List.countP_congr
      intro p _
      simp [hb]
    rw [e]
    refine sum_countP_le _ (validKs_nodup valid) _ _ _ ?_ ?_
    · intro k' _ p hp
      simp only [decide_eq_true_eq] at hp
      obtain ⟨b, -, h1, -, -, h2⟩ := hp
      simp [h1, h2]
    · intro k1 _ k2 _ p h1 h2
      simp only [decide_eq_true_eq] at h1 h2
      obtain ⟨b1, c1, -, r1, d1, -⟩ := h1
      obtain ⟨b2, c2, -, r2, d2, -⟩ := h2
      refine h.site_inj c1 c2 (d1.symm.trans d2) ?_
      rw [r1] at r2
      simp only [Index3.sub, Index3.mk.injEq] at r2
      rw [Index3.ext_iff']
      omega

/-- No more bonds reach a site than there are terms reaching its sublattice. -/
theorem Parts.in_le (h : Parts l sr hr cell) (hl : valid.length = size d cell.length) {k : Nat} {a : CellSite}
    (hk : valid[k]? = some true) (ha : cellAt d cell k = some a) (fam : Nat) :
    (siteEntries d cell (finalize d cell l.hops.length valid) fam
        ((validPairs valid).map fun p => (Foundation.siteAt d p.1, p.2))).countP
          (fun c => decide (c.col = rank valid k))
      ≤ (allTerms l.hops).countP (fun p => decide (p.2.dst = a.uniqueId) && decide (p.1.familyId = fam)) := by
  refine le_trans (countP_le_sum_count _ _ (validKs valid) (fun k' => ⟨rank valid k', rank valid k⟩) ?_) ?_
  · intro c hc hr
    obtain ⟨k1, k2, h1, h2, rfl⟩ := Foundation.mem_siteEntries h.cellOK hl fam c hc
    refine ⟨k1, mem_validKs.2 h1, ?_⟩
    simp only [decide_eq_true_eq] at hr
    rw [hr]
  · have e : ((validKs valid).map fun k' => (siteEntries d cell (finalize d cell l.hops.length valid) fam
          ((validPairs valid).map fun p => (Foundation.siteAt d p.1, p.2))).count
            ⟨rank valid k', rank valid k⟩)
        = (validKs valid).map fun k' => (allTerms l.hops).countP (fun p =>
            decide (∃ b, cellAt d cell k' = some b ∧ p.2.src = b.uniqueId ∧
              p.2.rel = (locOf d k).idx.sub (locOf d k').idx ∧ p.2.dst = a.uniqueId ∧ p.1.familyId = fam)) := by
      apply List.map_congr_left
      intro k' hk'
      have hk' := mem_validKs.1 hk'
      obtain ⟨b, hb, -⟩ := cellAt_some (d := d) (cell := cell) hl hk'
      rw [Foundation.count_siteEntries h.cellOK hl hk' hk fam, h.counts _ _ b a hb ha]
      apply List.countP_congr
      intro p _
      simp [hb]
    rw [e]
    refine sum_countP_le _ (validKs_nodup valid) _ _ _ ?_ ?_
    · intro k' _ p hp
      simp only [decide_eq_true_eq] at hp
      obtain ⟨b, -, -, -, h1, h2⟩ := hp
      simp [h1, h2]
    · intro k1 _ k2 _ p h1 h2
      simp only [decide_eq_true_eq] at h1 h2
      obtain ⟨b1, c1, d1, r1, -, -⟩ := h1
      obtain ⟨b2, c2, d2, r2, -, -⟩ := h2
      refine h.site_inj c1 c2 (d1.symm.trans d2) ?_
      rw [r1] at r2
      simp only [Index3.sub, Index3.mk.injEq] at r2
      rw [Index3.ext_iff']
      omega

theorem sum_map_le_sum_map {α : Type} (l : List α) (f g : α → Nat) (h : ∀ x ∈ l, f x ≤ g x) :
    (l.map f).sum ≤ (l.map g).sum := List.sum_le_sum h

theorem sum_add_map {α : Type} (l : List α) (f g : α → Nat) :
    (l.map fun x => f x + g x).sum = (l.map f).sum + (l.map g).sum := by
  induction l with
  | nil => rfl
  | cons x l ih => simp only [List.map_cons, List.sum_cons, ih]; omega

/-- The weighted number of bonds of a family in a row. -/
theorem sum_ite_le (b : List COO) (q : COO → Bool) (v : COO → Nat) (w n : Nat)
    (hv : ∀ c ∈ b, v c = w) (hn : b.countP q ≤ n) :
    (b.map fun c => if q c = true then v c else 0).sum ≤ w * n := by
  have e : (b.map fun c => if q c = true then v c else 0).sum = w * b.countP q := by
    clear hn
    induction b with
    | nil => simp
    | cons c b ih =>
      rw [List.map_cons, List.sum_cons, ih (fun x hx => hv x (List.mem_cons_of_mem _ hx)),
        List.countP_cons, hv c List.mem_cons_self]
      split <;> simp [Nat.mul_add, Nat.add_comm]
  rw [e]
  exact Nat.mul_le_mul_left _ hn

/-- The pairs of a row of the system, weighted with the number of columns, are bounded by what the
lattice counts for the sublattice. -/
theorem Parts.row_sum (h : Parts l sr hr cell) (inv : Inv l) (hl : valid.length = size d cell.length)
    (pos : Nat → P) (bs : List (Hamiltonian.Boundary P)) {k : Nat} {a : CellSite}
    (hk : valid[k]? = some true) (ha : cellAt d cell k = some a) :
    let s := assemble sr hr d cell l.hops.length valid pos bs
    ((allPairs (tableNorbs s.sublattices).length s.hoppings.blocks.flatten).map fun c =>
      if c.row = rank valid k then (tableNorbs s.sublattices).getD c.col 0 else 0).sum
    ≤ a.norb + ((allTerms l.hops).map fun q =>
        (if q.2.src = a.uniqueId then q.1.energy.cols else 0) +
        (if q.2.dst = a.uniqueId then q.1.energy.rows else 0)).sum := by
  intro s
  have hok := h.mainOK inv hl pos bs
  have hnk : (tableNorbs s.sublattices).getD (rank valid k) 0 = a.norb := by
    rw [List.getD_eq_getElem?_getD]
    show ((tableNorbs (Sublat.runAdds (popOps d cell valid)))[rank valid k]?).getD 0 = _
    rw [norb_at h.cellOK hl hk ha]
    rfl
  unfold allPairs
  rw [List.map_append, List.sum_append, List.map_append, List.sum_append]
  have h1 : ((diagPairs (tableNorbs s.sublattices).length).map fun c =>
      if c.row = rank valid k then (tableNorbs s.sublattices).getD c.col 0 else 0).sum ≤ a.norb := by
    unfold diagPairs
    rw [List.map_map]
    have hlt : rank valid k < (tableNorbs s.sublattices).length := by
      show rank valid k < (tableNorbs (Sublat.runAdds (popOps d cell valid))).length
      exact (List.getElem?_eq_some_iff.1 (norb_at h.cellOK hl hk ha)).1
    have := Hamiltonian.sum_eq_of_unique (K := Nat)
      (f := fun k' => if k' = rank valid k then (tableNorbs s.sublattices).getD k' 0 else 0)
      (rank valid k) (List.mem_range.2 hlt) List.nodup_range (fun k' _ hk' => if_neg hk')
    refine le_trans (le_of_eq ?_) (le_of_eq hnk)
    simpa [Function.comp_def] using this
  have hE : ∀ q ∈ allTerms l.hops, q.1.familyId < l.hops.length ∧ famEnergy l q.1.familyId = q.1.energy := by
    rintro ⟨f, t⟩ hm
    obtain ⟨n, hn, ht⟩ := Lattice.Lattice.mem_allTerms.1 hm
    obtain ⟨i, hi⟩ := List.mem_iff_getElem?.1 hn
    have hif := inv.hopIds i _ hi
    simp only at hif
    constructor
    · simp only [hif]; exact (List.getElem?_eq_some_iff.1 hi).1
    · unfold famEnergy
      simp only [hif, hi]
  have hfl : ∀ v : COO → Nat, (s.hoppings.blocks.flatten.map v).sum
      = ((List.range l.hops.length).map fun fam => ((siteEntries d cell
          (finalize d cell l.hops.length valid) fam
          ((validPairs valid).map fun p => (Foundation.siteAt d p.1, p.2))).map v).sum).sum := by
    intro v
    simp only [s, assemble]
    generalize List.range l.hops.length = R
    induction R with
    | nil => rfl
    | cons r R ih =>
      simp only [List.map_cons, List.flatten_cons, List.map_append, List.sum_append, List.sum_cons, ih]
  have hfit : ∀ fam, fam < l.hops.length → ∀ c ∈ siteEntries d cell
      (finalize d cell l.hops.length valid) fam
        ((validPairs valid).map fun p => (Foundation.siteAt d p.1, p.2)),
      (tableNorbs s.sublattices).getD c.row 0 = (famEnergy l fam).rows ∧
      (tableNorbs s.sublattices).getD c.col 0 = (famEnergy l fam).cols := by
    intro fam hf c hc
    obtain ⟨f1, f2⟩ := hok.fits fam _ (by
      show ((List.range l.hops.length).map _)[fam]? = some _
      rw [List.getElem?_map, List.getElem?_range hf]
      rfl) c hc
    rw [List.getD_eq_getElem?_getD, List.getD_eq_getElem?_getD, f1, f2]
    exact ⟨rfl, rfl⟩
  have h2 : (s.hoppings.blocks.flatten.map fun c =>
      if c.row = rank valid k then (tableNorbs s.sublattices).getD c.col 0 else 0).sum
      ≤ ((allTerms l.hops).map fun q => if q.2.src = a.uniqueId then q.1.energy.cols else 0).sum := by
    rw [hfl]
    have := sum_families (allTerms l.hops) l.hops.length (fun fam => (famEnergy l fam).cols)
      (fun q => q.1.familyId) (fun q => decide (q.2.src = a.uniqueId)) (fun q hq => (hE q hq).1)
    have e2 : ((allTerms l.hops).map fun q => if q.2.src = a.uniqueId then q.1.energy.cols else 0)
        = (allTerms l.hops).map fun q => if decide (q.2.src = a.uniqueId) = true then
            (famEnergy l q.1.familyId).cols else 0 := by
      apply List.map_congr_left
      intro q hq
      rw [(hE q hq).2]
      simp
    rw [e2, ← this]
    apply sum_map_le_sum_map
    intro fam hf
    have hf := List.mem_range.1 hf
    have := sum_ite_le _ (fun c => decide (c.row = rank valid k))
      (fun c => (tableNorbs s.sublattices).getD c.col 0) _ _
      (fun c hc => (hfit fam hf c hc).2) (h.out_le hl hk ha fam)
    simpa using this
  have h3 : ((s.hoppings.blocks.flatten.map swapCoo).map fun c =>
      if c.row = rank valid k then (tableNorbs s.sublattices).getD c.col 0 else 0).sum
      ≤ ((allTerms l.hops).map fun q => if q.2.dst = a.uniqueId then q.1.energy.rows else 0).sum := by
    rw [List.map_map, hfl]
    have := sum_families (allTerms l.hops) l.hops.length (fun fam => (famEnergy l fam).rows)
      (fun q => q.1.familyId) (fun q => decide (q.2.dst = a.uniqueId)) (fun q hq => (hE q hq).1)
    have e2 : ((allTerms l.hops).map fun q => if q.2.dst = a.uniqueId then q.1.energy.rows else 0)
        = (allTerms l.hops).map fun q => if decide (q.2.dst = a.uniqueId) = true then
            (famEnergy l q.1.familyId).rows else 0 := by
      apply List.map_congr_left
      intro q hq
      rw [(hE q hq).2]
      simp
    rw [e2, ← this]
    apply sum_map_le_sum_map
    intro fam hf
    have hf := List.mem_range.1 hf
    have := sum_ite_le _ (fun c => decide (c.col = rank valid k))
      (fun c => (tableNorbs s.sublattices).getD c.row 0) _ _
      (fun c hc => (hfit fam hf c hc).1) (h.in_le hl hk ha fam)
    refine le_trans (le_of_eq ?_) this
    congr 1
    apply List.map_congr_left
    intro c _
    by_cases hc : c.col = rank valid k
    · rw [if_pos (decide_eq_true hc)]
      exact if_pos hc
    · rw [if_neg (by simpa using hc)]
      exact if_neg hc
  rw [sum_add_map]
  omega

end

end Verif.Pipeline
