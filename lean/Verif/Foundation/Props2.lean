import Verif.Foundation.Props
import Mathlib.Data.Rat.Floor

/-!
# Properties C16-C19: numbering, population, dangling sites and bounds
-/

namespace Verif.Foundation

open Verif.Lattice (CellSite CellHopping HoppingFamily HoppingTerm Sublattice optimizedUnitCell)
open Verif.Lattice.Lattice (run empty allTerms)

/-! ## C16 -/

/-- **C16**: the final numbers of the valid sites are 0, 1, 2, ... in foundation order without gaps;
invalid sites get none (`-1`). -/
theorem C16_numbering (d : Dims) (cell : List CellSite) (nhop : Nat) (valid : List Bool)
    (hl : valid.length = (sites d cell.length).length) :
    let f := finalize d cell nhop valid
    let number := fun k => f.indices[k]?
    f.total = valid.count true ∧
    (∀ k, valid[k]? = some false → number k = some (-1)) ∧
    (∀ k, valid[k]? = some true → ∃ m : Nat, m < f.total ∧ number k = some (m : Int)) ∧
    (∀ m : Nat, m < f.total → ∃ k, valid[k]? = some true ∧ number k = some (m : Int)) ∧
    (∀ k k' m m' : Nat, number k = some (m : Int) → number k' = some (m' : Int) →
      (k < k' ↔ m < m')) := by
  have hl' : valid.length = size d cell.length := by rw [hl, sites_eq]; simp
  obtain ⟨h1, h2⟩ := finalize_eq d cell nhop valid hl'
  simp only [h1, h2]
  have hn : ∀ k : Nat, valid[k]? = some true → (ranks 0 valid)[k]? = some (rank valid k : Int) := by
    intro k hk
    rw [getElem?_ranks 0 k valid true hk]
    simp [rank]
  have hf : ∀ k : Nat, valid[k]? = some false → (ranks 0 valid)[k]? = some (-1) := by
    intro k hk
    rw [getElem?_ranks 0 k valid false hk]
    simp
  have hcases : ∀ k m : Nat, (ranks 0 valid)[k]? = some (m : Int) →
      valid[k]? = some true ∧ m = rank valid k := by
    intro k m hk
    rcases hv : valid[k]? with _ | b
    · have hlen : (ranks 0 valid).length = valid.length := by
        have key : ∀ t (v : List Bool), (ranks t v).length = v.length := by
          intro t v
          induction v generalizing t with
          | nil => rfl
          | cons b v ih => cases b <;> simp [ranks, ih]
        exact key 0 valid
      rw [List.getElem?_eq_none_iff] at hv
      rw [List.getElem?_eq_none (by omega)] at hk
      simp at hk
    · cases b with
      | true =>
        rw [hn k hv] at hk
        simp only [Option.some.injEq] at hk
        exact ⟨rfl, by omega⟩
      | false =>
        rw [hf k hv] at hk
        simp only [Option.some.injEq] at hk
        omega
  refine ⟨trivial, hf, fun k hk => ⟨_, rank_lt_count hk, hn k hk⟩, ?_, ?_⟩
  · intro m hm
    obtain ⟨k, hk, rfl⟩ := exists_rank valid m hm
    exact ⟨k, hk, hn k hk⟩
  · intro k k' m m' e e'
    obtain ⟨a, rfl⟩ := hcases k m e
    obtain ⟨b, rfl⟩ := hcases k' m' e'
    constructor
    · exact rank_lt a
    · intro h
      rcases Nat.lt_trichotomy k k' with h1 | h1 | h1
      · exact h1
      · subst h1; omega
      · have := rank_lt b h1; omega

theorem sum_count_le {α : Type} [DecidableEq α] (ks L : List α) (p : α → Bool) (hnd : ks.Nodup)
    (hp : ∀ k ∈ ks, p k = true) : (ks.map fun k => L.count k).sum ≤ L.countP p := by
  induction L with
  | nil =>
    have : (ks.map fun k => List.count k ([] : List α)).sum = 0 := by
      apply List.sum_eq_zero
      intro x hx
      obtain ⟨k, -, rfl⟩ := List.mem_map.1 hx
      simp
    rw [this]; exact Nat.zero_le _
  | cons a L ih =>
    have e : (ks.map fun k => (a :: L).count k).sum = (ks.map fun k => L.count k).sum + ks.count a := by
      clear ih hnd hp
      induction ks with
      | nil => simp
      | cons k ks ih =>
        have : (a == k) = (k == a) := by rw [Bool.eq_iff_iff, beq_iff_eq, beq_iff_eq]; exact eq_comm
        rw [List.map_cons, List.sum_cons, ih, List.map_cons, List.sum_cons, List.count_cons,
          List.count_cons, this]
        ring
    rw [e, List.countP_cons]
    have h1 : ks.count a ≤ 1 := List.nodup_iff_count_le_one.1 hnd a
    by_cases h : a ∈ ks
    · rw [if_pos (hp a h)]; omega
    · rw [List.count_eq_zero_of_not_mem h]; omega

/-- The part of the crystal which a foundation site stands for. -/
def crystalSite (d : Dims) (cell : List CellSite) (k : Nat) : Option (Index3 × CellSite) :=
  (cellAt d cell k).map fun c => ((locOf d k).idx, c)

section
variable {cell : List CellSite} {nhop : Nat} {d : Dims} {valid : List Bool}

/-- Each bond is stored once: between two final sites there is at most one entry, whatever the
family and the direction. -/
theorem bonds_once (hok : CellOK cell nhop) (hl : valid.length = size d cell.length) (n a b : Nat) :
    (((List.range n).map fun fam => siteEntries d cell (finalize d cell nhop valid) fam
      ((validPairs valid).map fun p => (siteAt d p.1, p.2))).flatten.countP
        (fun c => c = ⟨a, b⟩ ∨ c = ⟨b, a⟩)) ≤ 1 := by
  set E := fun fam => siteEntries d cell (finalize d cell nhop valid) fam
      ((validPairs valid).map fun p => (siteAt d p.1, p.2)) with hE
  rw [List.countP_flatten, List.map_map]
  by_cases hex : ∃ k k', valid[k]? = some true ∧ valid[k']? = some true ∧ rank valid k = a ∧
      rank valid k' = b
  · obtain ⟨k, k', hk, hk', rfl, rfl⟩ := hex
    have hkn : k < size d cell.length := hl ▸ (List.getElem?_eq_some_iff.1 hk).1
    have hkn' : k' < size d cell.length := hl ▸ (List.getElem?_eq_some_iff.1 hk').1
    have hs := (locOf_in hkn).2.2.2.2.2.2
    have hs' := (locOf_in hkn').2.2.2.2.2.2
    set r := (locOf d k').idx.sub (locOf d k).idx with hr
    have hr' : (locOf d k).idx.sub (locOf d k').idx = r.neg := by
      simp only [hr, Index3.sub, Index3.neg, Index3.mk.injEq]; omega
    have hle : ∀ fam, (E fam).countP (fun c => c = ⟨rank valid k, rank valid k'⟩
        ∨ c = ⟨rank valid k', rank valid k⟩)
        ≤ (hoppingsAt cell (locOf d k).sub).count ⟨r, (locOf d k').sub, fam, false⟩
          + (hoppingsAt cell (locOf d k).sub).count ⟨r, (locOf d k').sub, fam, true⟩ := by
      intro fam
      have h1 := count_siteEntries hok hl hk hk' fam
      have h2 := count_siteEntries hok hl hk' hk fam
      rw [hr'] at h2
      have h3 := hok.sym (locOf d k).sub (locOf d k').sub hs hs' r fam true
      rw [Bool.not_true] at h3
      rw [h3, ← h2, ← h1]
      have hc : ∀ (L : List Hopping.COO) x y, L.countP (fun c => c = x ∨ c = y)
          ≤ L.count x + L.count y := by
        intro L x y
        induction L with
        | nil => simp
        | cons z L ih =>
          simp only [List.countP_cons, List.count_cons]
          have : (if decide (z = x ∨ z = y) = true then 1 else 0)
              ≤ (if (z == x) = true then 1 else 0) + (if (z == y) = true then 1 else 0) := by
            by_cases e1 : z = x <;> by_cases e2 : z = y <;> simp [e1, e2]
          omega
      exact hc _ _ _
    refine le_trans (List.sum_le_sum (fun fam _ => hle fam)) ?_
    have hsum : ((List.range n).map fun fam =>
        (hoppingsAt cell (locOf d k).sub).count ⟨r, (locOf d k').sub, fam, false⟩
          + (hoppingsAt cell (locOf d k).sub).count ⟨r, (locOf d k').sub, fam, true⟩).sum
        = ((((List.range n).map fun fam => (⟨r, (locOf d k').sub, fam, false⟩ : CellHopping)) ++
            (List.range n).map fun fam => (⟨r, (locOf d k').sub, fam, true⟩ : CellHopping)).map
              fun x => (hoppingsAt cell (locOf d k).sub).count x).sum := by
      rw [List.map_append, List.sum_append, List.map_map, List.map_map]
      generalize List.range n = R
      induction R with
      | nil => rfl
      | cons x R ih =>
        simp only [List.map_cons, List.sum_cons, Function.comp_apply] at ih ⊢
        omega
    rw [hsum]
    refine le_trans (sum_count_le _ _ (fun h => decide (h.rel = r ∧ h.toIdx = (locOf d k').sub)) ?_ ?_)
      (hok.once _ _ _)
    · rw [List.nodup_append]
      refine ⟨List.nodup_range.map (fun x y h => by simpa using h),
        List.nodup_range.map (fun x y h => by simpa using h), ?_⟩
      intro x hx y hy
      obtain ⟨f1, -, rfl⟩ := List.mem_map.1 hx
      obtain ⟨f2, -, rfl⟩ := List.mem_map.1 hy
      simp
    · intro x hx
      rcases List.mem_append.1 hx with hx | hx <;>
      · obtain ⟨f1, -, rfl⟩ := List.mem_map.1 hx
        simp
  · have hz : ∀ fam, (E fam).countP (fun c => c = ⟨a, b⟩ ∨ c = ⟨b, a⟩) = 0 := by
      intro fam
      rw [List.countP_eq_zero]
      intro c hc hcc
      obtain ⟨k, k', hk, hk', rfl⟩ := mem_siteEntries hok hl fam c hc
      simp only [Hopping.COO.mk.injEq, decide_eq_true_eq] at hcc
      rcases hcc with ⟨rfl, rfl⟩ | ⟨rfl, rfl⟩
      · exact hex ⟨k, k', hk, hk', rfl, rfl⟩
      · exact hex ⟨k', k, hk', hk, rfl, rfl⟩
    have : ((List.range n).map ((List.countP fun c => decide (c = ⟨a, b⟩ ∨ c = ⟨b, a⟩)) ∘ E)).sum = 0 := by
      apply List.sum_eq_zero
      intro x hx
      obtain ⟨f, -, rfl⟩ := List.mem_map.1 hx
      exact hz f
    omega

end

/-- **C16**: for every lattice that can be built through the API, every foundation size and every
validity mask, populating the system succeeds (in particular its final consistency check never
fails).  Positions, labels and orbital counts are those of the foundation with the invalid sites
deleted.  Site `a` and site `b` of the system, standing for foundation sites `k` and `k'`, are joined
in family `fam` exactly if the lattice has such a hopping term between their sublattices at the
right distance, and every bond is stored only once.  The unordered containers of the lattice may be
iterated in any order (`subs`, `hops`). -/
theorem C16_populate {K P Pos : Type} [DecidableEq K] [Zero K] [InvolutiveStar K]
    (ops : List (Lattice.Lattice.Op K P))
    (subs : List (String × Sublattice K P)) (hops : List (String × HoppingFamily K))
    (hs : subs.Perm (run ops empty).subs) (hh : hops.Perm (run ops empty).hops)
    (nameMap : List (String × Nat)) (hname : (run ops empty).hops.length ≤ nameMap.length) :
    ∃ cell, optimizedUnitCell subs hops = .ok cell ∧
      cell.length = (run ops empty).subs.length ∧
      ∀ (d : Dims) (valid : List Bool), valid.length = (sites d cell.length).length →
      ∀ (pos : Nat → Pos) (junk : Pos), ∃ s,
        populateSystem d cell (run ops empty).hops.length nameMap valid pos junk = .ok s ∧
        s.positions = maskFilter valid ((List.range valid.length).map pos) ∧
        Sublat.decompressed s.sublattices = maskFilter valid ((List.range valid.length).map fun k =>
          (crystalSite d cell k).map fun c => (c.2.aliasId : Int)) ∧
        (Sublat.tableNorbs s.sublattices).map some = maskFilter valid
          ((List.range valid.length).map fun k => (crystalSite d cell k).map fun c => c.2.norb) ∧
        s.hoppings.numSites = valid.count true ∧ s.hoppings.nameMap = nameMap ∧
        s.hoppings.blocks.length = nameMap.length ∧ s.boundaries = [] ∧
        (∀ (fam : Nat) block, s.hoppings.blocks[fam]? = some block →
          (∀ k k' ck ck', valid[k]? = some true → valid[k']? = some true →
            crystalSite d cell k = some ck → crystalSite d cell k' = some ck' →
            block.count ⟨(valid.take k).count true, (valid.take k').count true⟩
              = (allTerms (run ops empty).hops).countP (fun p => p.2.src = ck.2.uniqueId ∧
                  p.2.rel = ck'.1.sub ck.1 ∧ p.2.dst = ck'.2.uniqueId ∧ p.1.familyId = fam)) ∧
          (∀ c ∈ block, ∃ k k', valid[k]? = some true ∧ valid[k']? = some true ∧
            c = ⟨(valid.take k).count true, (valid.take k').count true⟩)) ∧
        (∀ a b, s.hoppings.blocks.flatten.countP (fun c => c = ⟨a, b⟩ ∨ c = ⟨b, a⟩) ≤ 1) := by
  obtain ⟨cell, h1, hok, h3, -, h5⟩ := cell_of_lattice ops subs hops hs hh
  refine ⟨cell, h1, h3, ?_⟩
  intro d valid hl pos junk
  have hl' : valid.length = size d cell.length := by rw [hl, sites_eq]; simp
  refine ⟨_, populateSystem_eq hok hl' nameMap hname pos junk, rfl, ?_, ?_, rfl, rfl, by simp, rfl,
    ?_, fun a b => bonds_once hok hl' _ a b⟩
  · rw [(Sublat.C01_labels_roundtrip _).1, popOps_labels hl']
    congr 1
    apply List.map_congr_left
    intro k _
    simp [crystalSite, Function.comp_def]
  · rw [Sublat.tableNorbs_runAdds _ (popOps_consistent hok hl'), popOps_norbs hl']
    congr 1
    apply List.map_congr_left
    intro k _
    simp [crystalSite, Function.comp_def]
  · intro fam block hb
    simp only [List.getElem?_map] at hb
    rcases hr : (List.range nameMap.length)[fam]? with _ | f
    · simp [hr] at hb
    · rw [hr] at hb
      have hff : f = fam := by
        rw [List.getElem?_eq_some_iff] at hr
        obtain ⟨hi, rfl⟩ := hr
        simp
      subst hff
      simp only [Option.map_some, Option.some.injEq] at hb
      subst hb
      constructor
      · intro k k' ck ck' hk hk' hck hck'
        have := count_siteEntries hok hl' hk hk' f
        simp only [rank] at this
        rw [this]
        unfold crystalSite cellAt at hck hck'
        rw [Option.map_eq_some_iff] at hck hck'
        obtain ⟨a, ha, rfl⟩ := hck
        obtain ⟨b, hb, rfl⟩ := hck'
        exact h5 _ _ a b ha hb _ _
      · intro c hc
        exact mem_siteEntries hok hl' f c hc

/-- **C16**: the hopping counts of the finalized indices, which the code reserves memory for, are
large enough: populating never needs to reallocate. -/
theorem C16_reserve (d : Dims) (cell : List CellSite) (nhop : Nat) (valid : List Bool)
    (hok : CellOK cell nhop) (hl : valid.length = (sites d cell.length).length)
    (nameMap : List (String × Nat)) (hn : nhop ≤ nameMap.length) {Pos : Type} (pos : Nat → Pos)
    (junk : Pos) (s : Hopping.System Pos)
    (hs : populateSystem d cell nhop nameMap valid pos junk = .ok s) (fam : Nat) (hf : fam < nhop)
    (block : List Hopping.COO) (hb : s.hoppings.blocks[fam]? = some block) :
    ∃ n, (finalize d cell nhop valid).hoppingCounts[fam]? = some n ∧ block.length ≤ n := by
  have hl' : valid.length = size d cell.length := by rw [hl, sites_eq]; simp
  obtain ⟨n, h1, h2⟩ := reserve_enough (nhop := nhop) hl' fam hf
  refine ⟨n, h1, ?_⟩
  rw [populateSystem_eq hok hl' nameMap hn pos junk] at hs
  simp only [Res.ok.injEq] at hs
  subst hs
  simp only [List.getElem?_map] at hb
  rw [List.getElem?_range (by omega)] at hb
  simp only [Option.map_some, Option.some.injEq] at hb
  subst hb
  exact h2

/-- The hypotheses of `C16_populate` hold for graphene with its two families; a foundation of 2 × 1
cells has four sites. -/
example : (run Lattice.graphene empty).hops.length ≤ 2 ∧
    (run Lattice.graphene empty).subs.length = 2 ∧ (sites ⟨2, 1, 1⟩ 2).length = 4 := by
  decide

/-! ## C17 -/

theorem closed_of_stable {nbrs : Nat → List Nat} {minN : Int} {C : Nat → Bool}
    (h : Stable nbrs minN C) : ClosedSet nbrs minN (fun u => C u = true) := by
  intro v hv hex k hk
  obtain ⟨p, hp, rfl⟩ := hk
  have := h v (by simpa using hv) hex
  have e : (nbrs v).countP p = (nbrs v).countP fun u => !C u := by
    apply List.countP_congr
    intro u _
    rw [hp u]
    simp
  rw [e]
  exact this

/-- **C17**, on any symmetric graph of `n` sites: the recursion terminates (a depth of `n + 1` is
enough), no removed site comes back, every remaining site which has a removed neighbour has at least
`minN` remaining neighbours, the recorded counts of the remaining sites are right, and nothing is
removed beyond need: every stable set of removed sites that contains the initially invalid sites
contains all sites removed. -/
theorem C17_remove_dangling (nbrs : Nat → List Nat) (n : Nat) (minN : Int)
    (hsym : ∀ u v, (nbrs u).count v = (nbrs v).count u) (hlt : ∀ u, ∀ v ∈ nbrs u, v < n)
    (valid : Nat → Bool) :
    ∃ st, removeDangling nbrs minN (n + 1) n valid = some st ∧ Shrinks valid st.valid ∧
      Stable nbrs minN (fun u => !st.valid u) ∧
      (∀ v, st.valid v = true → st.count v = ((nbrs v).countP st.valid : Nat)) ∧
      (∀ removed : Nat → Bool, Stable nbrs minN removed → (∀ u, valid u = false → removed u = true) →
        ∀ u, st.valid u = false → removed u = true) := by
  obtain ⟨st, h1, h2, h3, h4, h5⟩ := removeDangling_spec (minN := minN) hsym hlt valid (n + 1)
    (Nat.lt_succ_self n)
  refine ⟨st, h1, h2, ?_, ?_, ?_⟩
  · intro v hv hex
    have := h4 v (by simpa using hv) (by simpa using hex)
    simpa [validDegree] using this
  · intro v hv
    have := h3 v hv
    simpa [validDegree] using this
  · intro removed hst hsub
    exact h5 (fun u => removed u = true) (closed_of_stable hst) hsub

/-- More depth does not change the result of a cleared site. -/
theorem C17_fuel (nbrs : Nat → List Nat) (n : Nat) (minN : Int)
    (hsym : ∀ u v, (nbrs u).count v = (nbrs v).count u) (hlt : ∀ u, ∀ v ∈ nbrs u, v < n)
    (valid : Nat → Bool) (fuel : Nat) (hf : n < fuel) :
    ∃ st, removeDangling nbrs minN fuel n valid = some st := by
  obtain ⟨st, h1, -⟩ := removeDangling_spec (minN := minN) hsym hlt valid fuel hf
  exact ⟨st, h1⟩

/-- **C17**, for foundations: the graph of every foundation meets the hypotheses, and the initial
neighbour counts are the ones `count_neighbors` computes. -/
theorem C17_foundation {cell : List CellSite} {nhop : Nat} (hok : CellOK cell nhop) (d : Dims)
    (minN : Int) (valid : Nat → Bool) :
    let nbrs := flatNeighbors d cell
    (∀ k, neighborCount d cell (locOf d k) = (nbrs k).length) ∧
    ∃ st, removeDangling nbrs minN (size d cell.length + 1) (size d cell.length) valid = some st ∧
      Shrinks valid st.valid ∧ Stable nbrs minN (fun u => !st.valid u) ∧
      (∀ v, st.valid v = true → st.count v = ((nbrs v).countP st.valid : Nat)) ∧
      (∀ removed : Nat → Bool, Stable nbrs minN removed → (∀ u, valid u = false → removed u = true) →
        ∀ u, st.valid u = false → removed u = true) := by
  intro nbrs
  obtain ⟨h1, h2, -, -⟩ := C15_flat hok d
  refine ⟨?_, C17_remove_dangling nbrs _ minN h1 h2 valid⟩
  intro k
  rw [C15_count]
  simp [nbrs, flatNeighbors]

/-- A path of four sites, the last one cut off: its neighbour loses its only other neighbour, and so
on, until nothing is left of the chain. -/
example : (removeDangling (fun k => ([[1], [0, 2], [1, 3], [2]] : List (List Nat)).getD k []) 2 5 4
    (fun k => decide (k < 3))).map (fun st => (List.range 4).map st.valid)
      = some [false, false, false, false] := by
  decide

/-! ## C18 -/

/-- **C18**: a primitive shape is accepted exactly if all sizes are positive; its bounds then hold
exactly the requested number of consecutive cells in every direction, around the origin cell. -/
theorem C18_primitive (a b c : Int) :
    (primitiveSize a b c = .ok ⟨a, b, c⟩ ∧
      ((primitiveBounds ⟨a, b, c⟩).2.x - (primitiveBounds ⟨a, b, c⟩).1.x + 1 = a ∧
       (primitiveBounds ⟨a, b, c⟩).2.y - (primitiveBounds ⟨a, b, c⟩).1.y + 1 = b ∧
       (primitiveBounds ⟨a, b, c⟩).2.z - (primitiveBounds ⟨a, b, c⟩).1.z + 1 = c) ∧
      ((primitiveBounds ⟨a, b, c⟩).1.x ≤ 0 ∧ 0 ≤ (primitiveBounds ⟨a, b, c⟩).2.x) ∧
      ((primitiveBounds ⟨a, b, c⟩).1.y ≤ 0 ∧ 0 ≤ (primitiveBounds ⟨a, b, c⟩).2.y) ∧
      ((primitiveBounds ⟨a, b, c⟩).1.z ≤ 0 ∧ 0 ≤ (primitiveBounds ⟨a, b, c⟩).2.z)
      ∧ 0 < a ∧ 0 < b ∧ 0 < c) ∨
    (primitiveSize a b c = .err .logicError ∧ ¬ (0 < a ∧ 0 < b ∧ 0 < c)) := by
  unfold primitiveSize primitiveBounds
  by_cases h : a ≤ 0 ∨ b ≤ 0 ∨ c ≤ 0
  · right
    rw [if_pos h]
    exact ⟨rfl, by omega⟩
  · left
    rw [if_neg h]
    simp only
    have key : ∀ n : Int, 0 < n → (n - 1).tdiv 2 - (-n).tdiv 2 + 1 = n ∧ (-n).tdiv 2 ≤ 0 ∧
        0 ≤ (n - 1).tdiv 2 := by
      intro n hn
      have e1 : (-n).tdiv 2 = -(n / 2) := by
        rw [Int.neg_tdiv, Int.tdiv_eq_ediv_of_nonneg (by omega)]
      have e2 : (n - 1).tdiv 2 = (n - 1) / 2 := Int.tdiv_eq_ediv_of_nonneg (by omega)
      rw [e1, e2]
      omega
    have ka := key a (by omega)
    have kb := key b (by omega)
    have kc := key c (by omega)
    exact ⟨trivial, ⟨ka.1, kb.1, kc.1⟩, ka.2, kb.2, kc.2, by omega, by omega, by omega⟩

/-- **C18**: the foundation of a primitive shape has `a * b * c` sites per sublattice. -/
theorem C18_sites (a b c : Nat) (nsub : Nat) : (sites ⟨a, b, c⟩ nsub).length = a * b * c * nsub :=
  (C14_sites ⟨a, b, c⟩ nsub).2.2.1

/-! ## C19 -/

section
variable {F : Type} [Field F] [LinearOrder F] [IsStrictOrderedRing F] [FloorRing F]
open Verif.Lattice

/-- **C19**: take any lattice whose vectors are independent in their leading components, any offset
and sublattice position.  Every site whose position lies, in lattice coordinates, within the range of
the vertices' coordinates gets an index inside the bounds of the foundation.  Partial: the lattice
coordinates `δ` of offset plus sublattice position must not exceed one in magnitude; otherwise the
bounds can be too small (`C19_witness`). -/
theorem C19_bounds_partial (vectors : List (Cart F)) (hd : vectors.length ≤ 3)
    (hdet : (latticeMatrix vectors hd).det ≠ 0) (offset sub : Cart F)
    (δ : Fin vectors.length → F) (hδ : translateCoordinates vectors hd (offset + sub) = some δ)
    (hone : ∀ i, |δ i| ≤ 1) (intMax intMin : Int) (vertices : List (Fin vectors.length → F))
    (index : List Int) (hlen : vectors.length ≤ index.length)
    (c : Fin vectors.length → F)
    (hc : translateCoordinates vectors hd (calcPosition vectors offset index sub) = some c)
    (hbox : ∀ i, (∃ v ∈ vertices, v i ≤ c i) ∧ (∃ v ∈ vertices, c i ≤ v i))
    (i : Fin vectors.length) :
    (findBounds intMax intMin (vertices.map fun v => v i)).1 ≤ index[i.val]'(by omega) ∧
    index[i.val]'(by omega) ≤ (findBounds intMax intMin (vertices.map fun v => v i)).2 := by
  have hci : c i = ((index[i.val]'(by omega) : Int) : F) + δ i := by
    unfold translateCoordinates at hδ hc
    simp only at hδ hc
    rw [if_neg hdet] at hδ hc
    have hp : calcPosition vectors offset index sub
        = combination vectors (fun j => ((index[j.val]'(by omega) : Int) : F)) + (offset + sub) := by
      funext k
      rw [C13_position vectors offset index sub hlen k]
      simp [combination]
      ring
    rw [hp] at hc
    have hh : head vectors.length hd
        (combination vectors (fun j => ((index[j.val]'(by omega) : Int) : F)) + (offset + sub))
        = head vectors.length hd (combination vectors (fun j => ((index[j.val]'(by omega) : Int) : F)))
          + head vectors.length hd (offset + sub) := rfl
    rw [hh, Matrix.mulVec_add, ← latticeMatrix_mulVec, Matrix.mulVec_mulVec,
      Matrix.nonsing_inv_mul _ (isUnit_iff_ne_zero.2 hdet), Matrix.one_mulVec] at hc
    simp only [Option.some.injEq] at hc hδ
    rw [← hc, ← hδ]
    rfl
  apply findBounds_covers intMax intMin _ _ (δ i) (hone i)
  · obtain ⟨v, hv, hv'⟩ := (hbox i).1
    exact ⟨v i, List.mem_map.2 ⟨v, hv, rfl⟩, hci ▸ hv'⟩
  · obtain ⟨v, hv, hv'⟩ := (hbox i).2
    exact ⟨v i, List.mem_map.2 ⟨v, hv, rfl⟩, hci ▸ hv'⟩

end

/-- **C19** (exactly): in one direction, the bounds of all lists of vertices cover all sites between the vertices if and only if the shift `δ` of the sites does not exceed
one in magnitude. -/
theorem C19_exact {F : Type} [Field F] [LinearOrder F] [IsStrictOrderedRing F] [FloorRing F] (intMax intMin : Int) (h1 : 0 ≤ intMax) (h2 : intMin ≤ 0) (δ : F) :
    (∀ (vs : List F) (n : Int), (∃ v ∈ vs, v ≤ n + δ) → (∃ v ∈ vs, n + δ ≤ v) →
      (findBounds intMax intMin vs).1 ≤ n ∧ n ≤ (findBounds intMax intMin vs).2) ↔ |δ| ≤ 1 := by
  constructor
  · intro h
    rw [abs_le]
    constructor
    · by_contra hc
      have hc := not_le.1 hc
      have hf : ⌊δ⌋ ≤ -2 := by
        have : ⌊δ⌋ < -1 := Int.floor_lt.2 (by push_cast; exact hc)
        omega
      have hv : truncate (((-⌊δ⌋ + 1 : Int) : F) + δ) = 1 := by
        have h0 : ((⌊δ⌋ : Int) : F) ≤ δ := Int.floor_le δ
        unfold truncate
        rw [if_pos (by push_cast; linarith), add_comm, Int.floor_add_intCast]
        ring
      have := (h [((-⌊δ⌋ + 1 : Int) : F) + δ] (-⌊δ⌋ + 1) ⟨_, List.mem_singleton_self _, le_rfl⟩ ⟨_, List.mem_singleton_self _, le_rfl⟩).2
      simp only [findBounds, boundsLoop, hv] at this
      split at this <;> omega
    · by_contra hc
      have hc := not_le.1 hc
      have hf : 2 ≤ ⌈δ⌉ := by
        have : 1 < ⌈δ⌉ := Int.lt_ceil.2 (by push_cast; exact hc)
        omega
      have hv : truncate (((-⌈δ⌉ - 1 : Int) : F) + δ) = -1 := by
        have h0 : δ ≤ ((⌈δ⌉ : Int) : F) := Int.le_ceil δ
        unfold truncate
        rw [if_neg (by push_cast; linarith), add_comm, Int.ceil_add_intCast]
        ring
      have := (h [((-⌈δ⌉ - 1 : Int) : F) + δ] (-⌈δ⌉ - 1) ⟨_, List.mem_singleton_self _, le_rfl⟩ ⟨_, List.mem_singleton_self _, le_rfl⟩).1
      simp only [findBounds, boundsLoop, hv] at this
      split at this <;> omega
  · intro h vs n hlo hhi
    exact findBounds_covers intMax intMin vs n δ h hlo hhi

/-- **C19** is false for larger shifts: with a sublattice two lattice vectors away from its cell and
vertices at 0 and 9/10, the site of cell -2 sits at 0, inside the box, but the bounds start at -1. -/
theorem C19_witness : ∃ (vs : List Rat) (n : Int) (δ : Rat),
    (∃ v ∈ vs, v ≤ n + δ) ∧ (∃ v ∈ vs, n + δ ≤ v) ∧
      n < (findBounds 2147483647 (-2147483648) vs).1 := by
  refine ⟨[0, 9/10], -2, 2, ⟨0, by simp, by norm_num⟩, ⟨9/10, by simp, by norm_num⟩, ?_⟩
  have h1 : truncate (0 : Rat) = 0 := by simp [truncate]
  have h2 : truncate (9/10 : Rat) = 0 := by
    unfold truncate
    rw [if_pos (by norm_num), Int.floor_eq_iff]
    norm_num
  simp only [findBounds, boundsLoop, h1, h2]
  decide

end Verif.Foundation
