import Verif.Pipeline.Rows
import Verif.Hamiltonian.Props3

/-!
# C12, C21 and C22 for every system made from a lattice
-/

namespace Verif.Pipeline

open Verif.Lattice (Sublattice HoppingFamily HoppingTerm Registry CellSite CellHopping Inv optimizedUnitCell)
open Verif.Lattice.Lattice (run empty allTerms)
open Verif.Foundation (Dims CellOK size sites locOf rank validPairs cellAt crystalSite hoppingsAt popOps
  siteEntries finalize)
open Verif.Sublat (tableNorbs)
open Verif.Sublat.Spec (firstRow)
open Verif.Hamiltonian
open Verif.Symmetry (Periods)
open Verif.Hopping (COO Csr)

variable {C L P K : Type}

theorem exists_row (norbs : List Nat) (r : Nat) (h : r < norbs.sum) :
    ∃ k i, i < norbs.getD k 0 ∧ r = firstRow norbs k + i := by
  induction norbs generalizing r with
  | nil => simp at h
  | cons n l ih =>
    rw [List.sum_cons] at h
    by_cases hr : r < n
    · exact ⟨0, r, by simpa using hr, by simp [firstRow]⟩
    · obtain ⟨k, i, h1, h2⟩ := ih (r - n) (by omega)
      refine ⟨k + 1, i, by simpa using h1, ?_⟩
      unfold firstRow at h2 ⊢
      rw [List.take_succ_cons, List.sum_cons]
      omega

theorem Subperm.countP_lt {α : Type} {l l' : List α} (h : l.Subperm l') (q : α → Bool) {x : α}
    (hx : x ∈ l') (hq : q x = true) (hn : x ∉ l) : l.countP q + 1 ≤ l'.countP q := by
  have hd : DecidableEq α := Classical.decEq α
  have : (x :: l).Subperm l' := by
    rw [List.subperm_ext_iff]
    intro y hy
    rcases List.mem_cons.1 hy with rfl | hy
    · rw [List.count_cons_self, List.count_eq_zero_of_not_mem hn]
      exact List.count_pos_iff.2 hx
    · have hne : y ≠ x := fun e => hn (e ▸ hy)
      rw [List.count_cons_of_ne hne.symm]
      exact h.count_le y
  have h2 := this.countP_le q
  rwa [List.countP_cons, if_pos hq] at h2

/-- The length of a row is bounded by the pairs of the row; one less without a diagonal element. -/
theorem main_rows [Zero C] [DecidableEq C] [Zero K] [DecidableEq K] [Star K] [Add K] [Sub P] (cast : C → K)
    (s : System C P) (mods : Modifiers K P) (maxBuffer : Nat) (E : Nat → Mat C) (N : Nat → String)
    (hok : HopOK s s.hoppings E N) (hb : SimpleBonds s.hoppings) (simple : Bool) (m : Csr K)
    (hm : buildMain cast s mods maxBuffer simple = .ok m) :
    ∃ onsite, applyToOnsite cast s mods = .ok onsite ∧ m.length = (tableNorbs s.sublattices).sum ∧
      ∀ k i, i < (tableNorbs s.sublattices).getD k 0 →
      (m.getD (firstRow (tableNorbs s.sublattices) k + i) []).length
        ≤ ((allPairs (tableNorbs s.sublattices).length s.hoppings.blocks.flatten).map fun c =>
            if c.row = k then (tableNorbs s.sublattices).getD c.col 0 else 0).sum ∧
      ((∀ c ∈ onsite, c.1 ≠ c.2.1) →
        (m.getD (firstRow (tableNorbs s.sublattices) k + i) []).length + 1
        ≤ ((allPairs (tableNorbs s.sublattices).length s.hoppings.blocks.flatten).map fun c =>
            if c.row = k then (tableNorbs s.sublattices).getD c.col 0 else 0).sum) := by
  have hsame : buildMain cast s mods maxBuffer true = .ok m := by
    cases simple with
    | true => exact hm
    | false =>
      unfold buildMain at hm ⊢
      simp only [if_true, Bool.false_eq_true, if_false] at hm ⊢
      rcases ho : applyToOnsite cast s mods with o | _ | _
      · rcases hh : applyToHoppings cast s mods maxBuffer none s.hoppings with hp | e | _
        · obtain ⟨m', e1, e2, -⟩ := main_insert cast s mods maxBuffer E N hok hb o hp ho hh
          rw [ho, hh] at hm
          simp only [Res.bind_ok] at hm ⊢
          rw [e2, Res.ok.injEq] at hm
          subst hm
          rw [← e1, insertAll_append]
          rfl
        · rw [ho, hh] at hm; cases hm
        · rw [ho, hh] at hm; cases hm
      · rw [ho] at hm; cases hm
      · rw [ho] at hm; cases hm
  unfold buildMain at hsame
  simp only [if_true] at hsame
  rcases ho : applyToOnsite cast s mods with onsite | _ | _
  swap
  · rw [ho] at hsame; cases hsame
  swap
  · rw [ho] at hsame; cases hsame
  rcases hh : applyToHoppings cast s mods maxBuffer none s.hoppings with hop | e | _
  swap
  · obtain ⟨m', e1⟩ := onsite_insert cast s mods onsite ho
    rw [ho, hh, Res.bind_ok, e1] at hsame; cases hsame
  swap
  · obtain ⟨m', e1⟩ := onsite_insert cast s mods onsite ho
    rw [ho, hh, Res.bind_ok, e1] at hsame; cases hsame
  refine ⟨onsite, rfl, ?_⟩
  have hp := main_places cast s mods maxBuffer E N hok onsite hop ho hh
  have hnd := boxes_nodup (tableNorbs s.sublattices) _
    (allPairs_nodup (tableNorbs s.sublattices).length s.hoppings hb)
  have hnd' : ((onsite ++ withConjugate hop).map pos).Nodup := by
    obtain ⟨l, hl, hs⟩ := hp
    exact hl.nodup_iff.1 (hnd.sublist hs)
  obtain ⟨m', e1, e2, -, e4⟩ := insertAll_fresh (n := Sublat.hamiltonianSize s.sublattices)
    (onsite ++ withConjugate hop) (m := List.replicate (Sublat.hamiltonianSize s.sublattices) [])
    (by simp) (by
      intro c hc
      have hm := hp.subset (List.mem_map.2 ⟨c, hc, rfl⟩)
      obtain ⟨d, -, hd⟩ := List.mem_flatMap.1 hm
      have := box_range hd
      rw [Sublat.hamiltonianSize_eq]
      exact this) hnd' (fun c _ => not_stored_zero _ _ _)
  have hmm : m' = m := by
    rw [ho, hh] at hsame
    simp only [Res.bind_ok] at hsame
    rw [insertAll_append] at e1
    exact Res.ok.inj (e1.symm.trans hsame)
  subst hmm
  refine ⟨by rw [e2, Sublat.hamiltonianSize_eq], ?_⟩
  intro k i hi
  rw [e4]
  have hz : ((List.replicate (Sublat.hamiltonianSize s.sublattices) ([] : List (Nat × K))).getD
      (firstRow (tableNorbs s.sublattices) k + i) []).length = 0 := by
    rw [List.getD_eq_getElem?_getD, List.getElem?_replicate]
    split <;> rfl
  rw [hz, Nat.zero_add]
  have hsum : (((allPairs (tableNorbs s.sublattices).length s.hoppings.blocks.flatten).flatMap
        (box (tableNorbs s.sublattices))).countP
        fun p => decide (p.1 = ((firstRow (tableNorbs s.sublattices) k + i : Nat) : Int)))
      = ((allPairs (tableNorbs s.sublattices).length s.hoppings.blocks.flatten).map fun c =>
          if c.row = k then (tableNorbs s.sublattices).getD c.col 0 else 0).sum := by
    rw [List.countP_flatMap]
    congr 1
    apply List.map_congr_left
    intro c _
    exact box_row (tableNorbs s.sublattices) c k i hi
  have hcm : (onsite ++ withConjugate hop).countP
        (fun c => decide (c.1 = ((firstRow (tableNorbs s.sublattices) k + i : Nat) : Int)))
      = ((onsite ++ withConjugate hop).map pos).countP
        (fun p => decide (p.1 = ((firstRow (tableNorbs s.sublattices) k + i : Nat) : Int))) := by
    rw [List.countP_map]; rfl
  constructor
  · have hcnt := hp.countP_le
      (fun p => decide (p.1 = ((firstRow (tableNorbs s.sublattices) k + i : Nat) : Int)))
    rw [hsum] at hcnt
    exact le_trans (le_of_eq hcm) hcnt
  · intro hdiag
    have hk : k < (tableNorbs s.sublattices).length := by
      by_contra hc
      rw [List.getD_eq_getElem?_getD, List.getElem?_eq_none (by omega)] at hi
      simp at hi
    have hcnt := Subperm.countP_lt hp
      (fun p => decide (p.1 = ((firstRow (tableNorbs s.sublattices) k + i : Nat) : Int)))
      (x := place (tableNorbs s.sublattices) ⟨k, k⟩ i i)
      (by
        refine List.mem_flatMap.2 ⟨⟨k, k⟩, ?_, mem_box.2 ⟨i, i, hi, hi, rfl⟩⟩
        unfold allPairs diagPairs
        exact List.mem_append_left _ (List.mem_map.2 ⟨k, List.mem_range.2 hk, rfl⟩))
      (by simp [place])
      (by
        intro hmem
        obtain ⟨c, hc, he⟩ := List.mem_map.1 hmem
        have hcd : c.1 = c.2.1 := by
          have h1 : c.1 = (place (tableNorbs s.sublattices) ⟨k, k⟩ i i).1 := congrArg Prod.fst he
          have h2 : c.2.1 = (place (tableNorbs s.sublattices) ⟨k, k⟩ i i).2 := congrArg Prod.snd he
          rw [h1, h2]
          rfl
        rcases List.mem_append.1 hc with hc | hc
        · exact hdiag c hc hcd
        · have hh2 := applyToHoppings_places cast s mods maxBuffer none s.hoppings E N hok hop hh
          obtain ⟨d, hd, hcc⟩ := List.mem_flatMap.1 hc
          have hdd : d.1 = d.2.1 := by
            simp only [List.mem_cons, List.not_mem_nil, or_false] at hcc
            rcases hcc with rfl | rfl
            · exact hcd
            · exact hcd.symm
          obtain ⟨b, hbm, hbox⟩ := List.mem_flatMap.1 (hh2.subset (List.mem_map.2 ⟨d, hd, rfl⟩))
          obtain ⟨x, y, hx, hy, hxy⟩ := mem_box.1 hbox
          have h1 : d.1 = ((firstRow (tableNorbs s.sublattices) b.row + x : Nat) : Int) := congrArg Prod.fst hxy
          have h2 : d.2.1 = ((firstRow (tableNorbs s.sublattices) b.col + y : Nat) : Int) := congrArg Prod.snd hxy
          rw [h1, h2, Int.ofNat_inj] at hdd
          exact hb.1 b hbm (firstRow_inj hx hy hdd).1)
    rw [hsum] at hcnt
    refine le_trans (le_of_eq ?_) hcnt
    rw [← hcm]

section
variable [AddMonoid C] [StarAddMonoid C] [DecidableEq C]
  (ops : List (Lattice.Lattice.Op C L)) (subs : List (String × Sublattice C L))
  (hops : List (String × HoppingFamily C))
  (hs : subs.Perm (run ops empty).subs) (hh : hops.Perm (run ops empty).hops)
  (ha : AliasesOK (run ops empty)) (d : Dims) (p : Periods) (valid : List Bool)
  (hl : valid.length = (sites d subs.length).length) (hf : enabled p = true → Symmetry.Fits d p)
  (pos : Nat → P) (junk : P) (shiftOf : Index3 → P) (s : System C P)
  (hsys : makeSystem subs hops d p valid pos junk shiftOf = .ok s)
include hs hh ha hl hf hsys

/-- The system of a lattice, with what is known about it. -/
theorem system_cases : ∃ sr hr cell bs, optimizedUnitCell subs hops = .ok cell ∧ Parts (run ops empty) sr hr cell ∧
    valid.length = size d cell.length ∧
    Symmetry.populateBoundaries d cell (run ops empty).hops.length p (nameMap hr) valid = .ok bs ∧
    s = assemble sr hr d cell (run ops empty).hops.length valid pos
      (bs.map fun b => ⟨shiftOf b.shift, b.hoppings⟩) ∧
    ∀ b ∈ bs, HopOK s b.hoppings (famEnergy (run ops empty)) (famName (run ops empty)) := by
  obtain ⟨sr, hr, cell, h1, h2, h3⟩ := makeSystem_eq (P := P) ops subs hops hs hh ha
  have hcl : cell.length = subs.length := by rw [h2.cellLen, hs.length_eq]
  have hl' : valid.length = size d cell.length := by
    rw [hl, Foundation.sites_eq, hcl]; simp
  obtain ⟨bs, b1, b2, b3⟩ := h3 d p valid hl' hf pos junk shiftOf
  rw [hsys] at b2
  split at b2
  · cases b2
  · rw [Res.ok.injEq] at b2
    exact ⟨sr, hr, cell, bs, h1, h2, hl', b1, b2, fun b hb => by rw [b2]; exact b3 _ b hb⟩

/-- **C12**: no row of the Hamiltonian of a system without generators has more elements than the
insertion path reserves, `max_hoppings` plus one if there may be diagonal elements: for every lattice,
shape (validity mask), boundaries and modifiers. -/
theorem C12_rows [Zero K] [DecidableEq K] [Star K] [Add K] [Sub P] (cast : C → K) (hc0 : cast 0 = 0)
    (mods : Modifiers K P) (maxBuffer : Nat) (simple : Bool) (m : Csr K)
    (hm : buildMain cast s mods maxBuffer simple = .ok m) :
    m.length = Sublat.hamiltonianSize s.sublattices ∧
    ∀ row ∈ m, (row.length : Int) ≤ numPerRow (run ops empty) subs mods := by
  obtain ⟨sr, hr, cell, bs, -, hP, hl', -, rfl, -⟩ := system_cases ops subs hops hs hh ha d p valid hl hf pos
    junk shiftOf s hsys
  have inv := Inv.reachable (K := C) (P := L) ops
  obtain ⟨onsite, ho, hlen, hrows⟩ := main_rows cast _ mods maxBuffer _ _
    (hP.mainOK inv hl' pos _) (hP.bonds hl' pos _) simple m hm
  refine ⟨by rw [hlen, Sublat.hamiltonianSize_eq], ?_⟩
  intro row hrow
  obtain ⟨r, hr1, hr2⟩ := List.getElem_of_mem hrow
  obtain ⟨k', i, hi, hki⟩ := exists_row _ r (hlen ▸ hr1)
  have hrow' : m.getD r [] = row := by
    rw [List.getD_eq_getElem?_getD, List.getElem?_eq_getElem hr1, Option.getD_some, hr2]
  obtain ⟨g1, g2⟩ := hrows k' i hi
  rw [← hki, hrow'] at g1 g2
  have hk' : k' < valid.count true := by
    by_contra hc
    rw [List.getD_eq_getElem?_getD, List.getElem?_eq_none] at hi
    · simp at hi
    · show (tableNorbs (Sublat.runAdds (popOps d cell valid))).length ≤ k'
      rw [tableNorbs_pop hP.cellOK hl', List.length_map, Foundation.popOps_length]
      omega
  obtain ⟨k, hk, rfl⟩ := validPairs_get' hk'
  obtain ⟨c, hc, hcm⟩ := cellAt_some (d := d) (cell := cell) hl' hk
  have hsum := hP.row_sum inv hl' pos (bs.map fun b => ⟨shiftOf b.shift, b.hoppings⟩) hk hc
  obtain ⟨q, hq, q1, q2, q3, -⟩ := hP.cellSub c hcm
  have hqid := inv.subIds _ _ hq
  have hmax := (Lattice.C12_max_hoppings (run ops empty)).1 q (List.mem_of_getElem? hq)
  rw [q1, hqid] at hmax
  simp only at hsum
  unfold numPerRow
  split
  · omega
  · rename_i hnd
    simp only [Bool.or_eq_true, Bool.not_eq_true', not_or, Bool.not_eq_true, Bool.not_eq_false,
      List.isEmpty_iff] at hnd
    obtain ⟨hnd, hnil⟩ := hnd
    have hlt : ∀ a, a < (tableNorbs (assemble sr hr d cell (run ops empty).hops.length valid pos
        (bs.map fun b => (⟨shiftOf b.shift, b.hoppings⟩ : Boundary P))).sublattices).length →
        a < valid.count true := by
      intro a h
      have h : a < (tableNorbs (Sublat.runAdds (popOps d cell valid))).length := h
      rwa [tableNorbs_pop hP.cellOK hl', List.length_map, Foundation.popOps_length] at h
    have hdiag : ∀ c ∈ onsite, c.1 ≠ c.2.1 := by
      obtain ⟨calls, c1, c2⟩ := applyToOnsite_spec cast hc0 _ mods [] _ _
        (hP.sitesOK hl' pos (bs.map fun b => ⟨shiftOf b.shift, b.hoppings⟩))
        (fun a => pos ((validKs valid).getD a 0))
        (by
          intro a h
          obtain ⟨k1, hk1, rfl⟩ := validPairs_get' (hlt a h)
          have : (validKs valid).getD (rank valid k1) 0 = k1 := by
            unfold validKs
            rw [List.getD_eq_getElem?_getD, List.getElem?_map, validPairs_get hk1]
            rfl
          rw [this]
          exact maskFilter_get pos hk1)
        (fun e _ => by rw [hnil]; exact .nil)
      rw [ho, Res.ok.injEq] at c1
      subst c1
      intro x hx hxx
      obtain ⟨a, ha1, hx⟩ := List.mem_flatMap.1 (c2.mem_iff.1 hx)
      obtain ⟨k1, hk1, rfl⟩ := validPairs_get' (hlt a (List.mem_range.1 ha1))
      obtain ⟨c', hc', hcm'⟩ := cellAt_some (d := d) (cell := cell) hl' hk1
      obtain ⟨p', q', hp', -, -, -, -, r1, r2, r3, -⟩ := hP.siteAt hl' pos
        (bs.map fun b => ⟨shiftOf b.shift, b.hoppings⟩) hk1 hc' hcm'
      unfold siteCalls elemCalls at hx
      obtain ⟨i', hi', hx⟩ := List.mem_flatMap.1 hx
      obtain ⟨j', hj', hx⟩ := List.mem_flatMap.1 hx
      split at hx
      · simp at hx
      · rename_i hv
        rw [List.mem_singleton] at hx
        subst hx
        have hij : i' = j' := by
          simp only [place, Int.ofNat_inj] at hxx
          omega
        subst hij
        apply hv
        rw [r3]
        show cast (entry p'.2.energy i' i') = 0
        have hz : entry p'.2.energy i' i' = 0 := by
          by_contra hne
          have : hasDiagonalTerms subs = true := by
            unfold entry at hne
            split at hne
            · rename_i hin
              unfold hasDiagonalTerms
              refine List.any_eq_true.2 ⟨p', hs.mem_iff.2 (List.mem_of_getElem? hp'), ?_⟩
              refine List.any_eq_true.2 ⟨⟨i', hin.1⟩, List.mem_finRange _, ?_⟩
              rw [dif_pos hin.2]
              exact decide_eq_true hne
            · exact absurd rfl hne
          rw [this] at hnd
          cases hnd
        rw [hz, hc0]
    have := g2 hdiag
    omega

/-- **C21** for a lattice: whenever the Hamiltonian of a system made from a lattice is produced, it is
Hermitian, provided that the onsite modifiers keep Hermitian matrices Hermitian. -/
theorem C21_lattice [NonUnitalNonAssocSemiring K] [StarAddMonoid K] [DecidableEq K] [Sub P] (cast : C → K)
    (hcast : ∀ z, cast (star z) = star (cast z)) (mods : Modifiers K P) (maxBuffer : Nat) (phase : P → K)
    (simple : Bool) (hmods : ∀ f ∈ mods.onsite, KeepsHermitian f) (m : Csr K)
    (h : make cast s mods maxBuffer phase simple = .ok m) :
    IsHermitian m ∧ Sorted (Sublat.hamiltonianSize s.sublattices) m := by
  obtain ⟨sr, hr, cell, bs, -, hP, hl', -, rfl, -⟩ := system_cases ops subs hops hs hh ha d p valid hl hf pos
    junk shiftOf s hsys
  exact C21_hermitian cast hcast _ mods maxBuffer phase simple hmods hP.herm (hP.sizesOK hl' pos _) m h

/-- **C22** for a lattice: both build paths have the same outcome for every system made from a
lattice. -/
theorem C22_lattice [Zero K] [DecidableEq K] [Star K] [Add K] [Mul K] [Sub P] (cast : C → K)
    (mods : Modifiers K P) (maxBuffer : Nat) (phase : P → K) :
    make cast s mods maxBuffer phase true = make cast s mods maxBuffer phase false := by
  obtain ⟨sr, hr, cell, bs, -, hP, hl', -, rfl, -⟩ := system_cases ops subs hops hs hh ha d p valid hl hf pos
    junk shiftOf s hsys
  exact C22_build_paths_agree cast _ mods maxBuffer phase _ _
    (hP.mainOK (Inv.reachable (K := C) (P := L) ops) hl' pos _) (hP.bonds hl' pos _)

end

end Verif.Pipeline
