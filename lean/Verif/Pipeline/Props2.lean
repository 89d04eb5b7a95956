import Verif.Pipeline.Bloch

/-!
# C50: the Hamiltonian of a lattice is the textbook tight-binding Hamiltonian
-/

namespace Verif.Pipeline

open Verif.Lattice (Sublattice HoppingFamily HoppingTerm Registry CellSite CellHopping Inv optimizedUnitCell)
open Verif.Lattice.Lattice (run empty allTerms)
open Verif.Foundation (Dims CellOK size sites locOf rank validPairs cellAt crystalSite hoppingsAt popOps
  siteEntries finalize)
open Verif.Sublat (tableNorbs)
open Verif.Sublat.Spec (firstRow)
open Verif.Hamiltonian
open Verif.Symmetry (Periods Supported cmul periodIndex stored Short InArea)
open Verif.Hopping (COO Csr HoppingBlocks)

variable {C L P K : Type}

theorem sum_add_star [AddCommMonoid K] [StarAddMonoid K] {α : Type} (l : List α) (f g : α → K) :
    (l.map fun x => f x + star (g x)).sum = (l.map f).sum + star (l.map g).sum := by
  induction l with
  | nil => simp
  | cons x l ih =>
    simp only [List.map_cons, List.sum_cons, ih, star_add]
    abel

theorem periodIndex_short_disabled {p : Periods} (h : enabled p = false) (r : Index3) : Short p r := by
  unfold enabled at h
  simp only [Bool.or_eq_false_iff] at h
  refine ⟨?_, ?_, ?_⟩ <;> intro hx
  · rw [h.1.1] at hx; cases hx
  · rw [h.1.2] at hx; cases hx
  · rw [h.2] at hx; cases hx

theorem area_disabled {d : Dims} {p : Periods} (h : enabled p = false) {nsub k : Nat} {x : Foundation.Site}
    (hx : (sites d nsub)[k]? = some x) : (Symmetry.area d p).contains x.loc.idx = true := by
  have hk : k < size d nsub := by
    have := (List.getElem?_eq_some_iff.1 hx).1
    rw [Foundation.sites_eq] at this
    simpa using this
  rw [Symmetry.sites_getElem? hk, Option.some.injEq] at hx
  subst hx
  obtain ⟨a1, a2, b1, b2, c1, c2, -⟩ := Foundation.locOf_in hk
  unfold enabled at h
  simp only [Bool.or_eq_false_iff, Option.isSome_eq_false_iff, Option.isNone_iff_eq_none] at h
  obtain ⟨⟨h1, h2⟩, h3⟩ := h
  unfold Symmetry.area Symmetry.Area.contains
  simp only [h1, h2, h3, Symmetry.axisArea, Foundation.siteAt]
  refine decide_eq_true ⟨a1, b1, c1, ?_, ?_, ?_⟩ <;> omega

section
variable [AddMonoid C] [StarAddMonoid C] [DecidableEq C]
  (ops : List (Lattice.Lattice.Op C L)) (subs : List (String × Sublattice C L))
  (hops : List (String × HoppingFamily C))
  (hs : subs.Perm (run ops empty).subs) (hh : hops.Perm (run ops empty).hops)
  (ha : AliasesOK (run ops empty)) (d : Dims) (p : Periods) (valid : List Bool)
  (hl : valid.length = (sites d subs.length).length) (hf : enabled p = true → Symmetry.Fits d p)
  (pos : Nat → P) (junk : P) (shiftOf : Index3 → P) (s : System C P)
  (hsys : makeSystem subs hops d p valid pos junk shiftOf = .ok s)
include hs hh ha hl hf hsys

/-- **C50**: the Hamiltonian of every system made from a lattice is the textbook one.  For any lattice
built through the API, any shape (mask of valid sites within the periodic area), any periods that fit
into the foundation (or none), element-wise modifiers and both build paths, the matrix can be built
and its element between orbital `i` of site `k` and orbital `j` of site `k'` is the onsite energy (if
`k = k'`), plus the sum over the terms of the lattice which lead from `k` to a periodic copy of `k'`,
plus the conjugate of the sum for the reverse direction.  A copy that lies `S` cells before `k'`
itself gets the phase of the translation by `S` cells. -/
theorem C50_bloch [NonAssocSemiring K] [StarAddMonoid K] [DecidableEq K] [AddGroup P] (cast : C → K)
    (hc0 : cast 0 = 0) (hshort : enabled p = true → ∀ q ∈ allTerms (run ops empty).hops, Short p q.2.rel)
    (hin : enabled p = true → InArea d p subs.length valid)
    (mods : Modifiers K P) (gs : List (ElemFn K P)) (gos : List (OnsiteFn K P)) (maxBuffer : Nat)
    (phase : P → K) (hph : phase 0 = 1) (hsh : shiftOf Index3.zero = 0) (simple : Bool)
    (hbuf : ∀ q ∈ hops, q.2.energy.size ≤ maxBuffer)
    (hch : ∀ r c, Chain r c mods.hopping gs) (hon : ∀ n, OnsiteChain n mods.onsite gos) :
    ∃ cell m, optimizedUnitCell subs hops = .ok cell ∧ make cast s mods maxBuffer phase simple = .ok m ∧
      Sorted (Sublat.hamiltonianSize s.sublattices) m ∧
      ∀ k k' ck ck', valid[k]? = some true → valid[k']? = some true →
        crystalSite d cell k = some ck → crystalSite d cell k' = some ck' →
        ∃ sub sub' root, (run ops empty).subs[ck.2.uniqueId]? = some sub ∧
          (run ops empty).subs[ck'.2.uniqueId]? = some sub' ∧
          (run ops empty).subs[sub.2.aliasId]? = some root ∧
          ∀ i j, i < sub.2.energy.rows → j < sub'.2.energy.rows →
            coeff m (firstRow (tableNorbs s.sublattices) ((valid.take k).count true) + i)
                (firstRow (tableNorbs s.sublattices) ((valid.take k').count true) + j)
              = (if k = k' then
                  finalOnsite gos root.1 (fun i j => cast (entry sub.2.energy i j)) (pos k) i j else 0)
                + blochSum cast gs phase shiftOf p (run ops empty).hops (ck.1, ck.2.uniqueId)
                    (ck'.1, ck'.2.uniqueId) (pos k) (pos k') i j
                + star (blochSum cast gs phase shiftOf p (run ops empty).hops (ck'.1, ck'.2.uniqueId)
                    (ck.1, ck.2.uniqueId) (pos k') (pos k) j i) := by
  obtain ⟨sr, hr, cell, bs, hcell, hP, hl', hbs, hseq, hbok⟩ := system_cases ops subs hops hs hh ha d p valid hl hf
    pos junk shiftOf s hsys
  have inv := Inv.reachable (K := C) (P := L) ops
  have hcl : cell.length = subs.length := by rw [hP.cellLen, hs.length_eq]
  have hf' : Symmetry.Fits d p := by
    cases he : enabled p with
    | true => exact hf he
    | false => exact fits_disabled he
  have hshort' : ∀ q ∈ allTerms (run ops empty).hops, Short p q.2.rel := by
    cases he : enabled p with
    | true => exact hshort he
    | false => exact fun q _ => periodIndex_short_disabled he _
  have hin' : InArea d p cell.length valid := by
    rw [hcl]
    cases he : enabled p with
    | true => exact hin he
    | false =>
      intro k x hx _
      exact area_disabled he hx
  obtain ⟨cell', hcell', hclosure⟩ := Symmetry.C20_closure (Pos := P) ops subs hops hs hh (nameMap hr)
    (nameMap_length hP).ge d p hf' hshort'
  rw [hcell, Res.ok.injEq] at hcell'
  subst hcell'
  obtain ⟨sy, bs', p1, p2, hnd, hb, hcount⟩ := hclosure valid (by rw [hl, hcl]) hin' pos junk
  rw [hbs, Res.ok.injEq] at p2
  subst p2
  rw [Foundation.populateSystem_eq hP.cellOK hl' (nameMap hr) (nameMap_length hP).ge pos junk,
    Res.ok.injEq] at p1
  have hhop : s.hoppings = sy.hoppings := by
    rw [hseq, ← p1, nameMap_length hP]
    rfl
  have hbd : ∀ b ∈ s.boundaries, HopOK s b.hoppings (famEnergy (run ops empty)) (famName (run ops empty)) := by
    intro b hb'
    rw [hseq] at hb'
    obtain ⟨x, hx, rfl⟩ := List.mem_map.1 hb'
    exact hbok x hx
  have hmain : HopOK s s.hoppings (famEnergy (run ops empty)) (famName (run ops empty)) := by
    rw [hseq]; exact hP.mainOK inv hl' pos _
  have hlt : ∀ a, a < (tableNorbs s.sublattices).length → a < valid.count true := by
    intro a h
    rw [hseq] at h
    have h : a < (tableNorbs (Sublat.runAdds (popOps d cell valid))).length := h
    rwa [tableNorbs_pop hP.cellOK hl', List.length_map, Foundation.popOps_length] at h
  have hposAt : ∀ k, valid[k]? = some true → (validKs valid).getD (rank valid k) 0 = k := by
    intro k hk
    unfold validKs
    rw [List.getD_eq_getElem?_getD, List.getElem?_map, validPairs_get hk]
    rfl
  obtain ⟨m, hm, hsorted, hco⟩ := C49_coefficients cast s mods gs maxBuffer phase (famEnergy (run ops empty))
    (famName (run ops empty)) (fun a => pos ((validKs valid).getD a 0)) gos (siteEnergy s) (siteName s) simple hc0
    (by rw [hseq]; exact hP.sitesOK hl' pos _) hmain hbd
    (fun _ => by rw [hseq]; exact hP.bonds hl' pos _)
    (by
      intro a h
      obtain ⟨k1, hk1, rfl⟩ := validPairs_get' (hlt a h)
      rw [hposAt k1 hk1, hseq]
      exact maskFilter_get pos hk1)
    (by
      intro fam
      unfold famEnergy
      split
      · rename_i q hq
        exact hbuf q (hh.mem_iff.2 (List.mem_of_getElem? hq))
      · exact Nat.zero_le _)
    (fun fam => hch _ _) (fun e _ => hon _)
  refine ⟨cell, m, hcell, hm, hsorted, ?_⟩
  intro k k' ck ck' hk hk' hck hck'
  have hck2 := hck
  have hck2' := hck'
  unfold crystalSite at hck hck'
  rw [Option.map_eq_some_iff] at hck hck'
  obtain ⟨c, hc, rfl⟩ := hck
  obtain ⟨c', hc', rfl⟩ := hck'
  obtain ⟨sub, root, g1, g2, -, -, -, g3, -, g4, g5⟩ := hP.siteAt hl' pos
    (bs.map fun b => ⟨shiftOf b.shift, b.hoppings⟩) hk hc (List.mem_of_getElem? hc)
  obtain ⟨sub', root', g1', -, -, -, -, g3', -, -, -⟩ := hP.siteAt hl' pos
    (bs.map fun b => ⟨shiftOf b.shift, b.hoppings⟩) hk' hc' (List.mem_of_getElem? hc')
  refine ⟨sub, sub', root, g1, g1', g2, ?_⟩
  intro i j hi hj
  have hnorb : ∀ k c, valid[k]? = some true → cellAt d cell k = some c →
      (tableNorbs s.sublattices).getD (rank valid k) 0 = c.norb := by
    intro k c hk hc
    rw [hseq, List.getD_eq_getElem?_getD]
    show ((tableNorbs (Sublat.runAdds (popOps d cell valid)))[rank valid k]?).getD 0 = _
    rw [norb_at hP.cellOK hl' hk hc]
    rfl
  have hcoef := hco (rank valid k) (rank valid k') i j (by rw [hnorb k c hk hc, ← g3]; exact hi)
    (by rw [hnorb k' c' hk' hc', ← g3']; exact hj)
  have hmlen : s.hoppings.blocks.length = (run ops empty).hops.length := by
    rw [hseq]; simp [assemble]
  have hblen : ∀ x ∈ bs, x.hoppings.blocks.length = (run ops empty).hops.length := by
    intro x hx
    obtain ⟨ds, g, -, -, hg, e⟩ := Symmetry.populateBoundaries_eq hP.cellOK hl' hf' (nameMap hr)
      (nameMap_length hP).ge
    rw [hbs, Res.ok.injEq] at e
    rw [e] at hx
    obtain ⟨D, hD, hy⟩ := List.mem_filterMap.1 hx
    split at hy
    · simp only [Option.some.injEq] at hy
      subst hy
      simp only [hg D hD, List.length_map, List.length_range]
      exact nameMap_length hP
    · cases hy
  have hclosed : ∀ k k' c c', valid[k]? = some true → valid[k']? = some true →
      cellAt d cell k = some c → cellAt d cell k' = some c' →
      Closed (run ops empty).hops p s.hoppings bs ((locOf d k).idx, c.uniqueId) ((locOf d k').idx, c'.uniqueId)
        (rank valid k) (rank valid k') := by
    intro k k' c c' hk hk' hc hc'
    refine ⟨hnd, fun x hx => (hb x hx).1, ?_, ?_⟩
    · intro x hx
      exact (isPeriod_iff _ _).2 (hb x hx).2.2.1
    · intro S hS fam hfam
      obtain ⟨D, hD, rfl⟩ := (isPeriod_iff _ _).1 hS
      rw [hhop]
      have := hcount D hD fam (by rw [nameMap_length hP]; exact hfam) k k' ((locOf d k).idx, c)
        ((locOf d k').idx, c') hk hk' (by unfold crystalSite; rw [hc]; rfl) (by unfold crystalSite; rw [hc']; rfl)
      exact this
  have hbdy : s.boundaries = bs.map fun b => ⟨shiftOf b.shift, b.hoppings⟩ := by rw [hseq]; rfl
  rw [hbdy, List.map_map] at hcoef
  simp only [Function.comp_def] at hcoef
  rw [sum_add_star] at hcoef
  have e1 := bloch_of_closed inv cast gs phase shiftOf p s.hoppings bs _ _ _ _ (hclosed k k' c c' hk hk' hc hc')
    (fun a => pos ((validKs valid).getD a 0)) hph hsh hmlen hblen i j
  have e2 := bloch_of_closed inv cast gs phase shiftOf p s.hoppings bs _ _ _ _ (hclosed k' k c' c hk' hk hc' hc)
    (fun a => pos ((validKs valid).getD a 0)) hph hsh hmlen hblen j i
  simp only [hposAt k hk, hposAt k' hk'] at e1 e2
  rw [← e1, ← e2, star_add]
  refine hcoef.trans ?_
  have hif : (if rank valid k = rank valid k' then
        finalOnsite gos (siteName s (rank valid k)) (fun i j => cast (entry (siteEnergy s (rank valid k)) i j))
          (pos ((validKs valid).getD (rank valid k) 0)) i j else 0)
      = if k = k' then finalOnsite gos root.1 (fun i j => cast (entry sub.2.energy i j)) (pos k) i j else 0 := by
    rw [hposAt k hk]
    rw [← hseq] at g4 g5
    rw [g4, g5]
    by_cases hkk : k = k'
    · rw [if_pos hkk, if_pos (by rw [hkk])]
    · rw [if_neg hkk, if_neg (fun e => hkk (Foundation.rank_inj hk hk' e))]
  rw [hif]
  abel

end

/-! ## Example -/

/-- A chain of sites with one and two orbitals. -/
def chain : List (Lattice.Lattice.Op Int Unit) :=
  [.addSublattice "A" () (Mat.scalar 5), .addSublattice "B" () ⟨2, 2, fun i j => i.val + j.val⟩,
   .registerHoppingEnergy "t" (Mat.scalar 3), .addHopping ⟨1, 0, 0⟩ "A" "A" "t",
   .registerHoppingEnergy "u" ⟨1, 2, fun _ j => 8 + j.val⟩, .addHopping ⟨0, 0, 0⟩ "A" "B" "u",
   .addHopping ⟨-1, 0, 0⟩ "A" "B" "u"]

theorem chain_aliases : AliasesOK (run chain empty) where
  last := by
    have : ∀ p ∈ (run chain empty).subs, p.2.aliasId = p.2.uniqueId := by decide
    intro i j p q hp _ hne
    exact absurd (this p (List.mem_of_getElem? hp)) hne
  root := by
    have : ∀ p ∈ (run chain empty).subs, p.2.aliasId = p.2.uniqueId := by decide
    intro p _ q hq
    exact this q (List.mem_of_getElem? hq)

/-- A system with a period of two cells. -/
def chainSystem : Res (System Int Int) :=
  makeSystem (run chain empty).subs (run chain empty).hops ⟨2, 1, 1⟩ ⟨some 2, none, none⟩
    [true, true, true, true] (fun k => 10 * (k : Int)) (-1) (fun S => 7 * S.x)

/-- The hypotheses of C12, C21, C22 and C50 hold for the chain, and the two hoppings between the
sites of sublattice A, one of which crosses the boundary, are summed with their phases. -/
example : ∃ s m, chainSystem = .ok s ∧
    make id s ⟨[], [scale]⟩ 2 (fun x => if x = 0 then 1 else x) true = .ok m ∧
    Sorted 6 m ∧ coeff m 0 1 = 6 + (-14) * 6 ∧ coeff m 0 0 = 5 := by
  have hshort : ∀ q ∈ allTerms (run chain empty).hops, Short ⟨some 2, none, none⟩ q.2.rel := by
    have : ∀ q ∈ allTerms (run chain empty).hops, |q.2.rel.x| ≤ 1 := by decide
    intro q hq
    exact ⟨fun _ => Or.inl (this q hq), fun h => by simp at h, fun h => by simp at h⟩
  have hfits : Symmetry.Fits ⟨2, 1, 1⟩ ⟨some 2, none, none⟩ := by
    refine ⟨?_, ?_, ?_⟩ <;> intro n hn <;> simp at hn
    subst hn
    decide
  have hsys : ∃ s, chainSystem = .ok s := by
    unfold chainSystem
    obtain ⟨sr, hr, cell, -, hP, h3⟩ := makeSystem_eq (P := Int) chain (run chain empty).subs
      (run chain empty).hops (.refl _) (.refl _) chain_aliases
    have hcl : cell.length = 2 := hP.cellLen
    obtain ⟨bs, -, b2, -⟩ := h3 ⟨2, 1, 1⟩ ⟨some 2, none, none⟩ [true, true, true, true]
      (by rw [hcl]; rfl) (fun _ => hfits) (fun k => 10 * (k : Int)) (-1) (fun S => 7 * S.x)
    rw [if_neg (by decide)] at b2
    exact ⟨_, b2⟩
  obtain ⟨s, hs⟩ := hsys
  have hin : InArea ⟨2, 1, 1⟩ ⟨some 2, none, none⟩ 2 [true, true, true, true] := by
    have : ∀ x ∈ sites ⟨2, 1, 1⟩ 2, (Symmetry.area ⟨2, 1, 1⟩ ⟨some 2, none, none⟩).contains x.loc.idx = true := by
      decide
    intro k x hx _
    exact this x (List.mem_of_getElem? hx)
  obtain ⟨cell, m, hcell, hm, hsorted, hco⟩ := C50_bloch chain _ _ (.refl _) (.refl _) chain_aliases ⟨2, 1, 1⟩
    ⟨some 2, none, none⟩ [true, true, true, true] rfl (fun _ => hfits) (fun k => 10 * (k : Int)) (-1)
    (fun S => 7 * S.x) s hs id rfl (fun _ => hshort) (fun _ => hin) ⟨[], [scale]⟩ [fun _ e _ _ i j => 2 * e i j] []
    2 (fun x => if x = 0 then 1 else x) rfl rfl true (by decide)
    (fun r c => .cons (scale_elementwise r c) .nil) (fun n => .nil)
  have hn : tableNorbs s.sublattices = [1, 1, 2, 2] := by
    have : (match chainSystem with | .ok s => tableNorbs s.sublattices | _ => []) = [1, 1, 2, 2] := by
      decide +kernel
    rwa [hs] at this
  have hc : ∀ k : Nat, k < 2 → ∃ c, crystalSite ⟨2, 1, 1⟩ cell k = some (⟨k, 0, 0⟩, c) ∧ c.uniqueId = 0 := by
    have : (match optimizedUnitCell (run chain empty).subs (run chain empty).hops with
        | .ok cell => (List.range 2).map fun k =>
            (crystalSite ⟨2, 1, 1⟩ cell k).map fun c => (c.1, c.2.uniqueId)
        | _ => []) = [some (⟨0, 0, 0⟩, 0), some (⟨1, 0, 0⟩, 0)] := by decide +kernel
    rw [hcell] at this
    simp only [List.range_succ, List.range_zero, List.nil_append, List.map_cons, List.map_nil,
      List.cons_append, List.cons.injEq, and_true, Option.map_eq_some_iff, Prod.mk.injEq] at this
    obtain ⟨⟨⟨i0, c0⟩, h0, h0', h0''⟩, ⟨i1, c1⟩, h1, h1', h1''⟩ := this
    intro k hk
    simp only at h0' h1'
    match k, hk with
    | 0, _ => exact ⟨c0, by rw [h0, h0']; rfl, h0''⟩
    | 1, _ => exact ⟨c1, by rw [h1, h1']; rfl, h1''⟩
  obtain ⟨c0, h0, u0⟩ := hc 0 (by decide)
  obtain ⟨c1, h1, u1⟩ := hc 1 (by decide)
  refine ⟨s, m, hs, hm, ?_, ?_, ?_⟩
  · rw [Sublat.hamiltonianSize_eq, hn] at hsorted
    exact hsorted
  · obtain ⟨sub, sub', root, g1, g2, g3, hij⟩ := hco 0 1 _ _ rfl rfl h0 h1
    rw [u0] at g1
    rw [u1] at g2
    have hsub : sub = ("A", ⟨(), Lattice.selfadjointUpper (Mat.scalar 5), 0, 0⟩) := (Option.some.inj g1).symm
    have hsub' : sub' = ("A", ⟨(), Lattice.selfadjointUpper (Mat.scalar 5), 0, 0⟩) := (Option.some.inj g2).symm
    subst hsub
    subst hsub'
    have := hij 0 0 (by decide) (by decide)
    rw [hn, u0, u1] at this
    simp only [finalOnsite, List.foldl_nil] at this
    exact this.trans (by decide +kernel)
  · obtain ⟨sub, sub', root, g1, g2, g3, hij⟩ := hco 0 0 _ _ rfl rfl h0 h0
    rw [u0] at g1 g2
    have hsub : sub = ("A", ⟨(), Lattice.selfadjointUpper (Mat.scalar 5), 0, 0⟩) := (Option.some.inj g1).symm
    have hsub' : sub' = ("A", ⟨(), Lattice.selfadjointUpper (Mat.scalar 5), 0, 0⟩) := (Option.some.inj g2).symm
    subst hsub
    subst hsub'
    have := hij 0 0 (by decide) (by decide)
    rw [hn, u0] at this
    simp only [finalOnsite, List.foldl_nil] at this
    exact this.trans (by decide +kernel)

end Verif.Pipeline
