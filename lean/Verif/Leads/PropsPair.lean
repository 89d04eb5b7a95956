import Verif.Leads.Pair

/-!
# C92: the Hamiltonians of a lead
-/

namespace Verif.Leads

open Verif.Lattice (Sublattice HoppingFamily HoppingTerm Registry CellSite CellHopping Inv siteRegistry hoppingRegistry
  optimizedUnitCell)
open Verif.Lattice.Lattice (run empty allTerms)
open Verif.Foundation
open Verif.Hamiltonian
open Verif.Hopping (COO Csr HoppingBlocks)
open Verif.Pipeline (Parts famEnergy famName nameMap orbitals rootName onsiteOf bondEnergy Wave crystal AliasesOK)
open Verif.Sublat (tableNorbs)
open Verif.Sublat.Spec (firstRow)

variable {C L P K : Type}

/-! ## Specification -/

/-- Element of the Hamiltonian of the infinite crystal between two of its sites: the onsite energy, the
terms of the lattice which lead from the one to the other, and the conjugates of those which lead back. -/
def element [Zero C] [AddMonoid K] [Star K] (l : Lattice.Lattice C L) (cast : C → K) (gs : List (ElemFn K P))
    (gos : List (OnsiteFn K P)) (posOf : Index3 → Nat → P) (x y : Index3 × Nat) (i j : Nat) : K :=
  (if x = y then finalOnsite gos (rootName l x.2) (onsiteOf l cast x.2) (posOf x.1 x.2) i j else 0)
  + hopping cast gs l.hops x y (posOf x.1 x.2) (posOf y.1 y.2) i j

/-- The lead of a lattice made through the API.  `posOf` are the positions of the infinite crystal and
`shift` is the vector by which a cell of the lead follows another one. -/
structure LeadOf [Zero C] [Star C] [DecidableEq C] [AddGroup P] (ops : List (Lattice.Lattice.Op C L))
    (subs : List (String × Sublattice C L)) (hops : List (String × HoppingFamily C)) (sr hr : Registry C) (B : Base P)
    (sp : Spec P) (valid : List Bool) (i : Int) (shift : P) (posOf : Index3 → Nat → P) (st : Structure P)
    (locs : List Loc) : Prop where
  permSubs : subs.Perm (run ops empty).subs
  permHops : hops.Perm (run ops empty).hops
  aliases : AliasesOK (run ops empty)
  siteReg : siteRegistry subs = .ok sr
  hopReg : hoppingRegistry hops = .ok hr
  cell : optimizedUnitCell subs hops = .ok B.cell
  directed : Directed sp
  lead : IsLead B sp valid i (nameMap hr) (· + shift) st locs
  placed : ∀ la ∈ locs, ∀ c, B.cell[la.sub]? = some c → B.pos[(flatIdx B.d la).toNat]? = some (posOf la.idx c.uniqueId)
  shifted : ∀ R α, posOf (R.add sp.shift) α = posOf R α + shift

/-- Site `a` of the unit cell of the lead: its cell and sublattice in the crystal. -/
def siteOf (B : Base P) (locs : List Loc) (a : Nat) : Index3 × Nat :=
  match locs[a]? with
  | some la => (la.idx, match B.cell[la.sub]? with
    | some c => c.uniqueId
    | none => 0)
  | none => (Index3.zero, 0)

theorem siteOf_eq {B : Base P} {locs : List Loc} {a : Nat} {la : Loc} {c : CellSite} (ha : locs[a]? = some la)
    (hc : B.cell[la.sub]? = some c) : siteOf B locs a = (la.idx, c.uniqueId) := by
  unfold siteOf
  simp only [ha, hc]

/-- The same site in the cell which comes `m` cells later in the direction of the lead.  The cell `m = 0` is
the outermost part of the system, where the lead is attached; `m = 1` is the first cell of the lead. -/
def siteIn (B : Base P) (sp : Spec P) (locs : List Loc) (m : Int) (a : Nat) : Index3 × Nat :=
  (moved (siteOf B locs a).1 sp.shift m, (siteOf B locs a).2)

theorem siteIn_zero (B : Base P) (sp : Spec P) (locs : List Loc) (a : Nat) : siteIn B sp locs 0 a = siteOf B locs a := by
  simp [siteIn, moved_zero]

theorem siteIn_one (B : Base P) (sp : Spec P) (locs : List Loc) (a : Nat) :
    siteIn B sp locs 1 a = ((siteOf B locs a).1.add sp.shift, (siteOf B locs a).2) := by
  simp [siteIn, moved_one]

/-! ## Proofs -/

/-- The main part of a Hamiltonian does not depend on the boundaries. -/
theorem buildMain_boundaries [Zero C] [DecidableEq C] [Zero K] [Add K] [Star K] [DecidableEq K] [Sub P] (cast : C → K)
    (s : Hamiltonian.System C P) (bs : List (Boundary P)) (mods : Modifiers K P) (maxBuffer : Nat) (simple : Bool) :
    buildMain cast { s with boundaries := bs } mods maxBuffer simple = buildMain cast s mods maxBuffer simple := by
  have h1 : ∀ (ms : List (OnsiteModifier K P)) (b : Bool) (its : List Sublat.It),
      onsiteLoop cast { s with boundaries := bs } ms b its = onsiteLoop cast s ms b its := by
    intro ms b its
    induction its with
    | nil => rfl
    | cons x its ih => simp only [onsiteLoop, ih]; rfl
  have h2 : ∀ (ms : List (HoppingModifier K P)) (sh : Option P) (unit : List K) (name : String) (tr : Translator)
      (cs : List (List COO)), hoppingSlices { s with boundaries := bs } ms sh unit name tr cs = hoppingSlices s ms sh unit name tr cs := by
    intro ms sh unit name tr cs
    induction cs with
    | nil => rfl
    | cons x cs ih => simp only [hoppingSlices, ih]; rfl
  have h3 : slowBlock cast { s with boundaries := bs } mods.hopping maxBuffer none = slowBlock cast s mods.hopping maxBuffer none := by
    funext fam block
    unfold slowBlock
    simp only [h2]
  have h4 : fastBlock cast { s with boundaries := bs } = fastBlock cast s := rfl
  unfold buildMain applyToOnsite applyToHoppings
  simp only [h1, h3, h4]

section
variable [AddMonoid C] [StarAddMonoid C] [DecidableEq C] [AddGroup P]
  {ops : List (Lattice.Lattice.Op C L)} {subs : List (String × Sublattice C L)} {hops : List (String × HoppingFamily C)}
  {sr hr : Registry C} {B : Base P} {sp : Spec P} {valid : List Bool} {i : Int} {shift : P} {posOf : Index3 → Nat → P}
  {st : Structure P} {locs : List Loc}

theorem LeadOf.parts (h : LeadOf ops subs hops sr hr B sp valid i shift posOf st locs) :
    Parts (run ops empty) sr hr B.cell := by
  obtain ⟨sr', hr', cell', h1, h2, h3, h4⟩ := Pipeline.parts_of_lattice ops subs hops h.permSubs h.permHops h.aliases
  rw [h.siteReg, Res.ok.injEq] at h1
  rw [h.hopReg, Res.ok.injEq] at h2
  rw [h.cell, Res.ok.injEq] at h3
  subst h1 h2 h3
  exact h4

theorem LeadOf.pos (h : LeadOf ops subs hops sr hr B sp valid i shift posOf st locs) {a : Nat} {la : Loc} (ha : locs[a]? = some la)
    {c : CellSite} (hc : B.cell[la.sub]? = some c) : st.positions[a]? = some (posOf (la.idx.add sp.shift) c.uniqueId) := by
  have h1 := congrArg (·[a]?) h.lead.positions
  simp only [List.getElem?_map, ha, Option.map_some, h.placed la (List.mem_of_getElem? ha) c hc] at h1
  rcases hn : st.positions[a]? with _ | p
  · rw [hn] at h1; simp at h1
  · rw [hn] at h1
    simp only [Option.map_some, Option.some.injEq] at h1
    rw [h1, h.shifted]

theorem LeadOf.posAt (h : LeadOf ops subs hops sr hr B sp valid i shift posOf st locs) :
    ∀ a, a < (tableNorbs st.sublattices).length →
      st.positions[a]? = some (posOf ((siteOf B locs a).1.add sp.shift) (siteOf B locs a).2) := by
  intro a ha
  rw [lead_length h.lead] at ha
  obtain ⟨la, hla⟩ := getElem?_lt ha
  obtain ⟨c, hc⟩ := lead_cellSite h.lead hla
  rw [siteOf_eq hla hc, h.pos hla hc]

/-- A site of the lead. -/
theorem LeadOf.site (h : LeadOf ops subs hops sr hr B sp valid i shift posOf st locs) {a i' : Nat}
    (hi : i' < (tableNorbs st.sublattices).getD a 0) :
    ∃ la c, locs[a]? = some la ∧ B.cell[la.sub]? = some c ∧ siteOf B locs a = (la.idx, c.uniqueId) := by
  have hlt : a < locs.length := by
    rw [← lead_length h.lead]
    by_contra hc
    rw [List.getD_eq_getElem?_getD, List.getElem?_eq_none (by omega)] at hi
    simp at hi
  obtain ⟨la, hla⟩ := getElem?_lt hlt
  obtain ⟨c, hc⟩ := lead_cellSite h.lead hla
  exact ⟨la, c, hla, hc, siteOf_eq hla hc⟩

theorem LeadOf.site_inj (h : LeadOf ops subs hops sr hr B sp valid i shift posOf st locs) {a b : Nat} {la lb : Loc} {ca cb : CellSite}
    (ha : locs[a]? = some la) (hb : locs[b]? = some lb) (hca : B.cell[la.sub]? = some ca) (hcb : B.cell[lb.sub]? = some cb)
    (e1 : la.idx = lb.idx) (e2 : ca.uniqueId = cb.uniqueId) : a = b := by
  have hsub := h.parts.uid _ _ _ _ hca hcb e2
  have hl : la = lb := by
    rcases la with ⟨x, y⟩
    rcases lb with ⟨x', y'⟩
    simp only at e1 hsub
    rw [e1, hsub]
  subst hl
  obtain ⟨h1, h2⟩ := List.getElem?_eq_some_iff.1 ha
  obtain ⟨h3, h4⟩ := List.getElem?_eq_some_iff.1 hb
  exact (List.Nodup.getElem_inj_iff h.lead.nodup).1 (h2.trans h4.symm)

theorem LeadOf.layer (h : LeadOf ops subs hops sr hr B sp valid i shift posOf st locs) {a : Nat} {la : Loc} (ha : locs[a]? = some la) :
    comp la.idx sp.axis.toNat = i :=
  ((h.lead.sites la).1 (List.mem_of_getElem? ha)).2

/-- The number of orbitals of a site of the lead. -/
theorem LeadOf.orbitals (h : LeadOf ops subs hops sr hr B sp valid i shift posOf st locs) {a : Nat} (ha : a < locs.length) :
    (tableNorbs st.sublattices).getD a 0 = orbitals (run ops empty) (siteOf B locs a).2 := by
  obtain ⟨la, hla⟩ := getElem?_lt ha
  obtain ⟨c, hc⟩ := lead_cellSite h.lead hla
  rw [siteOf_eq hla hc, List.getD_eq_getElem?_getD, lead_norb h.lead hla hc]
  obtain ⟨q, q1, -, q2, -, -⟩ := h.parts.cellSub c (List.mem_of_getElem? hc)
  simp only [Option.getD_some, Pipeline.orbitals, q1, q2]

/-- The conditions on modifiers and buffers under which every Hamiltonian can be made. -/
structure Usable [Zero K] (cast : C → K) (hops : List (String × HoppingFamily C)) (mods : Modifiers K P) (gs : List (ElemFn K P))
    (gos : List (OnsiteFn K P)) (maxBuffer : Nat) : Prop where
  zero : cast 0 = 0
  buffer : ∀ q ∈ hops, q.2.energy.size ≤ maxBuffer
  hopping : ∀ r c, Chain r c mods.hopping gs
  onsite : ∀ n, OnsiteChain n mods.onsite gos

theorem famEnergy_size (hh : hops.Perm (run ops empty).hops) {maxBuffer : Nat} (hb : ∀ q ∈ hops, q.2.energy.size ≤ maxBuffer) (fam : Nat) :
    (famEnergy (run ops empty) fam).size ≤ maxBuffer := by
  unfold famEnergy
  rcases hf : (run ops empty).hops[fam]? with _ | q
  · simp [Mat.size]
  · exact hb q (hh.mem_iff.2 (List.mem_of_getElem? hf))

/-- **C92**: `lead.h0` is the Hamiltonian of one cell of the lead: each element is the element of the
Hamiltonian of the infinite crystal between the two sites, in the first cell outside of the system. -/
theorem C92_h0 [NonUnitalNonAssocSemiring K] [StarAddMonoid K] [DecidableEq K]
    (h : LeadOf ops subs hops sr hr B sp valid i shift posOf st locs) (cast : C → K) (mods : Modifiers K P) (gs : List (ElemFn K P))
    (gos : List (OnsiteFn K P)) (maxBuffer : Nat) (hu : Usable cast hops mods gs gos maxBuffer) :
    ∃ m, makeH0 cast (leadSystem sr hr st shift) mods maxBuffer = .ok m ∧
      Sorted (Sublat.hamiltonianSize st.sublattices) m ∧
      ∀ a b i j, i < (tableNorbs st.sublattices).getD a 0 → j < (tableNorbs st.sublattices).getD b 0 →
        coeff m (firstRow (tableNorbs st.sublattices) a + i) (firstRow (tableNorbs st.sublattices) b + j)
          = element (run ops empty) cast gs gos posOf (siteIn B sp locs 1 a) (siteIn B sp locs 1 b) i j := by
  have inv := Inv.reachable (K := C) (P := L) ops
  have hP := h.parts
  obtain ⟨m, h1, h2, h3⟩ := C49_coefficients cast { leadSystem sr hr st shift with boundaries := [] } mods gs maxBuffer
    (fun _ => (0 : K)) (famEnergy (run ops empty)) (famName (run ops empty))
    (fun a => posOf ((siteOf B locs a).1.add sp.shift) (siteOf B locs a).2) gos
    (Pipeline.siteEnergy (leadSystem sr hr st shift)) (Pipeline.siteName (leadSystem sr hr st shift)) true hu.zero
    (by
      have := lead_sitesOK hP h.lead shift
      exact ⟨this.table, this.energy, this.fits⟩)
    (lead_hopOK hP inv h.lead _ rfl rfl _ h.lead.families.1 (inside_fits hP inv h.lead))
    (by simp) (fun _ => lead_bonds hP h.lead) h.posAt (famEnergy_size h.permHops hu.buffer)
    (fun fam => hu.hopping _ _) (fun e _ => hu.onsite _)
  have hmake : make cast { leadSystem sr hr st shift with boundaries := [] } mods maxBuffer (fun _ => (0 : K)) true
      = makeH0 cast (leadSystem sr hr st shift) mods maxBuffer := by
    have hmain : buildMain cast { leadSystem sr hr st shift with boundaries := [] } mods maxBuffer true
        = buildMain cast (leadSystem sr hr st shift) mods maxBuffer true :=
      buildMain_boundaries _ _ _ _ _ _
    unfold make makeH0
    rw [hmain]
    rcases buildMain cast (leadSystem sr hr st shift) mods maxBuffer true with _ | _ | _ <;> rfl
  rw [hmake] at h1
  refine ⟨m, h1, h2, ?_⟩
  intro a b i' j' hi hj
  obtain ⟨la, ca, hla, hca, hsa⟩ := h.site hi
  obtain ⟨lb, cb, hlb, hcb, hsb⟩ := h.site hj
  refine (h3 a b i' j' hi hj).trans ?_
  simp only [List.map_nil, List.sum_nil, add_zero]
  show _ + (hopAt cast _ none gs (famEnergy (run ops empty)) (famName (run ops empty)) st.hoppings.blocks a b i' j'
    + star (hopAt cast _ none gs (famEnergy (run ops empty)) (famName (run ops empty)) st.hoppings.blocks b a j' i')) = _
  rw [hopAt_inside hP inv h.lead hla hlb hca hcb cast gs _ i' j' sp.shift,
    hopAt_inside hP inv h.lead hlb hla hcb hca cast gs _ j' i' sp.shift]
  unfold element hopping
  rw [siteIn_one, siteIn_one, hsa, hsb]
  congr 1
  obtain ⟨p, q, hp, hq, -, -, -, -, -, g4, g5⟩ := lead_site hP h.lead hla hca shift
  by_cases hab : a = b
  · subst hab
    rw [hlb, Option.some.injEq] at hla
    subst hla
    rw [hcb, Option.some.injEq] at hca
    subst hca
    rw [if_pos rfl, if_pos rfl, g4, g5]
    unfold rootName onsiteOf
    simp only [hp, hq]
  · rw [if_neg hab, if_neg]
    rw [Prod.mk.injEq]
    rintro ⟨e1, e2⟩
    refine hab (h.site_inj hla hlb hca hcb ?_ e2)
    simp only [Index3.add, Index3.mk.injEq, add_left_inj] at e1
    exact (Index3.ext_iff' _ _).2 e1

/-- **C92**: `lead.h1` can be built if the orbital numbers fit, and its element between site `a` and site `b`
is the sum of the terms which lead from `a` in the next cell to `b`, plus the terms which lead from `b` to `a` in
the next cell, not conjugated and not transposed. -/
theorem C92_h1_partial [NonUnitalNonAssocSemiring K] [StarAddMonoid K] [DecidableEq K]
    (h : LeadOf ops subs hops sr hr B sp valid i shift posOf st locs) (cast : C → K) (mods : Modifiers K P) (gs : List (ElemFn K P))
    (gos : List (OnsiteFn K P)) (maxBuffer : Nat) (hu : Usable cast hops mods gs gos maxBuffer)
    (hsq : SquareBack (run ops empty).hops B sp locs) :
    ∃ m, makeH1 cast (leadSystem sr hr st shift) mods maxBuffer = .ok m ∧
      Sorted (Sublat.hamiltonianSize st.sublattices) m ∧
      ∀ a b i j, i < (tableNorbs st.sublattices).getD a 0 → j < (tableNorbs st.sublattices).getD b 0 →
        coeff m (firstRow (tableNorbs st.sublattices) a + i) (firstRow (tableNorbs st.sublattices) b + j)
          = hopSum cast gs (run ops empty).hops (siteIn B sp locs 1 a) (siteIn B sp locs 0 b)
              (posOf (siteIn B sp locs 1 a).1 (siteIn B sp locs 1 a).2) (posOf (siteIn B sp locs 0 b).1 (siteIn B sp locs 0 b).2) i j
            + backSum cast gs (run ops empty).hops (siteIn B sp locs 1 a) (siteIn B sp locs 0 b)
              (posOf (siteIn B sp locs 1 a).1 (siteIn B sp locs 1 a).2)
              (posOf (siteIn B sp locs 0 b).1 (siteIn B sp locs 0 b).2) i j := by
  have inv := Inv.reachable (K := C) (P := L) ops
  have hP := h.parts
  have hok := lead_hopOK hP inv h.lead (leadSystem sr hr st shift) rfl rfl _ h.lead.families.2 (between_fits hP inv h.lead hsq)
  obtain ⟨calls, c1, c2, -⟩ := C23_hoppings cast (leadSystem sr hr st shift) mods gs maxBuffer (some shift) st.boundary
    (famEnergy (run ops empty)) (famName (run ops empty)) hok
    (fun a => posOf ((siteOf B locs a).1.add sp.shift) (siteOf B locs a).2) h.posAt
    (fun fam _ _ => famEnergy_size h.permHops hu.buffer fam) (fun fam _ _ => hu.hopping _ _)
  have hpl := applyToHoppings_places cast (leadSystem sr hr st shift) mods maxBuffer (some shift) st.boundary
    (famEnergy (run ops empty)) (famName (run ops empty)) hok calls c1
  have hr' := mem_positions hpl
  have hnd : (calls.map pos).Nodup := by
    obtain ⟨x, hx, hs⟩ := hpl
    exact hx.nodup_iff.1 ((boxes_nodup (tableNorbs st.sublattices) _ (boundary_nodup hP h.lead)).sublist hs)
  have hsz : (tableNorbs (leadSystem sr hr st shift).sublattices).sum = Sublat.hamiltonianSize st.sublattices :=
    (Sublat.hamiltonianSize_eq _).symm
  rw [hsz] at hr'
  obtain ⟨m, e1, -, -, -⟩ := insertAll_fresh (n := Sublat.hamiltonianSize st.sublattices) calls
    (m := List.replicate (Sublat.hamiltonianSize st.sublattices) []) (by simp)
    (fun c hc => ⟨⟨(hr' c hc).1, (hr' c hc).2.1⟩, (hr' c hc).2.2⟩) hnd (fun c _ => not_stored_zero _ _ _)
  obtain ⟨m', a1, l1, s1, co1⟩ := addAll_total calls
    (m := List.replicate (Sublat.hamiltonianSize st.sublattices) []) (by simp) hr'
  rw [insertAll_addAll e1, Res.ok.injEq] at a1
  subst a1
  refine ⟨m, ?_, s1 (sorted_zero _), ?_⟩
  · unfold makeH1
    simp only [leadSystem]
    have c1' : applyToHoppings cast ⟨sr, hr, st.positions, st.sublattices, st.hoppings, [⟨shift, st.boundary⟩]⟩ mods maxBuffer
      (some shift) st.boundary = .ok calls := c1
    rw [c1', Res.bind_ok]
    exact e1
  · intro a b i' j' hi hj
    obtain ⟨la, ca, hla, hca, hsa⟩ := h.site hi
    obtain ⟨lb, cb, hlb, hcb, hsb⟩ := h.site hj
    rw [co1, coeff_zero, zero_add, ← callSum_filter_nonzero, callSum_perm c2]
    refine (callSum_specHoppings cast _ _ _ gs _ _ _ hok.fits a b i' j' hi hj).trans ?_
    rw [hopAt_between hP inv h.lead hla hlb hca hcb cast gs _ shift i' j', siteIn_one, siteIn_zero, hsa, hsb]
    simp only [h.shifted lb.idx, add_sub_cancel_right]

end

/-! ## At most one term connects two sites -/

theorem sum_one [AddCommMonoid K] {α : Type} (ts : List α) (Q : α → Prop) [DecidablePred Q] (F : α → K)
    (hd : ts.Pairwise fun t u => ¬ (Q t ∧ Q u)) {t : α} (ht : t ∈ ts) (hQ : Q t) :
    (ts.map fun t => if Q t then F t else 0).sum = F t := by
  induction ts with
  | nil => simp at ht
  | cons u ts ih =>
    rw [List.pairwise_cons] at hd
    rw [List.map_cons, List.sum_cons]
    rcases List.mem_cons.1 ht with rfl | ht
    · rw [if_pos hQ, List.sum_eq_zero, add_zero]
      intro x hx
      obtain ⟨v, hv, rfl⟩ := List.mem_map.1 hx
      rw [if_neg fun h => hd.1 v hv ⟨hQ, h⟩]
    · rw [if_neg fun h => hd.1 t ht ⟨h, hQ⟩, zero_add, ih hd.2 ht]

theorem sum_nested [AddCommMonoid K] (hops : List (String × HoppingFamily C)) (f : String × HoppingFamily C → HoppingTerm → K) :
    (hops.map fun q => (q.2.terms.map fun t => f q t).sum).sum
      = ((hops.flatMap fun q => q.2.terms.map fun t => (q, t)).map fun p => f p.1 p.2).sum := by
  induction hops with
  | nil => rfl
  | cons q hops ih =>
    rw [List.map_cons, List.sum_cons, ih, List.flatMap_cons, List.map_append, List.sum_append, List.map_map]
    rfl

theorem pairs_distinct [Star C] {l : Lattice.Lattice C L} (inv : Inv l) (x y : Index3 × Nat) :
    (l.hops.flatMap fun q => q.2.terms.map fun t => (q, t)).Pairwise fun t u =>
      ¬ ((t.2.src = x.2 ∧ t.2.dst = y.2 ∧ x.1.add t.2.rel = y.1) ∧ (u.2.src = x.2 ∧ u.2.dst = y.2 ∧ x.1.add u.2.rel = y.1)) := by
  have h1 : (l.hops.flatMap fun q => q.2.terms.map fun t => (q, t)).map (·.2) = Lattice.terms l := by
    unfold Lattice.terms
    rw [List.map_flatMap]
    simp [List.map_map, Function.comp_def]
  have h2 := inv.distinct
  rw [← h1, List.pairwise_map] at h2
  refine h2.imp ?_
  rintro ⟨qt, t⟩ ⟨qu, u⟩ hs ⟨⟨a1, a2, a3⟩, b1, b2, b3⟩
  simp only at hs a1 a2 a3 b1 b2 b3
  rw [add_eq_iff] at a3 b3
  unfold HoppingTerm.same at hs
  rw [a1, a2, a3, b1, b2, b3] at hs
  simp at hs

/-- The hopping of the only term between two sites. -/
theorem hopSum_one [Zero C] [Star C] [AddCommMonoid K] {l : Lattice.Lattice C L} (inv : Inv l) (cast : C → K)
    (gs : List (ElemFn K P)) (x y : Index3 × Nat) (px py : P) (i j : Nat) {q : String × HoppingFamily C} (hq : q ∈ l.hops)
    {t : HoppingTerm} (ht : t ∈ q.2.terms) (h1 : t.src = x.2) (h2 : t.dst = y.2) (h3 : x.1.add t.rel = y.1) :
    hopSum cast gs l.hops x y px py i j = finalEnergy gs q.1 (fun i j => cast (entry q.2.energy i j)) px py i j := by
  unfold hopSum
  rw [sum_nested l.hops fun q t => if t.src = x.2 ∧ t.dst = y.2 ∧ x.1.add t.rel = y.1 then
    finalEnergy gs q.1 (fun i j => cast (entry q.2.energy i j)) px py i j else 0]
  exact sum_one _ (fun p : (String × HoppingFamily C) × HoppingTerm => p.2.src = x.2 ∧ p.2.dst = y.2 ∧ x.1.add p.2.rel = y.1)
    (fun p => finalEnergy gs p.1.1 (fun i j => cast (entry p.1.2.energy i j)) px py i j)
    (pairs_distinct inv x y) (t := (q, t)) (List.mem_flatMap.2 ⟨q, hq, List.mem_map.2 ⟨t, ht, rfl⟩⟩) ⟨h1, h2, h3⟩

theorem backSum_one [Zero C] [Star C] [AddCommMonoid K] {l : Lattice.Lattice C L} (inv : Inv l) (cast : C → K)
    (gs : List (ElemFn K P)) (x y : Index3 × Nat) (px py : P) (i j : Nat) {q : String × HoppingFamily C} (hq : q ∈ l.hops)
    {t : HoppingTerm} (ht : t ∈ q.2.terms) (h1 : t.src = y.2) (h2 : t.dst = x.2) (h3 : y.1.add t.rel = x.1) :
    backSum cast gs l.hops x y px py i j = finalEnergy gs q.1 (fun i j => cast (entry q.2.energy i j)) px py i j := by
  unfold backSum
  rw [sum_nested l.hops fun q t => if t.src = y.2 ∧ t.dst = x.2 ∧ y.1.add t.rel = x.1 then
    finalEnergy gs q.1 (fun i j => cast (entry q.2.energy i j)) px py i j else 0]
  exact sum_one _ (fun p : (String × HoppingFamily C) × HoppingTerm => p.2.src = y.2 ∧ p.2.dst = x.2 ∧ y.1.add p.2.rel = x.1)
    (fun p => finalEnergy gs p.1.1 (fun i j => cast (entry p.1.2.energy i j)) px py i j)
    (pairs_distinct inv y x) (t := (q, t)) (List.mem_flatMap.2 ⟨q, hq, List.mem_map.2 ⟨t, ht, rfl⟩⟩) ⟨h1, h2, h3⟩

/-- Without terms there is no hopping. -/
theorem hopSum_none [Zero C] [AddCommMonoid K] (hops : List (String × HoppingFamily C)) (cast : C → K)
    (gs : List (ElemFn K P)) (x y : Index3 × Nat) (px py : P) (i j : Nat)
    (h : ∀ q ∈ hops, ∀ t ∈ q.2.terms, ¬ (t.src = x.2 ∧ t.dst = y.2 ∧ x.1.add t.rel = y.1)) :
    hopSum cast gs hops x y px py i j = 0 := by
  unfold hopSum
  apply List.sum_eq_zero
  intro s hs
  obtain ⟨q, hq, rfl⟩ := List.mem_map.1 hs
  apply List.sum_eq_zero
  intro s hs
  obtain ⟨t, ht, rfl⟩ := List.mem_map.1 hs
  rw [if_neg (h q hq t ht)]

theorem backSum_none [Zero C] [AddCommMonoid K] (hops : List (String × HoppingFamily C)) (cast : C → K)
    (gs : List (ElemFn K P)) (x y : Index3 × Nat) (px py : P) (i j : Nat)
    (h : ∀ q ∈ hops, ∀ t ∈ q.2.terms, ¬ (t.src = y.2 ∧ t.dst = x.2 ∧ y.1.add t.rel = x.1)) :
    backSum cast gs hops x y px py i j = 0 := by
  unfold backSum
  apply List.sum_eq_zero
  intro s hs
  obtain ⟨q, hq, rfl⟩ := List.mem_map.1 hs
  apply List.sum_eq_zero
  intro s hs
  obtain ⟨t, ht, rfl⟩ := List.mem_map.1 hs
  rw [if_neg (h q hq t ht)]

/-! ## Cells along a lead -/

theorem comp_shift {sp : Spec P} (hd : Directed sp) : comp sp.shift sp.axis.toNat = sp.sign ∧
    ∀ R m, comp (moved R sp.shift m) sp.axis.toNat = comp R sp.axis.toNat + m * sp.sign := by
  obtain ⟨h1, h2, -⟩ := hd
  have h3 : sp.axis = 0 ∨ sp.axis = 1 ∨ sp.axis = 2 := by omega
  unfold Spec.shift
  rcases h3 with h | h | h <;> rw [h] <;> simp [comp, setComp, moved, Index3.zero]

theorem moved_add (R S : Index3) (m n : Int) : moved (moved R S m) S n = moved R S (m + n) := by
  simp only [moved, Index3.mk.injEq]
  refine ⟨?_, ?_, ?_⟩ <;> ring

section
variable [AddMonoid C] [StarAddMonoid C] [DecidableEq C] [AddGroup P]
  {ops : List (Lattice.Lattice.Op C L)} {subs : List (String × Sublattice C L)} {hops : List (String × HoppingFamily C)}
  {sr hr : Registry C} {B : Base P} {sp : Spec P} {valid : List Bool} {i : Int} {shift : P} {posOf : Index3 → Nat → P}
  {st : Structure P} {locs : List Loc}

theorem LeadOf.layerOf (h : LeadOf ops subs hops sr hr B sp valid i shift posOf st locs) {a : Nat} (ha : a < locs.length) (m : Int) :
    comp (siteIn B sp locs m a).1 sp.axis.toNat = i + m * sp.sign := by
  obtain ⟨la, hla⟩ := getElem?_lt ha
  obtain ⟨c, hc⟩ := lead_cellSite h.lead hla
  unfold siteIn
  rw [(comp_shift h.directed).2, siteOf_eq hla hc, h.layer hla]

/-- Different sites of different cells are different sites of the crystal. -/
theorem LeadOf.siteIn_inj (h : LeadOf ops subs hops sr hr B sp valid i shift posOf st locs) {a b : Nat} (ha : a < locs.length)
    (hb : b < locs.length) {m n : Int} (e : siteIn B sp locs m a = siteIn B sp locs n b) : m = n ∧ a = b := by
  have h1 := congrArg (fun x => comp x.1 sp.axis.toNat) e
  simp only [h.layerOf ha, h.layerOf hb] at h1
  have hmn : m = n := by
    rcases h.directed.2.2 with hs | hs <;> rw [hs] at h1 <;> omega
  subst hmn
  obtain ⟨la, hla⟩ := getElem?_lt ha
  obtain ⟨ca, hca⟩ := lead_cellSite h.lead hla
  obtain ⟨lb, hlb⟩ := getElem?_lt hb
  obtain ⟨cb, hcb⟩ := lead_cellSite h.lead hlb
  unfold siteIn at e
  rw [siteOf_eq hla hca, siteOf_eq hlb hcb, Prod.mk.injEq] at e
  refine ⟨rfl, h.site_inj hla hlb hca hcb ?_ e.2⟩
  have e1 := e.1
  simp only [moved, Index3.mk.injEq, add_left_inj] at e1
  exact (Index3.ext_iff' _ _).2 e1

theorem LeadOf.lt (h : LeadOf ops subs hops sr hr B sp valid i shift posOf st locs) {a i' : Nat}
    (hi : i' < (tableNorbs st.sublattices).getD a 0) : a < locs.length := by
  obtain ⟨la, -, hla, -⟩ := h.site hi
  exact (List.getElem?_eq_some_iff.1 hla).1

/-- Every hopping which the code took from a term in the opposite direction is its own adjoint. -/
def SelfAdjointBack [AddMonoid K] [Star K] (l : Lattice.Lattice C L) (cast : C → K) (gs : List (ElemFn K P))
    (posOf : Index3 → Nat → P) (B : Base P) (sp : Spec P) (norbs : List Nat) (locs : List Loc) : Prop :=
  ∀ a b, ∀ q ∈ l.hops, ∀ t ∈ q.2.terms, t.src = (siteIn B sp locs 0 b).2 → t.dst = (siteIn B sp locs 1 a).2 →
    (siteIn B sp locs 0 b).1.add t.rel = (siteIn B sp locs 1 a).1 →
    ∀ i j, i < norbs.getD a 0 → j < norbs.getD b 0 →
      finalEnergy gs q.1 (fun i j => cast (entry q.2.energy i j)) (posOf (siteIn B sp locs 1 a).1 (siteIn B sp locs 1 a).2)
          (posOf (siteIn B sp locs 0 b).1 (siteIn B sp locs 0 b).2) i j
        = star (finalEnergy gs q.1 (fun i j => cast (entry q.2.energy i j))
            (posOf (siteIn B sp locs 0 b).1 (siteIn B sp locs 0 b).2) (posOf (siteIn B sp locs 1 a).1 (siteIn B sp locs 1 a).2) j i)

/-- **C92**: when `lead.h1` is right.  Its elements are those of the Hamiltonian of the infinite crystal,
between a site of the next cell (row) and a site of the cell before (column), if and only if each term of the
lattice which points out of the cell in the direction of the lead has, after modifiers, a matrix which equals
its adjoint with the positions exchanged.  For a plain lattice: if and only if these hopping matrices are
Hermitian. -/
theorem C92_h1_exact [NonUnitalNonAssocRing K] [StarAddMonoid K] [DecidableEq K]
    (h : LeadOf ops subs hops sr hr B sp valid i shift posOf st locs) (cast : C → K) (mods : Modifiers K P) (gs : List (ElemFn K P))
    (gos : List (OnsiteFn K P)) (maxBuffer : Nat) (hu : Usable cast hops mods gs gos maxBuffer)
    (hsq : SquareBack (run ops empty).hops B sp locs) :
    ∃ m, makeH1 cast (leadSystem sr hr st shift) mods maxBuffer = .ok m ∧
      Sorted (Sublat.hamiltonianSize st.sublattices) m ∧
      ((∀ a b i j, i < (tableNorbs st.sublattices).getD a 0 → j < (tableNorbs st.sublattices).getD b 0 →
        coeff m (firstRow (tableNorbs st.sublattices) a + i) (firstRow (tableNorbs st.sublattices) b + j)
          = element (run ops empty) cast gs gos posOf (siteIn B sp locs 1 a) (siteIn B sp locs 0 b) i j)
      ↔ SelfAdjointBack (run ops empty) cast gs posOf B sp (tableNorbs st.sublattices) locs) := by
  have inv := Inv.reachable (K := C) (P := L) ops
  obtain ⟨m, h1, h2, h3⟩ := C92_h1_partial h cast mods gs gos maxBuffer hu hsq
  refine ⟨m, h1, h2, ?_⟩
  have hne : ∀ a b i' j', i' < (tableNorbs st.sublattices).getD a 0 → j' < (tableNorbs st.sublattices).getD b 0 →
      siteIn B sp locs 1 a ≠ siteIn B sp locs 0 b := by
    intro a b i' j' hi hj e
    have := (h.siteIn_inj (h.lt hi) (h.lt hj) e).1
    omega
  constructor
  · intro hall a b q hq t ht t1 t2 t3 i' j' hi hj
    have e := hall a b i' j' hi hj
    rw [h3 a b i' j' hi hj] at e
    unfold element hopping at e
    rw [if_neg (hne a b i' j' hi hj), zero_add, add_right_inj, backSum_one inv cast gs _ _ _ _ i' j' hq ht t1 t2 t3,
      hopSum_one inv cast gs _ _ _ _ j' i' hq ht t1 t2 t3] at e
    exact e
  · intro hself a b i' j' hi hj
    rw [h3 a b i' j' hi hj]
    unfold element hopping
    rw [if_neg (hne a b i' j' hi hj), zero_add, add_right_inj]
    by_cases hex : ∃ q ∈ (run ops empty).hops, ∃ t ∈ q.2.terms, t.src = (siteIn B sp locs 0 b).2 ∧ t.dst = (siteIn B sp locs 1 a).2 ∧
        (siteIn B sp locs 0 b).1.add t.rel = (siteIn B sp locs 1 a).1
    · obtain ⟨q, hq, t, ht, t1, t2, t3⟩ := hex
      rw [backSum_one inv cast gs _ _ _ _ i' j' hq ht t1 t2 t3, hopSum_one inv cast gs _ _ _ _ j' i' hq ht t1 t2 t3]
      exact hself a b q hq t ht t1 t2 t3 i' j' hi hj
    · rw [backSum_none _ _ _ _ _ _ _ _ _ fun q hq t ht hh => hex ⟨q, hq, t, ht, hh⟩,
        hopSum_none _ _ _ _ _ _ _ _ _ fun q hq t ht hh => hex ⟨q, hq, t, ht, hh⟩, star_zero]

end

/-! ## Waves -/

theorem sum_at [AddCommMonoid K] {ι : Type} [DecidableEq ι] (s : Finset ι) (site : ι → Index3 × Nat) (orb : Nat → Nat)
    (inj : ∀ k ∈ s, ∀ k' ∈ s, site k = site k' → k = k') (y : Index3 × Nat) (g : Nat → K)
    (h0 : (∀ k ∈ s, site k ≠ y) → ∀ j, g j = 0) :
    ∑ k ∈ s, ∑ j ∈ Finset.range (orb (site k).2), (if site k = y then g j else 0) = ∑ j ∈ Finset.range (orb y.2), g j := by
  by_cases hex : ∃ k ∈ s, site k = y
  · obtain ⟨k, hk, rfl⟩ := hex
    rw [Finset.sum_eq_single k]
    · simp
    · intro k' hk' hne
      exact Finset.sum_eq_zero fun j _ => if_neg fun e => hne (inj k' hk' k hk e)
    · intro h; exact absurd hk h
  · have hno : ∀ k ∈ s, site k ≠ y := fun k hk e => hex ⟨k, hk, e⟩
    rw [Finset.sum_eq_zero, Finset.sum_eq_zero]
    · intro j _; exact h0 hno j
    · intro k hk
      exact Finset.sum_eq_zero fun j _ => if_neg (hno k hk)

/-- The Hamiltonian of the crystal applied to a wave, as a sum over a set of sites which contains all
neighbours where the wave is not zero. -/
theorem crystal_elements [Zero C] [NonUnitalNonAssocSemiring K] [StarAddMonoid K] {ι : Type} [DecidableEq ι]
    (l : Lattice.Lattice C L) (cast : C → K) (gs : List (ElemFn K P)) (gos : List (OnsiteFn K P)) (posOf : Index3 → Nat → P)
    (s : Finset ι) (site : ι → Index3 × Nat) (inj : ∀ k ∈ s, ∀ k' ∈ s, site k = site k' → k = k') (ψ : Wave K)
    (x : Index3 × Nat) (i : Nat) (hx : (∀ k ∈ s, site k ≠ x) → ∀ j, ψ x.1 x.2 j = 0)
    (hfw : ∀ q ∈ l.hops, ∀ t ∈ q.2.terms, t.src = x.2 → (∀ k ∈ s, site k ≠ (x.1.add t.rel, t.dst)) →
      ∀ j, ψ (x.1.add t.rel) t.dst j = 0)
    (hbw : ∀ q ∈ l.hops, ∀ t ∈ q.2.terms, t.dst = x.2 → (∀ k ∈ s, site k ≠ (x.1.sub t.rel, t.src)) →
      ∀ j, ψ (x.1.sub t.rel) t.src j = 0) :
    crystal l cast gs gos posOf ψ x.1 x.2 i
      = ∑ k ∈ s, ∑ j ∈ Finset.range (orbitals l (site k).2), element l cast gs gos posOf x (site k) i j * ψ (site k).1 (site k).2 j := by
  unfold element hopping
  simp only [add_mul, Finset.sum_add_distrib]
  unfold crystal
  congr 1
  · rw [← sum_at s site (orbitals l) inj x (fun j => finalOnsite gos (rootName l x.2) (onsiteOf l cast x.2) (posOf x.1 x.2) i j * ψ x.1 x.2 j)
      (fun hno j => by rw [hx hno j, mul_zero])]
    refine Finset.sum_congr rfl fun k _ => Finset.sum_congr rfl fun j _ => ?_
    by_cases e : site k = x
    · rw [if_pos e, if_pos e.symm, e]
    · rw [if_neg e, if_neg fun e' => e e'.symm, zero_mul]
  · unfold hopSum
    simp only [Pipeline.star_listSum, Pipeline.listSum_mul, Pipeline.sum_listSum, ← Pipeline.listSum_add]
    congr 1
    apply List.map_congr_left
    intro q hq
    congr 1
    apply List.map_congr_left
    intro t ht
    congr 1
    · by_cases hsrc : t.src = x.2
      · rw [if_pos hsrc]
        rw [← sum_at s site (orbitals l) inj (x.1.add t.rel, t.dst) (fun j => bondEnergy cast gs posOf q t x.1 i j * ψ (x.1.add t.rel) t.dst j)
          (fun hno j => by rw [hfw q hq t ht hsrc hno j, mul_zero])]
        refine Finset.sum_congr rfl fun k _ => Finset.sum_congr rfl fun j _ => ?_
        by_cases e : site k = (x.1.add t.rel, t.dst)
        · rw [if_pos e, e, if_pos ⟨hsrc, rfl, rfl⟩]
          unfold bondEnergy
          rw [hsrc]
        · rw [if_neg e, if_neg, zero_mul]
          rintro ⟨-, h2, h3⟩
          exact e (Prod.ext h3.symm h2.symm)
      · rw [if_neg hsrc]
        symm
        refine Finset.sum_eq_zero fun k _ => Finset.sum_eq_zero fun j _ => ?_
        rw [if_neg (fun h => hsrc h.1), zero_mul]
    · by_cases hdst : t.dst = x.2
      · rw [if_pos hdst]
        rw [← sum_at s site (orbitals l) inj (x.1.sub t.rel, t.src)
          (fun j => star (bondEnergy cast gs posOf q t (x.1.sub t.rel) j i) * ψ (x.1.sub t.rel) t.src j)
          (fun hno j => by rw [hbw q hq t ht hdst hno j, mul_zero])]
        refine Finset.sum_congr rfl fun k _ => Finset.sum_congr rfl fun j _ => ?_
        by_cases e : site k = (x.1.sub t.rel, t.src)
        · rw [if_pos e, e, if_pos ⟨rfl, hdst, Pipeline.Index3.sub_add_cancel _ _⟩]
          unfold bondEnergy
          rw [Pipeline.Index3.sub_add_cancel, hdst]
        · rw [if_neg e, if_neg, star_zero, zero_mul]
          rintro ⟨h1, -, h3⟩
          refine e (Prod.ext ?_ h1.symm)
          show (site k).1 = x.1.sub t.rel
          rw [← h3]
          simp [Index3.sub, Index3.add]
      · rw [if_neg hdst]
        symm
        refine Finset.sum_eq_zero fun k _ => Finset.sum_eq_zero fun j _ => ?_
        rw [if_neg (fun h => hdst h.2.1), star_zero, zero_mul]

end Verif.Leads
