import Verif.Leads.Props
import Verif.Pipeline.Crystal

/-!
# The Hamiltonians of a lead

Source: `cppcore/include/leads/HamiltonianPair.hpp`, `cppcore/src/leads/Structure.cpp`,
`pybinding/leads.py`, `pybinding/support/kwant.py`.
-/

namespace Verif.Leads

open Verif.Lattice (HoppingFamily HoppingTerm Registry CellSite CellHopping Inv)
open Verif.Lattice.Lattice (allTerms)
open Verif.Foundation
open Verif.Hamiltonian
open Verif.Hopping (COO Csr HoppingBlocks)
open Verif.Pipeline (Parts famEnergy famName nameMap orbitals rootName onsiteOf bondEnergy Wave crystal)
open Verif.Sublat (tableNorbs)
open Verif.Sublat.Spec (firstRow)

variable {C L P K : Type}

/-! ## Model -/

/-- The member `system` of a lead: the registries of the lattice (Structure.cpp:7-8), the parts made in
Structure.cpp:29-52 and its only boundary with the shift of the lead (Structure.cpp:13, 81). -/
def leadSystem (sr hr : Registry C) (st : Structure P) (shift : P) : Hamiltonian.System C P :=
  ⟨sr, hr, st.positions, st.sublattices, st.hoppings, [⟨shift, st.boundary⟩]⟩

/-- `make_h0`, HamiltonianPair.hpp:7-15: the main part of the Hamiltonian of the lead, always by
insertion.  `throw_if_invalid` looks for values which are not finite. -/
def makeH0 [Zero C] [DecidableEq C] [Zero K] [Add K] [Star K] [DecidableEq K] [Sub P]
    (cast : C → K) (s : Hamiltonian.System C P) (mods : Modifiers K P) (maxBuffer : Nat) : Res (Csr K) :=
  buildMain cast s mods maxBuffer true

/-- `make_h1`, HamiltonianPair.hpp:17-36: the hoppings of boundary 0, each inserted at its own place
only. -/
def makeH1 [Zero K] [DecidableEq K] [Sub P]
    (cast : C → K) (s : Hamiltonian.System C P) (mods : Modifiers K P) (maxBuffer : Nat) : Res (Csr K) :=
  match s.boundaries with
  | [] => .ub
  | b :: _ => do
    let hop ← applyToHoppings cast s mods maxBuffer (some b.shift) b.hoppings
    insertAll (Sublat.hamiltonianSize s.sublattices) hop
      (List.replicate (Sublat.hamiltonianSize s.sublattices) [])

/-- `HamiltonianPair`, HamiltonianPair.hpp:42-66, for one of the four scalar types. -/
def makePair [Zero C] [DecidableEq C] [Zero K] [Add K] [Star K] [DecidableEq K] [Sub P]
    (cast : C → K) (s : Hamiltonian.System C P) (mods : Modifiers K P) (maxBuffer : Nat) :
    Res (Csr K × Csr K) := do
  let h0 ← makeH0 cast s mods maxBuffer
  let h1 ← makeH1 cast s mods maxBuffer
  return (h0, h1)

/-! ## Specification -/

/-- The terms of the lattice which lead from one site of the infinite crystal to another one. -/
def hopSum [Zero C] [AddMonoid K] (cast : C → K) (gs : List (ElemFn K P)) (hops : List (String × HoppingFamily C))
    (a b : Index3 × Nat) (pa pb : P) (i j : Nat) : K :=
  (hops.map fun q => (q.2.terms.map fun t =>
    if t.src = a.2 ∧ t.dst = b.2 ∧ a.1.add t.rel = b.1 then
      finalEnergy gs q.1 (fun i j => cast (entry q.2.energy i j)) pa pb i j else 0).sum).sum

/-- The same terms as they would be if they lead the other way round: without adjoint. -/
def backSum [Zero C] [AddMonoid K] (cast : C → K) (gs : List (ElemFn K P)) (hops : List (String × HoppingFamily C))
    (a b : Index3 × Nat) (pa pb : P) (i j : Nat) : K :=
  (hops.map fun q => (q.2.terms.map fun t =>
    if t.src = b.2 ∧ t.dst = a.2 ∧ b.1.add t.rel = a.1 then
      finalEnergy gs q.1 (fun i j => cast (entry q.2.energy i j)) pa pb i j else 0).sum).sum

/-- The hopping between two sites of the infinite crystal. -/
def hopping [Zero C] [AddMonoid K] [Star K] (cast : C → K) (gs : List (ElemFn K P))
    (hops : List (String × HoppingFamily C)) (a b : Index3 × Nat) (pa pb : P) (i j : Nat) : K :=
  hopSum cast gs hops a b pa pb i j + star (hopSum cast gs hops b a pb pa j i)

/-- A cell index moved `m` times by a shift. -/
def moved (R S : Index3) (m : Int) : Index3 := ⟨R.x + m * S.x, R.y + m * S.y, R.z + m * S.z⟩

theorem moved_one (R S : Index3) : moved R S 1 = R.add S := by
  simp [moved, Index3.add]

theorem moved_zero (R S : Index3) : moved R S 0 = R := by
  simp [moved]

/-! ## The hoppings of a lead and the terms of the lattice -/

theorem add_eq_iff (a b r : Index3) : a.add r = b ↔ r = b.sub a := by
  rcases a with ⟨a1, a2, a3⟩
  rcases b with ⟨b1, b2, b3⟩
  rcases r with ⟨r1, r2, r3⟩
  simp only [Index3.sub, Index3.add, Index3.mk.injEq]
  omega

/-- A sum over the families and the terms of each, counted. -/
theorem sum_terms [Zero C] [Star C] [AddCommMonoid K] {l : Lattice.Lattice C L} (inv : Inv l) (Q : HoppingTerm → Prop)
    [DecidablePred Q] (F : String → Mat C → K) :
    ((List.range l.hops.length).map fun fam => (allTerms l.hops).countP (fun q => decide (Q q.2 ∧ q.1.familyId = fam)) •
        F (famName l fam) (famEnergy l fam)).sum
      = (l.hops.map fun q => (q.2.terms.map fun t => if Q t then F q.1 q.2.energy else 0).sum).sum := by
  rw [Pipeline.sum_keys (List.range l.hops.length) List.nodup_range
    (fun q : HoppingFamily C × HoppingTerm => q.1.familyId) (fun q => Q q.2) (fun fam => F (famName l fam) (famEnergy l fam))]
  have hall : allTerms l.hops = l.hops.flatMap fun q => q.2.terms.map fun t => (q.2, t) := rfl
  have hid : ∀ q ∈ l.hops, q.2.familyId ∈ List.range l.hops.length ∧ famEnergy l q.2.familyId = q.2.energy ∧
      famName l q.2.familyId = q.1 := by
    intro q hq
    obtain ⟨n, hn⟩ := List.mem_iff_getElem?.1 hq
    have hid : q.2.familyId = n := inv.hopIds n q hn
    have hlt : n < l.hops.length := (List.getElem?_eq_some_iff.1 hn).1
    refine ⟨by rw [hid]; exact List.mem_range.2 hlt, ?_, ?_⟩
    · unfold famEnergy; simp only [hid, hn]
    · unfold famName; simp only [hid, hn]
  have key : ∀ hs : List (String × HoppingFamily C), (∀ q ∈ hs, q ∈ l.hops) →
      ((hs.flatMap fun q => q.2.terms.map fun t => (q.2, t)).map fun t =>
        if Q t.2 ∧ t.1.familyId ∈ List.range l.hops.length then F (famName l t.1.familyId) (famEnergy l t.1.familyId) else 0).sum
      = (hs.map fun q => (q.2.terms.map fun t => if Q t then F q.1 q.2.energy else 0).sum).sum := by
    intro hs hsub
    induction hs with
    | nil => rfl
    | cons q hs ih =>
      rw [List.flatMap_cons, List.map_append, List.sum_append, ih fun q hq => hsub q (List.mem_cons_of_mem _ hq),
        List.map_cons, List.sum_cons]
      obtain ⟨h1, h2, h3⟩ := hid q (hsub q List.mem_cons_self)
      congr 1
      rw [List.map_map]
      congr 1
      apply List.map_congr_left
      intro t _
      simp only [Function.comp, h2, h3]
      by_cases hQ : Q t
      · rw [if_pos ⟨hQ, h1⟩, if_pos hQ]
      · rw [if_neg (fun h => hQ h.1), if_neg hQ]
  rw [hall]
  exact key l.hops fun _ h => h

section
variable [Zero C] [Star C] {l : Lattice.Lattice C L} {sr hr : Registry C} {B : Base P} {sp : Spec P} {valid : List Bool}
  {i : Int} {shiftPos : P → P} {st : Structure P} {locs : List Loc}

/-- Orbital numbers of a term which the unit cell holds. -/
theorem cell_fits (h : Parts l sr hr B.cell) (inv : Inv l) {a b : Nat} {ca cb : CellSite} (ha : B.cell[a]? = some ca)
    (hb : B.cell[b]? = some cb) {r : Index3} {fam : Nat} (hc : 0 < (hoppingsAt B.cell a).count ⟨r, b, fam, false⟩) :
    (famEnergy l fam).rows = ca.norb ∧ (famEnergy l fam).cols = cb.norb := by
  rw [h.counts _ _ ca cb ha hb] at hc
  obtain ⟨⟨f, t⟩, hm, hx⟩ := List.countP_pos_iff.1 hc
  rw [decide_eq_true_eq] at hx
  obtain ⟨n, hn, ht⟩ := Lattice.Lattice.mem_allTerms.1 hm
  obtain ⟨pa, pb, e1, e2, e3, e4⟩ := inv.ends _ hn t ht
  obtain ⟨k, hk⟩ := List.mem_iff_getElem?.1 hn
  have hif := inv.hopIds k _ hk
  simp only at hx hif e3 e4
  obtain ⟨x1, -, x3, x4⟩ := hx
  have hE : famEnergy l fam = f.energy := by
    unfold famEnergy
    rw [← x4, hif, hk]
  obtain ⟨qa, a1, a2, a3, -, -⟩ := h.cellSub ca (List.mem_of_getElem? ha)
  obtain ⟨qb, b1, b2, b3, -, -⟩ := h.cellSub cb (List.mem_of_getElem? hb)
  rw [← x1, e1, Option.some.injEq] at a1
  rw [← x3, e2, Option.some.injEq] at b1
  subst a1 b1
  exact ⟨by rw [hE, ← e3, a3], by rw [hE, ← e4, b2]⟩

theorem names_length (h : Parts l sr hr B.cell) : (nameMap hr).length = l.hops.length := by
  unfold nameMap
  rw [List.length_zipIdx, h.hopLen]

theorem lead_cellSite (hst : IsLead B sp valid i (nameMap hr) shiftPos st locs) {a : Nat} {la : Loc} (ha : locs[a]? = some la) :
    ∃ c, B.cell[la.sub]? = some c := by
  have hm := ((hst.sites la).1 (List.mem_of_getElem? ha)).1.1.1.2
  exact ⟨_, List.getElem?_eq_getElem hm⟩

theorem lead_norb (hst : IsLead B sp valid i (nameMap hr) shiftPos st locs) {a : Nat} {la : Loc} (ha : locs[a]? = some la)
    {c : CellSite} (hc : B.cell[la.sub]? = some c) : (tableNorbs st.sublattices)[a]? = some c.norb := by
  have h1 := congrArg (·[a]?) hst.norbs
  simp only [List.getElem?_map, ha, Option.map_some, hc] at h1
  rcases hn : (tableNorbs st.sublattices)[a]? with _ | n
  · rw [hn] at h1; simp at h1
  · rw [hn] at h1
    simp only [Option.map_some, Option.some.injEq] at h1
    rw [h1]

theorem lead_length (hst : IsLead B sp valid i (nameMap hr) shiftPos st locs) : (tableNorbs st.sublattices).length = locs.length := by
  have := congrArg List.length hst.norbs
  simpa using this

/-- The hoppings inside of the cell are the terms of the lattice. -/
theorem inside_count (h : Parts l sr hr B.cell) (hst : IsLead B sp valid i (nameMap hr) shiftPos st locs) {a b : Nat} {la lb : Loc}
    (ha : locs[a]? = some la) (hb : locs[b]? = some lb) {fam : Nat} (hf : fam < l.hops.length) :
    (st.hoppings.blocks.getD fam []).count ⟨a, b⟩ = (hoppingsAt B.cell la.sub).count ⟨lb.idx.sub la.idx, lb.sub, fam, false⟩ := by
  have hlt : fam < st.hoppings.blocks.length := by rw [hst.families.1, names_length h]; exact hf
  have hg := List.getElem?_eq_getElem hlt
  rw [List.getD_eq_getElem?_getD, hg, Option.getD_some, (hst.inside fam _ hg).1 a b la lb ha hb, List.count]
  apply List.countP_congr
  intro x _
  obtain ⟨r, t, f, c⟩ := x
  simp

/-- The hoppings to the next cell are the terms of the lattice in both directions. -/
theorem between_count (h : Parts l sr hr B.cell) (hst : IsLead B sp valid i (nameMap hr) shiftPos st locs) {a b : Nat} {la lb : Loc}
    (ha : locs[a]? = some la) (hb : locs[b]? = some lb) {ca cb : CellSite} (hca : B.cell[la.sub]? = some ca)
    (hcb : B.cell[lb.sub]? = some cb) {fam : Nat} (hf : fam < l.hops.length) :
    (st.boundary.blocks.getD fam []).count ⟨a, b⟩
      = (hoppingsAt B.cell la.sub).count ⟨lb.idx.sub (la.idx.add sp.shift), lb.sub, fam, false⟩
        + (hoppingsAt B.cell lb.sub).count ⟨(la.idx.add sp.shift).sub lb.idx, la.sub, fam, false⟩ := by
  have hlt : fam < st.boundary.blocks.length := by rw [hst.families.2, names_length h]; exact hf
  have hg := List.getElem?_eq_getElem hlt
  rw [List.getD_eq_getElem?_getD, hg, Option.getD_some, (hst.between fam _ hg).1 a b la lb ha hb]
  have hsub : la.sub < B.cell.length := (List.getElem?_eq_some_iff.1 hca).1
  have hsub' : lb.sub < B.cell.length := (List.getElem?_eq_some_iff.1 hcb).1
  have hneg : (la.idx.add sp.shift).sub lb.idx = (lb.idx.sub (la.idx.add sp.shift)).neg := by
    simp only [Index3.sub, Index3.neg, Index3.mk.injEq]; omega
  have hsym := h.cellOK.sym la.sub lb.sub hsub hsub' (lb.idx.sub (la.idx.add sp.shift)) fam true
  rw [Bool.not_true, ← hneg] at hsym
  rw [← hsym]
  generalize hoppingsAt B.cell la.sub = L
  generalize lb.idx.sub (la.idx.add sp.shift) = r
  induction L with
  | nil => rfl
  | cons x L ih =>
    rw [List.countP_cons, List.count_cons, List.count_cons, ih]
    obtain ⟨r', t, f, c⟩ := x
    cases c <;> simp <;> split <;> omega

theorem hopAt_inside [AddCommMonoid K] [Sub P] (h : Parts l sr hr B.cell) (inv : Inv l)
    (hst : IsLead B sp valid i (nameMap hr) shiftPos st locs) {a b : Nat}
    {la lb : Loc} (ha : locs[a]? = some la) (hb : locs[b]? = some lb) {ca cb : CellSite} (hca : B.cell[la.sub]? = some ca)
    (hcb : B.cell[lb.sub]? = some cb) (cast : C → K) (gs : List (ElemFn K P)) (posAt : Nat → P) (i' j' : Nat) (S : Index3) :
    hopAt cast posAt none gs (famEnergy l) (famName l) st.hoppings.blocks a b i' j'
      = hopSum cast gs l.hops (la.idx.add S, ca.uniqueId) (lb.idx.add S, cb.uniqueId) (posAt a) (posAt b) i' j' := by
  rw [Pipeline.hopAt_eq, hst.families.1, names_length h]
  unfold hopSum
  rw [← sum_terms inv (fun t => t.src = ca.uniqueId ∧ t.dst = cb.uniqueId ∧ (la.idx.add S).add t.rel = lb.idx.add S)
    (fun name e => finalEnergy gs name (fun i j => cast (entry e i j)) (posAt a) (posAt b) i' j')]
  congr 1
  apply List.map_congr_left
  intro fam hf
  rw [inside_count h hst ha hb (List.mem_range.1 hf), h.counts _ _ ca cb hca hcb]
  show _ • _ = _ • _
  congr 1
  apply List.countP_congr
  intro q _
  simp only [decide_eq_true_eq, add_eq_iff]
  have : (lb.idx.add S).sub (la.idx.add S) = lb.idx.sub la.idx := by
    simp only [Index3.sub, Index3.add, Index3.mk.injEq]; omega
  rw [this]
  tauto

theorem hopAt_between [AddCommMonoid K] [Sub P] (h : Parts l sr hr B.cell) (inv : Inv l)
    (hst : IsLead B sp valid i (nameMap hr) shiftPos st locs) {a b : Nat}
    {la lb : Loc} (ha : locs[a]? = some la) (hb : locs[b]? = some lb) {ca cb : CellSite} (hca : B.cell[la.sub]? = some ca)
    (hcb : B.cell[lb.sub]? = some cb) (cast : C → K) (gs : List (ElemFn K P)) (posAt : Nat → P) (shift : P) (i' j' : Nat) :
    hopAt cast posAt (some shift) gs (famEnergy l) (famName l) st.boundary.blocks a b i' j'
      = hopSum cast gs l.hops (la.idx.add sp.shift, ca.uniqueId) (lb.idx, cb.uniqueId) (posAt a) (posAt b - shift) i' j'
        + backSum cast gs l.hops (la.idx.add sp.shift, ca.uniqueId) (lb.idx, cb.uniqueId) (posAt a) (posAt b - shift) i' j' := by
  rw [Pipeline.hopAt_eq, hst.families.2, names_length h]
  unfold hopSum backSum
  rw [← sum_terms inv (fun t => t.src = ca.uniqueId ∧ t.dst = cb.uniqueId ∧ (la.idx.add sp.shift).add t.rel = lb.idx)
      (fun name e => finalEnergy gs name (fun i j => cast (entry e i j)) (posAt a) (posAt b - shift) i' j'),
    ← sum_terms inv (fun t => t.src = cb.uniqueId ∧ t.dst = ca.uniqueId ∧ lb.idx.add t.rel = la.idx.add sp.shift)
      (fun name e => finalEnergy gs name (fun i j => cast (entry e i j)) (posAt a) (posAt b - shift) i' j'), ← List.sum_map_add]
  congr 1
  apply List.map_congr_left
  intro fam hf
  rw [between_count h hst ha hb hca hcb (List.mem_range.1 hf), h.counts _ _ ca cb hca hcb, h.counts _ _ cb ca hcb hca, add_smul]
  show _ • _ + _ • _ = _ • _ + _ • _
  congr 2
  · apply List.countP_congr
    intro q _
    simp only [decide_eq_true_eq, add_eq_iff]
    tauto
  · apply List.countP_congr
    intro q _
    simp only [decide_eq_true_eq, add_eq_iff]
    tauto

end

/-! ## The system of a lead meets the hypotheses of the theorems about Hamiltonians -/

section
variable [Zero C] [Star C] {l : Lattice.Lattice C L} {sr hr : Registry C} {B : Base P} {sp : Spec P} {valid : List Bool}
  {i : Int} {shiftPos : P → P} {st : Structure P} {locs : List Loc}

theorem getElem?_lt {α : Type} {xs : List α} {n : Nat} (h : n < xs.length) : ∃ x, xs[n]? = some x :=
  ⟨_, List.getElem?_eq_getElem h⟩

/-- A stored hopping inside of the cell fits the orbitals of its ends. -/
theorem inside_fits (h : Parts l sr hr B.cell) (inv : Inv l) (hst : IsLead B sp valid i (nameMap hr) shiftPos st locs)
    (fam : Nat) (b : List COO) (hb : st.hoppings.blocks[fam]? = some b) (c : COO) (hc : c ∈ b) :
    Fits (tableNorbs st.sublattices) (famEnergy l fam) c := by
  obtain ⟨h1, h2⟩ := (hst.inside fam b hb).2 c hc
  obtain ⟨la, ha⟩ := getElem?_lt h1
  obtain ⟨lb, hb'⟩ := getElem?_lt h2
  obtain ⟨ca, hca⟩ := lead_cellSite hst ha
  obtain ⟨cb, hcb⟩ := lead_cellSite hst hb'
  have hf : fam < l.hops.length := by
    rw [← names_length h, ← hst.families.1]
    exact (List.getElem?_eq_some_iff.1 hb).1
  have hpos := List.count_pos_iff.2 hc
  have hcount := inside_count h hst ha hb' hf
  rw [List.getD_eq_getElem?_getD, hb, Option.getD_some] at hcount
  rw [show c = ⟨c.row, c.col⟩ from rfl, hcount] at hpos
  obtain ⟨e1, e2⟩ := cell_fits h inv hca hcb hpos
  exact ⟨by rw [lead_norb hst ha hca, e1], by rw [lead_norb hst hb' hcb, e2]⟩

/-- Terms of the lattice which lead from the cell to the next one further out have square matrices. -/
def SquareBack (hops : List (String × HoppingFamily C)) (B : Base P) (sp : Spec P) (locs : List Loc) : Prop :=
  ∀ la ∈ locs, ∀ lb ∈ locs, ∀ ca cb, B.cell[la.sub]? = some ca → B.cell[lb.sub]? = some cb →
    ∀ q ∈ hops, ∀ t ∈ q.2.terms, t.src = cb.uniqueId → t.dst = ca.uniqueId → lb.idx.add t.rel = la.idx.add sp.shift →
      q.2.energy.rows = q.2.energy.cols

theorem between_fits (h : Parts l sr hr B.cell) (inv : Inv l) (hst : IsLead B sp valid i (nameMap hr) shiftPos st locs)
    (hsq : SquareBack l.hops B sp locs)
    (fam : Nat) (b : List COO) (hb : st.boundary.blocks[fam]? = some b) (c : COO) (hc : c ∈ b) :
    Fits (tableNorbs st.sublattices) (famEnergy l fam) c := by
  obtain ⟨h1, h2⟩ := (hst.between fam b hb).2 c hc
  obtain ⟨la, ha⟩ := getElem?_lt h1
  obtain ⟨lb, hb'⟩ := getElem?_lt h2
  obtain ⟨ca, hca⟩ := lead_cellSite hst ha
  obtain ⟨cb, hcb⟩ := lead_cellSite hst hb'
  have hf : fam < l.hops.length := by
    rw [← names_length h, ← hst.families.2]
    exact (List.getElem?_eq_some_iff.1 hb).1
  have hpos := List.count_pos_iff.2 hc
  have hcount := between_count h hst ha hb' hca hcb hf
  rw [List.getD_eq_getElem?_getD, hb, Option.getD_some] at hcount
  rw [show c = ⟨c.row, c.col⟩ from rfl, hcount] at hpos
  by_cases hfw : 0 < (hoppingsAt B.cell la.sub).count ⟨lb.idx.sub (la.idx.add sp.shift), lb.sub, fam, false⟩
  · obtain ⟨e1, e2⟩ := cell_fits h inv hca hcb hfw
    exact ⟨by rw [lead_norb hst ha hca, e1], by rw [lead_norb hst hb' hcb, e2]⟩
  · have hbw : 0 < (hoppingsAt B.cell lb.sub).count ⟨(la.idx.add sp.shift).sub lb.idx, la.sub, fam, false⟩ := by omega
    obtain ⟨e1, e2⟩ := cell_fits h inv hcb hca hbw
    rw [h.counts _ _ cb ca hcb hca] at hbw
    obtain ⟨⟨f, t⟩, hm, hx⟩ := List.countP_pos_iff.1 hbw
    rw [decide_eq_true_eq] at hx
    obtain ⟨n, hn, ht⟩ := Lattice.Lattice.mem_allTerms.1 hm
    obtain ⟨k, hk⟩ := List.mem_iff_getElem?.1 hn
    have hif := inv.hopIds k _ hk
    simp only at hx hif ht
    have hE : famEnergy l fam = f.energy := by
      unfold famEnergy
      rw [← hx.2.2.2, hif, hk]
    have hs := hsq la (List.mem_of_getElem? ha) lb (List.mem_of_getElem? hb') ca cb hca hcb (n, f) hn t ht hx.1 hx.2.2.1
      ((add_eq_iff _ _ _).2 hx.2.1)
    simp only at hs
    rw [hE] at e1 e2
    exact ⟨by rw [lead_norb hst ha hca, hE, ← e2, hs], by rw [lead_norb hst hb' hcb, hE, ← e1, hs]⟩

theorem lead_hopOK (h : Parts l sr hr B.cell) (inv : Inv l) (hst : IsLead B sp valid i (nameMap hr) shiftPos st locs)
    (s : Hamiltonian.System C P) (h1 : s.sublattices = st.sublattices) (h2 : s.hoppingRegistry = hr) (hb : HoppingBlocks)
    (hlen : hb.blocks.length = (nameMap hr).length)
    (hfits : ∀ (fam : Nat) b, hb.blocks[fam]? = some b → ∀ c ∈ b, Fits (tableNorbs st.sublattices) (famEnergy l fam) c) :
    HopOK s hb (famEnergy l) (famName l) where
  sorted := by rw [h1]; exact hst.table.1
  orb := by
    rw [h1]
    intro n hn
    obtain ⟨a, ha⟩ := List.mem_iff_getElem?.1 hn
    have hlt := (List.getElem?_eq_some_iff.1 ha).1
    rw [lead_length hst] at hlt
    obtain ⟨la, hla⟩ := getElem?_lt hlt
    obtain ⟨c, hc⟩ := lead_cellSite hst hla
    rw [lead_norb hst hla hc, Option.some.injEq] at ha
    obtain ⟨-, -, -, -, h0, -⟩ := h.cellSub c (List.mem_of_getElem? hc)
    omega
  energy := fun fam hf => by rw [h2]; exact (h.fam inv (by rw [← names_length h, ← hlen]; exact hf)).1
  name := fun fam hf => by rw [h2]; exact (h.fam inv (by rw [← names_length h, ← hlen]; exact hf)).2
  fits := by rw [h1]; exact hfits

/-- The label of a site, and what the registry holds for it. -/
theorem lead_site (h : Parts l sr hr B.cell) (hst : IsLead B sp valid i (nameMap hr) shiftPos st locs) {a : Nat} {la : Loc}
    (ha : locs[a]? = some la) {c : CellSite} (hc : B.cell[la.sub]? = some c) (shift : P) :
    ∃ p q, l.subs[c.uniqueId]? = some p ∧ l.subs[p.2.aliasId]? = some q ∧
      (Sublat.decompressed st.sublattices)[a]? = some (some (c.aliasId : Int)) ∧
      energyAt sr c.aliasId = .ok p.2.energy ∧ nameAt sr c.aliasId = .ok q.1 ∧
      p.2.energy.rows = c.norb ∧ p.2.energy.cols = c.norb ∧
      Pipeline.siteEnergy (leadSystem sr hr st shift) a = p.2.energy ∧ Pipeline.siteName (leadSystem sr hr st shift) a = q.1 := by
  obtain ⟨p, hp, p1, p2, -, p4⟩ := h.cellSub c (List.mem_of_getElem? hc)
  obtain ⟨q, q1, q2, q3⟩ := h.site p (List.mem_of_getElem? hp)
  have hd : (Sublat.decompressed st.sublattices)[a]? = some (some (c.aliasId : Int)) := by
    rw [hst.labels, List.getElem?_map, ha]
    simp [hc]
  rw [p4] at q2 q3
  refine ⟨p, q, hp, by rw [p4] at q1 ⊢; exact q1, hd, q3, q2, p2, p1, ?_, ?_⟩
  · unfold Pipeline.siteEnergy
    simp only [leadSystem, hd, q3]
  · unfold Pipeline.siteName
    simp only [leadSystem, hd, q2]

theorem lead_sitesOK (h : Parts l sr hr B.cell) (hst : IsLead B sp valid i (nameMap hr) shiftPos st locs) (shift : P) :
    SitesOK (leadSystem sr hr st shift) (Pipeline.siteEnergy (leadSystem sr hr st shift))
      (Pipeline.siteName (leadSystem sr hr st shift)) where
  table := by
    intro e he
    obtain ⟨c, hc, e1, e2⟩ := hst.table.2 e he
    obtain ⟨p, hp, p1, p2, -, p4⟩ := h.cellSub c hc
    obtain ⟨q, q1, q2, q3⟩ := h.site p (List.mem_of_getElem? hp)
    rw [p4, ← e1] at q2 q3
    exact ⟨_, _, q3, q2, by rw [p2, e2], by rw [p1, e2]⟩
  energy := by
    intro a id ha
    have hlt : a < locs.length := by
      have := (List.getElem?_eq_some_iff.1 ha).1
      simp only [leadSystem] at this
      rw [hst.labels, List.length_map] at this
      exact this
    obtain ⟨la, hla⟩ := getElem?_lt hlt
    obtain ⟨c, hc⟩ := lead_cellSite hst hla
    obtain ⟨p, q, -, -, g1, g2, g3, -, -, g4, g5⟩ := lead_site h hst hla hc shift
    simp only [leadSystem] at ha
    rw [g1] at ha
    simp only [Option.some.injEq] at ha
    subst ha
    rw [g4, g5]
    exact ⟨g2, g3⟩
  fits := by
    intro a n ha
    simp only [leadSystem] at ha
    have hlt := (List.getElem?_eq_some_iff.1 ha).1
    rw [lead_length hst] at hlt
    obtain ⟨la, hla⟩ := getElem?_lt hlt
    obtain ⟨c, hc⟩ := lead_cellSite hst hla
    obtain ⟨p, q, -, -, -, -, -, g2, g3, g4, -⟩ := lead_site h hst hla hc shift
    rw [lead_norb hst hla hc, Option.some.injEq] at ha
    subst ha
    rw [g4]
    exact ⟨g2, g3⟩

theorem range_sum_count {α : Type} (n : Nat) (L : List α) (key : α → Nat) (P : α → Prop) [DecidablePred P] :
    ((List.range n).map fun f => L.countP (fun x => decide (P x ∧ key x = f))).sum ≤ L.countP (fun x => decide (P x)) := by
  induction L with
  | nil => simp
  | cons x L ih =>
    simp only [List.countP_cons]
    rw [List.sum_map_add]
    refine Nat.add_le_add ih ?_
    by_cases hP : P x
    · simp only [hP, true_and, decide_true, if_true]
      by_cases hk : key x < n
      · rw [sum_eq_of_unique (key x) (List.mem_range.2 hk) List.nodup_range]
        · simp
        · intro f _ hne
          rw [if_neg]
          simpa using fun e => hne e.symm
      · refine le_of_eq_of_le (b := 0) ?_ (by simp)
        apply List.sum_eq_zero
        intro y hy
        obtain ⟨f, hf, rfl⟩ := List.mem_map.1 hy
        rw [if_neg]
        have := List.mem_range.1 hf
        simp; omega
    · simp [hP]

/-- Every bond inside of the cell is stored once. -/
theorem lead_bonds (h : Parts l sr hr B.cell) (hst : IsLead B sp valid i (nameMap hr) shiftPos st locs) :
    SimpleBonds st.hoppings := by
  have hlen : st.hoppings.blocks.length = l.hops.length := by rw [hst.families.1, names_length h]
  constructor
  · intro c hc hcc
    obtain ⟨b, hb, hcb⟩ := List.mem_flatten.1 hc
    obtain ⟨fam, hfam⟩ := List.mem_iff_getElem?.1 hb
    obtain ⟨h1, h2⟩ := (hst.inside fam b hfam).2 c hcb
    obtain ⟨la, ha⟩ := getElem?_lt h1
    have hpos := List.count_pos_iff.2 hcb
    rw [show c = ⟨c.row, c.row⟩ by rw [COO.mk.injEq]; exact ⟨rfl, hcc.symm⟩,
      (hst.inside fam b hfam).1 c.row c.row la la ha ha] at hpos
    obtain ⟨x, hx, hx'⟩ := List.countP_pos_iff.1 hpos
    rw [decide_eq_true_eq] at hx'
    refine h.cellOK.noSelf _ x hx ⟨?_, hx'.2.1⟩
    rw [hx'.1]
    simp [Index3.sub, Index3.zero]
  · intro a b
    by_cases hab : a < locs.length ∧ b < locs.length
    · obtain ⟨la, ha⟩ := getElem?_lt hab.1
      obtain ⟨lb, hb⟩ := getElem?_lt hab.2
      obtain ⟨ca, hca⟩ := lead_cellSite hst ha
      obtain ⟨cb, hcb⟩ := lead_cellSite hst hb
      have hs := (List.getElem?_eq_some_iff.1 hca).1
      have hs' := (List.getElem?_eq_some_iff.1 hcb).1
      set r := lb.idx.sub la.idx with hr'
      have hneg : la.idx.sub lb.idx = r.neg := by
        simp only [hr', Index3.sub, Index3.neg, Index3.mk.injEq]; omega
      rw [List.countP_flatten]
      have hmap : st.hoppings.blocks.map (List.countP fun c => decide (c = ⟨a, b⟩ ∨ c = ⟨b, a⟩))
          = (List.range l.hops.length).map fun fam => (st.hoppings.blocks.getD fam []).countP fun c => decide (c = ⟨a, b⟩ ∨ c = ⟨b, a⟩) := by
        apply List.ext_getElem
        · simp [hlen]
        · intro n h1 h2
          have h3 : n < st.hoppings.blocks.length := by simpa using h1
          simp [List.getD_eq_getElem?_getD, List.getElem?_eq_getElem h3]
      rw [hmap]
      refine le_trans (List.sum_le_sum (g := fun fam => (hoppingsAt B.cell la.sub).countP
        (fun x => decide ((x.rel = r ∧ x.toIdx = lb.sub) ∧ x.familyId = fam))) ?_) ?_
      · intro fam hf
        have hf := List.mem_range.1 hf
        have c1 := inside_count h hst ha hb hf
        have c2 := inside_count h hst hb ha hf
        rw [hneg] at c2
        have c3 := h.cellOK.sym la.sub lb.sub hs hs' r fam true
        rw [Bool.not_true] at c3
        have hc : ∀ (L : List COO) x y, L.countP (fun c => decide (c = x ∨ c = y)) ≤ L.count x + L.count y := by
          intro L x y
          induction L with
          | nil => simp
          | cons z L ih =>
            simp only [List.countP_cons, List.count_cons]
            have : (if decide (z = x ∨ z = y) = true then 1 else 0)
                ≤ (if (z == x) = true then 1 else 0) + (if (z == y) = true then 1 else 0) := by
              by_cases e1 : z = x <;> by_cases e2 : z = y <;> simp [e1, e2]
            omega
        refine le_trans (hc _ _ _) ?_
        rw [c1, c2, ← c3, ← hr']
        generalize hoppingsAt B.cell la.sub = M
        generalize lb.sub = s'
        generalize r = r0
        induction M with
        | nil => simp
        | cons x M ih =>
          rw [List.count_cons, List.count_cons, List.countP_cons]
          obtain ⟨r', t, f, cj⟩ := x
          by_cases hx : (r' = r0 ∧ t = s') ∧ f = fam
          · obtain ⟨⟨rfl, rfl⟩, rfl⟩ := hx
            cases cj
            · rw [if_pos (by simp), if_neg (by simp), if_pos (by simp)]; omega
            · rw [if_neg (by simp), if_pos (by simp), if_pos (by simp)]; omega
          · have g1 : ¬ ((⟨r', t, f, cj⟩ : CellHopping) == ⟨r0, s', fam, false⟩) = true := by
              simp only [beq_iff_eq, CellHopping.mk.injEq]; tauto
            have g2 : ¬ ((⟨r', t, f, cj⟩ : CellHopping) == ⟨r0, s', fam, true⟩) = true := by
              simp only [beq_iff_eq, CellHopping.mk.injEq]; tauto
            rw [if_neg g1, if_neg g2]
            omega
      · exact le_trans (range_sum_count _ _ _ _) (h.cellOK.once _ _ _)
    · rw [Nat.le_one_iff_eq_zero_or_eq_one]
      left
      rw [List.countP_eq_zero]
      intro c hc hcc
      obtain ⟨bl, hb, hcb⟩ := List.mem_flatten.1 hc
      obtain ⟨fam, hfam⟩ := List.mem_iff_getElem?.1 hb
      obtain ⟨h1, h2⟩ := (hst.inside fam bl hfam).2 c hcb
      rw [decide_eq_true_eq] at hcc
      rcases hcc with rfl | rfl
      · exact hab ⟨h1, h2⟩
      · exact hab ⟨h2, h1⟩

/-- No place of the coupling is filled twice. -/
theorem boundary_nodup (h : Parts l sr hr B.cell) (hst : IsLead B sp valid i (nameMap hr) shiftPos st locs) :
    st.boundary.blocks.flatten.Nodup := by
  have hlen : st.boundary.blocks.length = l.hops.length := by rw [hst.families.2, names_length h]
  rw [List.nodup_iff_count_le_one]
  rintro ⟨a, b⟩
  by_cases hab : a < locs.length ∧ b < locs.length
  · obtain ⟨la, ha⟩ := getElem?_lt hab.1
    obtain ⟨lb, hb⟩ := getElem?_lt hab.2
    rw [List.count_flatten]
    have hmap : st.boundary.blocks.map (List.count (⟨a, b⟩ : COO))
        = (List.range l.hops.length).map fun fam => (st.boundary.blocks.getD fam []).count ⟨a, b⟩ := by
      apply List.ext_getElem
      · simp [hlen]
      · intro n h1 h2
        have h3 : n < st.boundary.blocks.length := by simpa using h1
        simp [List.getD_eq_getElem?_getD, List.getElem?_eq_getElem h3]
    rw [hmap]
    have hmap2 : ((List.range l.hops.length).map fun fam => (st.boundary.blocks.getD fam []).count ⟨a, b⟩)
        = (List.range l.hops.length).map fun fam => (hoppingsAt B.cell la.sub).countP fun x =>
          decide ((x.rel = lb.idx.sub (la.idx.add sp.shift) ∧ x.toIdx = lb.sub) ∧ x.familyId = fam) := by
      apply List.map_congr_left
      intro fam hf
      have h3 : fam < st.boundary.blocks.length := by rw [hlen]; exact List.mem_range.1 hf
      have hg := List.getElem?_eq_getElem h3
      rw [List.getD_eq_getElem?_getD, hg, Option.getD_some, (hst.between fam _ hg).1 a b la lb ha hb]
      apply List.countP_congr
      intro x _
      simp only [decide_eq_true_eq]
      tauto
    rw [hmap2]
    exact le_trans (range_sum_count _ _ _ _) (h.cellOK.once _ _ _)
  · rw [Nat.le_one_iff_eq_zero_or_eq_one]
    left
    rw [List.count_eq_zero]
    intro hc
    obtain ⟨bl, hb, hcb⟩ := List.mem_flatten.1 hc
    obtain ⟨fam, hfam⟩ := List.mem_iff_getElem?.1 hb
    exact hab ((hst.between fam bl hfam).2 _ hcb)

end

end Verif.Leads
