import Verif.Pipeline.PropsRewrite

/-!
# C87: the order of the calls which build the lattice does not matter
-/

namespace Verif.Pipeline

open Verif.Lattice (Sublattice HoppingFamily HoppingTerm Registry CellSite CellHopping Inv optimizedUnitCell)
open Verif.Lattice.Lattice (run empty allTerms)
open Verif.Foundation (Dims CellOK size sites locOf rank validPairs cellAt crystalSite hoppingsAt popOps
  siteEntries finalize)
open Verif.Sublat (tableNorbs)
open Verif.Sublat.Spec (firstRow)
open Verif.Hamiltonian
open Verif.Symmetry (Periods Supported cmul periodIndex stored Short InArea)
open Verif.Hopping (COO Csr HoppingBlocks)

variable {C L P K : Type}

/-! ## Specification -/

/-- Name of the sublattice with the given number. -/
def nameOf (l : Lattice.Lattice C L) (α : Nat) : String :=
  match l.subs[α]? with
  | some q => q.1
  | none => ""

/-- Position of the sublattice with the given number. -/
def basisOf (toVec : L → Vec3) (l : Lattice.Lattice C L) (α : Nat) : Vec3 :=
  match l.subs[α]? with
  | some q => toVec q.2.position
  | none => 0

/-- Two lattices have the same sublattices and hoppings; only the order in which they were added, and with it
the numbers, may differ. -/
structure SameContent (l l' : Lattice.Lattice C L) : Prop where
  subs : (l.subs.map fun q => (q.1, q.2.position, q.2.energy, rootName l q.2.uniqueId)).Perm
    (l'.subs.map fun q => (q.1, q.2.position, q.2.energy, rootName l' q.2.uniqueId))
  hops : ((bondsOf l).map fun b => (b.1.1, b.1.2.energy, b.2.rel, nameOf l b.2.src, nameOf l b.2.dst)).Perm
    ((bondsOf l').map fun b => (b.1.1, b.1.2.energy, b.2.rel, nameOf l' b.2.src, nameOf l' b.2.dst))

/-- The shape: a site of the foundation is kept exactly if its position satisfies the condition. -/
def Selected {n : Nat} (d : Dims) (cell : List CellSite) (a : Fin n → Vec3) (x0 : Nat → Vec3) (valid : List Bool)
    (f : Vec3 → Prop) : Prop :=
  ∀ k ck, crystalSite d cell k = some ck → k < valid.length →
    (valid[k]? = some true ↔ f (x0 ck.2.uniqueId + shiftVec a ck.1))

/-! ## Lemmas -/

/-- The numbers of a permuted list. -/
theorem perm_index {β : Type} {xs ys : List β} (h : xs.Perm ys) : ∃ e : Nat ≃ Nat, ∀ i : Nat, ys[e i]? = xs[i]? := by
  induction h with
  | nil => exact ⟨Equiv.refl _, fun _ => rfl⟩
  | cons x _ ih =>
    obtain ⟨e, he⟩ := ih
    refine ⟨⟨fun i => match i with | 0 => 0 | i + 1 => e i + 1, fun i => match i with | 0 => 0 | i + 1 => e.symm i + 1,
      ?_, ?_⟩, ?_⟩
    · rintro (_ | i)
      · rfl
      · simp
    · rintro (_ | i)
      · rfl
      · simp
    · rintro (_ | i)
      · rfl
      · exact he i
  | swap x y _ =>
    refine ⟨Equiv.swap 0 1, ?_⟩
    rintro (_ | _ | i)
    · rw [Equiv.swap_apply_left]; rfl
    · rw [Equiv.swap_apply_right]; rfl
    · rw [Equiv.swap_apply_of_ne_of_ne (by omega) (by omega)]; rfl
  | trans _ _ ih ih' =>
    obtain ⟨e, he⟩ := ih
    obtain ⟨e', he'⟩ := ih'
    exact ⟨e.trans e', fun i => by rw [Equiv.trans_apply, he', he]⟩

theorem perm_map_forall₂ {β γ δ : Type} {f : β → δ} {g : γ → δ} {xs : List β} {ys : List γ}
    (h : (xs.map f).Perm (ys.map g)) : ∃ zs, List.Forall₂ (fun x z => f x = g z) xs zs ∧ zs.Perm ys := by
  have h2 : List.Forall₂ (fun x z => x = g z) (ys.map g) ys := by
    rw [List.forall₂_map_left_iff]
    exact List.forall₂_same.2 fun _ _ => rfl
  obtain ⟨zs, h3, h4⟩ := List.perm_comp_forall₂ h h2
  exact ⟨zs, List.forall₂_map_left_iff.1 h3, h4⟩

theorem nameOf_inj {l : Lattice.Lattice C L} [Zero C] [Star C] [DecidableEq C] (inv : Inv l) {α β : Nat}
    (ha : α < l.subs.length) (hb : β < l.subs.length) (h : nameOf l α = nameOf l β) : α = β := by
  unfold nameOf at h
  rw [List.getElem?_eq_getElem ha, List.getElem?_eq_getElem hb] at h
  simp only at h
  have := inv.subNames
  rw [List.nodup_iff_injective_get] at this
  have h2 := @this ⟨α, by simpa using ha⟩ ⟨β, by simpa using hb⟩ (by simpa using h)
  simpa using h2

theorem mem_bondsOf {l : Lattice.Lattice C L} {b : (String × HoppingFamily C) × HoppingTerm} (h : b ∈ bondsOf l) :
    b.1 ∈ l.hops ∧ b.2 ∈ b.1.2.terms := by
  unfold bondsOf at h
  obtain ⟨q, hq, h⟩ := List.mem_flatMap.1 h
  obtain ⟨t, ht, rfl⟩ := List.mem_map.1 h
  exact ⟨hq, ht⟩

section
variable [AddMonoid C] [StarAddMonoid C] [DecidableEq C]

/-- Lattices with the same content describe the same crystal, with other numbers of the sublattices. -/
theorem SameContent.same {l l' : Lattice.Lattice C L} (h : SameContent l l') (inv : Inv l) (inv' : Inv l')
    (cast : C → ℂ) (gs : List (ElemFn ℂ Vec3)) (gos : List (OnsiteFn ℂ Vec3)) {n : Nat} (a : Fin n → Vec3)
    (toVec : L → Vec3) : ∃ π : Nat ≃ Nat, (∀ α, α < l.subs.length ↔ π α < l'.subs.length) ∧
      (∀ α, nameOf l' (π α) = nameOf l α) ∧ (∀ α, basisOf toVec l' (π α) = basisOf toVec l α) ∧
      SameCrystal l l' cast gs gos (fun R α => basisOf toVec l α + shiftVec a R)
        (fun R α => basisOf toVec l' α + shiftVec a R) (Equiv.refl _) π (fun _ => Index3.zero) := by
  obtain ⟨π, hπ⟩ := perm_index h.subs
  simp only [List.getElem?_map] at hπ
  have hcase : ∀ α, (∃ q q', l.subs[α]? = some q ∧ l'.subs[π α]? = some q' ∧ q'.1 = q.1 ∧
      q'.2.position = q.2.position ∧ q'.2.energy = q.2.energy ∧ rootName l' (π α) = rootName l α) ∨
      (l.subs[α]? = none ∧ l'.subs[π α]? = none) := by
    intro α
    have e := hπ α
    rcases h1 : l.subs[α]? with _ | q
    · rw [h1] at e
      right
      exact ⟨rfl, by simpa using e⟩
    · rw [h1, Option.map_some] at e
      obtain ⟨q', h2, e⟩ := Option.map_eq_some_iff.1 e
      simp only [Prod.mk.injEq] at e
      left
      refine ⟨q, q', rfl, h2, e.1, e.2.1, e.2.2.1, ?_⟩
      have e4 := e.2.2.2
      rw [inv.subIds α q h1, inv'.subIds (π α) q' h2] at e4
      exact e4
  have hname : ∀ α, nameOf l' (π α) = nameOf l α := by
    intro α
    unfold nameOf
    rcases hcase α with ⟨q, q', h1, h2, h3, -⟩ | ⟨h1, h2⟩
    · rw [h1, h2]; exact h3
    · rw [h1, h2]
  have hbasis : ∀ α, basisOf toVec l' (π α) = basisOf toVec l α := by
    intro α
    unfold basisOf
    rcases hcase α with ⟨q, q', h1, h2, -, h3, -⟩ | ⟨h1, h2⟩
    · rw [h1, h2]; simp only [h3]
    · rw [h1, h2]
  have hlen : ∀ α, α < l.subs.length ↔ π α < l'.subs.length := by
    intro α
    rcases hcase α with ⟨q, q', h1, h2, -⟩ | ⟨h1, h2⟩
    · exact ⟨fun _ => (List.getElem?_eq_some_iff.1 h2).1, fun _ => (List.getElem?_eq_some_iff.1 h1).1⟩
    · rw [List.getElem?_eq_none_iff] at h1 h2
      omega
  have hadd : ∀ R : Index3, R.add Index3.zero = R := fun R => by simp [Index3.add, Index3.zero]
  have hsub : ∀ R : Index3, R.sub Index3.zero = R := fun R => by simp [Index3.sub, Index3.zero]
  refine ⟨π, hlen, hname, hbasis, fun _ _ => rfl, ?_, ?_, ?_, ?_, ?_⟩
  · intro α
    unfold orbitals
    rcases hcase α with ⟨q, q', h1, h2, -, -, h3, -⟩ | ⟨h1, h2⟩
    · rw [h1, h2]; simp only [h3]
    · rw [h1, h2]
  · intro α i j
    unfold onsiteOf
    rcases hcase α with ⟨q, q', h1, h2, -, -, h3, -⟩ | ⟨h1, h2⟩
    · rw [h1, h2]; simp only [h3]
    · rw [h1, h2]
  · intro α e x i j
    rcases hcase α with ⟨q, q', h1, h2, -, -, -, h3⟩ | ⟨h1, h2⟩
    · rw [h3]
    · unfold rootName
      rw [h1, h2]
  · intro R α
    show basisOf toVec l' (π α) + shiftVec a (R.add Index3.zero) = _
    rw [hbasis, hadd]
  · obtain ⟨bs, h1, h2⟩ := perm_map_forall₂ h.hops
    refine ⟨bs, ?_, h2⟩
    have hmem : ∀ b ∈ bs, b ∈ bondsOf l' := fun b hb => h2.mem_iff.1 hb
    have h3 := List.forall₂_iff_get.1 h1
    rw [List.forall₂_iff_get]
    refine ⟨h3.1, ?_⟩
    intro i hi hi'
    have e := h3.2 i hi hi'
    obtain ⟨m1, m2⟩ := mem_bondsOf (List.get_mem (bondsOf l) ⟨i, hi⟩)
    obtain ⟨m1', m2'⟩ := mem_bondsOf (hmem _ (List.get_mem bs ⟨i, hi'⟩))
    obtain ⟨qa, qb, a1, a2, -, -⟩ := inv.ends _ m1 _ m2
    obtain ⟨qa', qb', b1, b2, -, -⟩ := inv'.ends _ m1' _ m2'
    simp only [Prod.mk.injEq] at e
    obtain ⟨e1, e2, e3, e4, e5⟩ := e
    refine .forward ?_ ?_ ?_ ?_ ?_
    · refine nameOf_inj inv' (List.getElem?_eq_some_iff.1 b1).1 ((hlen _).1 (List.getElem?_eq_some_iff.1 a1).1) ?_
      rw [hname]
      exact e4.symm
    · refine nameOf_inj inv' (List.getElem?_eq_some_iff.1 b2).1 ((hlen _).1 (List.getElem?_eq_some_iff.1 a2).1) ?_
      rw [hname]
      exact e5.symm
    · show _ = (((bondsOf l).get ⟨i, hi⟩).2.rel.add Index3.zero).sub Index3.zero
      rw [hadd, hsub]
      exact e3.symm
    · intro i j
      rw [e2]
    · intro e x y i j
      rw [e1]

/-- The sites of a foundation are the sites of all sublattices in all of its cells. -/
theorem crystalSite_box {l : Lattice.Lattice C L} {sr hr : Registry C} {cell : List CellSite} (h : Parts l sr hr cell)
    (d : Dims) (R : Index3) (α : Nat) :
    (∃ k ck, k < size d cell.length ∧ crystalSite d cell k = some ck ∧ ck.1 = R ∧ ck.2.uniqueId = α) ↔
      (0 ≤ R.x ∧ R.x < d.sx ∧ 0 ≤ R.y ∧ R.y < d.sy ∧ 0 ≤ R.z ∧ R.z < d.sz) ∧ α < l.subs.length := by
  constructor
  · rintro ⟨k, ck, hk, hck, rfl, rfl⟩
    obtain ⟨h1, h2, h3, h4, h5, h6, -⟩ := Foundation.locOf_in hk
    rw [crystalSite_fst hck]
    refine ⟨⟨h1, h2, h3, h4, h5, h6⟩, ?_⟩
    unfold crystalSite at hck
    obtain ⟨c, hc, rfl⟩ := Option.map_eq_some_iff.1 hck
    obtain ⟨q, q1, -⟩ := h.cellSub c (List.mem_of_getElem? hc)
    exact (List.getElem?_eq_some_iff.1 q1).1
  · rintro ⟨⟨h1, h2, h3, h4, h5, h6⟩, hα⟩
    -- each sublattice is in the cell
    have hex : ∃ (i : Nat) (c : CellSite), cell[i]? = some c ∧ c.uniqueId = α := by
      have hb : (cell.map (·.uniqueId)).toFinset = Finset.range l.subs.length := by
        apply Finset.eq_of_subset_of_card_le
        · intro x hx
          rw [List.mem_toFinset] at hx
          obtain ⟨c, hc, rfl⟩ := List.mem_map.1 hx
          obtain ⟨q, q1, -⟩ := h.cellSub c hc
          exact Finset.mem_range.2 (List.getElem?_eq_some_iff.1 q1).1
        · rw [List.toFinset_card_of_nodup, List.length_map, h.cellLen, Finset.card_range]
          rw [List.nodup_iff_injective_get]
          intro x y hxy
          have hx : x.1 < cell.length := by simpa using x.2
          have hy : y.1 < cell.length := by simpa using y.2
          apply Fin.ext
          refine h.uid x y cell[x.1] cell[y.1] (List.getElem?_eq_getElem hx) (List.getElem?_eq_getElem hy) ?_
          simpa using hxy
      have : α ∈ (cell.map (·.uniqueId)).toFinset := by
        rw [hb]
        exact Finset.mem_range.2 hα
      rw [List.mem_toFinset] at this
      obtain ⟨c, hc, rfl⟩ := List.mem_map.1 this
      obtain ⟨i, hi⟩ := List.mem_iff_getElem?.1 hc
      exact ⟨i, c, hi, rfl⟩
    obtain ⟨i, c, hi, rfl⟩ := hex
    have hin : (⟨R, i⟩ : Foundation.Loc).In d cell.length :=
      ⟨h1, h2, h3, h4, h5, h6, (List.getElem?_eq_some_iff.1 hi).1⟩
    obtain ⟨k, hk, -, hl⟩ := hin.flat
    refine ⟨k, (R, c), hk, ?_, rfl, rfl⟩
    unfold crystalSite cellAt
    rw [hl]
    simp [hi]

theorem Copy_selected {l : Lattice.Lattice C L} {sr hr : Registry C} {cell : List CellSite} (h : Parts l sr hr cell)
    {d : Dims} {p : Periods} {valid : List Bool} {n : Nat} {a : Fin n → Vec3} {x0 : Nat → Vec3} {f : Vec3 → Prop}
    (hl : valid.length = size d cell.length) (hf : Selected d cell a x0 valid f) (R : Index3) (α : Nat) :
    Copy d cell p valid R α ↔ ∃ R' : Index3, ((0 ≤ R'.x ∧ R'.x < d.sx ∧ 0 ≤ R'.y ∧ R'.y < d.sy ∧ 0 ≤ R'.z ∧ R'.z < d.sz) ∧
      α < l.subs.length) ∧ f (x0 α + shiftVec a R') ∧ IsPeriod p (R'.sub R) := by
  constructor
  · rintro ⟨k, ck, hk, hck, rfl, hp⟩
    have hlt := (List.getElem?_eq_some_iff.1 hk).1
    exact ⟨ck.1, (crystalSite_box h d _ _).1 ⟨k, ck, hl ▸ hlt, hck, rfl, rfl⟩, (hf k ck hck hlt).1 hk, hp⟩
  · rintro ⟨R', hb, hx, hp⟩
    obtain ⟨k, ck, hk, hck, rfl, rfl⟩ := (crystalSite_box h d _ _).2 hb
    exact ⟨k, ck, (hf k ck hck (hl ▸ hk)).2 hx, hck, rfl, hp⟩

theorem rows_of_system (ops : List (Lattice.Lattice.Op C L)) (subs : List (String × Sublattice C L))
    (hops : List (String × HoppingFamily C))
    (hs : subs.Perm (run ops empty).subs) (hh : hops.Perm (run ops empty).hops)
    (ha : AliasesOK (run ops empty)) (cell : List CellSite) (hcell : optimizedUnitCell subs hops = .ok cell)
    {n : Nat} (a : Fin n → Vec3) (x0 : Nat → Vec3) (d : Dims) (p : Periods) (valid : List Bool) (s : System C Vec3)
    (hm : Made ops subs hops a cell x0 d p valid s) (r : Nat) (hr : r < Sublat.hamiltonianSize s.sublattices) :
    ∃ k ck j, valid[k]? = some true ∧ crystalSite d cell k = some ck ∧
      j < orbitals (run ops empty) ck.2.uniqueId ∧
      r = firstRow (tableNorbs s.sublattices) ((valid.take k).count true) + j := by
  obtain ⟨pos, junk, hsys, -⟩ := hm.made
  obtain ⟨hlen, hex, hsite, -⟩ := sites_of_system ops subs hops hs hh ha d p valid hm.len hm.fits pos junk (shiftVec a) s
    hsys hm.inArea hcell
  rw [Sublat.hamiltonianSize_eq] at hr
  obtain ⟨k', j, hj, hkj⟩ := exists_row _ r hr
  have hk' : k' < valid.count true := by
    by_contra hc
    rw [List.getD_eq_getElem?_getD, List.getElem?_eq_none (by omega)] at hj
    simp at hj
  obtain ⟨k, hk, rfl⟩ := validPairs_get' hk'
  obtain ⟨ck, hck⟩ := hex k hk
  exact ⟨k, ck, j, hk, hck, (hsite k ck hk hck).1 ▸ hj, hkj⟩

/-- **C87** (order).  Two sequences of calls which add the same sublattices and hoppings in any order, and two
systems made with the same lattice vectors, the same periods and the same shape.  The two matrices, at any
wave vector, are equal up to the numbering of the rows: `σ` maps the row of an orbital of the site of a
sublattice in a cell to the row of that orbital of the site of the sublattice with the same name in the same
cell. -/
theorem C87_order (ops : List (Lattice.Lattice.Op C L)) (subs : List (String × Sublattice C L))
    (hops : List (String × HoppingFamily C))
    (hs : subs.Perm (run ops empty).subs) (hh : hops.Perm (run ops empty).hops)
    (ha : AliasesOK (run ops empty)) (cell : List CellSite) (hcell : optimizedUnitCell subs hops = .ok cell)
    (ops' : List (Lattice.Lattice.Op C L)) (subs' : List (String × Sublattice C L))
    (hops' : List (String × HoppingFamily C))
    (hs' : subs'.Perm (run ops' empty).subs) (hh' : hops'.Perm (run ops' empty).hops)
    (ha' : AliasesOK (run ops' empty)) (cell' : List CellSite) (hcell' : optimizedUnitCell subs' hops' = .ok cell')
    (hsame : SameContent (run ops empty) (run ops' empty)) {n : Nat} (a : Fin n → Vec3) (toVec : L → Vec3)
    (cast : C → ℂ) (hc0 : cast 0 = 0) (mods : Modifiers ℂ Vec3) (gs : List (ElemFn ℂ Vec3))
    (gos : List (OnsiteFn ℂ Vec3)) (maxBuffer : Nat)
    (hbuf : ∀ q ∈ hops, q.2.energy.size ≤ maxBuffer) (hbuf' : ∀ q ∈ hops', q.2.energy.size ≤ maxBuffer)
    (hch : ∀ r c, Chain r c mods.hopping gs) (hon : ∀ n, OnsiteChain n mods.onsite gos)
    (d : Dims) (p : Periods) (f : Vec3 → Prop) (valid : List Bool) (s : System C Vec3)
    (hm : Made ops subs hops a cell (basisOf toVec (run ops empty)) d p valid s)
    (hf : Selected d cell a (basisOf toVec (run ops empty)) valid f)
    (valid' : List Bool) (s' : System C Vec3)
    (hm' : Made ops' subs' hops' a cell' (basisOf toVec (run ops' empty)) d p valid' s')
    (hf' : Selected d cell' a (basisOf toVec (run ops' empty)) valid' f)
    (hgs : ∀ name e x y S i j, IsPeriod p S →
      finalEnergy gs name e (x - shiftVec a S) (y - shiftVec a S) i j = finalEnergy gs name e x y i j)
    (hgos : ∀ name e x S i j, IsPeriod p S →
      finalOnsite gos name e (x - shiftVec a S) i j = finalOnsite gos name e x i j) (k : Vec3) (simple simple' : Bool) :
    ∃ m m', make cast s mods maxBuffer (bloch k) simple = .ok m ∧ make cast s' mods maxBuffer (bloch k) simple' = .ok m' ∧
      Sublat.hamiltonianSize s'.sublattices = Sublat.hamiltonianSize s.sublattices ∧
      ∃ σ : Nat → Nat,
        (∀ r, r < Sublat.hamiltonianSize s.sublattices → σ r < Sublat.hamiltonianSize s.sublattices) ∧
        (∀ r r', r < Sublat.hamiltonianSize s.sublattices → r' < Sublat.hamiltonianSize s.sublattices →
          σ r = σ r' → r = r') ∧
        (∀ r r', r < Sublat.hamiltonianSize s.sublattices → r' < Sublat.hamiltonianSize s.sublattices →
          coeff m' (σ r) (σ r') = coeff m r r') ∧
        ∀ i ci i' ci' j, valid[i]? = some true → crystalSite d cell i = some ci →
          valid'[i']? = some true → crystalSite d cell' i' = some ci' →
          nameOf (run ops' empty) ci'.2.uniqueId = nameOf (run ops empty) ci.2.uniqueId → ci'.1 = ci.1 →
          j < orbitals (run ops empty) ci.2.uniqueId →
          σ (firstRow (tableNorbs s.sublattices) ((valid.take i).count true) + j)
              = firstRow (tableNorbs s'.sublattices) ((valid'.take i').count true) + j := by
  have inv := Inv.reachable (K := C) (P := L) ops
  have inv' := Inv.reachable (K := C) (P := L) ops'
  obtain ⟨π, hlen, hname, hbasis, hcry⟩ := hsame.same inv inv' cast gs gos a toVec
  obtain ⟨sr, hr, cell0, -, -, hcell0, hP⟩ := parts_of_lattice ops subs hops hs hh ha
  obtain ⟨sr', hr', cell0', -, -, hcell0', hP'⟩ := parts_of_lattice ops' subs' hops' hs' hh' ha'
  rw [hcell, Res.ok.injEq] at hcell0
  rw [hcell', Res.ok.injEq] at hcell0'
  subst hcell0 hcell0'
  have hl : valid.length = size d cell.length := by
    rw [hm.len, Foundation.sites_eq, List.length_map, List.length_range, hP.cellLen, hs.length_eq]
  have hl' : valid'.length = size d cell'.length := by
    rw [hm'.len, Foundation.sites_eq, List.length_map, List.length_range, hP'.cellLen, hs'.length_eq]
  have hadd : ∀ R : Index3, R.add Index3.zero = R := fun R => by simp [Index3.add, Index3.zero]
  have hself : ∀ R : Index3, R.sub R = Index3.zero := fun R => by simp [Index3.sub, Index3.zero]
  obtain ⟨m, m', h1, h2, h3, σ, D, h4, h5, h6, h7, h8⟩ := C87_rewriting ops subs hops hs hh ha cell hcell a _ ops' subs'
    hops' hs' hh' ha' cell' hcell' a _ cast hc0 mods gs gos maxBuffer hbuf hbuf' hch hon d p valid s hm d p valid' s' hm'
    (Equiv.refl _) π (fun _ => Index3.zero) hcry (fun _ => rfl) (fun _ => Iff.rfl)
    (by
      intro R α
      show Copy d cell' p valid' (R.add Index3.zero) (π α) ↔ _
      rw [hadd, Copy_selected hP' hl' hf', Copy_selected hP hl hf]
      simp only [hbasis, ← hlen]) hgs hgos k simple simple'
  have h9 : ∀ i ci i' ci' j, valid[i]? = some true → crystalSite d cell i = some ci →
      valid'[i']? = some true → crystalSite d cell' i' = some ci' →
      ci'.2.uniqueId = π ci.2.uniqueId → ci'.1 = ci.1 → j < orbitals (run ops empty) ci.2.uniqueId →
      σ (firstRow (tableNorbs s.sublattices) ((valid.take i).count true) + j)
        = firstRow (tableNorbs s'.sublattices) ((valid'.take i').count true) + j ∧
      D (firstRow (tableNorbs s.sublattices) ((valid.take i).count true) + j) = 1 := by
    intro i ci i' ci' j hi hci hi' hci' hu hR hj
    have e : ci'.1.sub (((Equiv.refl Index3) ci.1).add Index3.zero) = Index3.zero := by
      rw [Equiv.refl_apply, hadd, hR, hself]
    have := h8 i ci i' ci' j hi hci hi' hci' hu (by rw [e]; exact IsPeriod.zero p) hj
    rw [e, shiftVec_zero, bloch_zero, star_one] at this
    exact this
  have hD : ∀ r, r < Sublat.hamiltonianSize s.sublattices → D r = 1 := by
    intro r hr
    obtain ⟨i, ci, j, hi, hci, hj, rfl⟩ := rows_of_system ops subs hops hs hh ha cell hcell a _ d p valid s hm r hr
    have hlt := (List.getElem?_eq_some_iff.1 hi).1
    have hb := (crystalSite_box hP d _ _).1 ⟨i, ci, hl ▸ hlt, hci, rfl, rfl⟩
    rw [hlen] at hb
    obtain ⟨i', ci', hi', hci', hR, hu⟩ := (crystalSite_box hP' d _ _).2 hb
    have hx := (hf i ci hci hlt).1 hi
    have hv' : valid'[i']? = some true := by
      refine (hf' i' ci' hci' (hl' ▸ hi')).2 ?_
      rw [hu, hbasis, hR]
      exact hx
    exact (h9 i ci i' ci' j hi hci hv' hci' hu hR hj).2
  refine ⟨m, m', h1, h2, h3, σ, h4, h5, ?_, ?_⟩
  · intro r r' hr hr'
    have := h7 r r' hr hr'
    rwa [hD r hr, hD r' hr', mul_one, one_mul] at this
  · intro i ci i' ci' j hi hci hi' hci' hn hR hj
    refine (h9 i ci i' ci' j hi hci hi' hci' ?_ hR hj).1
    have e1 := (crystalSite_box hP d _ _).1 ⟨i, ci, hl ▸ (List.getElem?_eq_some_iff.1 hi).1, hci, rfl, rfl⟩
    have e2 := (crystalSite_box hP' d _ _).1 ⟨i', ci', hl' ▸ (List.getElem?_eq_some_iff.1 hi').1, hci', rfl, rfl⟩
    exact nameOf_inj inv' e2.2 ((hlen _).1 e1.2) (by rw [hn, hname])

/-- **C87** (states).  Matrices which are equal up to the numbering of the rows and phases have the same
states: the same energies, and the same probabilities on corresponding rows. -/
theorem C87_states (N : Nat) (m m' : Csr ℂ) (σ : Nat → Nat) (D : Nat → ℂ) (h1 : ∀ r, r < N → σ r < N)
    (h2 : ∀ r r', r < N → r' < N → σ r = σ r' → r = r') (h3 : ∀ r, r < N → star (D r) * D r = 1)
    (h4 : ∀ r r', r < N → r' < N → coeff m' (σ r) (σ r') * D r' = D r * coeff m r r') (E : ℂ) :
    ∃ F : (Nat → ℂ) → Nat → ℂ,
      (∀ v, (∀ r, r < N → ∑ c ∈ Finset.range N, coeff m r c * v c = E * v r) ↔
        ∀ r, r < N → ∑ c ∈ Finset.range N, coeff m' r c * F v c = E * F v r) ∧
      (∀ v w x r, F (fun r => v r + x * w r) r = F v r + x * F w r) ∧
      (∀ v r, r < N → ‖F v (σ r)‖ = ‖v r‖) ∧ (∀ w : Nat → ℂ, ∃ v, ∀ r, r < N → F v r = w r) ∧
      (IsEigenvalue N m E ↔ IsEigenvalue N m' E) := by
  classical
  have hsur : ∀ r', r' < N → ∃ r, r < N ∧ σ r = r' := by
    intro r' hr'
    have hb : (Finset.range N).image σ = Finset.range N := by
      apply Finset.eq_of_subset_of_card_le
      · intro x hx
        obtain ⟨r, hr, rfl⟩ := Finset.mem_image.1 hx
        exact Finset.mem_range.2 (h1 r (Finset.mem_range.1 hr))
      · rw [Finset.card_image_of_injOn]
        intro r hr r' hr' he
        exact h2 r r' (by simpa using hr) (by simpa using hr') he
    have : r' ∈ (Finset.range N).image σ := by
      rw [hb]
      exact Finset.mem_range.2 hr'
    obtain ⟨r, hr, e⟩ := Finset.mem_image.1 this
    exact ⟨r, Finset.mem_range.1 hr, e⟩
  let τ : Nat → Nat := fun r' => if h : ∃ r, r < N ∧ σ r = r' then h.choose else 0
  have hτ : ∀ r, r < N → τ (σ r) = r := by
    intro r hr
    have h : ∃ r', r' < N ∧ σ r' = σ r := ⟨r, hr, rfl⟩
    show (if h : _ then _ else _) = _
    rw [dif_pos h]
    exact h2 _ _ h.choose_spec.1 hr h.choose_spec.2
  let F : (Nat → ℂ) → Nat → ℂ := fun v r' => D (τ r') * v (τ r')
  have hF : ∀ v r, r < N → F v (σ r) = D r * v r := by
    intro v r hr
    show D (τ (σ r)) * v (τ (σ r)) = _
    rw [hτ r hr]
  have hDne : ∀ r, r < N → D r ≠ 0 := by
    intro r hr h0
    have := h3 r hr
    rw [h0, mul_zero] at this
    exact zero_ne_one this
  have hsum : ∀ v r, r < N → ∑ c ∈ Finset.range N, coeff m' (σ r) c * F v c
      = D r * ∑ c ∈ Finset.range N, coeff m r c * v c := by
    intro v r hr
    rw [Finset.mul_sum]
    symm
    refine Finset.sum_bij (fun c _ => σ c) ?_ ?_ ?_ ?_
    · intro c hc
      exact Finset.mem_range.2 (h1 c (Finset.mem_range.1 hc))
    · intro c hc c' hc' he
      exact h2 c c' (Finset.mem_range.1 hc) (Finset.mem_range.1 hc') he
    · intro c' hc'
      obtain ⟨c, hc, e⟩ := hsur c' (Finset.mem_range.1 hc')
      exact ⟨c, Finset.mem_range.2 hc, e⟩
    · intro c hc
      rw [Finset.mem_range] at hc
      rw [hF v c hc, ← mul_assoc, ← mul_assoc, h4 r c hr hc]
  have hiff : ∀ v, (∀ r, r < N → ∑ c ∈ Finset.range N, coeff m r c * v c = E * v r) ↔
      ∀ r, r < N → ∑ c ∈ Finset.range N, coeff m' r c * F v c = E * F v r := by
    intro v
    constructor
    · intro h r' hr'
      obtain ⟨r, hr, rfl⟩ := hsur r' hr'
      rw [hsum v r hr, h r hr, hF v r hr]
      ring
    · intro h r hr
      have := h (σ r) (h1 r hr)
      rw [hsum v r hr, hF v r hr] at this
      apply mul_left_cancel₀ (hDne r hr)
      rw [this]
      ring
  have hback : ∀ w : Nat → ℂ, ∃ v, ∀ r, r < N → F v r = w r := by
    intro w
    let v : Nat → ℂ := fun r => star (D r) * w (σ r)
    refine ⟨v, ?_⟩
    intro r' hr'
    obtain ⟨r, hr, rfl⟩ := hsur r' hr'
    rw [hF v r hr]
    show D r * (star (D r) * w (σ r)) = _
    rw [← mul_assoc, mul_comm (D r), h3 r hr, one_mul]
  refine ⟨F, hiff, ?_, ?_, hback, ?_⟩
  · intro v w x r
    show D (τ r) * (v (τ r) + x * w (τ r)) = D (τ r) * v (τ r) + x * (D (τ r) * w (τ r))
    ring
  · intro v r hr
    rw [hF v r hr, norm_mul]
    have e := congrArg norm (h3 r hr)
    rw [norm_mul, norm_star, norm_one] at e
    have : ‖D r‖ = 1 := by nlinarith [norm_nonneg (D r)]
    rw [this, one_mul]
  · constructor
    · rintro ⟨v, ⟨r, hr, hv⟩, he⟩
      refine ⟨F v, ⟨σ r, h1 r hr, ?_⟩, (hiff v).1 he⟩
      rw [hF v r hr]
      exact mul_ne_zero (hDne r hr) hv
    · rintro ⟨w, ⟨r', hr', hw⟩, he⟩
      obtain ⟨v, hv⟩ := hback w
      obtain ⟨r, hr, rfl⟩ := hsur r' hr'
      refine ⟨v, ⟨r, hr, ?_⟩, (hiff v).2 ?_⟩
      · intro h0
        apply hw
        rw [← hv _ hr', hF v r hr, h0, mul_zero]
      · intro x hx
        rw [hv x hx, ← he x hx]
        exact Finset.sum_congr rfl fun c hc => by rw [hv c (Finset.mem_range.1 hc)]

end

/-! ## Example -/

/-- The chain of `chain`, written differently: the calls are in another order, `B` is the site of the next
cell, and the hoppings go in the opposite direction. -/
def chain' : List (Lattice.Lattice.Op Int Unit) :=
  [.addSublattice "B" () ⟨2, 2, fun i j => i.val + j.val⟩, .addSublattice "A" () (Mat.scalar 5),
   .registerHoppingEnergy "u" ⟨2, 1, fun i _ => 8 + i.val⟩, .addHopping ⟨-1, 0, 0⟩ "B" "A" "u",
   .addHopping ⟨0, 0, 0⟩ "B" "A" "u", .registerHoppingEnergy "t" (Mat.scalar 3), .addHopping ⟨-1, 0, 0⟩ "A" "A" "t"]

theorem chain'_aliases : AliasesOK (run chain' empty) where
  last := by
    have : ∀ p ∈ (run chain' empty).subs, p.2.aliasId = p.2.uniqueId := by decide
    intro i j p q hp _ hne
    exact absurd (this p (List.mem_of_getElem? hp)) hne
  root := by
    have : ∀ p ∈ (run chain' empty).subs, p.2.aliasId = p.2.uniqueId := by decide
    intro p _ q hq
    exact this q (List.mem_of_getElem? hq)

/-- A lattice with two sublattices and short hoppings as a system with one cell per period. -/
theorem one_cell_made (ops : List (Lattice.Lattice.Op Int Unit)) (ha : AliasesOK (run ops empty))
    (hlen : (run ops empty).subs.length = 2) (hrel : ∀ q ∈ allTerms (run ops empty).hops, |q.2.rel.x| ≤ 1)
    (x0 : Nat → Vec3) (cell : List CellSite)
    (_ : optimizedUnitCell (run ops empty).subs (run ops empty).hops = .ok cell) :
    ∃ s, Made ops (run ops empty).subs (run ops empty).hops (![![1, 0, 0]] : Fin 1 → Vec3) cell x0
      ⟨1, 1, 1⟩ ⟨some 1, none, none⟩ [true, true] s := by
  obtain ⟨sr, hr, cell', -, hP, h3⟩ := makeSystem_eq (P := Vec3) ops (run ops empty).subs (run ops empty).hops
    (.refl _) (.refl _) ha
  have hcl : cell'.length = 2 := by rw [hP.cellLen, hlen]
  have hf1 : Symmetry.Fits ⟨1, 1, 1⟩ ⟨some 1, none, none⟩ := by
    refine ⟨?_, ?_, ?_⟩ <;> intro n hn <;> simp at hn
    subst hn
    decide
  obtain ⟨bs, -, b2, -⟩ := h3 ⟨1, 1, 1⟩ ⟨some 1, none, none⟩ [true, true]
    (by rw [hcl]; rfl) (fun _ => hf1)
    (fun k => x0 (uidAt ⟨1, 1, 1⟩ cell k) + shiftVec (![![1, 0, 0]] : Fin 1 → Vec3) (locOf ⟨1, 1, 1⟩ k).idx) 0
    (shiftVec ![![1, 0, 0]])
  rw [if_neg (by decide)] at b2
  refine ⟨_, by rw [hlen]; rfl, fun _ => hf1, ?_, ?_, _, _, b2, ?_⟩
  · intro _ q hq
    refine ⟨fun _ => ?_, fun h => by simp at h, fun h => by simp at h⟩
    exact Or.inl (hrel q hq)
  · intro _ k x hx _
    rw [hlen] at hx
    have : ∀ x ∈ sites ⟨1, 1, 1⟩ 2, (Symmetry.area ⟨1, 1, 1⟩ ⟨some 1, none, none⟩).contains x.loc.idx = true := by
      decide
    exact this x (List.mem_of_getElem? hx)
  · intro k ck _ hck
    rw [← crystalSite_uid hck, ← crystalSite_fst hck]

/-- The two ways to write the chain describe the same crystal. -/
theorem chain_same : SameCrystal (run chain empty) (run chain' empty) (fun c : Int => (c : ℂ)) ([] : List (ElemFn ℂ Vec3)) []
    (fun R α => (![(α : ℝ) / 2, 0, 0] : Vec3) + shiftVec (![![1, 0, 0]] : Fin 1 → Vec3) R)
    (fun R α => (if α = 0 then ![-1 / 2, 0, 0] else if α = 1 then 0 else ![(α : ℝ) / 2, 0, 0])
      + shiftVec (![![1, 0, 0]] : Fin 1 → Vec3) R)
    (Equiv.refl _) (Equiv.swap 0 1) (fun α => if α = 1 then ⟨1, 0, 0⟩ else Index3.zero) where
  linear _ _ := rfl
  orbitals α := by
    rcases α with _ | _ | α
    · rw [Equiv.swap_apply_left]; rfl
    · rw [Equiv.swap_apply_right]; rfl
    · rw [Equiv.swap_apply_of_ne_of_ne (by omega) (by omega)]; rfl
  onsite α i j := by
    rcases α with _ | _ | α
    · rw [Equiv.swap_apply_left]; rfl
    · rw [Equiv.swap_apply_right]; rfl
    · rw [Equiv.swap_apply_of_ne_of_ne (by omega) (by omega)]; rfl
  onsiteMods _ _ _ _ _ := rfl
  positions R α := by
    show _ + shiftVec _ (R.add _) = _
    rw [shiftVec_add]
    have h1 : shiftVec (![![1, 0, 0]] : Fin 1 → Vec3) ⟨1, 0, 0⟩ = ![1, 0, 0] := by
      simp [shiftVec, Index3.comp]
    rcases α with _ | _ | α
    · rw [Equiv.swap_apply_left]
      funext i
      fin_cases i <;> simp [shiftVec_zero]
    · rw [Equiv.swap_apply_right]
      simp only [if_pos, h1, zero_add, Nat.cast_one]
      rw [add_comm (shiftVec _ R), ← add_assoc]
      congr 1
      funext i
      fin_cases i <;> norm_num
    · rw [Equiv.swap_apply_of_ne_of_ne (by omega) (by omega), if_neg (by omega), if_neg (by omega), if_neg (by omega),
        shiftVec_zero, add_zero]
  bonds := by
    have e1 : bondsOf (run chain empty) = [(("t", ⟨Mat.scalar 3, 0, [⟨⟨1, 0, 0⟩, 0, 0⟩]⟩), ⟨⟨1, 0, 0⟩, 0, 0⟩),
      (("u", ⟨⟨1, 2, fun _ j => 8 + j.val⟩, 1, [⟨⟨0, 0, 0⟩, 0, 1⟩, ⟨⟨-1, 0, 0⟩, 0, 1⟩]⟩), ⟨⟨0, 0, 0⟩, 0, 1⟩),
      (("u", ⟨⟨1, 2, fun _ j => 8 + j.val⟩, 1, [⟨⟨0, 0, 0⟩, 0, 1⟩, ⟨⟨-1, 0, 0⟩, 0, 1⟩]⟩), ⟨⟨-1, 0, 0⟩, 0, 1⟩)] := by rfl
    have e2 : bondsOf (run chain' empty) = [
      (("u", ⟨⟨2, 1, fun i _ => 8 + i.val⟩, 0, [⟨⟨-1, 0, 0⟩, 0, 1⟩, ⟨⟨0, 0, 0⟩, 0, 1⟩]⟩), ⟨⟨-1, 0, 0⟩, 0, 1⟩),
      (("u", ⟨⟨2, 1, fun i _ => 8 + i.val⟩, 0, [⟨⟨-1, 0, 0⟩, 0, 1⟩, ⟨⟨0, 0, 0⟩, 0, 1⟩]⟩), ⟨⟨0, 0, 0⟩, 0, 1⟩),
      (("t", ⟨Mat.scalar 3, 1, [⟨⟨-1, 0, 0⟩, 1, 1⟩]⟩), ⟨⟨-1, 0, 0⟩, 1, 1⟩)] := by rfl
    have hu : ∀ i j, entry (⟨2, 1, fun i _ => 8 + (i.val : Int)⟩ : Mat Int) i j
        = entry (⟨1, 2, fun _ j => 8 + (j.val : Int)⟩ : Mat Int) j i := by
      intro i j
      unfold entry
      by_cases h : i < 2 ∧ j < 1
      · rw [dif_pos h, dif_pos ⟨h.2, h.1⟩]
      · rw [dif_neg h, dif_neg (fun h' => h ⟨h'.2, h'.1⟩)]
    have ht : ∀ i j, entry (Mat.scalar (3 : Int)) i j = entry (Mat.scalar (3 : Int)) j i := by
      intro i j
      unfold entry Mat.scalar
      by_cases h : i < 1 ∧ j < 1
      · rw [dif_pos h, dif_pos ⟨h.2, h.1⟩]
      · rw [dif_neg h, dif_neg (fun h' => h ⟨h'.2, h'.1⟩)]
    have hint : ∀ z : Int, star (z : ℂ) = (z : ℂ) := fun z => by simp
    rw [e1, e2]
    refine ⟨_, .cons (.backward ?_ ?_ ?_ ?_ ?_) (.cons (.backward ?_ ?_ ?_ ?_ ?_) (.cons (.backward ?_ ?_ ?_ ?_ ?_) .nil)),
      (List.perm_append_comm (l₁ := [_]) (l₂ := [_, _]))⟩
    all_goals first
      | rfl
      | (intro i j; rw [hint]; exact congrArg _ (ht i j))
      | (intro i j; rw [hint]; exact congrArg _ (hu i j))
      | (intros; rfl)

/-- The hypotheses of C87 hold for the two ways to write the chain: the matrices have the same eigenvalues. -/
example : ∃ s s' : System Int Vec3, ∀ k, ∃ m m',
    make (fun c : Int => (c : ℂ)) s ⟨[], []⟩ 2 (bloch k) true = .ok m ∧
    make (fun c : Int => (c : ℂ)) s' ⟨[], []⟩ 2 (bloch k) false = .ok m' ∧
      ∀ E, IsEigenvalue (Sublat.hamiltonianSize s.sublattices) m E ↔
        IsEigenvalue (Sublat.hamiltonianSize s.sublattices) m' E := by
  obtain ⟨sr, hr, cell, hcell, hP, -⟩ := makeSystem_eq (P := Vec3) chain (run chain empty).subs
    (run chain empty).hops (.refl _) (.refl _) chain_aliases
  obtain ⟨sr', hr', cell', hcell', hP', -⟩ := makeSystem_eq (P := Vec3) chain' (run chain' empty).subs
    (run chain' empty).hops (.refl _) (.refl _) chain'_aliases
  obtain ⟨s, hs⟩ := one_cell_made chain chain_aliases rfl (by decide) (fun α => ![(α : ℝ) / 2, 0, 0]) cell hcell
  obtain ⟨s', hs'⟩ := one_cell_made chain' chain'_aliases rfl (by decide)
    (fun α => if α = 0 then ![-1 / 2, 0, 0] else if α = 1 then 0 else ![(α : ℝ) / 2, 0, 0]) cell' hcell'
  let c : Nat → Index3 := fun α => if α = 1 then ⟨1, 0, 0⟩ else Index3.zero
  have hcopy : ∀ R α, Copy ⟨1, 1, 1⟩ cell' ⟨some 1, none, none⟩ [true, true] (R.add (c α)) (Equiv.swap 0 1 α) ↔
      Copy ⟨1, 1, 1⟩ cell ⟨some 1, none, none⟩ [true, true] R α := by
    intro R α
    have hv : ∀ k : Nat, k < 2 → ([true, true][k]? = some true ↔ True) := by decide
    rw [Copy_selected hP' (by rw [hP'.cellLen]; rfl) (a := (![![1, 0, 0]] : Fin 1 → Vec3)) (x0 := fun _ => 0) (f := fun _ => True)
        (fun k _ _ hk => hv k hk),
      Copy_selected hP (by rw [hP.cellLen]; rfl) (a := (![![1, 0, 0]] : Fin 1 → Vec3)) (x0 := fun _ => 0) (f := fun _ => True)
        (fun k _ _ hk => hv k hk)]
    have h2 : (run chain empty).subs.length = 2 := rfl
    have h2' : (run chain' empty).subs.length = 2 := rfl
    have hα : Equiv.swap 0 1 α < 2 ↔ α < 2 := by
      rcases α with _ | _ | α
      · simp
      · simp
      · rw [Equiv.swap_apply_of_ne_of_ne (by omega) (by omega)]
    rw [h2, h2']
    have hc : (c α).y = 0 ∧ (c α).z = 0 := by
      show (if α = 1 then (⟨1, 0, 0⟩ : Index3) else Index3.zero).y = 0 ∧
        (if α = 1 then (⟨1, 0, 0⟩ : Index3) else Index3.zero).z = 0
      split <;> exact ⟨rfl, rfl⟩
    simp only [hα, true_and]
    refine exists_congr fun R' => and_congr_right fun _ => ?_
    unfold IsPeriod
    simp only [Index3.sub, Index3.add, hc.1, hc.2, add_zero, Option.getD_some, Nat.cast_one, one_dvd]
  refine ⟨s, s', fun k => ?_⟩
  obtain ⟨m, m', h1, h2, h3, σ, D, h4, h5, h6, h7, -⟩ := C87_rewriting chain _ _ (.refl _) (.refl _) chain_aliases cell
    hcell (![![1, 0, 0]] : Fin 1 → Vec3) _ chain' _ _ (.refl _) (.refl _) chain'_aliases cell' hcell'
    (![![1, 0, 0]] : Fin 1 → Vec3) _ (fun c : Int => (c : ℂ)) (by simp) ⟨[], []⟩ [] [] 2 (by decide) (by decide)
    (fun _ _ => .nil) (fun _ => .nil) _ _ _ s hs _ _ _ s' hs' (Equiv.refl _) (Equiv.swap 0 1) c
    chain_same
    (fun _ => rfl) (fun _ => Iff.rfl) hcopy (fun _ _ _ _ _ _ _ _ => rfl) (fun _ _ _ _ _ _ _ => rfl) k true false
  exact ⟨m, m', h1, h2, fun E => (C87_states _ m m' σ D h4 h5 h6 h7 E).choose_spec.2.2.2.2⟩

/-- The chain of `chain` with the calls in another order. -/
def chainOrder : List (Lattice.Lattice.Op Int Unit) :=
  [.registerHoppingEnergy "u" ⟨1, 2, fun _ j => 8 + j.val⟩, .addSublattice "B" () ⟨2, 2, fun i j => i.val + j.val⟩,
   .addSublattice "A" () (Mat.scalar 5), .addHopping ⟨-1, 0, 0⟩ "A" "B" "u", .addHopping ⟨0, 0, 0⟩ "A" "B" "u",
   .registerHoppingEnergy "t" (Mat.scalar 3), .addHopping ⟨1, 0, 0⟩ "A" "A" "t"]

theorem chainOrder_aliases : AliasesOK (run chainOrder empty) where
  last := by
    have : ∀ p ∈ (run chainOrder empty).subs, p.2.aliasId = p.2.uniqueId := by decide
    intro i j p q hp _ hne
    exact absurd (this p (List.mem_of_getElem? hp)) hne
  root := by
    have : ∀ p ∈ (run chainOrder empty).subs, p.2.aliasId = p.2.uniqueId := by decide
    intro p _ q hq
    exact this q (List.mem_of_getElem? hq)

/-- The hypotheses of the theorem about the order hold for the chain. -/
example : SameContent (run chain empty) (run chainOrder empty) ∧
    ∃ (s s' : System Int Vec3) (cell cell' : List CellSite),
      Made chain (run chain empty).subs (run chain empty).hops (![![1, 0, 0]] : Fin 1 → Vec3) cell
        (basisOf (fun _ => 0) (run chain empty)) ⟨1, 1, 1⟩ ⟨some 1, none, none⟩ [true, true] s ∧
      Selected ⟨1, 1, 1⟩ cell (![![1, 0, 0]] : Fin 1 → Vec3) (basisOf (fun _ => 0) (run chain empty)) [true, true] (fun _ => True) ∧
      Made chainOrder (run chainOrder empty).subs (run chainOrder empty).hops (![![1, 0, 0]] : Fin 1 → Vec3) cell'
        (basisOf (fun _ => 0) (run chainOrder empty)) ⟨1, 1, 1⟩ ⟨some 1, none, none⟩ [true, true] s' ∧
      Selected ⟨1, 1, 1⟩ cell' (![![1, 0, 0]] : Fin 1 → Vec3) (basisOf (fun _ => 0) (run chainOrder empty)) [true, true]
        (fun _ => True) := by
  refine ⟨⟨by decide, by decide⟩, ?_⟩
  obtain ⟨sr, hr, cell, hcell, hP, -⟩ := makeSystem_eq (P := Vec3) chain (run chain empty).subs
    (run chain empty).hops (.refl _) (.refl _) chain_aliases
  obtain ⟨sr', hr', cell', hcell', hP', -⟩ := makeSystem_eq (P := Vec3) chainOrder (run chainOrder empty).subs
    (run chainOrder empty).hops (.refl _) (.refl _) chainOrder_aliases
  obtain ⟨s, hs⟩ := one_cell_made chain chain_aliases rfl (by decide) (basisOf (fun _ => 0) (run chain empty)) cell hcell
  obtain ⟨s', hs'⟩ := one_cell_made chainOrder chainOrder_aliases rfl (by decide)
    (basisOf (fun _ => 0) (run chainOrder empty)) cell' hcell'
  have hv : ∀ k : Nat, k < 2 → ([true, true][k]? = some true ↔ True) := by decide
  exact ⟨s, s', cell, cell', hs, fun k _ _ hk => hv k hk, hs', fun k _ _ hk => hv k hk⟩

end Verif.Pipeline
