import Verif.Symmetry.Props

/-!
# Property C20 for lattices
-/

namespace Verif.Symmetry

open Verif.Lattice (CellSite CellHopping HoppingFamily HoppingTerm Sublattice optimizedUnitCell)
open Verif.Lattice.Lattice (run empty allTerms)
open Verif.Foundation

/-- Only sites inside the periodic area are valid. -/
def InArea (d : Dims) (p : Periods) (nsub : Nat) (valid : List Bool) : Prop :=
  ∀ (k : Nat) s, (sites d nsub)[k]? = some s → valid[k]? = some true →
    (area d p).contains s.loc.idx = true

theorem sites_getElem? {d : Dims} {nsub k : Nat} (h : k < size d nsub) :
    (sites d nsub)[k]? = some (siteAt d k) := by
  rw [sites_eq, List.getElem?_map, List.getElem?_range h]
  rfl

/-- **C20**: applying the symmetry to a foundation leaves exactly the valid sites inside the periodic
area, and in every enabled direction the area is as long as the period and inside the foundation. -/
theorem C20_apply (d : Dims) (nsub : Nat) (p : Periods) (valid : List Bool)
    (hl : valid.length = (sites d nsub).length) :
    (apply d nsub p valid).length = valid.length ∧ InArea d p nsub (apply d nsub p valid) ∧
    (∀ (k : Nat) s v, (sites d nsub)[k]? = some s → valid[k]? = some v →
      (apply d nsub p valid)[k]? = some (v && (area d p).contains s.loc.idx)) ∧
    (∀ n, p.x = some n → 0 < n → n ≤ d.sx → 0 ≤ (area d p).left.x ∧ (area d p).right.x < d.sx ∧
      (area d p).right.x - (area d p).left.x + 1 = n) ∧
    (∀ n, p.y = some n → 0 < n → n ≤ d.sy → 0 ≤ (area d p).left.y ∧ (area d p).right.y < d.sy ∧
      (area d p).right.y - (area d p).left.y + 1 = n) ∧
    (∀ n, p.z = some n → 0 < n → n ≤ d.sz → 0 ≤ (area d p).left.z ∧ (area d p).right.z < d.sz ∧
      (area d p).right.z - (area d p).left.z + 1 = n) := by
  have hget : ∀ (k : Nat) s v, (sites d nsub)[k]? = some s → valid[k]? = some v →
      (apply d nsub p valid)[k]? = some (v && (area d p).contains s.loc.idx) := by
    intro k s v hs hv
    unfold apply
    rw [List.getElem?_map, List.getElem?_zip_eq_some (z := (s, v)) |>.2 ⟨hs, hv⟩]
    rfl
  refine ⟨by simp [apply, hl], ?_, hget, ?_, ?_, ?_⟩
  · intro k s hs hv
    have hk : k < valid.length := by
      rw [hl]; exact (List.getElem?_eq_some_iff.1 hs).1
    have := hget k s _ hs (List.getElem?_eq_getElem hk)
    rw [hv] at this
    simp only [Option.some.injEq] at this
    have h2 := this.symm
    rw [Bool.and_eq_true] at h2
    exact h2.2
  all_goals
    intro n hp h0 h1
    have := axisArea_some ⟨h0, h1⟩
    simp only [area, hp]
    omega

/-- **C20**: for every lattice built through the API, every foundation, every periods that fit into
it, and every validity mask within the periodic area: if the hopping terms reach at most one cell (or the period is one cell)
along the enabled directions, system and boundaries can be populated, and the number of stored pairs
`(k, k')` with shift `D` periods in family `fam` is exactly the number of terms of the family which
join, in the repeated structure, the copy of site `k` that lies `D` periods away to site `k'`.  `D`
is arbitrary (the main block is `D = 0`), so every bond of the repeated structure is stored exactly
once up to translation by periods.  Shifts are distinct, non-zero and multiples of the periods. -/
theorem C20_closure {K P Pos : Type} [DecidableEq K] [Zero K] [InvolutiveStar K]
    (ops : List (Lattice.Lattice.Op K P))
    (subs : List (String × Sublattice K P)) (hops : List (String × HoppingFamily K))
    (hs : subs.Perm (run ops empty).subs) (hh : hops.Perm (run ops empty).hops)
    (nameMap : List (String × Nat)) (hname : (run ops empty).hops.length ≤ nameMap.length)
    (d : Dims) (p : Periods) (hf : Fits d p)
    (hshort : ∀ q ∈ allTerms (run ops empty).hops, Short p q.2.rel) :
    ∃ cell, optimizedUnitCell subs hops = .ok cell ∧
      ∀ (valid : List Bool), valid.length = (sites d cell.length).length →
      InArea d p cell.length valid → ∀ (pos : Nat → Pos) (junk : Pos), ∃ s bs,
        populateSystem d cell (run ops empty).hops.length nameMap valid pos junk = .ok s ∧
        populateBoundaries d cell (run ops empty).hops.length p nameMap valid = .ok bs ∧
        (bs.map (·.shift)).Nodup ∧
        (∀ b ∈ bs, b.shift ≠ Index3.zero ∧ b.hoppings.numSites = valid.count true ∧
          (∃ D, Supported p D ∧ b.shift = cmul D (periodIndex p)) ∧
          ∀ block ∈ b.hoppings.blocks, ∀ c ∈ block, ∃ k k' : Nat, valid[k]? = some true ∧
            valid[k']? = some true ∧
            c = ⟨(valid.take k).count true, (valid.take k').count true⟩) ∧
        ∀ D, Supported p D → ∀ fam, fam < nameMap.length → ∀ k k' ck ck', valid[k]? = some true →
          valid[k']? = some true → crystalSite d cell k = some ck → crystalSite d cell k' = some ck' →
          (stored s.hoppings bs (cmul D (periodIndex p)) fam).count
              ⟨(valid.take k).count true, (valid.take k').count true⟩
            = (allTerms (run ops empty).hops).countP (fun q => q.2.src = ck.2.uniqueId ∧
                q.2.rel = ck'.1.sub (copy p ck.1 D) ∧ q.2.dst = ck'.2.uniqueId ∧
                q.1.familyId = fam) := by
  obtain ⟨cell, h1, hok, h3, -, h5⟩ := cell_of_lattice ops subs hops hs hh
  refine ⟨cell, h1, ?_⟩
  intro valid hl hin pos junk
  have hl' : valid.length = size d cell.length := by rw [hl, sites_eq]; simp
  have hneg : ∀ r : Index3, Short p r → Short p r.neg := by
    rintro ⟨x, y, z⟩ ⟨a, b, c⟩
    refine ⟨?_, ?_, ?_⟩ <;> intro h <;> simp only [Index3.neg, abs_neg]
    · exact a h
    · exact b h
    · exact c h
  have hsc : ∀ i, ∀ h ∈ hoppingsAt cell i, Short p h.rel := by
    intro i h hm
    have hi : i < cell.length := by
      by_contra hc
      unfold hoppingsAt at hm
      rw [List.getElem?_eq_none (by omega)] at hm
      simp at hm
    have hj := (hok.target i h hm).1
    -- a hopping of the unit cell comes from a term, directly or reversed
    have hterm : ∀ i j r f, i < cell.length → j < cell.length →
        (⟨r, j, f, false⟩ : CellHopping) ∈ hoppingsAt cell i → Short p r := by
      intro i j r f hi hj hm
      have := h5 i j _ _ (List.getElem?_eq_getElem hi) (List.getElem?_eq_getElem hj) r f
      have hp : 0 < (hoppingsAt cell i).count ⟨r, j, f, false⟩ := List.count_pos_iff.2 hm
      rw [this] at hp
      obtain ⟨q, hq, hx⟩ := List.countP_pos_iff.1 hp
      rw [decide_eq_true_eq] at hx
      rw [← hx.2.1]
      exact hshort q hq
    rcases h with ⟨r, j, f, c⟩
    cases c with
    | false => exact hterm i j r f hi hj hm
    | true =>
      have hsym := hok.sym i j hi hj r f true
      have hp : 0 < (hoppingsAt cell j).count ⟨r.neg, i, f, !true⟩ := by
        rw [← hsym]; exact List.count_pos_iff.2 hm
      have := hneg _ (hterm j i r.neg f hj hi (List.count_pos_iff.1 hp))
      rwa [Index3.neg_neg] at this
  have hin' : ∀ k : Nat, valid[k]? = some true → (area d p).contains (locOf d k).idx = true := by
    intro k hk
    exact hin k (siteAt d k) (sites_getElem? (hl' ▸ (List.getElem?_eq_some_iff.1 hk).1)) hk
  obtain ⟨s, bs, e1, e2, e3, e4, e5⟩ := closure_cell hok hl' hf hsc hin' nameMap hname pos junk
  refine ⟨s, bs, e1, e2, e3, ?_, ?_⟩
  · intro b hb
    obtain ⟨f1, f2, -, -, f5, f6⟩ := e4 b hb
    exact ⟨f1, f2, f5, f6⟩
  · intro D hD fam hfam k k' ck ck' hk hk' hck hck'
    have := e5 D hD fam hfam k k' hk hk'
    simp only [rank] at this
    rw [this]
    unfold crystalSite cellAt at hck hck'
    rw [Option.map_eq_some_iff] at hck hck'
    obtain ⟨a, ha, rfl⟩ := hck
    obtain ⟨b, hb, rfl⟩ := hck'
    exact h5 _ _ a b ha hb _ _

/-- **C20**: the copies of the periodic area tile the enabled directions: every cell of the repeated
structure is the copy of exactly one cell of the area, by exactly one number of periods. -/
theorem C20_tiling (d : Dims) (p : Periods) (hf : Fits d p) (c : Index3)
    (hc : (p.x = none → 0 ≤ c.x ∧ c.x < d.sx) ∧ (p.y = none → 0 ≤ c.y ∧ c.y < d.sy) ∧
      (p.z = none → 0 ≤ c.z ∧ c.z < d.sz)) :
    ∃ b D, Supported p D ∧ (area d p).contains b = true ∧ c = copy p b D ∧
      ∀ b' D', Supported p D' → (area d p).contains b' = true → c = copy p b' D' →
        b' = b ∧ D' = D := by
  have axis : ∀ (size : Nat) (o : Option Nat) (v : Int), (∀ n, o = some n → 0 < n ∧ n ≤ size) →
      (o = none → 0 ≤ v ∧ v < size) →
      ∃ b D : Int, (o = none → D = 0) ∧ (axisArea size o).1 ≤ b ∧ b ≤ (axisArea size o).2.1 ∧
        v = b + D * (o.getD 0 : Nat) ∧
        ∀ b' D' : Int, (o = none → D' = 0) → (axisArea size o).1 ≤ b' → b' ≤ (axisArea size o).2.1 →
          v = b' + D' * (o.getD 0 : Nat) → b' = b ∧ D' = D := by
    intro size o v ho hv
    cases o with
    | none =>
      refine ⟨v, 0, fun _ => rfl, (hv rfl).1, ?_, by simp, ?_⟩
      · have := (hv rfl).2
        simp only [axisArea]; omega
      · intro b' D' h1 _ _ h4
        have := h1 rfl
        subst this
        simp at h4
        exact ⟨h4.symm, rfl⟩
    | some n =>
      obtain ⟨a1, a2, a3, a4⟩ := axisArea_some (ho n rfl)
      have hn := (ho n rfl).1
      have hn' : (0 : Int) < n := by exact_mod_cast hn
      generalize (axisArea size (some n)).1 = L at *
      generalize (axisArea size (some n)).2.1 = R at *
      simp only [Option.getD_some]
      have e := Int.emod_add_mul_ediv (v - L) n
      have m1 := Int.emod_nonneg (v - L) (by omega : (n : Int) ≠ 0)
      have m2 := Int.emod_lt_of_pos (v - L) hn'
      refine ⟨L + (v - L) % n, (v - L) / n, by simp, by omega, by omega, ?_, ?_⟩
      · have : (n : Int) * ((v - L) / n) = (v - L) / n * n := Int.mul_comm _ _
        omega
      · intro b' D' _ h2 h3 h4
        have hq : (v - L) / n = D' := by
          have : v - L = (b' - L) + D' * n := by omega
          rw [this, Int.add_mul_ediv_right _ _ (by omega : (n : Int) ≠ 0),
            Int.ediv_eq_zero_of_lt (by omega) (by omega), Int.zero_add]
        subst hq
        refine ⟨?_, rfl⟩
        have : (n : Int) * ((v - L) / n) = (v - L) / n * n := Int.mul_comm _ _
        omega
  obtain ⟨bx, Dx, x1, x2, x3, x4, x5⟩ := axis d.sx p.x c.x hf.1 hc.1
  obtain ⟨b_y, Dy, y1, y2, y3, y4, y5⟩ := axis d.sy p.y c.y hf.2.1 hc.2.1
  obtain ⟨bz, Dz, z1, z2, z3, z4, z5⟩ := axis d.sz p.z c.z hf.2.2 hc.2.2
  refine ⟨⟨bx, b_y, bz⟩, ⟨Dx, Dy, Dz⟩, ⟨x1, y1, z1⟩, ?_, ?_, ?_⟩
  · refine decide_eq_true ?_
    exact ⟨x2, y2, z2, x3, y3, z3⟩
  · obtain ⟨cx, cy, cz⟩ := c
    simp only [copy, cmul, periodIndex, Index3.add, Index3.mk.injEq]
    exact ⟨x4, y4, z4⟩
  · rintro ⟨bx', b_y', bz'⟩ ⟨Dx', Dy', Dz'⟩ ⟨s1, s2, s3⟩ hcon he
    replace hcon := of_decide_eq_true hcon
    obtain ⟨cx, cy, cz⟩ := c
    simp only [copy, cmul, periodIndex, Index3.add, Index3.mk.injEq] at he
    obtain ⟨r1, r2⟩ := x5 bx' Dx' s1 hcon.1 hcon.2.2.2.1 he.1
    obtain ⟨r3, r4⟩ := y5 b_y' Dy' s2 hcon.2.1 hcon.2.2.2.2.1 he.2.1
    obtain ⟨r5, r6⟩ := z5 bz' Dz' s3 hcon.2.2.1 hcon.2.2.2.2.2 he.2.2
    subst r1 r2 r3 r4 r5 r6
    exact ⟨rfl, rfl⟩

/-- The hypotheses of `C20_closure` hold for graphene on 3 × 4 cells with periods of one and two
cells. -/
example : Fits ⟨3, 4, 1⟩ ⟨some 1, some 2, none⟩ ∧
    ∀ q ∈ allTerms (run Lattice.graphene empty).hops, Short ⟨some 1, some 2, none⟩ q.2.rel := by
  constructor
  · refine ⟨?_, ?_, ?_⟩ <;> intro n h <;> simp at h <;> subst h <;> decide
  · have key : (allTerms (run Lattice.graphene empty).hops).all (fun q =>
        decide (|q.2.rel.x| ≤ 1 ∧ |q.2.rel.y| ≤ 1)) = true := by decide
    intro q hq
    have := List.all_eq_true.1 key q hq
    rw [decide_eq_true_eq] at this
    exact ⟨fun _ => Or.inl this.1, fun _ => Or.inl this.2, fun h => by simp at h⟩

/-- A chain with hoppings to the second nearest cell. -/
def farChain : List CellSite :=
  [⟨1, 0, 0, [⟨⟨2, 0, 0⟩, 0, 0, false⟩, ⟨⟨-2, 0, 0⟩, 0, 0, true⟩]⟩]

/-- **C20** needs the bound on the distance: on a chain with second nearest cell hoppings and a
period of two cells all hoppings cross the boundary, yet nothing is stored. -/
theorem C20_far_witness :
    (match populateBoundaries ⟨2, 1, 1⟩ farChain 1 ⟨some 2, none, none⟩ [("t", 0)] [true, true] with
     | .ok bs => bs.length
     | _ => 1) = 0 ∧
    (hoppingsAt farChain 0).count
      ⟨(⟨0, 0, 0⟩ : Index3).sub (copy ⟨some 2, none, none⟩ ⟨0, 0, 0⟩ ⟨-1, 0, 0⟩), 0, 0, false⟩ = 1 := by
  decide

/-- A chain with nearest cell hoppings. -/
def nearChain : List CellSite :=
  [⟨1, 0, 0, [⟨⟨1, 0, 0⟩, 0, 0, false⟩, ⟨⟨-1, 0, 0⟩, 0, 0, true⟩]⟩]

/-- **C20** needs the period to fit: with two cells and a period of four, the left border is cell
-1 and the array of final indices is read outside its bounds. -/
theorem C20_period_too_long_ub :
    (match populateBoundaries ⟨2, 1, 1⟩ nearChain 1 ⟨some 4, none, none⟩ [("t", 0)] [true, true] with
     | .ub => true
     | _ => false) = true := by
  decide

end Verif.Symmetry
