import Verif.Hamiltonian.RoundedTerms

/-!
# The values that are added up in each element of the Hamiltonian, in any arithmetic
-/

namespace Verif.Hamiltonian

open Verif.Sublat (Table It iters itersFrom tableNorbs)
open Verif.Sublat.Spec (firstRow)
open Verif.Hopping (COO HoppingBlocks Csr csrInsert overwrite)
open Verif.Lattice (Registry)

variable {C K L P : Type}

section
variable [Zero C] [DecidableEq C] [Zero K] [Add K] [Mul K] [Star K] [DecidableEq K] [Sub P]
  (cast : C → K) (s : System C P) (mods : Modifiers K P) (gs : List (ElemFn K P)) (gos : List (OnsiteFn K P)) (maxBuffer : Nat)
  (phase : P → K) (S : Nat → Mat C) (SN : Nat → String) (E : Nat → Mat C) (N : Nat → String) (posAt : Nat → P)

omit [DecidableEq C] in
/-- Hopping calls of one block system: where they go and what they sum to. -/
theorem hoppings_vals (hpos : ∀ k, k < (tableNorbs s.sublattices).length → s.positions[k]? = some (posAt k)) (hbuf : ∀ fam, (E fam).size ≤ maxBuffer)
    (hch : ∀ fam, Chain (E fam).rows (E fam).cols mods.hopping gs) (shift : Option P) (h : HoppingBlocks) (hok : HopOK s h E N) :
    ∃ hop, applyToHoppings cast s mods maxBuffer shift h = .ok hop ∧
      (∀ c ∈ hop, 0 ≤ c.1 ∧ c.1 < (Sublat.hamiltonianSize s.sublattices : Nat) ∧ 0 ≤ c.2.1 ∧ c.2.1 < (Sublat.hamiltonianSize s.sublattices : Nat)) ∧
      ∀ a b i j, i < (tableNorbs s.sublattices).getD a 0 → j < (tableNorbs s.sublattices).getD b 0 →
        (vals hop ((firstRow (tableNorbs s.sublattices) a + i : Nat) : Int) ((firstRow (tableNorbs s.sublattices) b + j : Nat) : Int)).length ≤ bonds h.blocks a b ∧
        ∀ (M : Type) [AddCommMonoid M] (φ : K → M), φ 0 = 0 →
          callSum (mapCalls φ hop) ((firstRow (tableNorbs s.sublattices) a + i : Nat) : Int) ((firstRow (tableNorbs s.sublattices) b + j : Nat) : Int)
            = bondSum (fun fam => φ (finalEnergy gs (N fam) (fun i j => cast (entry (E fam) i j)) (posAt a) (shiftBy shift (posAt b)) i j)) h.blocks a b := by
  obtain ⟨hop, h1, h2, -⟩ := C23_hoppings cast s mods gs maxBuffer shift h E N hok posAt hpos (fun fam _ _ => hbuf fam) (fun fam _ _ => hch fam)
  have hpl := applyToHoppings_places cast s mods maxBuffer shift h E N hok hop h1
  have hr := mem_positions hpl
  rw [← Sublat.hamiltonianSize_eq] at hr
  refine ⟨hop, h1, hr, fun a b i j hi hj => ⟨?_, ?_⟩⟩
  · rw [length_vals_count, bonds_eq, ← count_boxes (tableNorbs s.sublattices) h.blocks.flatten a b i j hi hj]
    exact hpl.count_le _
  · intro M _ φ h0
    rw [← callSum_map_nonzero φ h0, callSum_map_perm φ h2]
    exact callSum_map_hoppings φ h0 cast _ posAt shift gs E N _ hok.fits a b i j hi hj

omit [Zero C] [DecidableEq C] [Star K] [Sub P] in
theorem mapCalls_scaled [AddCommMonoid L] (φ : K → L) (v : K) (calls : List (Call K)) :
    mapCalls φ (calls.map fun c => (c.1, c.2.1, c.2.2 * v)) = mapCalls (fun x => φ (x * v)) calls := by
  unfold mapCalls
  rw [List.map_map]
  rfl

omit [DecidableEq C] in
/-- The calls of the periodic boundaries. -/
theorem periodic_vals (hz : ∀ x : K, 0 * x = 0)
    (hpos : ∀ k, k < (tableNorbs s.sublattices).length → s.positions[k]? = some (posAt k)) (hbuf : ∀ fam, (E fam).size ≤ maxBuffer)
    (hch : ∀ fam, Chain (E fam).rows (E fam).cols mods.hopping gs) (bs : List (Boundary P)) (hok : ∀ b ∈ bs, HopOK s b.hoppings E N)
    (per : List (Call K)) (hper : PeriodicCalls cast s mods maxBuffer phase bs per)
    (a b i j : Nat) (hi : i < (tableNorbs s.sublattices).getD a 0) (hj : j < (tableNorbs s.sublattices).getD b 0) :
    (vals per ((firstRow (tableNorbs s.sublattices) a + i : Nat) : Int) ((firstRow (tableNorbs s.sublattices) b + j : Nat) : Int)).length
        ≤ (bs.map fun bd => bonds bd.hoppings.blocks a b).sum ∧
    ∀ (M : Type) [AddCommMonoid M] (φ : K → M), φ 0 = 0 →
      callSum (mapCalls φ per) ((firstRow (tableNorbs s.sublattices) a + i : Nat) : Int) ((firstRow (tableNorbs s.sublattices) b + j : Nat) : Int)
        = (bs.map fun bd => bondSum (fun fam => φ (finalEnergy gs (N fam) (fun i j => cast (entry (E fam) i j)) (posAt a) (shiftBy (some bd.shift) (posAt b)) i j
            * phase bd.shift)) bd.hoppings.blocks a b).sum := by
  obtain ⟨hops, hf, rfl⟩ := hper
  induction hf with
  | nil => exact ⟨by simp [vals], fun M _ φ _ => rfl⟩
  | @cons bd hop bs hops h1 hf ih =>
    obtain ⟨hop', e1, -, e2⟩ := hoppings_vals cast s mods gs maxBuffer E N posAt hpos hbuf hch (some bd.shift) bd.hoppings (hok bd List.mem_cons_self)
    rw [h1] at e1
    cases e1
    obtain ⟨l1, c1⟩ := e2 a b i j hi hj
    obtain ⟨l2, c2⟩ := ih fun x hx => hok x (List.mem_cons_of_mem _ hx)
    rw [List.zip_cons_cons, List.flatMap_cons, List.map_cons, List.sum_cons]
    refine ⟨?_, ?_⟩
    · rw [vals_append, List.length_append]
      refine add_le_add ?_ l2
      rw [length_vals_map (fun x => x * phase bd.shift)]
      exact l1
    · intro M _ φ h0
      rw [List.map_cons, List.sum_cons, mapCalls_append, callSum_append, c2 M φ h0, mapCalls_scaled, c1 M (fun x => φ (x * phase bd.shift)) (by simp only [hz, h0])]

/-- The Hamiltonian of any arithmetic: each element adds up one value for each term. -/
theorem make_vals (simple : Bool) (hz : ∀ x : K, 0 * x = 0)
    (hc0 : cast 0 = 0) (hsites : SitesOK s S SN) (hok : HopOK s s.hoppings E N)
    (hbd : ∀ b ∈ s.boundaries, HopOK s b.hoppings E N)
    (hsimple : simple = true → SimpleBonds s.hoppings)
    (hpos : ∀ k, k < (tableNorbs s.sublattices).length → s.positions[k]? = some (posAt k))
    (hbuf : ∀ fam, (E fam).size ≤ maxBuffer)
    (hch : ∀ fam, Chain (E fam).rows (E fam).cols mods.hopping gs)
    (hon : ∀ e ∈ s.sublattices, OnsiteChain e.numOrb mods.onsite gos) :
    ∃ m, make cast s mods maxBuffer phase simple = .ok m ∧ Sorted (Sublat.hamiltonianSize s.sublattices) m ∧
      ∀ a b i j, i < (tableNorbs s.sublattices).getD a 0 → j < (tableNorbs s.sublattices).getD b 0 →
        ∃ vs : List K, stored m (firstRow (tableNorbs s.sublattices) a + i) (firstRow (tableNorbs s.sublattices) b + j) = accum none vs ∧
          vs.length ≤ (if a = b then 1 else 0) + bondsBetween s.hoppings.blocks s.boundaries a b ∧
          ∀ (M : Type) [AddCommMonoid M] [StarAddMonoid M] (φ : K → M), φ 0 = 0 → (∀ x, φ (star x) = star (φ x)) →
            (vs.map φ).sum = ((terms cast phase gos gs S SN E N posAt).map φ).element s.hoppings.blocks s.boundaries a b i j := by
  have hmake : make cast s mods maxBuffer phase simple = make cast s mods maxBuffer phase false := by
    cases simple with
    | false => rfl
    | true => exact C22_build_paths_agree cast s mods maxBuffer phase E N hok (hsimple rfl)
  rw [hmake]
  obtain ⟨onsite, o1, o2⟩ := applyToOnsite_spec cast hc0 s mods gos S SN hsites posAt hpos hon
  obtain ⟨hop, h1, -, h2⟩ := hoppings_vals cast s mods gs maxBuffer E N posAt hpos hbuf hch none s.hoppings hok
  have hr := mem_positions (main_places cast s mods maxBuffer E N hok onsite hop o1 h1)
  rw [← Sublat.hamiltonianSize_eq] at hr
  obtain ⟨m1, a1, l1⟩ := addAll_builds (onsite ++ withConjugate hop) (m := List.replicate (Sublat.hamiltonianSize s.sublattices) []) (by simp) hr
  have hper : ∀ (bs : List (Boundary P)), (∀ b ∈ bs, HopOK s b.hoppings E N) → ∀ m : Csr K, m.length = Sublat.hamiltonianSize s.sublattices →
      ∃ m', buildPeriodic cast s mods maxBuffer phase bs m = .ok m' := by
    intro bs
    induction bs with
    | nil => intro _ m _; exact ⟨m, rfl⟩
    | cons bd bs ih =>
      intro hb m hm
      obtain ⟨calls, c1, hr, -⟩ := hoppings_vals cast s mods gs maxBuffer E N posAt hpos hbuf hch (some bd.shift) bd.hoppings (hb bd List.mem_cons_self)
      obtain ⟨m1, a1, l1⟩ := addAll_builds (withConjugate (calls.map fun c => (c.1, c.2.1, c.2.2 * phase bd.shift))) hm (withConjugate_range (by
        intro c hc
        obtain ⟨d, hd, rfl⟩ := List.mem_map.1 hc
        exact hr d hd))
      obtain ⟨m2, a2⟩ := ih (fun b h => hb b (List.mem_cons_of_mem _ h)) m1 l1
      refine ⟨m2, ?_⟩
      unfold buildPeriodic
      rw [c1, Res.bind_ok, a1, Res.bind_ok, a2]
  obtain ⟨m2, a2⟩ := hper s.boundaries hbd m1 l1
  have hm : make cast s mods maxBuffer phase false = .ok m2 := by
    unfold make buildMain
    simp only [Bool.false_eq_true, if_false, o1, h1, Res.bind_ok, a1, a2]
  obtain ⟨onsite', hop', per, o1', h1', hp, s2, hst⟩ := make_stored cast s mods maxBuffer phase false m2 hm
  rw [o1] at o1'; cases o1'
  rw [h1] at h1'; cases h1'
  refine ⟨m2, hm, s2, fun a b i j hi hj => ⟨_, hst _ _, ?_, ?_⟩⟩
  · obtain ⟨hl1, -⟩ := h2 a b i j hi hj
    obtain ⟨hl2, -⟩ := h2 b a j i hj hi
    obtain ⟨pl1, -⟩ := periodic_vals cast s mods gs maxBuffer phase E N posAt hz hpos hbuf hch s.boundaries hbd per hp a b i j hi hj
    obtain ⟨pl2, -⟩ := periodic_vals cast s mods gs maxBuffer phase E N posAt hz hpos hbuf hch s.boundaries hbd per hp b a j i hj hi
    have ho : (vals onsite ((firstRow (tableNorbs s.sublattices) a + i : Nat) : Int) ((firstRow (tableNorbs s.sublattices) b + j : Nat) : Int)).length ≤ if a = b then 1 else 0 := by
      rw [length_vals_count]
      refine ((applyToOnsite_places cast s mods onsite o1).count_le _).trans ?_
      rw [count_boxes _ _ a b i j hi hj]
      split
      · have hdn : (diagPairs (tableNorbs s.sublattices).length).Nodup := by
          unfold diagPairs
          refine List.Nodup.map_on ?_ List.nodup_range
          intro x _ y _ e
          exact (COO.mk.injEq .. ▸ e).1
        exact List.nodup_iff_count_le_one.1 hdn _
      · rename_i hab
        rw [Nat.le_zero, List.count_eq_zero]
        unfold diagPairs
        intro hm
        obtain ⟨x, -, hx⟩ := List.mem_map.1 hm
        rw [COO.mk.injEq] at hx
        exact hab (hx.1.symm.trans hx.2)
    rw [vals_append, List.length_append, length_conjugate, vals_append, vals_append, List.length_append, List.length_append]
    unfold bondsBetween
    rw [List.sum_map_add]
    omega
  · intro M _ _ φ h0 hφ
    obtain ⟨-, hc1⟩ := h2 a b i j hi hj
    obtain ⟨-, hc2⟩ := h2 b a j i hj hi
    obtain ⟨-, pc1⟩ := periodic_vals cast s mods gs maxBuffer phase E N posAt hz hpos hbuf hch s.boundaries hbd per hp a b i j hi hj
    obtain ⟨-, pc2⟩ := periodic_vals cast s mods gs maxBuffer phase E N posAt hz hpos hbuf hch s.boundaries hbd per hp b a j i hj hi
    rw [vals_sum, mapCalls_append, callSum_append, mapCalls_conjugate φ hφ, callSum_withConjugate, mapCalls_append, callSum_append, callSum_append,
      hc1 M φ h0, hc2 M φ h0, pc1 M φ h0, pc2 M φ h0, callSum_map_perm φ o2, mapCalls_flatMap, callSum_flatMap]
    have hk : ∀ k, callSum (mapCalls φ (siteCalls cast (tableNorbs s.sublattices) posAt gos S SN k))
        ((firstRow (tableNorbs s.sublattices) a + i : Nat) : Int)
        ((firstRow (tableNorbs s.sublattices) b + j : Nat) : Int)
        = if (⟨k, k⟩ : COO) = ⟨a, b⟩ then
            φ (finalOnsite gos (SN k) (fun i j => cast (entry (S k) i j)) (posAt k) i j) else 0 := fun k =>
      callSum_map_place φ h0 (tableNorbs s.sublattices) ⟨k, k⟩ _ a b i j hi hj
    simp only [hk]
    have ha : a < (tableNorbs s.sublattices).length := by
      by_contra hc
      rw [List.getD_eq_getElem?_getD, List.getElem?_eq_none (by omega)] at hi
      simp at hi
    have hsite : ((List.range (tableNorbs s.sublattices).length).map fun k => if (⟨k, k⟩ : COO) = ⟨a, b⟩ then
            φ (finalOnsite gos (SN k) (fun i j => cast (entry (S k) i j)) (posAt k) i j) else 0).sum
        = if a = b then φ (finalOnsite gos (SN a) (fun i j => cast (entry (S a) i j)) (posAt a) i j) else 0 := by
      rw [sum_eq_of_unique a (List.mem_range.2 ha) List.nodup_range]
      · by_cases hab : a = b
        · subst hab; simp
        · rw [if_neg hab, if_neg]
          rw [COO.mk.injEq]
          exact fun h => hab h.2
      · intro k _ hka
        rw [if_neg]
        rw [COO.mk.injEq]
        exact fun h => hka h.1
    rw [hsite]
    unfold Terms.element
    simp only [Terms.map, terms]
    have hsum : ∀ (l : List (Boundary P)) (f g : Boundary P → M), (l.map fun x => f x + star (g x)).sum = (l.map f).sum + star (l.map g).sum := by
      intro l f g
      induction l with
      | nil => simp
      | cons x l ih =>
        simp only [List.map_cons, List.sum_cons, ih, star_add]
        exact add_add_add_comm _ _ _ _
    rw [hsum, star_add]
    abel

end

end Verif.Hamiltonian
