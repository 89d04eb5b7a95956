import Verif.Hamiltonian.Coeff
import Verif.Hamiltonian.PropsWitness

/-!
# C49: every matrix element is the energy the model prescribes
-/

namespace Verif.Hamiltonian

open Verif.Sublat (Table It iters itersFrom tableNorbs tableLabels)
open Verif.Sublat.Spec (firstRow)
open Verif.Hopping (COO HoppingBlocks Csr csrInsert overwrite)
open Verif.Lattice (Registry)

variable {C K P : Type}

/-- Specification: the sum of the elements `(i, j)` of all hoppings stored from site `a` to site `b`,
each modified with its own end positions. -/
def hopAt [Zero C] [AddMonoid K] [Sub P] (cast : C → K) (posAt : Nat → P) (shift : Option P)
    (gs : List (ElemFn K P)) (E : Nat → Mat C) (N : Nat → String) (blocks : List (List COO))
    (a b i j : Nat) : K :=
  (blocks.zipIdx.map fun p => p.1.count ⟨a, b⟩ •
    finalEnergy gs (N p.2) (fun i j => cast (entry (E p.2) i j)) (posAt a) (shiftBy shift (posAt b)) i j).sum

theorem callSum_filter_nonzero [AddMonoid K] [DecidableEq K] (cs : List (Call K)) (i j : Int) :
    callSum (cs.filter (fun c => c.2.2 ≠ 0)) i j = callSum cs i j := by
  induction cs with
  | nil => rfl
  | cons c cs ih =>
    rw [List.filter_cons]
    split
    · rw [callSum_cons, callSum_cons, ih]
    · rename_i hc
      have hc0 : c.2.2 = 0 := by simpa using hc
      rw [callSum_cons, ih, hc0]
      simp

theorem sum_ite_count [AddCommMonoid K] (l : List COO) (c : COO) (v : K) :
    (l.map fun d => if d = c then v else 0).sum = l.count c • v := by
  induction l with
  | nil => simp
  | cons d l ih =>
    rw [List.map_cons, List.sum_cons, ih, List.count_cons]
    by_cases h : d = c
    · rw [if_pos h, if_pos (by simpa using h), succ_nsmul, add_comm]
    · rw [if_neg h, if_neg (by simpa using h), zero_add, Nat.add_zero]

theorem callSum_specHoppings [Zero C] [AddCommMonoid K] [DecidableEq K] [Sub P] (cast : C → K)
    (norbs : List Nat) (posAt : Nat → P) (shift : Option P) (gs : List (ElemFn K P)) (E : Nat → Mat C)
    (N : Nat → String) (blocks : List (List COO))
    (hf : ∀ (fam : Nat) b, blocks[fam]? = some b → ∀ c ∈ b, Fits norbs (E fam) c)
    (a b i j : Nat) (hi : i < norbs.getD a 0) (hj : j < norbs.getD b 0) :
    callSum (specHoppings cast norbs posAt shift gs E N blocks)
      ((firstRow norbs a + i : Nat) : Int) ((firstRow norbs b + j : Nat) : Int)
      = hopAt cast posAt shift gs E N blocks a b i j := by
  unfold specHoppings hopAt
  rw [callSum_flatMap]
  congr 1
  apply List.map_congr_left
  rintro ⟨bl, fam⟩ hp
  have hbl : blocks[fam]? = some bl := by
    have := List.mem_zipIdx_iff_getElem?.1 hp
    simpa using this
  simp only
  rw [callSum_flatMap, ← sum_ite_count]
  congr 1
  apply List.map_congr_left
  intro c hc
  obtain ⟨h1, h2⟩ := hf fam bl hbl c hc
  unfold hopCalls
  have e1 : (E fam).rows = norbs.getD c.row 0 := by rw [List.getD_eq_getElem?_getD, h1]; rfl
  have e2 : (E fam).cols = norbs.getD c.col 0 := by rw [List.getD_eq_getElem?_getD, h2]; rfl
  rw [e1, e2, callSum_place norbs c _ a b i j hi hj]
  split
  · rename_i h; subst h; rfl
  · rfl

theorem callSum_scale [NonUnitalNonAssocSemiring K] (cs : List (Call K)) (v : K) (i j : Int) :
    callSum (cs.map fun c => (c.1, c.2.1, c.2.2 * v)) i j = callSum cs i j * v := by
  induction cs with
  | nil => simp
  | cons c cs ih =>
    rw [List.map_cons, callSum_cons, callSum_cons, ih, add_mul]
    congr 1
    simp only
    split
    · rfl
    · rw [zero_mul]

theorem mem_positions {norbs : List Nat} {calls : List (Call K)} {B : List COO}
    (h : (calls.map pos).Subperm (B.flatMap (box norbs))) :
    ∀ c ∈ calls, 0 ≤ c.1 ∧ c.1 < (norbs.sum : Nat) ∧ 0 ≤ c.2.1 ∧ c.2.1 < (norbs.sum : Nat) := by
  intro c hc
  have hm := h.subset (List.mem_map.2 ⟨c, hc, rfl⟩)
  obtain ⟨d, -, hd⟩ := List.mem_flatMap.1 hm
  have := box_range hd
  exact ⟨this.1.1, this.1.2, this.2.1, this.2.2⟩

theorem withConjugate_range [Star K] {n : Nat} {calls : List (Call K)}
    (h : ∀ c ∈ calls, 0 ≤ c.1 ∧ c.1 < n ∧ 0 ≤ c.2.1 ∧ c.2.1 < n) :
    ∀ c ∈ withConjugate calls, 0 ≤ c.1 ∧ c.1 < n ∧ 0 ≤ c.2.1 ∧ c.2.1 < n := by
  intro c hc
  obtain ⟨d, hd, hc⟩ := List.mem_flatMap.1 hc
  obtain ⟨a1, a2, a3, a4⟩ := h d hd
  simp only [List.mem_cons, List.not_mem_nil, or_false] at hc
  rcases hc with rfl | rfl
  · exact ⟨a1, a2, a3, a4⟩
  · exact ⟨a3, a4, a1, a2⟩

theorem addAll_total [AddCommMonoid K] {n : Nat} (calls : List (Call K)) {m : Csr K} (hm : m.length = n)
    (h : ∀ c ∈ calls, 0 ≤ c.1 ∧ c.1 < n ∧ 0 ≤ c.2.1 ∧ c.2.1 < n) :
    ∃ m', addAll n calls m = .ok m' ∧ m'.length = n ∧ (Sorted n m → Sorted n m') ∧
      ∀ a b : Nat, coeff m' a b = coeff m a b + callSum calls a b := by
  rcases addAll_spec calls hm with ⟨-, x⟩ | ⟨e, -⟩
  · exact x
  · exact absurd h e

section
variable [AddMonoid C] [DecidableEq C] [NonUnitalNonAssocSemiring K] [StarAddMonoid K] [DecidableEq K] [Sub P]
  (cast : C → K) (s : System C P) (mods : Modifiers K P) (gs : List (ElemFn K P)) (maxBuffer : Nat)
  (phase : P → K) (E : Nat → Mat C) (N : Nat → String) (posAt : Nat → P)

theorem buildPeriodic_spec
    (hpos : ∀ k, k < (tableNorbs s.sublattices).length → s.positions[k]? = some (posAt k))
    (hbuf : ∀ fam, (E fam).size ≤ maxBuffer)
    (hch : ∀ fam, Chain (E fam).rows (E fam).cols mods.hopping gs)
    (bs : List (Boundary P)) (hok : ∀ b ∈ bs, HopOK s b.hoppings E N)
    (m : Csr K) (hm : m.length = Sublat.hamiltonianSize s.sublattices)
    (hs : Sorted (Sublat.hamiltonianSize s.sublattices) m) :
    ∃ m', buildPeriodic cast s mods maxBuffer phase bs m = .ok m' ∧
      Sorted (Sublat.hamiltonianSize s.sublattices) m' ∧
      ∀ a b i j, i < (tableNorbs s.sublattices).getD a 0 → j < (tableNorbs s.sublattices).getD b 0 →
        coeff m' (firstRow (tableNorbs s.sublattices) a + i) (firstRow (tableNorbs s.sublattices) b + j)
          = coeff m (firstRow (tableNorbs s.sublattices) a + i) (firstRow (tableNorbs s.sublattices) b + j)
            + (bs.map fun bd =>
                hopAt cast posAt (some bd.shift) gs E N bd.hoppings.blocks a b i j * phase bd.shift
                + star (hopAt cast posAt (some bd.shift) gs E N bd.hoppings.blocks b a j i * phase bd.shift)).sum := by
  induction bs generalizing m with
  | nil => exact ⟨m, rfl, hs, fun a b i j _ _ => by simp⟩
  | cons bd bs ih =>
    have hb := hok bd List.mem_cons_self
    obtain ⟨calls, c1, c2, -⟩ := C23_hoppings cast s mods gs maxBuffer (some bd.shift) bd.hoppings E N hb
      posAt hpos (fun fam _ _ => hbuf fam) (fun fam _ _ => hch fam)
    have hpl := applyToHoppings_places cast s mods maxBuffer (some bd.shift) bd.hoppings E N hb calls c1
    have hr := mem_positions hpl
    rw [← Sublat.hamiltonianSize_eq] at hr
    obtain ⟨m1, a1, l1, s1, co1⟩ := addAll_total (withConjugate (calls.map fun c =>
      (c.1, c.2.1, c.2.2 * phase bd.shift))) hm (withConjugate_range (by
        intro c hc
        obtain ⟨d, hd, rfl⟩ := List.mem_map.1 hc
        exact hr d hd))
    obtain ⟨m2, a2, s2, co2⟩ := ih (fun b hb => hok b (List.mem_cons_of_mem _ hb)) m1 l1 (s1 hs)
    refine ⟨m2, ?_, s2, ?_⟩
    · unfold buildPeriodic
      rw [c1, Res.bind_ok, a1, Res.bind_ok, a2]
    · intro a b i j hi hj
      have hsum : ∀ a b i j, i < (tableNorbs s.sublattices).getD a 0 →
          j < (tableNorbs s.sublattices).getD b 0 →
          callSum calls ((firstRow (tableNorbs s.sublattices) a + i : Nat) : Int)
            ((firstRow (tableNorbs s.sublattices) b + j : Nat) : Int)
            = hopAt cast posAt (some bd.shift) gs E N bd.hoppings.blocks a b i j := by
        intro a b i j hi hj
        rw [← callSum_filter_nonzero, callSum_perm c2]
        exact callSum_specHoppings cast _ posAt _ gs E N _ hb.fits a b i j hi hj
      rw [co2 a b i j hi hj, co1, callSum_withConjugate, callSum_scale, callSum_scale, hsum a b i j hi hj,
        hsum b a j i hj hi, List.map_cons, List.sum_cons, add_assoc]

/-- **C49**: building the Hamiltonian succeeds, and the element at orbital `i` of site `a` and orbital
`j` of site `b` is: the onsite energy of the site if `a = b`, plus the energies of the hoppings stored
from `a` to `b`, plus the conjugate transposes of those stored from `b` to `a`, plus, for each
boundary, the same with the Bloch phase; every energy is the registered one after the modifiers, which
see the positions of its own site or ends (the second end shifted by the boundary). -/
theorem C49_coefficients (gos : List (OnsiteFn K P)) (S : Nat → Mat C) (SN : Nat → String) (simple : Bool)
    (hc0 : cast 0 = 0) (hsites : SitesOK s S SN) (hok : HopOK s s.hoppings E N)
    (hbd : ∀ b ∈ s.boundaries, HopOK s b.hoppings E N)
    (hsimple : simple = true → SimpleBonds s.hoppings)
    (hpos : ∀ k, k < (tableNorbs s.sublattices).length → s.positions[k]? = some (posAt k))
    (hbuf : ∀ fam, (E fam).size ≤ maxBuffer)
    (hch : ∀ fam, Chain (E fam).rows (E fam).cols mods.hopping gs)
    (hon : ∀ e ∈ s.sublattices, OnsiteChain e.numOrb mods.onsite gos) :
    ∃ m, make cast s mods maxBuffer phase simple = .ok m ∧
      Sorted (Sublat.hamiltonianSize s.sublattices) m ∧
      ∀ a b i j, i < (tableNorbs s.sublattices).getD a 0 → j < (tableNorbs s.sublattices).getD b 0 →
        coeff m (firstRow (tableNorbs s.sublattices) a + i) (firstRow (tableNorbs s.sublattices) b + j)
          = (if a = b then finalOnsite gos (SN a) (fun i j => cast (entry (S a) i j)) (posAt a) i j else 0)
            + (hopAt cast posAt none gs E N s.hoppings.blocks a b i j
                + star (hopAt cast posAt none gs E N s.hoppings.blocks b a j i))
            + (s.boundaries.map fun bd =>
                hopAt cast posAt (some bd.shift) gs E N bd.hoppings.blocks a b i j * phase bd.shift
                + star (hopAt cast posAt (some bd.shift) gs E N bd.hoppings.blocks b a j i * phase bd.shift)).sum := by
  have hmake : make cast s mods maxBuffer phase simple = make cast s mods maxBuffer phase false := by
    cases simple with
    | false => rfl
    | true => exact C22_build_paths_agree cast s mods maxBuffer phase E N hok (hsimple rfl)
  rw [hmake]
  obtain ⟨onsite, o1, o2⟩ := applyToOnsite_spec cast hc0 s mods gos S SN hsites posAt hpos hon
  obtain ⟨hop, h1, h2, -⟩ := C23_hoppings cast s mods gs maxBuffer none s.hoppings E N hok posAt hpos
    (fun fam _ _ => hbuf fam) (fun fam _ _ => hch fam)
  have hr := mem_positions (main_places cast s mods maxBuffer E N hok onsite hop o1 h1)
  rw [← Sublat.hamiltonianSize_eq] at hr
  obtain ⟨m1, a1, l1, s1, co1⟩ := addAll_total (onsite ++ withConjugate hop)
    (m := List.replicate (Sublat.hamiltonianSize s.sublattices) []) (by simp) hr
  obtain ⟨m2, a2, s2, co2⟩ := buildPeriodic_spec cast s mods gs maxBuffer phase E N posAt hpos hbuf hch
    s.boundaries hbd m1 l1 (s1 (sorted_zero _))
  refine ⟨m2, ?_, s2, ?_⟩
  · unfold make buildMain
    simp only [Bool.false_eq_true, if_false, o1, h1, Res.bind_ok, a1, a2]
  · intro a b i j hi hj
    have hsum : ∀ a b i j, i < (tableNorbs s.sublattices).getD a 0 →
        j < (tableNorbs s.sublattices).getD b 0 →
        callSum hop ((firstRow (tableNorbs s.sublattices) a + i : Nat) : Int)
          ((firstRow (tableNorbs s.sublattices) b + j : Nat) : Int)
          = hopAt cast posAt none gs E N s.hoppings.blocks a b i j := by
      intro a b i j hi hj
      rw [← callSum_filter_nonzero, callSum_perm h2]
      exact callSum_specHoppings cast _ posAt _ gs E N _ hok.fits a b i j hi hj
    rw [co2 a b i j hi hj, co1, coeff_zero, zero_add, callSum_append, callSum_withConjugate,
      hsum a b i j hi hj, hsum b a j i hj hi, callSum_perm o2, callSum_flatMap]
    congr 2
    have hk : ∀ k, callSum (siteCalls cast (tableNorbs s.sublattices) posAt gos S SN k)
        ((firstRow (tableNorbs s.sublattices) a + i : Nat) : Int)
        ((firstRow (tableNorbs s.sublattices) b + j : Nat) : Int)
        = if (⟨k, k⟩ : COO) = ⟨a, b⟩ then
            finalOnsite gos (SN k) (fun i j => cast (entry (S k) i j)) (posAt k) i j else 0 := fun k =>
      callSum_place (tableNorbs s.sublattices) ⟨k, k⟩ _ a b i j hi hj
    simp only [hk]
    have ha : a < (tableNorbs s.sublattices).length := by
      by_contra hc
      rw [List.getD_eq_getElem?_getD, List.getElem?_eq_none (by omega)] at hi
      simp at hi
    rw [sum_eq_of_unique a (List.mem_range.2 ha) List.nodup_range]
    · by_cases hab : a = b
      · subst hab; simp
      · rw [if_neg hab, if_neg]
        rw [COO.mk.injEq]
        exact fun h => hab h.2
    · intro k _ hka
      rw [if_neg]
      rw [COO.mk.injEq]
      exact fun h => hka h.1
end

/-- The energy of each site of `demo`. -/
def demoS : Nat → Mat Int
  | 0 => Mat.scalar 5
  | 1 => Mat.scalar 5
  | _ => ⟨2, 2, fun i j => i.val + j.val⟩

/-- The name of each site of `demo`. -/
def demoSN : Nat → String
  | 0 => "A"
  | 1 => "A"
  | _ => "B"

theorem demo_sites : SitesOK demo demoS demoSN where
  table := by
    intro e he
    simp only [demo, List.mem_cons, List.not_mem_nil, or_false] at he
    rcases he with rfl | rfl
    · exact ⟨Mat.scalar 5, "A", rfl, rfl, rfl, rfl⟩
    · exact ⟨⟨2, 2, fun i j => i.val + j.val⟩, "B", rfl, rfl, rfl, rfl⟩
  energy := by
    intro k id hk
    have hd : Sublat.decompressed demo.sublattices = [some 0, some 0, some 1] := by decide
    rw [hd] at hk
    match k, hk with
    | 0, hk => simp at hk; subst hk; exact ⟨rfl, rfl⟩
    | 1, hk => simp at hk; subst hk; exact ⟨rfl, rfl⟩
    | 2, hk => simp at hk; subst hk; exact ⟨rfl, rfl⟩
    | k + 3, hk => simp at hk
  fits := by
    intro k n hk
    have hd : tableNorbs demo.sublattices = [1, 1, 2] := by decide
    rw [hd] at hk
    match k, hk with
    | 0, hk => simp at hk; subst hk; exact ⟨rfl, rfl⟩
    | 1, hk => simp at hk; subst hk; exact ⟨rfl, rfl⟩
    | 2, hk => simp at hk; subst hk; exact ⟨rfl, rfl⟩
    | k + 3, hk => simp at hk

/-- The hypotheses of C49 hold for the example, with modifiers, and the formula gives the matrix
element that is computed. -/
example : ∃ m, make id demo ⟨[], [scale]⟩ 2 (fun _ => 3) true = .ok m ∧ coeff m 0 1 = 14 + 42 ∧
    coeff m 0 1 = 0 + (hopAt id (fun k => demo.positions.getD k 0) none [fun _ e _ _ i j => 2 * e i j]
      demoE demoN demo.hoppings.blocks 0 1 0 0 + star (hopAt id (fun k => demo.positions.getD k 0) none
      [fun _ e _ _ i j => 2 * e i j] demoE demoN demo.hoppings.blocks 1 0 0 0)) + 42 := by
  obtain ⟨m, h1, -, h3⟩ := C49_coefficients id demo ⟨[], [scale]⟩ [fun _ e _ _ i j => 2 * e i j] 2
    (fun _ => 3) demoE demoN (fun k => demo.positions.getD k 0) [] demoS demoSN true rfl demo_sites demo_ok
    (by
      intro b hb
      simp only [demo, List.mem_singleton] at hb
      subst hb
      refine ⟨by decide, by decide, by decide, by decide, ?_⟩
      intro fam bl hbl c hc
      match fam, hbl with
      | 0, hbl =>
        simp only [List.getElem?_cons_zero, Option.some.injEq] at hbl
        subst hbl
        simp only [List.mem_singleton] at hc
        subst hc
        constructor <;> rfl
      | 1, hbl =>
        simp only [List.getElem?_cons_succ, List.getElem?_cons_zero, Option.some.injEq] at hbl
        subst hbl
        simp at hc
      | n + 2, hbl => simp at hbl)
    (fun _ => demo_bonds) (by decide)
    (by intro fam; match fam with | 0 => decide | n + 1 => exact Nat.le_refl 2)
    (fun fam => .cons (scale_elementwise _ _) .nil)
    (fun e _ => .nil)
  refine ⟨m, h1, ?_, ?_⟩
  · exact (h3 0 1 0 0 (by decide) (by decide)).trans (by decide +kernel)
  · exact (h3 0 1 0 0 (by decide) (by decide)).trans (by decide +kernel)

end Verif.Hamiltonian
