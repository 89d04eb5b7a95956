import Verif.Pipeline.Props
import Verif.Symmetry.Props2

/-!
# Sums over the stored pairs and sums over the terms of the lattice
-/

namespace Verif.Pipeline

open Verif.Lattice (Sublattice HoppingFamily HoppingTerm Registry CellSite CellHopping Inv optimizedUnitCell)
open Verif.Lattice.Lattice (run empty allTerms)
open Verif.Foundation (Dims CellOK size sites locOf rank validPairs cellAt crystalSite hoppingsAt popOps
  siteEntries finalize)
open Verif.Sublat (tableNorbs)
open Verif.Sublat.Spec (firstRow)
open Verif.Hamiltonian
open Verif.Symmetry (Periods Supported cmul periodIndex stored)
open Verif.Hopping (COO Csr HoppingBlocks)

variable {C L P K : Type}

/-- Sum over keys of the number of elements with that key, and sum over the elements. -/
theorem sum_keys {α κ : Type} [DecidableEq κ] [AddCommMonoid K] (ks : List κ) (hk : ks.Nodup)
    (key : α → κ) (Q : α → Prop) [DecidablePred Q] (W : κ → K) (ts : List α) :
    (ks.map fun k => ts.countP (fun t => decide (Q t ∧ key t = k)) • W k).sum
      = (ts.map fun t => if Q t ∧ key t ∈ ks then W (key t) else 0).sum := by
  induction ts with
  | nil => simp
  | cons t ts ih =>
    rw [List.map_cons, List.sum_cons, ← ih]
    have e : ∀ ks : List κ, (ks.map fun k => (t :: ts).countP (fun t => decide (Q t ∧ key t = k)) • W k).sum
        = (ks.map fun k => if Q t ∧ key t = k then W k else 0).sum
          + (ks.map fun k => ts.countP (fun t => decide (Q t ∧ key t = k)) • W k).sum := by
      intro ks
      induction ks with
      | nil => simp
      | cons k ks ih2 =>
        simp only [List.map_cons, List.sum_cons]
        rw [ih2, List.countP_cons]
        by_cases h : Q t ∧ key t = k
        · rw [if_pos h, if_pos (decide_eq_true h), succ_nsmul]
          abel
        · rw [if_neg h, if_neg (by simpa using h), Nat.add_zero]
          abel
    rw [e]
    congr 1
    clear e ih
    induction ks with
    | nil => simp
    | cons k ks ih2 =>
      rw [List.nodup_cons] at hk
      rw [List.map_cons, List.sum_cons, ih2 hk.2]
      by_cases h : Q t
      · by_cases h2 : key t = k
        · rw [if_pos ⟨h, h2⟩, if_neg (by rw [h2]; exact fun x => hk.1 x.2),
            if_pos ⟨h, by rw [h2]; exact List.mem_cons_self⟩, h2, add_zero]
        · rw [if_neg (fun x => h2 x.2), zero_add]
          by_cases h3 : key t ∈ ks
          · rw [if_pos ⟨h, h3⟩, if_pos ⟨h, List.mem_cons_of_mem _ h3⟩]
          · rw [if_neg (fun x => h3 x.2), if_neg]
            intro x
            rcases List.mem_cons.1 x.2 with y | y
            · exact h2 y
            · exact h3 y
      · rw [if_neg (fun x => h x.1), if_neg (fun x => h x.1), if_neg (fun x => h x.1), add_zero]

theorem sum_zipIdx [AddMonoid K] (blocks : List (List COO)) (f : List COO → Nat → K) :
    (blocks.zipIdx.map fun p => f p.1 p.2).sum
      = ((List.range blocks.length).map fun fam => f (blocks.getD fam []) fam).sum := by
  congr 1
  apply List.ext_getElem?
  intro n
  rw [List.getElem?_map, List.getElem?_map, List.getElem?_zipIdx]
  by_cases h : n < blocks.length
  · rw [List.getElem?_range h, List.getElem?_eq_getElem h]
    simp [List.getD_eq_getElem?_getD, List.getElem?_eq_getElem h]
  · rw [List.getElem?_eq_none (by omega), List.getElem?_eq_none (by simpa using h)]
    rfl

theorem sum_flatMap_map [AddCommMonoid K] {α β : Type} (l : List α) (g : α → List β) (f : α → β → K) :
    ((l.flatMap fun a => (g a).map fun b => (a, b)).map fun q => f q.1 q.2).sum
      = (l.map fun a => ((g a).map fun b => f a b).sum).sum := by
  induction l with
  | nil => rfl
  | cons a l ih =>
    simp only [List.flatMap_cons, List.map_append, List.sum_append, List.map_cons, List.sum_cons, ih,
      List.map_map, Function.comp_def]

/-! ## Specification -/

/-- `S` cells are a whole number of periods, and none where the symmetry is disabled. -/
def IsPeriod (p : Periods) (S : Index3) : Prop :=
  ((p.x.getD 0 : Nat) : Int) ∣ S.x ∧ ((p.y.getD 0 : Nat) : Int) ∣ S.y ∧ ((p.z.getD 0 : Nat) : Int) ∣ S.z

instance (p : Periods) (S : Index3) : Decidable (IsPeriod p S) := by
  unfold IsPeriod; infer_instance

/-- The textbook sum: each term of the lattice that starts on the sublattice of the first site and
ends on the sublattice of the second, `S` cells before the second site itself, contributes if `S` is
a whole number of periods.  Its energy is modified with the actual positions of its ends and
multiplied with the Bloch phase of the translation by `S` cells. -/
def blochSum [Zero C] [NonUnitalNonAssocSemiring K] [Sub P] (cast : C → K) (gs : List (ElemFn K P))
    (phase : P → K) (shiftOf : Index3 → P) (p : Periods) (hops : List (String × HoppingFamily C))
    (a b : Index3 × Nat) (pa pb : P) (i j : Nat) : K :=
  (hops.map fun q => (q.2.terms.map fun t =>
    if t.src = a.2 ∧ t.dst = b.2 ∧ IsPeriod p (b.1.sub (a.1.add t.rel)) then
      finalEnergy gs q.1 (fun i j => cast (entry q.2.energy i j)) pa
        (pb - shiftOf (b.1.sub (a.1.add t.rel))) i j * phase (shiftOf (b.1.sub (a.1.add t.rel)))
    else 0).sum).sum

theorem isPeriod_iff (p : Periods) (S : Index3) :
    IsPeriod p S ↔ ∃ D, Supported p D ∧ S = cmul D (periodIndex p) := by
  have axis : ∀ (o : Option Nat) (v : Int), ((o.getD 0 : Nat) : Int) ∣ v ↔
      ∃ D : Int, (o = none → D = 0) ∧ v = D * ((o.getD 0 : Nat) : Int) := by
    intro o v
    cases o with
    | none => simp
    | some n =>
      constructor
      · rintro ⟨D, rfl⟩; exact ⟨D, by simp, by rw [Int.mul_comm]⟩
      · rintro ⟨D, -, rfl⟩; exact ⟨D, by rw [Int.mul_comm]⟩
  rcases S with ⟨x, y, z⟩
  unfold IsPeriod
  rw [axis, axis, axis]
  constructor
  · rintro ⟨⟨a, a1, a2⟩, ⟨b, b1, b2⟩, ⟨c, c1, c2⟩⟩
    refine ⟨⟨a, b, c⟩, ⟨a1, b1, c1⟩, ?_⟩
    simp only at a2 b2 c2
    simp only [cmul, periodIndex, a2, b2, c2]
  · rintro ⟨⟨a, b, c⟩, ⟨a1, b1, c1⟩, h⟩
    simp only [cmul, periodIndex, Index3.mk.injEq] at h
    exact ⟨⟨a, a1, h.1⟩, ⟨b, b1, h.2.1⟩, ⟨c, c1, h.2.2⟩⟩

/-- The hoppings of all blocks between two sites, as a sum over the families. -/
theorem hopAt_eq [Zero C] [AddMonoid K] [Sub P] (cast : C → K) (posAt : Nat → P) (shift : Option P)
    (gs : List (ElemFn K P)) (E : Nat → Mat C) (N : Nat → String) (blocks : List (List COO))
    (a b i j : Nat) :
    hopAt cast posAt shift gs E N blocks a b i j
      = ((List.range blocks.length).map fun fam => (blocks.getD fam []).count ⟨a, b⟩ •
          finalEnergy gs (N fam) (fun i j => cast (entry (E fam) i j)) (posAt a) (shiftBy shift (posAt b)) i j).sum :=
  sum_zipIdx blocks fun bl fam => bl.count ⟨a, b⟩ •
    finalEnergy gs (N fam) (fun i j => cast (entry (E fam) i j)) (posAt a) (shiftBy shift (posAt b)) i j

/-- What the closure of the lattice says about the number of stored pairs. -/
structure Closed (hops : List (String × HoppingFamily C)) (p : Periods) (main : HoppingBlocks)
    (bs : List Symmetry.Boundary) (a b : Index3 × Nat) (ra rb : Nat) : Prop where
  nodup : (bs.map (·.shift)).Nodup
  nonzero : ∀ x ∈ bs, x.shift ≠ Index3.zero
  period : ∀ x ∈ bs, IsPeriod p x.shift
  count : ∀ S, IsPeriod p S → ∀ fam, fam < hops.length → (stored main bs S fam).count ⟨ra, rb⟩
    = (allTerms hops).countP (fun q => q.2.src = a.2 ∧ q.2.rel = b.1.sub (a.1.add S) ∧ q.2.dst = b.2 ∧
        q.1.familyId = fam)

theorem stored_main {main : HoppingBlocks} {bs : List Symmetry.Boundary}
    (h : ∀ x ∈ bs, x.shift ≠ Index3.zero) (fam : Nat) :
    stored main bs Index3.zero fam = main.blocks.getD fam [] := by
  unfold stored
  rw [if_pos rfl, List.filter_eq_nil_iff.2]
  · simp
  · intro x hx
    simpa using h x hx

theorem stored_bd {main : HoppingBlocks} {bs : List Symmetry.Boundary}
    (hn : (bs.map (·.shift)).Nodup) (h : ∀ x ∈ bs, x.shift ≠ Index3.zero) (fam : Nat)
    {x : Symmetry.Boundary} (hx : x ∈ bs) : stored main bs x.shift fam = x.hoppings.blocks.getD fam [] := by
  unfold stored
  rw [if_neg (h x hx), List.nil_append]
  have : bs.filter (fun b => decide (b.shift = x.shift)) = [x] := by
    clear h
    induction bs with
    | nil => simp at hx
    | cons y bs ih =>
      rw [List.map_cons, List.nodup_cons] at hn
      rcases List.mem_cons.1 hx with rfl | hx
      · rw [List.filter_cons_of_pos (by simp), List.filter_eq_nil_iff.2]
        intro z hz e
        apply hn.1
        rw [← of_decide_eq_true e]
        exact List.mem_map.2 ⟨z, hz, rfl⟩
      · rw [List.filter_cons_of_neg, ih hn.2 hx]
        intro e
        apply hn.1
        rw [of_decide_eq_true e]
        exact List.mem_map.2 ⟨x, hx, rfl⟩
  rw [this]
  simp

theorem rel_iff (a b S r : Index3) : r = b.sub (a.add S) ↔ b.sub (a.add r) = S := by
  rcases a with ⟨a1, a2, a3⟩
  rcases b with ⟨b1, b2, b3⟩
  rcases S with ⟨s1, s2, s3⟩
  rcases r with ⟨r1, r2, r3⟩
  simp only [Index3.sub, Index3.add, Index3.mk.injEq]
  omega

/-- The main block and the boundaries together are the textbook sum. -/
theorem bloch_of_closed [Zero C] [Star C] {l : Lattice.Lattice C L} (inv : Inv l) [NonAssocSemiring K] [AddGroup P]
    (cast : C → K) (gs : List (ElemFn K P)) (phase : P → K) (shiftOf : Index3 → P) (p : Periods)
    (main : HoppingBlocks) (bs : List Symmetry.Boundary) (a b : Index3 × Nat) (ra rb : Nat)
    (h : Closed l.hops p main bs a b ra rb) (posAt : Nat → P) (hph : phase 0 = 1)
    (hsh : shiftOf Index3.zero = 0) (hml : main.blocks.length = l.hops.length)
    (hbl : ∀ x ∈ bs, x.hoppings.blocks.length = l.hops.length) (i j : Nat) :
    hopAt cast posAt none gs (famEnergy l) (famName l) main.blocks ra rb i j
      + (bs.map fun x => hopAt cast posAt (some (shiftOf x.shift)) gs (famEnergy l) (famName l)
          x.hoppings.blocks ra rb i j * phase (shiftOf x.shift)).sum
    = blochSum cast gs phase shiftOf p l.hops a b (posAt ra) (posAt rb) i j := by
  let W : Index3 × Nat → K := fun κ =>
    finalEnergy gs (famName l κ.2) (fun i j => cast (entry (famEnergy l κ.2) i j)) (posAt ra)
      (posAt rb - shiftOf κ.1) i j * phase (shiftOf κ.1)
  let ks : List (Index3 × Nat) :=
    (Index3.zero :: bs.map (·.shift)).flatMap fun S => (List.range l.hops.length).map fun fam => (S, fam)
  have hksn : ks.Nodup := by
    have h0 : (Index3.zero :: bs.map (·.shift)).Nodup := by
      rw [List.nodup_cons]
      refine ⟨?_, h.nodup⟩
      intro hm
      obtain ⟨x, hx, e⟩ := List.mem_map.1 hm
      exact h.nonzero x hx e
    exact h0.product List.nodup_range
  have hS : ∀ S ∈ Index3.zero :: bs.map (·.shift), IsPeriod p S := by
    intro S hm
    rcases List.mem_cons.1 hm with rfl | hm
    · exact ⟨⟨0, by simp [Index3.zero]⟩, ⟨0, by simp [Index3.zero]⟩, ⟨0, by simp [Index3.zero]⟩⟩
    · obtain ⟨x, hx, rfl⟩ := List.mem_map.1 hm
      exact h.period x hx
  have key := sum_keys ks hksn
    (fun q : HoppingFamily C × HoppingTerm => (b.1.sub (a.1.add q.2.rel), q.1.familyId))
    (fun q => q.2.src = a.2 ∧ q.2.dst = b.2) W (allTerms l.hops)
  have hcount : ∀ S, IsPeriod p S → ∀ fam, fam < l.hops.length →
      (allTerms l.hops).countP (fun q => decide ((q.2.src = a.2 ∧ q.2.dst = b.2) ∧
        (b.1.sub (a.1.add q.2.rel), q.1.familyId) = (S, fam))) = (stored main bs S fam).count ⟨ra, rb⟩ := by
    intro S hp fam hf
    rw [h.count S hp fam hf]
    apply List.countP_congr
    intro q _
    simp only [decide_eq_true_eq, Prod.mk.injEq, rel_iff]
    tauto
  -- the left-hand side
  have hleft : (ks.map fun k => (allTerms l.hops).countP (fun q => decide ((q.2.src = a.2 ∧ q.2.dst = b.2) ∧
        (b.1.sub (a.1.add q.2.rel), q.1.familyId) = k)) • W k).sum
      = hopAt cast posAt none gs (famEnergy l) (famName l) main.blocks ra rb i j
      + (bs.map fun x => hopAt cast posAt (some (shiftOf x.shift)) gs (famEnergy l) (famName l)
          x.hoppings.blocks ra rb i j * phase (shiftOf x.shift)).sum := by
    have e1 := sum_flatMap_map (Index3.zero :: bs.map (·.shift)) (fun _ => List.range l.hops.length)
      (fun S fam => (allTerms l.hops).countP (fun q => decide ((q.2.src = a.2 ∧ q.2.dst = b.2) ∧
        (b.1.sub (a.1.add q.2.rel), q.1.familyId) = (S, fam))) • W (S, fam))
    refine Eq.trans e1 ?_
    rw [List.map_cons, List.sum_cons, List.map_map]
    congr 1
    · rw [hopAt_eq, hml]
      congr 1
      apply List.map_congr_left
      intro fam hf
      rw [hcount _ (hS _ List.mem_cons_self) fam (List.mem_range.1 hf), stored_main h.nonzero]
      simp only [W, hsh, hph, mul_one, sub_zero]
      rfl
    · congr 1
      apply List.map_congr_left
      intro x hx
      rw [hopAt_eq, hbl x hx, ← List.sum_map_mul_right]
      simp only [Function.comp_def]
      congr 1
      apply List.map_congr_left
      intro fam hf
      rw [hcount _ (h.period x hx) fam (List.mem_range.1 hf), stored_bd h.nodup h.nonzero fam hx,
        smul_mul_assoc]
      rfl
  rw [← hleft]
  refine Eq.trans key ?_
  -- the right-hand side
  unfold blochSum
  have hall : allTerms l.hops = l.hops.flatMap fun q => q.2.terms.map fun t => (q.2, t) := rfl
  have e2 := sum_flatMap_map (K := K) l.hops (fun q => q.2.terms) (fun q t =>
    if (t.src = a.2 ∧ t.dst = b.2) ∧ (b.1.sub (a.1.add t.rel), q.2.familyId) ∈ ks then
      W (b.1.sub (a.1.add t.rel), q.2.familyId) else 0)
  have e3 : ((allTerms l.hops).map fun t => if (t.2.src = a.2 ∧ t.2.dst = b.2) ∧
        (b.1.sub (a.1.add t.2.rel), t.1.familyId) ∈ ks then
          W (b.1.sub (a.1.add t.2.rel), t.1.familyId) else 0)
      = ((l.hops.flatMap fun q => q.2.terms.map fun t => (q, t)).map fun q =>
          if (q.2.src = a.2 ∧ q.2.dst = b.2) ∧ (b.1.sub (a.1.add q.2.rel), q.1.2.familyId) ∈ ks then
            W (b.1.sub (a.1.add q.2.rel), q.1.2.familyId) else 0) := by
    rw [hall]
    generalize l.hops = hs
    induction hs with
    | nil => rfl
    | cons q hs ih =>
      simp only [List.flatMap_cons, List.map_append, ih, List.map_map, Function.comp_def]
  refine Eq.trans (congrArg List.sum (Eq.trans (List.map_congr_left ?_) e3)) ?_
  · intro t _
    by_cases hc : (t.2.src = a.2 ∧ t.2.dst = b.2) ∧ (b.1.sub (a.1.add t.2.rel), t.1.familyId) ∈ ks
    · rw [if_pos hc, if_pos hc]
    · rw [if_neg hc, if_neg hc]
  refine e2.trans ?_
  congr 1
  apply List.map_congr_left
  intro q hq
  congr 1
  apply List.map_congr_left
  intro t ht
  obtain ⟨n, hn⟩ := List.mem_iff_getElem?.1 hq
  have hid : q.2.familyId = n := inv.hopIds n q hn
  have hlt : n < l.hops.length := (List.getElem?_eq_some_iff.1 hn).1
  have hE : famEnergy l q.2.familyId = q.2.energy := by unfold famEnergy; simp only [hid, hn]
  have hN : famName l q.2.familyId = q.1 := by unfold famName; simp only [hid, hn]
  have hiff : ((t.src = a.2 ∧ t.dst = b.2) ∧ (b.1.sub (a.1.add t.rel), q.2.familyId) ∈ ks) ↔
      (t.src = a.2 ∧ t.dst = b.2 ∧ IsPeriod p (b.1.sub (a.1.add t.rel))) := by
    constructor
    · rintro ⟨⟨h1, h2⟩, h3⟩
      obtain ⟨S, hS1, hS2⟩ := List.mem_flatMap.1 h3
      obtain ⟨fam, -, e⟩ := List.mem_map.1 hS2
      have e' := congrArg Prod.fst e
      simp only at e'
      exact ⟨h1, h2, e' ▸ hS S hS1⟩
    · rintro ⟨h1, h2, h3⟩
      refine ⟨⟨h1, h2⟩, List.mem_flatMap.2 ⟨_, ?_, List.mem_map.2 ⟨n, List.mem_range.2 hlt, by rw [hid]⟩⟩⟩
      by_contra hno
      have hc := hcount _ h3 n hlt
      have hz : stored main bs (b.1.sub (a.1.add t.rel)) n = [] := by
        unfold stored
        rw [if_neg, List.nil_append, List.filter_eq_nil_iff.2]
        · rfl
        · intro x hx e
          apply hno
          rw [← of_decide_eq_true e]
          exact List.mem_cons_of_mem _ (List.mem_map.2 ⟨x, hx, rfl⟩)
        · intro e
          apply hno
          rw [e]
          exact List.mem_cons_self
      rw [hz, List.count_nil, List.countP_eq_zero] at hc
      exact hc (q.2, t) (Lattice.Lattice.mem_allTerms.2 ⟨q.1, hq, ht⟩)
        (decide_eq_true ⟨⟨h1, h2⟩, by rw [hid]⟩)
  by_cases hJ : t.src = a.2 ∧ t.dst = b.2 ∧ IsPeriod p (b.1.sub (a.1.add t.rel))
  · rw [if_pos (hiff.2 hJ), if_pos hJ]
    simp only [W, hE, hN]
  · rw [if_neg (fun x => hJ (hiff.1 x)), if_neg hJ]

end Verif.Pipeline
