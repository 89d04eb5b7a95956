import Verif.Hamiltonian.Calls

/-!
# Hermiticity of the onsite part
-/

namespace Verif.Hamiltonian

open Verif.Sublat (Table It iters)
open Verif.Hopping (COO HoppingBlocks Csr csrInsert overwrite)
open Verif.Lattice (Registry)

variable {C K P : Type}

/-- Specification: an array of shape `(norb, norb, n)` whose `n` matrices are Hermitian. -/
def HermArray [Zero K] [Star K] (norb n : Nat) (data : List K) : Prop :=
  data.length = n * (norb * norb) ∧ ∀ i j k, i < norb → j < norb → k < n →
    data.getD ((i * norb + j) * n + k) 0 = star (data.getD ((j * norb + i) * n + k) 0)

/-- The coefficient of a matrix of run-time size. -/
def entry [Zero C] (m : Mat C) (i j : Nat) : C :=
  if h : i < m.rows ∧ j < m.cols then m.e ⟨i, h.1⟩ ⟨j, h.2⟩ else 0

theorem map_finRange {α : Type} (n : Nat) (f : Nat → α) :
    (List.finRange n).map (fun i => f i.val) = (List.range n).map f := by
  rw [← List.map_coe_finRange_eq_range, List.map_map]
  rfl

theorem flatMap_finRange {α : Type} (n : Nat) (f : Nat → List α) :
    (List.finRange n).flatMap (fun i => f i.val) = (List.range n).flatMap f := by
  rw [List.flatMap_def, List.flatMap_def, map_finRange]

theorem flat_eq [Zero C] (m : Mat C) : flat m =
    (List.range m.rows).flatMap fun i => (List.range m.cols).map fun j => entry m i j := by
  rw [← flatMap_finRange]
  unfold flat
  congr 1
  funext i
  rw [← map_finRange]
  congr 1
  funext j
  simp [entry, i.isLt, j.isLt]

theorem length_flat (m : Mat C) : (flat m).length = m.rows * m.cols := by
  simp [flat, List.length_flatMap]

theorem fillSegments_eq (n : Nat) (vs : List K) (pre : List K) (z : K) :
    fillSegments n vs pre.length (pre ++ List.replicate (vs.length * n) z)
      = .ok (pre ++ vs.flatMap fun v => List.replicate n v) := by
  induction vs generalizing pre with
  | nil => simp [fillSegments]
  | cons v vs ih =>
    unfold fillSegments
    have e : pre ++ List.replicate ((v :: vs).length * n) z
        = pre ++ List.replicate n z ++ List.replicate (vs.length * n) z := by
      rw [List.append_assoc, ← Sublat.replicate_add]
      congr 2
      rw [List.length_cons, Nat.succ_mul, Nat.add_comm]
    rw [if_pos (by simp [Nat.succ_mul])]
    have h2 := Sublat.setSegment_append pre (List.replicate n z) (List.replicate (vs.length * n) z) v
    rw [List.length_replicate] at h2
    rw [e, h2]
    have := ih (pre ++ List.replicate n v)
    rw [List.length_append, List.length_replicate] at this
    rw [this, List.flatMap_cons, List.append_assoc]

theorem layout_replicate (r c n : Nat) (e : Nat → Nat → K) :
    layout r c (List.replicate n e)
      = ((List.range r).flatMap fun i => (List.range c).map fun j => e i j).flatMap
          fun v => List.replicate n v := by
  unfold layout
  rw [List.flatMap_assoc]
  congr 1
  funext i
  rw [List.flatMap_map]
  congr 1
  funext j
  rw [List.map_replicate]

theorem unit_layout [Zero C] (cast : C → K) (m : Mat C) (n : Nat) :
    (((flat m).map cast).flatMap fun v => List.replicate n v)
      = layout m.rows m.cols (List.replicate n fun i j => cast (entry m i j)) := by
  rw [layout_replicate, flat_eq, List.map_flatMap]
  simp only [List.map_map]
  rfl

/-- The energies of a sublattice before the modifiers. -/
theorem onsiteIntrinsic_eq [Zero C] [Zero K] (cast : C → K) (reg : Registry C) (sub : It)
    (m : Mat C) (hm : energyAt reg sub.elem.id = .ok m) (hr : m.rows = sub.elem.numOrb)
    (hc : m.cols = sub.elem.numOrb) :
    onsiteIntrinsic cast reg true sub = .ok (layout sub.elem.numOrb sub.elem.numOrb
      (List.replicate sub.elem.numSites fun i j => cast (entry m i j))) := by
  unfold onsiteIntrinsic
  simp only [if_true, hm, Res.bind_ok]
  have hl : ((flat m).map cast).length * sub.elem.numSites
      = sub.elem.numSites * sub.elem.numOrb * sub.elem.numOrb := by
    rw [List.length_map, length_flat, hr, hc, Nat.mul_assoc sub.elem.numSites, Nat.mul_comm]
  have := fillSegments_eq sub.elem.numSites ((flat m).map cast) [] 0
  rw [hl] at this
  simp only [List.length_nil, List.nil_append] at this
  rw [this, unit_layout, hr, hc]

theorem getD_layout [Zero K] (r c : Nat) (es : List (Nat → Nat → K)) (i j k : Nat) (hi : i < r) (hj : j < c)
    (hk : k < es.length) :
    (layout r c es).getD ((i * c + j) * es.length + k) 0 = (es.getD k fun _ _ => 0) i j := by
  rw [List.getD_eq_getElem?_getD, getElem?_layout r c es i j k hi hj hk, List.getD_eq_getElem?_getD,
    List.getElem?_eq_getElem hk]
  rfl

/-- The calls for the matrices of one sublattice, site by site. -/
theorem emit_onsite_perm [Zero K] [DecidableEq K] (sub : It) (es : List (Nat → Nat → K))
    (h : es.length = sub.elem.numSites) :
    (emit (onsiteIndices sub) (layout sub.elem.numOrb sub.elem.numOrb es)).Perm
      (((List.range sub.elem.numSites).zip es).flatMap fun p =>
        elemCalls (fun i j => (((i + (sub.hamStart + p.1 * sub.elem.numOrb) : Nat) : Int),
          ((j + (sub.hamStart + p.1 * sub.elem.numOrb) : Nat) : Int)))
          sub.elem.numOrb sub.elem.numOrb p.2) :=
  emit_layout_perm sub.elem.numOrb sub.elem.numOrb
    (fun i j k => (((i + (sub.hamStart + k * sub.elem.numOrb) : Nat) : Int),
      ((j + (sub.hamStart + k * sub.elem.numOrb) : Nat) : Int)))
    (List.range sub.elem.numSites) es (by simpa using h)

/-- The calls for a Hermitian array are Hermitian. -/
theorem emit_hermitian [AddCommMonoid K] [StarAddMonoid K] [DecidableEq K] (sub : It) (data : List K)
    (h : HermArray sub.elem.numOrb sub.elem.numSites data) (a b : Int) :
    callSum (emit (onsiteIndices sub) data) a b = star (callSum (emit (onsiteIndices sub) data) b a) := by
  obtain ⟨es, he1, he2, he3⟩ := exists_layout sub.elem.numOrb sub.elem.numOrb sub.elem.numSites data h.1
  have e := emit_onsite_perm sub es he1
  rw [← he2] at e
  rw [callSum_perm e, callSum_perm e, callSum_flatMap, callSum_flatMap, star_list_sum, List.map_map]
  congr 1
  apply List.map_congr_left
  rintro ⟨k, e⟩ hke
  simp only [Function.comp_apply]
  obtain ⟨x, hx⟩ := List.mem_iff_getElem?.1 hke
  rw [List.getElem?_zip_eq_some] at hx
  obtain ⟨hx1, hx2⟩ := hx
  simp only at hx1 hx2
  obtain ⟨hxl, hxk⟩ := List.getElem?_eq_some_iff.1 hx1
  simp only [List.getElem_range] at hxk
  subst hxk
  have hxn : x < sub.elem.numSites := by simpa using hxl
  have hex : ∀ i j, e i j = data.getD ((i * sub.elem.numOrb + j) * sub.elem.numSites + x) 0 := by
    intro i j
    rw [← he3 x hxn i j, List.getD_eq_getElem?_getD, hx2]
    rfl
  rw [callSum_elemCalls, callSum_elemCalls, star_list_sum, List.map_map]
  have : ((List.range sub.elem.numOrb).map (star ∘ fun i => ((List.range sub.elem.numOrb).map fun j =>
      if ((((i + (sub.hamStart + x * sub.elem.numOrb) : Nat) : Int),
        ((j + (sub.hamStart + x * sub.elem.numOrb) : Nat) : Int)) : Int × Int) = (b, a)
      then e i j else 0).sum)).sum
    = ((List.range sub.elem.numOrb).map fun i => ((List.range sub.elem.numOrb).map fun j =>
        star (if ((((i + (sub.hamStart + x * sub.elem.numOrb) : Nat) : Int),
        ((j + (sub.hamStart + x * sub.elem.numOrb) : Nat) : Int)) : Int × Int) = (b, a)
      then e i j else 0)).sum).sum := by
    congr 1
    apply List.map_congr_left
    intro i _
    rw [Function.comp_apply, star_list_sum, List.map_map]
    rfl
  rw [this, list_sum_comm]
  congr 1
  apply List.map_congr_left
  intro j hj
  congr 1
  apply List.map_congr_left
  intro i hi
  have hi' := List.mem_range.1 hi
  have hj' := List.mem_range.1 hj
  by_cases hc : ((((i + (sub.hamStart + x * sub.elem.numOrb) : Nat) : Int),
        ((j + (sub.hamStart + x * sub.elem.numOrb) : Nat) : Int)) : Int × Int) = (a, b)
  · rw [if_pos hc, if_pos (by rw [Prod.mk.injEq] at hc ⊢; exact ⟨hc.2, hc.1⟩), hex, hex]
    exact h.2 i j x hi' hj' hxn
  · rw [if_neg hc, if_neg (by rw [Prod.mk.injEq] at hc ⊢; exact fun h => hc ⟨h.2, h.1⟩), star_zero]

end Verif.Hamiltonian
