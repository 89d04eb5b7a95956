import Verif.Pipeline.Field
import Verif.Pipeline.PropsFolding
import Verif.Pipeline.PropsRepository
import Verif.Hamiltonian.Props3
import Mathlib.Algebra.Order.Star.Basic

/-!
# Lemmas for C90: the modifiers act on each element, and gauge transformations
-/

namespace Verif.Field

open Verif.Hamiltonian
open Verif.Hopping (Csr HoppingBlocks COO)
open Verif.Pipeline (Vec3 IsEigenvalue)
open Verif.Pipeline.Repository (cis cis_add cis_zero cis_mul_neg star_cis cis_ne_zero)
open Verif.Sublat (tableNorbs)
open Verif.Sublat.Spec (firstRow)

/-! ## Arrays -/

theorem split_index {r c n t : Nat} (h : t < n * (r * c)) :
    t / n / c < r ∧ t / n % c < c ∧ t % n < n ∧ (t / n / c * c + t / n % c) * n + t % n = t := by
  have hn : 0 < n := Nat.pos_of_ne_zero fun e => by subst e; simp at h
  have hc : 0 < c := Nat.pos_of_ne_zero fun e => by subst e; simp at h
  refine ⟨?_, Nat.mod_lt _ hc, Nat.mod_lt _ hn, ?_⟩
  · rw [Nat.div_div_eq_div_mul]
    apply Nat.div_lt_of_lt_mul
    calc t < n * (r * c) := h
      _ = n * c * r := by ring
  · rw [Nat.mul_comm (t / n / c) c, Nat.div_add_mod, Nat.mul_comm, Nat.div_add_mod]

theorem mapIdx_layout {K : Type} (r c : Nat) (F : Nat → Nat → Nat → K → K) (es : List (Nat → Nat → K)) :
    (layout r c es).mapIdx (fun t e => F (t / es.length / c) (t / es.length % c) (t % es.length) e)
      = layout r c (es.mapIdx fun k e i j => F i j k (e i j)) := by
  apply List.ext_getElem?
  intro t
  by_cases ht : t < es.length * (r * c)
  · obtain ⟨h1, h2, h3, h4⟩ := split_index ht
    have e1 := getElem?_layout r c es _ _ _ h1 h2 h3
    have e2 := getElem?_layout r c (es.mapIdx fun k e i j => F i j k (e i j)) (t / es.length / c) (t / es.length % c)
      (t % es.length) h1 h2 (by rw [List.length_mapIdx]; exact h3)
    rw [List.length_mapIdx, h4] at e2
    rw [h4] at e1
    rw [List.getElem?_mapIdx, e1, e2, List.getElem?_mapIdx]
    cases es[t % es.length]? <;> rfl
  · rw [List.getElem?_eq_none (by rw [List.length_mapIdx, length_layout]; omega),
      List.getElem?_eq_none (by rw [length_layout, List.length_mapIdx]; omega)]

theorem mapIdx_getD {α β K : Type} [Zero β] (f : α → β → K) (xs : List (α × β)) (d : β) :
    (xs.map (·.1)).mapIdx (fun k a => f a ((xs.map (·.2)).getD k d)) = xs.map fun x => f x.1 x.2 := by
  apply List.ext_getElem?
  intro k
  rw [List.getElem?_mapIdx, List.getElem?_map, List.getElem?_map, List.getD_eq_getElem?_getD, List.getElem?_map]
  cases xs[k]? <;> rfl

theorem eachHop_elementwise (r c : Nat) (f : ℂ → Vec3 → Vec3 → ℂ) :
    Elementwise r c (fun data p1 p2 _ => .ok (eachHop f data p1 p2)) (fun _ e p1 p2 i j => f (e i j) p1 p2) := by
  intro name xs
  unfold eachHop
  have h := mapIdx_layout r c (fun _ _ k e => f e ((xs.map (·.2.1)).getD k 0) ((xs.map (·.2.2)).getD k 0)) (xs.map (·.1))
  simp only [List.length_map] at h ⊢
  rw [h]
  congr 2
  apply List.ext_getElem?
  intro k
  simp only [List.getElem?_mapIdx, List.getElem?_map, List.getD_eq_getElem?_getD]
  cases xs[k]? <;> rfl

theorem eachSite_elementwise (n : Nat) (f : ℂ → Vec3 → ℂ) :
    OnsiteElementwise n (fun data p _ => .ok (eachSite f data p)) (fun _ e p i j => f (e i j) p) := by
  intro name xs
  unfold eachSite
  have h := mapIdx_layout n n (fun _ _ k e => f e ((xs.map (·.2)).getD k 0)) (xs.map (·.1))
  simp only [List.length_map] at h ⊢
  rw [h]
  congr 2
  apply List.ext_getElem?
  intro k
  simp only [List.getElem?_mapIdx, List.getElem?_map, List.getD_eq_getElem?_getD]
  cases xs[k]? <;> rfl

/-- The phase which the field gives to a hopping. -/
noncomputable def fieldPhase (B : ℝ) (p1 p2 : Vec3) : ℝ := fieldConst * peierls B p1 p2

/-- What the field does with one hopping. -/
noncomputable def fieldFn (B : ℝ) : ElemFn ℂ Vec3 := fun _ e p1 p2 i j => e i j * cis (fieldPhase B p1 p2)

theorem magneticField_elementwise (B : ℝ) (r c : Nat) : Elementwise r c (magneticField B) (fieldFn B) := by
  have h := eachHop_elementwise r c fun e p1 p2 => e * Complex.exp (Complex.I * fieldConst * peierls B p1 p2)
  intro name xs
  have := h name xs
  unfold magneticField
  refine this.trans ?_
  unfold fieldFn fieldPhase cis
  congr 3
  funext x i j
  congr 2
  push_cast
  ring

/-- What strain does with one hopping. -/
noncomputable def strainFn : ElemFn ℂ Vec3 := fun _ e p1 p2 i j =>
  e i j * ((Real.exp (-beta * (bondLength p1 p2 / Pipeline.Repository.aCC - 1)) : ℝ) : ℂ)

theorem strainedHopping_elementwise (r c : Nat) : Elementwise r c strainedHopping strainFn :=
  eachHop_elementwise r c _

/-- What the mass term does with one site. -/
def massFn (delta : ℝ) : OnsiteFn ℂ Vec3 := fun name e _ i j =>
  e i j + (if Binding.Names.splitEq name.toList "A".toList then (delta : ℂ) else 0)
    - (if Binding.Names.splitEq name.toList "B".toList then (delta : ℂ) else 0)

theorem massTerm_elementwise (delta : ℝ) : OnsiteElementwise 1 (massTerm delta) (massFn delta) := by
  intro name xs
  unfold massTerm
  rw [if_neg (by rw [length_layout]; simp)]
  unfold addWhere massFn layout
  congr 1
  split <;> split <;> simp [List.range_succ, sub_eq_add_neg]

/-- What the Coulomb potential does with one site. -/
noncomputable def coulombFn (beta cutoff : ℝ) (offset : Vec3) : OnsiteFn ℂ Vec3 := fun _ e p i j =>
  e i j - ((beta * hbarVf / max (radius offset p) cutoff : ℝ) : ℂ)

theorem clip_eq (cutoff r : ℝ) : clip cutoff r = max r cutoff := by
  unfold clip
  split
  · rw [max_eq_right (le_of_lt ‹_›)]
  · rw [max_eq_left (not_lt.1 ‹_›)]

theorem coulomb_elementwise (beta : ℝ) {cutoff : ℝ} (hc : 0 < cutoff) (offset : Vec3) (n : Nat) :
    OnsiteElementwise n (coulomb beta cutoff offset) (coulombFn beta cutoff offset) := by
  have h := eachSite_elementwise n fun e p => e - ((beta * hbarVf / clip cutoff (radius offset p) : ℝ) : ℂ)
  intro name xs
  unfold coulomb
  rw [if_neg (by
    rintro ⟨p, -, hp⟩
    rw [clip_eq] at hp
    have := le_max_right (radius offset p) cutoff
    rw [hp] at this
    linarith)]
  have := h name xs
  simp only [clip_eq] at this ⊢
  exact this

/-- What the constant potential does with one site. -/
def potentialFn (V : ℝ) : OnsiteFn ℂ Vec3 := fun _ e _ i j => if i = j then e i j + V else e i j

theorem constantPotential_elementwise (V : ℝ) (n : Nat) : OnsiteElementwise n (constantPotential V) (potentialFn V) := by
  intro name xs
  unfold constantPotential
  rcases Nat.eq_zero_or_pos xs.length with h0 | h0
  · rw [List.length_eq_zero_iff] at h0
    subst h0
    have : ∀ es : List (Nat → Nat → ℂ), es = [] → layout n n es = [] := by
      intro es h
      subst h
      apply List.eq_nil_of_length_eq_zero
      rw [length_layout]; simp
    simp [this]
  · have hn : Nat.sqrt ((layout n n (xs.map (·.1))).length / (xs.map (·.2)).length) = n := by
      rw [length_layout, List.length_map, List.length_map, Nat.mul_div_cancel_left _ h0, Nat.sqrt_eq]
    have h := mapIdx_layout n n (fun i j _ e => if i = j then e + (V : ℂ) else e) (xs.map (·.1))
    simp only [hn]
    simp only [List.length_map] at h ⊢
    rw [h]
    congr 2
    apply List.ext_getElem?
    intro k
    simp only [List.getElem?_mapIdx, List.getElem?_map]
    cases xs[k]? <;> rfl

end Verif.Field
