import Verif.Hamiltonian.Csr
import Verif.Sublat.Props
import Mathlib.Data.List.Perm.Basic
import Mathlib.Algebra.Star.BigOperators
import Mathlib.Algebra.BigOperators.Ring.List

/-!
# The calls made while filling the matrix
-/

namespace Verif.Hamiltonian

open Verif.Sublat (Table It iters)
open Verif.Hopping (COO HoppingBlocks Csr csrInsert overwrite)
open Verif.Lattice (Registry)

variable {C K P : Type}

/-! ## Arrays of small matrices -/

/-- Specification: a list of small matrices stored as an array of shape `(r, c, length)`. -/
def layout (r c : Nat) (es : List (Nat → Nat → K)) : List K :=
  (List.range r).flatMap fun i => (List.range c).flatMap fun j => es.map fun e => e i j

/-- Specification: the calls for one small matrix `e` whose element `(i, j)` belongs at `φ i j`; zero
elements are skipped. -/
def elemCalls [Zero K] [DecidableEq K] (φ : Nat → Nat → Int × Int) (r c : Nat) (e : Nat → Nat → K) :
    List (Call K) :=
  (List.range r).flatMap fun i => (List.range c).flatMap fun j =>
    if e i j = 0 then [] else [((φ i j).1, (φ i j).2, e i j)]

theorem flatMap_append_perm' {α β : Type} (l : List α) (f g : α → List β) :
    (l.flatMap fun a => f a ++ g a).Perm (l.flatMap f ++ l.flatMap g) := by
  induction l with
  | nil => simp
  | cons a l ih =>
    simp only [List.flatMap_cons]
    have h1 : (f a ++ g a ++ l.flatMap fun a => f a ++ g a).Perm
        (f a ++ g a ++ (l.flatMap f ++ l.flatMap g)) := List.Perm.append_left _ ih
    refine h1.trans ?_
    have h2 : (g a ++ (l.flatMap f ++ l.flatMap g)).Perm (l.flatMap f ++ (g a ++ l.flatMap g)) := by
      rw [← List.append_assoc, ← List.append_assoc]
      exact List.Perm.append_right _ List.perm_append_comm
    simpa [List.append_assoc] using List.Perm.append_left (f a) h2

theorem flatMap_perm_congr {α β : Type} (l : List α) (f g : α → List β)
    (h : ∀ a ∈ l, (f a).Perm (g a)) : (l.flatMap f).Perm (l.flatMap g) := by
  induction l with
  | nil => simp
  | cons a l ih =>
    simp only [List.flatMap_cons]
    exact (h a List.mem_cons_self).append (ih fun b hb => h b (List.mem_cons_of_mem _ hb))

theorem emit_append [Zero K] [DecidableEq K] (i1 i2 : List (Int × Int)) (d1 d2 : List K)
    (h : i1.length = d1.length) : emit (i1 ++ i2) (d1 ++ d2) = emit i1 d1 ++ emit i2 d2 := by
  unfold emit
  rw [List.zip_append h, List.filterMap_append]

theorem emit_flatMap [Zero K] [DecidableEq K] {α : Type} (l : List α) (f : α → List (Int × Int))
    (g : α → List K) (h : ∀ a ∈ l, (f a).length = (g a).length) :
    emit (l.flatMap f) (l.flatMap g) = l.flatMap fun a => emit (f a) (g a) := by
  induction l with
  | nil => rfl
  | cons a l ih =>
    simp only [List.flatMap_cons]
    rw [emit_append _ _ _ _ (h a List.mem_cons_self), ih fun b hb => h b (List.mem_cons_of_mem _ hb)]

theorem flatMap_nil' {α β : Type} (l : List α) : (l.flatMap fun _ => ([] : List β)) = [] := by
  induction l <;> simp [*]

/-- The calls made for an array of small matrices are those of the single matrices. -/
theorem emit_layout_perm [Zero K] [DecidableEq K] {α : Type} (r c : Nat) (φ : Nat → Nat → α → Int × Int)
    (xs : List α) (es : List (Nat → Nat → K)) (h : es.length = xs.length) :
    (emit ((List.range r).flatMap fun i => (List.range c).flatMap fun j => xs.map (φ i j))
        (layout r c es)).Perm
      ((xs.zip es).flatMap fun p => elemCalls (fun i j => φ i j p.1) r c p.2) := by
  have e1 : emit ((List.range r).flatMap fun i => (List.range c).flatMap fun j => xs.map (φ i j))
      (layout r c es) = (List.range r).flatMap fun i => (List.range c).flatMap fun j =>
        emit (xs.map (φ i j)) (es.map fun e => e i j) := by
    unfold layout
    rw [emit_flatMap]
    · apply congrArg (fun f => (List.range r).flatMap f)
      funext i
      rw [emit_flatMap]
      intro j _
      simp [h]
    · intro i _
      simp [List.length_flatMap, h]
  rw [e1]
  clear e1
  induction xs generalizing es with
  | nil =>
    have : es = [] := by simpa using h
    subst this
    simp [emit, flatMap_nil']
  | cons x xs ih =>
    cases es with
    | nil => simp at h
    | cons e es =>
      have h' : es.length = xs.length := by simpa using h
      rw [List.zip_cons_cons, List.flatMap_cons]
      refine List.Perm.trans ?_ (List.Perm.append_left _ (ih es h'))
      unfold elemCalls
      have e2 : ∀ i j, emit ((x :: xs).map (φ i j)) ((e :: es).map fun e => e i j)
          = (if e i j = 0 then [] else [((φ i j x).1, (φ i j x).2, e i j)])
            ++ emit (xs.map (φ i j)) (es.map fun e => e i j) := by
        intro i j
        unfold emit
        rw [List.map_cons, List.map_cons, List.zip_cons_cons, List.filterMap_cons]
        by_cases hz : e i j = 0 <;> simp [hz]
      simp only [e2]
      refine (flatMap_perm_congr _ _ _ fun i _ => flatMap_append_perm' _ _ _).trans ?_
      exact flatMap_append_perm' _ _ _

theorem length_layout (r c : Nat) (es : List (Nat → Nat → K)) :
    (layout r c es).length = es.length * (r * c) := by
  simp only [layout, List.length_flatMap, List.length_map, List.map_const', List.sum_replicate_nat,
    List.length_range]
  rw [Nat.mul_comm es.length, Nat.mul_assoc]

theorem getElem?_flatMap_uniform {α β : Type} (l : List α) (f : α → List β) (n : Nat)
    (h : ∀ a ∈ l, (f a).length = n) (q m : Nat) (hm : m < n) :
    (l.flatMap f)[q * n + m]? = (l[q]?).bind fun a => (f a)[m]? := by
  induction l generalizing q with
  | nil => simp
  | cons a l ih =>
    rw [List.flatMap_cons]
    have ha := h a List.mem_cons_self
    cases q with
    | zero => rw [Nat.zero_mul, Nat.zero_add, List.getElem?_append_left (by omega)]; simp
    | succ q =>
      rw [List.getElem?_append_right (by rw [ha, Nat.succ_mul]; omega), ha]
      have : (q + 1) * n + m - n = q * n + m := by rw [Nat.succ_mul]; omega
      rw [this, ih fun b hb => h b (List.mem_cons_of_mem _ hb)]
      simp

theorem getElem?_layout (r c : Nat) (es : List (Nat → Nat → K)) (i j k : Nat) (hi : i < r) (hj : j < c)
    (hk : k < es.length) : (layout r c es)[(i * c + j) * es.length + k]? = (es[k]?).map fun e => e i j := by
  unfold layout
  have e : (i * c + j) * es.length + k = i * (c * es.length) + (j * es.length + k) := by
    rw [Nat.add_mul, Nat.mul_assoc]; omega
  rw [e, getElem?_flatMap_uniform _ _ (c * es.length)]
  · rw [List.getElem?_range hi]
    simp only [Option.bind_some]
    rw [getElem?_flatMap_uniform _ _ es.length _ _ _ hk]
    · rw [List.getElem?_range hj]; simp
    · intro a _; simp
  · intro a _; simp [List.length_flatMap]
  · calc j * es.length + k < j * es.length + es.length := by omega
      _ = (j + 1) * es.length := by rw [Nat.succ_mul]
      _ ≤ c * es.length := Nat.mul_le_mul_right _ hj

/-- Every array of the right length is a list of small matrices. -/
theorem exists_layout [Zero K] (r c n : Nat) (data : List K) (h : data.length = n * (r * c)) :
    ∃ es : List (Nat → Nat → K), es.length = n ∧ data = layout r c es ∧
      ∀ k, k < n → ∀ i j, (es.getD k fun _ _ => 0) i j = data.getD ((i * c + j) * n + k) 0 := by
  refine ⟨(List.range n).map fun k => fun i j => data.getD ((i * c + j) * n + k) 0, by simp, ?_, ?_⟩
  · apply List.ext_getElem?
    intro x
    have hl : (layout r c ((List.range n).map fun k => fun i j => data.getD ((i * c + j) * n + k) 0)).length
        = n * (r * c) := by rw [length_layout]; simp
    by_cases hx : x < n * (r * c)
    · have hn : 0 < n := Nat.pos_of_ne_zero (by rintro rfl; simp at hx)
      have hc : 0 < c := Nat.pos_of_ne_zero (by rintro rfl; simp at hx)
      have hq : x / n < r * c := by rw [Nat.div_lt_iff_lt_mul hn, Nat.mul_comm]; exact hx
      have hi : x / n / c < r := by rw [Nat.div_lt_iff_lt_mul hc]; exact hq
      have hj := Nat.mod_lt (x / n) hc
      have hk := Nat.mod_lt x hn
      have hd : (x / n / c * c + x / n % c) = x / n := Nat.div_add_mod' _ _
      have hd2 : x / n * n + x % n = x := Nat.div_add_mod' _ _
      have := getElem?_layout r c ((List.range n).map fun k => fun i j => data.getD ((i * c + j) * n + k) 0)
        (x / n / c) (x / n % c) (x % n) hi hj (by simpa using hk)
      simp only [List.length_map, List.length_range, hd, hd2] at this
      rw [this, List.getElem?_map, List.getElem?_range hk]
      simp only [Option.map_some, hd, hd2]
      rw [List.getD_eq_getElem?_getD, List.getElem?_eq_getElem (by omega)]
      rfl
    · rw [List.getElem?_eq_none (by omega), List.getElem?_eq_none (by omega)]
  · intro k hk i j
    rw [List.getD_eq_getElem?_getD, List.getElem?_map, List.getElem?_range hk]
    rfl

/-! ## Sums of calls -/

theorem callSum_flatMap [AddMonoid K] {α : Type} (l : List α) (f : α → List (Call K)) (a b : Int) :
    callSum (l.flatMap f) a b = (l.map fun x => callSum (f x) a b).sum := by
  induction l with
  | nil => rfl
  | cons x l ih => rw [List.flatMap_cons, callSum_append, ih]; simp

theorem callSum_elemCalls [AddMonoid K] [DecidableEq K] (φ : Nat → Nat → Int × Int) (r c : Nat)
    (e : Nat → Nat → K) (a b : Int) :
    callSum (elemCalls φ r c e) a b = ((List.range r).map fun i => ((List.range c).map fun j =>
      if φ i j = (a, b) then e i j else 0).sum).sum := by
  unfold elemCalls
  rw [callSum_flatMap]
  congr 1
  apply List.map_congr_left
  intro i _
  rw [callSum_flatMap]
  congr 1
  apply List.map_congr_left
  intro j _
  by_cases hz : e i j = 0
  · simp [hz]
  · rw [if_neg hz, callSum_cons]
    simp [Prod.ext_iff]

theorem star_list_sum [AddCommMonoid K] [StarAddMonoid K] (l : List K) :
    star l.sum = (l.map star).sum := by
  induction l with
  | nil => simp
  | cons x l ih => simp [ih]

theorem list_sum_comm [AddCommMonoid K] {α β : Type} (l : List α) (m : List β) (f : α → β → K) :
    (l.map fun a => (m.map fun b => f a b).sum).sum = (m.map fun b => (l.map fun a => f a b).sum).sum := by
  induction l with
  | nil => simp
  | cons a l ih => simp [ih, List.sum_map_add]

/-- The conjugated calls contribute the conjugate transpose. -/
theorem callSum_withConjugate [AddCommMonoid K] [StarAddMonoid K] (calls : List (Call K)) (a b : Int) :
    callSum (withConjugate calls) a b = callSum calls a b + star (callSum calls b a) := by
  unfold withConjugate
  induction calls with
  | nil => simp
  | cons c rest ih =>
    obtain ⟨i, j, v⟩ := c
    rw [List.flatMap_cons, callSum_append, ih, callSum_cons, callSum_cons, callSum_cons, callSum_cons]
    have e : star ((if i = b ∧ j = a then v else 0) + callSum rest b a)
        = (if j = a ∧ i = b then star v else 0) + star (callSum rest b a) := by
      rw [star_add]
      by_cases h : i = b ∧ j = a
      · rw [if_pos h, if_pos h.symm]
      · rw [if_neg h, if_neg fun h' => h h'.symm, star_zero]
    simp only [callSum_nil, add_zero]
    rw [e]
    exact add_add_add_comm _ _ _ _

theorem withConjugate_hermitian [AddCommMonoid K] [StarAddMonoid K] (calls : List (Call K)) (a b : Int) :
    callSum (withConjugate calls) a b = star (callSum (withConjugate calls) b a) := by
  rw [callSum_withConjugate, callSum_withConjugate, star_add, star_star, add_comm]

end Verif.Hamiltonian
