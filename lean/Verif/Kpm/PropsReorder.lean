import Verif.Kpm.ReorderApply
import Mathlib.Tactic.NormNum
import Mathlib.Tactic.FinCases

/-!
# Properties of the optimized Hamiltonian (C24, C25)

`h` is the Hamiltonian as a list of rows with increasing columns (`Sorted`).  `invA` is `2 / a`.
-/

namespace Verif.Kpm

open Verif.Numeric
open Verif.Hopping (Csr)
open Verif.Hamiltonian (Sorted coeff)

variable {K V : Type} {n : Nat}

/-- The matrix stored in a list of rows. -/
def matrixOf [AddMonoid K] (n : Nat) (m : Csr K) : Matrix (Fin n) (Fin n) K := fun i j => coeff m i j

/-- A vector with its elements moved by `σ`: element `i` is at place `σ i`. -/
def moved (σ : Equiv.Perm (Fin n)) (x : Fin n → V) : Fin n → V := fun i => x (σ.symm i)

theorem matrixOf_reordered [CommRing K] {h : Csr K} {invA b : K} {first : Fin n} {src dest : List (Fin n)} {o : Optimized K}
    {σ : Equiv.Perm (Fin n)} (R : Reordered h invA b first src dest o σ) :
    matrixOf n o.h2 = (invA • (matrixOf n h - b • (1 : Matrix (Fin n) (Fin n) K))).submatrix σ.symm σ.symm := by
  ext i j
  have := R.coeff_eq (σ.symm i) (σ.symm j)
  rw [σ.apply_symm_apply, σ.apply_symm_apply] at this
  simp only [matrixOf, Matrix.submatrix_apply, Matrix.smul_apply, Matrix.sub_apply, Matrix.one_apply, smul_eq_mul]
  rw [this, mul_comm]
  congr 2
  split <;> simp

/-! ## C24 -/

/-- **C24** (matrix).  For every matrix, scale factors and targets such that all indices can be reached from the
first target, the reordered matrix is `invA (H - b)` with rows and columns renamed by a permutation that sends
the first target to 0; its rows are valid; the targets are renamed by the same permutation, which is also what
the reorder map stores. -/
theorem C24_matrix [CommRing K] [DecidableEq K] {h : Csr K} (hs : Sorted n h) (invA b : K) (first : Fin n)
    (src dest : List (Fin n)) (hd : dest ≠ []) (hr : ∀ i : Fin n, Reach h first i) :
    ∃ (o : Optimized K) (σ : Equiv.Perm (Fin n)),
      createReordered h invA b ((first :: src).map (·.val)) (dest.map (·.val)) = .ok o ∧
      (σ first).val = 0 ∧ Sorted n o.h2 ∧
      matrixOf n o.h2 = (invA • (matrixOf n h - b • (1 : Matrix (Fin n) (Fin n) K))).submatrix σ.symm σ.symm ∧
      o.map = (List.ofFn fun i => ((σ i).val : Int)) ∧
      o.src = ((first :: src).map fun i => (σ i).val) ∧ o.dest = dest.map fun i => (σ i).val := by
  obtain ⟨o, σ, e, R⟩ := createReordered_ok hs invA b first src dest hd hr
  exact ⟨o, σ, e, R.first_eq, R.sorted, matrixOf_reordered R, R.map_eq, R.src_eq, R.dest_eq⟩

/-- **C24** (well defined exactly when connected).  The procedure has a result if and only if every index can be
reached from the first target; otherwise it reads outside its queue. -/
theorem C24_defined_iff [CommRing K] [DecidableEq K] {h : Csr K} (hs : Sorted n h) (invA b : K) (first : Fin n)
    (src dest : List (Fin n)) (hd : dest ≠ []) :
    ((∃ o, createReordered h invA b ((first :: src).map (·.val)) (dest.map (·.val)) = .ok o) ↔
      ∀ i : Fin n, Reach h first i) ∧
    ((¬ ∀ i : Fin n, Reach h first i) →
      createReordered h invA b ((first :: src).map (·.val)) (dest.map (·.val)) = .ub) := by
  refine ⟨⟨?_, ?_⟩, createReordered_ub hs invA b first _ _⟩
  · rintro ⟨o, e⟩
    by_contra hno
    have := createReordered_ub hs invA b first (src.map (·.val)) (dest.map (·.val)) hno
    rw [List.map_cons] at e
    rw [this] at e
    cases e
  · intro hr
    obtain ⟨o, σ, e, -⟩ := createReordered_ok hs invA b first src dest hd hr
    exact ⟨o, e⟩

/-- **C24** (vectors and operators).  Vectors and operators reordered with the map of the result are consistent:
the reordered operator applied to the reordered vector is the reordered result, and it is `σ`-conjugated. -/
theorem C24_vectors [CommRing K] [AddCommMonoid V] [Module K V] {map : List Int} {σ : Equiv.Perm (Fin n)}
    (hm : map = List.ofFn fun i => ((σ i).val : Int)) {op : Csr K} (hop : Sorted n op) (x : Fin n → V) (junk : List V)
    (hj : junk.length = n) :
    reorderVec map junk (List.ofFn x) = .ok (List.ofFn (moved σ x)) ∧
    ∃ op', reorderMat map op n = .ok op' ∧ Sorted n op' ∧
      matrixOf n op' = (matrixOf n op).submatrix σ.symm σ.symm ∧
      act (matrixOf n op') (moved σ x) = moved σ (act (matrixOf n op) x) := by
  refine ⟨reorderVec_eq hm junk hj x, ?_⟩
  obtain ⟨op', e, hs', hc⟩ := reorderMat_eq hm hop
  have hM : matrixOf n op' = (matrixOf n op).submatrix σ.symm σ.symm := by
    ext i j
    have := hc (σ.symm i) (σ.symm j)
    rw [σ.apply_symm_apply, σ.apply_symm_apply] at this
    exact this
  refine ⟨op', e, hs', hM, ?_⟩
  funext i
  rw [hM]
  simp only [act, moved, Matrix.submatrix_apply]
  exact Equiv.sum_comp σ.symm fun j => matrixOf n op (σ.symm i) j • x j

/-- **C24** (without reordering).  `create_scaled` gives `invA (H - b)` and keeps all indices. -/
theorem C24_scaled [CommRing K] [DecidableEq K] {h : Csr K} (hs : Sorted n h) (invA b : K) (src dest : List Nat) :
    let o := createScaled h invA b src dest
    Sorted n o.h2 ∧ matrixOf n o.h2 = invA • (matrixOf n h - b • (1 : Matrix (Fin n) (Fin n) K)) ∧
      o.src = src ∧ o.dest = dest ∧ (∀ junk x : List V, reorderVec o.map junk x = .ok x) ∧
      ∀ op : Csr K, reorderMat o.map op n = .ok op := by
  intro o
  obtain ⟨h1, h2, h3, h4, h5, -⟩ := createScaled_spec hs invA b src dest
  refine ⟨h1, ?_, h4, h5, fun _ _ => rfl, fun _ => rfl⟩
  ext i j
  have := h2 i j
  simp only [matrixOf, Matrix.smul_apply, Matrix.sub_apply, Matrix.one_apply, smul_eq_mul]
  rw [this, mul_comm]
  congr 2
  split <;> simp

/-- **C24** (storage).  The compressed arrays handed to the kernels are valid and hold the same matrix. -/
theorem C24_compressed [AddCommMonoid K] {rows : Csr K} (hs : Sorted n rows) :
    (ofRows n rows).WF ∧ (ofRows n rows).rows = n ∧ (ofRows n rows).cols = n ∧ (ofRows n rows).toMatrix n = matrixOf n rows :=
  ⟨ofRows_wf hs, rfl, rfl, ofRows_toMatrix hs.1⟩

/-! ## C25 -/

/-- Specification: index `i` is in slice `k`, between border `k - 1` and border `k`. -/
def InSlice (data : List Nat) (k i : Nat) : Prop :=
  k < data.length ∧ (k = 0 ∨ border data (k - 1) ≤ i) ∧ i < border data k

/-- **C25** (borders).  The borders increase strictly, the last one is the size of the system, and every index is
in exactly one slice. -/
theorem C25_borders [CommRing K] [DecidableEq K] {h : Csr K} (hs : Sorted n h) (invA b : K) (first : Fin n)
    (src dest : List (Fin n)) (hd : dest ≠ []) (hr : ∀ i : Fin n, Reach h first i) :
    ∃ o, createReordered h invA b ((first :: src).map (·.val)) (dest.map (·.val)) = .ok o ∧
      o.slices.data.Pairwise (· < ·) ∧ o.slices.data.getLast? = some n ∧
      ∀ i < n, ∃ k, InSlice o.slices.data k i ∧ ∀ l, InSlice o.slices.data l i → l = k := by
  obtain ⟨o, σ, e, R⟩ := createReordered_ok hs invA b first src dest hd hr
  have hL : 0 < o.slices.data.length := List.length_pos_of_ne_nil R.nonempty
  have hmono := R.borders.imp Nat.le_of_lt
  refine ⟨o, e, R.borders, ?_, fun i hi => ?_⟩
  · have := R.last
    unfold border at this
    rw [Nat.min_self, List.getD_eq_getElem _ _ (by omega)] at this
    rw [List.getLast?_eq_getElem?, List.getElem?_eq_getElem (by omega), this]
  · have hex : ∃ k, i < border o.slices.data k := ⟨_, by rw [R.last]; exact hi⟩
    classical
    have hlt : Nat.find hex < o.slices.data.length := by
      have := Nat.find_min' hex (m := o.slices.data.length - 1) (by rw [R.last]; exact hi)
      omega
    refine ⟨Nat.find hex, ⟨hlt, ?_, Nat.find_spec hex⟩, ?_⟩
    · by_cases h0 : Nat.find hex = 0
      · exact .inl h0
      · right
        have := Nat.find_min hex (m := Nat.find hex - 1) (by omega)
        omega
    · rintro l ⟨-, h2, h3⟩
      have h4 := Nat.find_min' hex h3
      rcases h2 with h2 | h2
      · omega
      · by_contra hne
        have h5 := border_mono hmono (show Nat.find hex ≤ l - 1 by omega)
        have := Nat.find_spec hex
        omega

/-- **C25** (spread).  If the pattern of the matrix is symmetric, an element of the reordered matrix only connects
equal or adjacent slices. -/
theorem C25_spread [CommRing K] [DecidableEq K] {h : Csr K} (hs : Sorted n h) (invA b : K) (first : Fin n)
    (src dest : List (Fin n)) (hd : dest ≠ []) (hr : ∀ i : Fin n, Reach h first i)
    (hsym : ∀ i j : Fin n, coeff h i j ≠ 0 → coeff h j i ≠ 0) :
    ∃ o, createReordered h invA b ((first :: src).map (·.val)) (dest.map (·.val)) = .ok o ∧
      Slices o.slices.data (matrixOf n o.h2) ∧
      ∀ (i j : Fin n) k l, InSlice o.slices.data k i → InSlice o.slices.data l j → matrixOf n o.h2 i j ≠ 0 →
        l ≤ k + 1 ∧ k ≤ l + 1 := by
  obtain ⟨o, σ, e, R⟩ := createReordered_ok hs invA b first src dest hd hr
  have S : Slices o.slices.data (matrixOf n o.h2) := R.slices hsym
  refine ⟨o, e, S, fun i j k l hk hl hA => ⟨?_, ?_⟩⟩
  · by_contra hlt
    have h1 := S.rows i j k hA hk.2.2
    have h2 := border_mono S.mono (show k + 1 ≤ l - 1 by omega)
    rcases hl.2.1 with h3 | h3 <;> omega
  · by_contra hlt
    have h1 := S.cols i j l hA hl.2.2
    have h2 := border_mono S.mono (show l + 1 ≤ k - 1 by omega)
    rcases hk.2.1 with h3 | h3 <;> omega

/-- **C25** (meaning of the slices).  The first `k + 1` slices are exactly the indices that can be reached from the
first target in at most `k` steps; the source (destination) offset is the number of the first slice below whose
border all sources (destinations) are. -/
theorem C25_balls [CommRing K] [DecidableEq K] {h : Csr K} (hs : Sorted n h) (invA b : K) (first : Fin n)
    (src dest : List (Fin n)) (hd : dest ≠ []) (hr : ∀ i : Fin n, Reach h first i) :
    ∃ (o : Optimized K) (σ : Equiv.Perm (Fin n)),
      createReordered h invA b ((first :: src).map (·.val)) (dest.map (·.val)) = .ok o ∧
      o.map = (List.ofFn fun i => ((σ i).val : Int)) ∧
      (∀ k (i : Fin n), (σ i).val < border o.slices.data k ↔ Within h first k i) ∧
      (∀ k, o.slices.src ≤ k ↔ ∀ i ∈ first :: src, Within h first k i) ∧
      (∀ k, o.slices.dest ≤ k ↔ ∀ i ∈ dest, Within h first k i) := by
  obtain ⟨o, σ, e, R⟩ := createReordered_ok hs invA b first src dest hd hr
  refine ⟨o, σ, e, R.map_eq, R.ball, fun k => ?_, fun k => ?_⟩
  · rw [R.srcSlice.2 k]; simp only [R.ball]
  · rw [R.destSlice.2 k]; simp only [R.ball]

/-! ## Examples: the hypotheses can be met -/

/-- A ring of four sites with an onsite energy at site 1. -/
def ring4 : Csr Int := [[(1, 1), (3, 1)], [(0, 1), (1, 5), (2, 1)], [(1, 1), (3, 1)], [(0, 1), (2, 1)]]

/-- Two separate pairs of sites. -/
def pairs4 : Csr Int := [[(1, 1)], [(0, 1)], [(3, 1)], [(2, 1)]]

theorem ring4_sorted : Sorted 4 ring4 := ⟨rfl, by decide⟩

theorem pairs4_sorted : Sorted 4 pairs4 := ⟨rfl, by decide⟩

theorem ring4_reach (i : Fin 4) : Reach ring4 2 i := by
  have h1 : Reach ring4 2 1 := .single ⟨1, by decide⟩
  have h3 : Reach ring4 2 3 := .single ⟨1, by decide⟩
  have h0 : Reach ring4 2 0 := .tail h1 ⟨1, by decide⟩
  fin_cases i
  · exact h0
  · exact h1
  · exact .refl
  · exact h3

example : ∃ (o : Optimized Int) (σ : Equiv.Perm (Fin 4)),
    createReordered ring4 1 7 [2, 0] [1] = .ok o ∧ (σ 2).val = 0 ∧ Sorted 4 o.h2 ∧
    matrixOf 4 o.h2 = ((1 : Int) • (matrixOf 4 ring4 - (7 : Int) • (1 : Matrix (Fin 4) (Fin 4) Int))).submatrix σ.symm σ.symm ∧
    o.map = (List.ofFn fun i => ((σ i).val : Int)) ∧ o.src = (([2, 0] : List (Fin 4)).map fun i => (σ i).val) ∧
    o.dest = ([1] : List (Fin 4)).map fun i => (σ i).val :=
  C24_matrix ring4_sorted 1 7 2 [0] [1] (by decide) ring4_reach

example : ∃ o, createReordered ring4 1 7 [2, 0] [1] = .ok o ∧ Slices o.slices.data (matrixOf 4 o.h2) := by
  obtain ⟨o, e, S, -⟩ := C25_spread ring4_sorted 1 7 (2 : Fin 4) [0] [1] (by decide) ring4_reach (by decide)
  exact ⟨o, e, S⟩

/-- The slices of the ring around site 2: the site, its two neighbours, the opposite site. -/
example : (match createReordered ring4 1 7 [2, 0] [1] with | .ok o => some o.slices | _ => none) = some ⟨[1, 3, 4], 2, 1⟩ := by
  decide

theorem pairs4_reach : ¬ ∀ i : Fin 4, Reach pairs4 0 i := by
  intro h
  have key : ∀ j, Reach pairs4 0 j → j = 0 ∨ j = 1 := by
    intro j hj
    induction hj with
    | refl => exact .inl rfl
    | tail _ ha ih =>
      obtain ⟨v, hv⟩ := ha
      rcases ih with rfl | rfl
      · simp [pairs4] at hv; omega
      · simp [pairs4] at hv; omega
  have := key _ (h 2)
  simp at this

/-- A system that is not connected (the default configuration reorders, so this is what the user gets). -/
example : createReordered pairs4 1 0 [0] [0] = .ub :=
  (C24_defined_iff pairs4_sorted 1 0 (0 : Fin 4) [] [0] (by decide)).2 pairs4_reach

example : reorderVec ([1, 2, 0, 3] : List Int) [0, 0, 0, 0] [10, 11, 12, 13] = .ok [12, 10, 11, 13] := by decide

example : (ofRows 4 ring4).WF := (C24_compressed ring4_sorted).1

end Verif.Kpm
