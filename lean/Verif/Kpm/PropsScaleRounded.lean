import Verif.Kpm.ScaleRounded
import Verif.Kpm.PropsFloat
import Verif.Kpm.PropsCore

/-!
# C99: Green's functions from a stored Hamiltonian, in floating-point arithmetic from the scaling on
-/

namespace Verif.Kpm.Float

open Verif.Numeric Verif.Kpm Finset Polynomial
open Verif.Hopping (Csr)
open Verif.Hamiltonian (Sorted coeff)

variable {K : Type} {n : Nat} [Zero K] [Add K] [Sub K] [Neg K] [Mul K] [DecidableEq K] {val : K → ℂ} {u : ℝ}

/-- `Core::greens_vector`, Core.cpp:102-116 with default/Compute.cpp:96-100, in floating-point arithmetic: the arrays of moments before damping. The optimized matrix is
computed with the operations of the scalar type `K` and multiplied by the kernels `f` with the operations `ops`. Only the branch for several columns or a column other than
the row. -/
noncomputable def roundedMoments (ops : Ops) (f : Kernels n) (val : K → ℂ) (cfg : AlgorithmConfig) (h : Csr K) (invA b : K) (num row : Nat) (cols : List Nat)
    (junk : Nat → ℂ) : Res (List (List ℂ)) := do
  let o ← optimizeFor cfg.reorder h invA b [row] cols
  let M ← f.mat ops (ofRows n (mapVal val o.h2))
  let r0 ← unitStart n o.src 0
  let ms ← withOff (1 / 2 : ℝ) M o.slices cfg (multiUnit o.dest) ((List.range num).map fun k => fun _ => junk k) r0
  return (List.finRange o.dest.length).map fun i => ms.map fun v => v i

/-- The sizes of the storage formats are valid. -/
def Kernels.Formed (f : Kernels n) (h : Csr K) : Prop :=
  match f with
  | .csr _ => True
  | .ell ds is _ _ => 0 < ds ∧ 0 < is
  | .simd ds is _ _ _ step => 0 < ds ∧ 0 < is ∧ 0 < step ∧ ∃ i < n, h.getD i [] ≠ []

/-- Specification: the scaled Hamiltonian `(H - c) / a`. -/
noncomputable def scaledBy (H : Matrix (Fin n) (Fin n) ℂ) (a c : ℝ) : Matrix (Fin n) (Fin n) ℂ := ((1 / a : ℝ) : ℂ) • (H - (c : ℂ) • (1 : Matrix (Fin n) (Fin n) ℂ))

omit [Zero K] [Add K] [Sub K] [Neg K] [Mul K] [DecidableEq K] in
theorem scaledBy_hermitian {H : Matrix (Fin n) (Fin n) ℂ} (hH : H.IsHermitian) (a c : ℝ) : (scaledBy H a c).IsHermitian := by
  apply Matrix.IsHermitian.ext
  intro i j
  unfold scaledBy
  have hij := hH.apply i j
  simp only [Matrix.smul_apply, Matrix.sub_apply, Matrix.one_apply, smul_eq_mul, star_mul', star_sub, RCLike.star_def, Complex.conj_ofReal] at hij ⊢
  rw [hij]
  by_cases e : i = j
  · simp [e]
  · simp [e, Ne.symm e]

/-- The energies of the scaled and reordered matrix are in `[-1, 1]` if those of `H` are in `[c - a, c + a]`. -/
theorem spectrum_scaled {H : Matrix (Fin n) (Fin n) ℂ} (hH : H.IsHermitian) {a c : ℝ} (ha : 0 < a) (hspec : ∀ j, |hH.eigenvalues j - c| ≤ a) (σ : Equiv.Perm (Fin n))
    (hX : ((scaledBy H a c).submatrix σ.symm σ.symm).IsHermitian) (j : Fin n) : |hX.eigenvalues j| ≤ 1 := by
  have h1 := hX.eigenvalues_mem_spectrum_real j
  generalize hX.eigenvalues j = l at h1 ⊢
  have e1 : (scaledBy H a c).submatrix σ.symm σ.symm = Matrix.reindexAlgEquiv ℝ ℂ σ (scaledBy H a c) := rfl
  rw [e1, AlgEquiv.spectrum_eq] at h1
  have h2 : a * l + c ∈ spectrum ℝ H := by
    rw [spectrum.mem_iff] at h1 ⊢
    intro hu
    apply h1
    have e2 : algebraMap ℝ (Matrix (Fin n) (Fin n) ℂ) (a * l + c) - H = (Units.mk0 a ha.ne') • (algebraMap ℝ (Matrix (Fin n) (Fin n) ℂ) l - scaledBy H a c) := by
      ext i k
      simp only [Matrix.sub_apply, Matrix.smul_apply, Matrix.algebraMap_matrix_apply, scaledBy, Units.smul_def, Units.val_mk0, smul_eq_mul, Matrix.one_apply,
        Complex.real_smul, Complex.coe_algebraMap]
      have ha' : (a : ℂ) ≠ 0 := by exact_mod_cast ha.ne'
      split
      · push_cast; field_simp; ring
      · push_cast; field_simp; ring
    rw [e2] at hu
    exact (isUnit_smul_iff _ _).1 hu
  rw [hH.spectrum_real_eq_range_eigenvalues] at h2
  obtain ⟨k, hk⟩ := h2
  have h3 := hspec k
  rw [hk, add_sub_cancel_right, abs_mul, abs_of_pos ha] at h3
  by_contra hc
  push Not at hc
  nlinarith

variable {h : Csr K} {H : Matrix (Fin n) (Fin n) ℂ} {S : Matrix (Fin n) (Fin n) ℝ} {ε η t c : ℝ}

/-- The scale for triples. -/
noncomputable def tripInv (t : ℝ) : Trip := ((t : ℂ), t, 1)

/-- The offset for triples. -/
noncomputable def tripB (c : ℝ) : Trip := ((c : ℂ), -|c|, if c = 0 then 0 else -1)

open Classical in
omit [Zero K] [Add K] [Sub K] [Neg K] [Mul K] [DecidableEq K] in
theorem doubled_triples (hs : Stores val h H S ε) (t c : ℝ) (i j : Fin n) :
    doubled n (triples h H S) (tripInv t) (tripB c) i j
      = ((t : ℂ) * (H i j - if i = j then (c : ℂ) else 0), t * (S i j + if i = j then |c| else 0),
          (if Adj h i j then 1 else 0) + if i = j ∧ c ≠ 0 then 1 else 0) := by
  unfold doubled
  rw [Matrix.smul_apply, Matrix.sub_apply, Matrix.smul_apply, Matrix.one_apply, show matrixOf n (triples h H S) i j = coeff (triples h H S) i j from rfl, hs.coeff_triples]
  unfold tripInv tripB
  by_cases e : i = j
  · by_cases hc : c = 0
    · simp [e, hc]
    · simp [e, hc]
  · simp [e]

omit [Zero K] [Add K] [Sub K] [Neg K] [Mul K] [DecidableEq K] in
theorem ofRows_norm (f : K → ℂ) (m : Csr K) : rawNorm (ofRows n (mapVal f m)) = ofRows n (mapVal (fun x => ‖f x‖) m) := by
  unfold rawNorm ofRows mapVal
  simp only [List.map_map, List.map_flatten, List.map_take, Function.comp_def, List.length_map]

/-- The optimized matrix next to the matrix of triples. -/
theorem optimized_twin (A : Arith K val u) (hs : Stores val h H S ε) (hη : 0 ≤ η) {invA b : K} (ht : 0 ≤ t) (hinv : ‖val invA - t‖ ≤ η * t) (hb : val b = c) (reorder : Bool)
    (row : Fin n) (more cols : List (Fin n)) (hcols : cols ≠ []) (hconn : reorder = true → ∀ i : Fin n, Reach h row i) :
    ∃ (o : Optimized K) (o' : Optimized Trip) (σ : Equiv.Perm (Fin n)), optimizeFor reorder h invA b ((row :: more).map (·.val)) (cols.map (·.val)) = .ok o ∧
      OptRel (Twin val (1 + scaleError u ε η)) o o' ∧ Prepared reorder (triples h H S) (tripInv t) (tripB c) (row :: more) cols o' σ := by
  classical
  have hadj : ∀ i j : Fin n, coeff (triples h H S) i j ≠ 0 → coeff (triples h H S) j i ≠ 0 := by
    intro i j hij
    rw [hs.coeff_triples] at hij ⊢
    have hA : Adj h i j := by
      by_contra hA
      have hS := hs.outside i j fun v hv => hA ⟨v, hv⟩
      have hH : H i j = 0 := by
        have := hs.size i j
        rw [hS] at this
        exact norm_le_zero_iff.1 this
      rw [if_neg hA, hS, hH] at hij
      exact hij rfl
    rw [if_pos (hs.symm i j hA)]
    intro h0
    exact absurd (congrArg (fun w : Trip => w.2.2) h0) (by simp)
  obtain ⟨o', σ, e, P⟩ := optimizeFor_ok hs.tsorted (tripInv t) (tripB c) reorder row more cols hcols
    (fun hr i => by unfold Reach; rw [triples_adj]; exact hconn hr i) hadj
  obtain ⟨o, eo, hr⟩ := optimizeFor_rel (scaling_twin A hs.nonneg hη ht hinv hb) hs.rel reorder e
  exact ⟨o, o', σ, eo, hr, P⟩

section twin

variable {o : Optimized K} {o' : Optimized Trip} {σ : Equiv.Perm (Fin n)} {ν : ℝ} {reorder : Bool} {row : Fin n} {more cols : List (Fin n)}

omit [Zero K] [Add K] [Sub K] [Neg K] [Mul K] [DecidableEq K] in
theorem twin_coeff (P : Prepared reorder (triples h H S) (tripInv t) (tripB c) (row :: more) cols o' σ) (i j : Fin n) :
    coeff o'.h2 i j = doubled n (triples h H S) (tripInv t) (tripB c) (σ.symm i) (σ.symm j) := congrFun (congrFun P.mat i) j

open Classical in
omit [Zero K] [Add K] [Sub K] [Neg K] [Mul K] [DecidableEq K] in
/-- Something is stored in the optimized matrix exactly where something is stored in the Hamiltonian, and on the diagonal if there is an offset. -/
theorem twin_keys (hs : Stores val h H S ε) (hr : OptRel (Twin val (1 + ν)) o o') (P : Prepared reorder (triples h H S) (tripInv t) (tripB c) (row :: more) cols o' σ) (i j : Fin n) :
    j.val ∈ (o.h2.getD i []).map (·.1) ↔ Adj h (σ.symm i) (σ.symm j) ∨ (i = j ∧ c ≠ 0) := by
  have hk := rel_keys (rows_rel hr.h2 i)
  rw [hk]
  have hc := twin_coeff P i j
  rw [doubled_triples hs] at hc
  have hpos : ∀ w : Trip, (j.val, w) ∈ o'.h2.getD i [] → 0 < w.2.2 := by
    intro w hw
    have hrow : RowRel (Twin val (1 + ν)) (o.h2.getD i []) (o'.h2.getD i []) := rows_rel hr.h2 i
    obtain ⟨k, hk, e⟩ := List.mem_iff_getElem.1 hw
    have hk' : k < (o.h2.getD i []).length := by rw [List.Forall₂.length_eq hrow]; exact hk
    have := (List.Forall₂.get hrow hk' hk).2.2
    simp only [List.get_eq_getElem] at this
    rwa [e] at this
  constructor
  · intro hj
    obtain ⟨⟨j', w⟩, he, e⟩ := List.mem_map.1 hj
    simp only at e
    subst e
    have h1 : coeff o'.h2 i j = w := rowCoeff_mem (sorted_row P.sorted i) he
    have h2 := hpos w he
    rw [← h1, hc] at h2
    by_contra hcon
    push Not at hcon
    simp only [EmbeddingLike.apply_eq_iff_eq] at h2
    rw [if_neg hcon.1, if_neg (fun x => x.2 (hcon.2 x.1))] at h2
    exact absurd h2 (by norm_num)
  · intro hor
    by_contra hj
    have h1 : coeff o'.h2 i j = 0 := rowCoeff_none hj
    rw [h1] at hc
    have h2 := congrArg (fun w : Trip => w.2.2) hc
    simp only [EmbeddingLike.apply_eq_iff_eq] at h2
    have h3 : (0 : ℤ) = (if Adj h (σ.symm i) (σ.symm j) then 1 else 0) + if i = j ∧ c ≠ 0 then 1 else 0 := h2
    rcases hor with hA | hD
    · rw [if_pos hA] at h3
      split at h3 <;> omega
    · rw [if_pos hD] at h3
      split at h3 <;> omega

omit [Zero K] [Add K] [Sub K] [Neg K] [Mul K] [DecidableEq K] in
theorem twin_sorted (hr : OptRel (Twin val (1 + ν)) o o') (P : Prepared reorder (triples h H S) (tripInv t) (tripB c) (row :: more) cols o' σ) : Sorted n o.h2 :=
  rel_sorted hr.h2 P.sorted

omit [Zero K] [Add K] [Sub K] [Neg K] [Mul K] [DecidableEq K] in
/-- A row of the optimized matrix has at most one element more than a row of the Hamiltonian. -/
theorem twin_length (hs : Stores val h H S ε) (hr : OptRel (Twin val (1 + ν)) o o') (P : Prepared reorder (triples h H S) (tripInv t) (tripB c) (row :: more) cols o' σ) {N : Nat}
    (hN : ∀ i < n, (h.getD i []).length ≤ N) (i : Fin n) : (o.h2.getD i []).length ≤ N + 1 := by
  have hso := twin_sorted hr P
  have hnd : ((o.h2.getD i []).map (·.1)).Nodup := (sorted_row hso i).imp fun h => Nat.ne_of_lt h
  have hlt : ∀ x ∈ (o.h2.getD i []).map (·.1), x < n := by
    intro x hx
    obtain ⟨e, he, rfl⟩ := List.mem_map.1 hx
    have hi : i.val < o.h2.length := by rw [hso.1]; exact i.isLt
    rw [List.getD_eq_getElem _ _ hi] at he
    exact (hso.2 _ (List.getElem_mem hi)).2 e he
  let g : Nat → Nat := fun x => if hx : x < n then (σ.symm ⟨x, hx⟩).val else x
  have hcard : ((o.h2.getD i []).map (·.1)).toFinset.card ≤ (insert (σ.symm i).val ((h.getD (σ.symm i) []).map (·.1)).toFinset).card := by
    refine Finset.card_le_card_of_injOn g ?_ ?_
    · intro x hx
      have hx := List.mem_toFinset.1 hx
      have hxn := hlt x hx
      have hgx : g x = (σ.symm ⟨x, hxn⟩).val := dif_pos hxn
      rw [hgx]
      rcases (twin_keys hs hr P i ⟨x, hxn⟩).1 hx with hA | hD
      · exact Finset.mem_coe.2 (Finset.mem_insert_of_mem (List.mem_toFinset.2 ((adj_keys _ _ _).1 hA)))
      · rw [hD.1]
        exact Finset.mem_coe.2 (Finset.mem_insert_self _ _)
    · intro x hx y hy hxy
      have hx := hlt x (List.mem_toFinset.1 hx)
      have hy := hlt y (List.mem_toFinset.1 hy)
      have e1 : g x = (σ.symm ⟨x, hx⟩).val := dif_pos hx
      have e2 : g y = (σ.symm ⟨y, hy⟩).val := dif_pos hy
      rw [e1, e2] at hxy
      have := σ.symm.injective (Fin.ext hxy)
      exact congrArg Fin.val this
  rw [List.toFinset_card_of_nodup hnd, List.length_map] at hcard
  have h1 := Finset.card_insert_le (σ.symm i).val ((h.getD (σ.symm i) []).map (·.1)).toFinset
  have h2 := List.toFinset_card_le ((h.getD (σ.symm i) []).map (·.1))
  rw [List.length_map] at h2
  have h3 := hN (σ.symm i) (σ.symm i).isLt
  omega

omit [Zero K] [Add K] [Sub K] [Neg K] [Mul K] [DecidableEq K] in
/-- The compressed optimized matrix holds the scaled Hamiltonian, with the rows and columns reordered. -/
theorem twin_holds (hs : Stores val h H S ε) (hν : 0 ≤ ν) (hr : OptRel (Twin val (1 + ν)) o o') {a : ℝ} (ha : 0 < a)
    (P : Prepared reorder (triples h H S) (tripInv (2 / a)) (tripB c) (row :: more) cols o' σ) :
    Holds (ofRows n (mapVal val o.h2)) ((scaledBy H a c).submatrix σ.symm σ.symm) (fun i j => (1 + ν) * (coeff o'.h2 i j).2.1) ν := by
  classical
  have hso : Sorted n o.h2 := twin_sorted hr P
  have e1 : ∀ i j : Fin n, (coeff o'.h2 i j).1 = ((2 : ℂ) • (scaledBy H a c).submatrix σ.symm σ.symm) i j := by
    intro i j
    rw [twin_coeff P, doubled_triples hs, Matrix.smul_apply, Matrix.submatrix_apply]
    unfold scaledBy
    rw [Matrix.smul_apply, Matrix.sub_apply, Matrix.smul_apply, Matrix.one_apply]
    simp only [smul_eq_mul, mul_ite, mul_one, mul_zero]
    push_cast
    ring
  have hlen : ∀ {L : Type} (f : K → L), (mapVal f o.h2).length = n := fun f => by unfold mapVal; rw [List.length_map]; exact hso.1
  refine ⟨hν, fun i j => ?_, fun i j => ?_⟩
  · rw [ofRows_norm, ofRows_toMatrix (hlen _)]
    have hrel := mapVal_rel (f := fun x => ‖val x‖) (Q' := fun (y : ℝ) (w : Trip) => y ≤ (1 + ν) * w.2.1) (fun x w hx => hx.1.le) hr.h2
    rcases coeff_rel hrel P.sorted i j with ⟨-, h1, h2⟩ | ⟨-, h1⟩
    · show coeff _ i j ≤ (1 + ν) * (coeff o'.h2 i j).2.1
      rw [h1, h2]
      simp
    · exact h1
  · rw [← e1, ofRows_toMatrix (hlen _)]
    have hrel := mapVal_rel (f := val) (Q' := fun (z : ℂ) (w : Trip) => Near (1 + ν) z w.1 w.2.1) (fun x w hx => hx.1) hr.h2
    rcases coeff_rel hrel P.sorted i j with ⟨-, h1, h2⟩ | ⟨-, h1⟩
    · show ‖coeff _ i j - (coeff o'.h2 i j).1‖ ≤ ν * ((1 + ν) * (coeff o'.h2 i j).2.1)
      rw [h1, h2]
      simp
    · refine h1.err.trans ?_
      rw [add_sub_cancel_left]
      refine mul_le_mul_of_nonneg_left ?_ hν
      nlinarith [h1.nonneg]

omit [Zero K] [Add K] [Sub K] [Neg K] [Mul K] [DecidableEq K] in
/-- The reordered matrix has energies in `[-1, 1]` and bounded rows. -/
theorem twin_tame (hs : Stores val h H S ε) (hν : 0 ≤ ν) (hH : H.IsHermitian) {W : ℝ} (hW : ∀ i, ∑ j, S i j ≤ W) (hW' : ∀ j, ∑ i, S i j ≤ W) {a : ℝ} (ha : 0 < a)
    (hspec : ∀ j, |hH.eigenvalues j - c| ≤ a) (P : Prepared reorder (triples h H S) (tripInv (2 / a)) (tripB c) (row :: more) cols o' σ) :
    Tame ((scaledBy H a c).submatrix σ.symm σ.symm) (fun i j => (1 + ν) * (coeff o'.h2 i j).2.1) ((1 + ν) * (2 / a * (W + |c|))) := by
  classical
  have hX : ((scaledBy H a c).submatrix σ.symm σ.symm).IsHermitian := (scaledBy_hermitian hH a c).submatrix _
  have ht : 0 < 2 / a := by positivity
  have e2 : ∀ i j : Fin n, (coeff o'.h2 i j).2.1 = 2 / a * (S (σ.symm i) (σ.symm j) + if σ.symm i = σ.symm j then |c| else 0) := by
    intro i j
    rw [twin_coeff P, doubled_triples hs]
  have hrow : ∀ i : Fin n, ∑ j : Fin n, (1 + ν) * (coeff o'.h2 i j).2.1 ≤ (1 + ν) * (2 / a * (W + |c|)) := by
    intro i
    rw [← mul_sum]
    refine mul_le_mul_of_nonneg_left ?_ (by linarith)
    rw [sum_congr rfl fun j _ => e2 i j, ← mul_sum]
    refine mul_le_mul_of_nonneg_left ?_ ht.le
    rw [Equiv.sum_comp σ.symm fun j => S (σ.symm i) j + if σ.symm i = j then |c| else 0, sum_add_distrib, Finset.sum_ite_eq]
    rw [if_pos (mem_univ _)]
    linarith [hW (σ.symm i)]
  refine ⟨hX, spectrum_scaled hH ha hspec σ hX, fun i j => ?_, hrow, fun j => ?_, ?_⟩
  · have hn : ‖((2 : ℂ) • (scaledBy H a c).submatrix σ.symm σ.symm) i j‖ ≤ (coeff o'.h2 i j).2.1 := by
      rw [e2, Matrix.smul_apply, Matrix.submatrix_apply]
      unfold scaledBy
      rw [Matrix.smul_apply, Matrix.sub_apply, Matrix.smul_apply, Matrix.one_apply]
      simp only [smul_eq_mul, mul_ite, mul_one, mul_zero]
      rw [← mul_assoc, norm_mul]
      have e3 : ‖(2 : ℂ) * ((1 / a : ℝ) : ℂ)‖ = 2 / a := by
        rw [norm_mul, Complex.norm_real, Real.norm_eq_abs, abs_of_pos (by positivity)]
        norm_num
        ring
      rw [e3]
      refine mul_le_mul_of_nonneg_left ?_ ht.le
      refine (norm_sub_le _ _).trans (add_le_add (hs.size _ _) ?_)
      split
      · rw [Complex.norm_real, Real.norm_eq_abs]
      · rw [norm_zero]
    refine hn.trans ?_
    have h0 := (norm_nonneg _).trans hn
    nlinarith
  · rw [← mul_sum]
    refine mul_le_mul_of_nonneg_left ?_ (by linarith)
    rw [sum_congr rfl fun i _ => e2 i j, ← mul_sum]
    refine mul_le_mul_of_nonneg_left ?_ ht.le
    rw [Equiv.sum_comp σ.symm fun i => S i (σ.symm j) + if i = σ.symm j then |c| else 0, sum_add_distrib, Finset.sum_ite_eq']
    rw [if_pos (mem_univ _)]
    linarith [hW' (σ.symm j)]
  · have : 0 ≤ W := (sum_nonneg fun j _ => (norm_nonneg _).trans (hs.size row j)).trans (hW row)
    positivity

omit [Zero K] [Add K] [Sub K] [Neg K] [Mul K] [DecidableEq K] in
/-- The compressed optimized matrix is well formed, and every kernel can use it. -/
theorem twin_raw (f : Kernels n) (hf : f.Formed h) (hs : Stores val h H S ε) (hr : OptRel (Twin val (1 + ν)) o o')
    (P : Prepared reorder (triples h H S) (tripInv t) (tripB c) (row :: more) cols o' σ) {N : Nat} (hN : ∀ i < n, (h.getD i []).length ≤ N) :
    (ofRows n (mapVal val o.h2)).WF ∧ (ofRows n (mapVal val o.h2)).rows = n ∧ (ofRows n (mapVal val o.h2)).cols = n ∧
      ∃ N', maxNnzPerRow (ofRows n (mapVal val o.h2)) = .ok N' ∧ N' ≤ N + 1 ∧ f.Valid (ofRows n (mapVal val o.h2)) := by
  have hso := twin_sorted hr P
  have hsm : Sorted n (mapVal val o.h2) := by
    refine ⟨by unfold mapVal; rw [List.length_map]; exact hso.1, fun r hr' => ?_⟩
    unfold mapVal at hr'
    obtain ⟨r0, hr0, rfl⟩ := List.mem_map.1 hr'
    obtain ⟨q1, q2⟩ := hso.2 r0 hr0
    refine ⟨by rw [List.map_map]; exact q1, fun e he => ?_⟩
    obtain ⟨e0, he0, rfl⟩ := List.mem_map.1 he
    exact q2 e0 he0
  obtain ⟨hwf, hrows, hcl, -⟩ := C24_compressed hsm
  have hgetD : ∀ i, (mapVal val o.h2).getD i [] = (o.h2.getD i []).map fun e => (e.1, val e.2) := by
    intro i
    unfold mapVal
    by_cases hi : i < o.h2.length
    · rw [List.getD_eq_getElem _ _ (by simpa using hi), List.getD_eq_getElem _ _ hi, List.getElem_map]
    · rw [List.getD_eq_default _ _ (by simpa using hi), List.getD_eq_default _ _ (by omega), List.map_nil]
  obtain ⟨N', eN, hN1, hN2⟩ := maxNnzPerRow_spec hwf
  have hNN : N' ≤ N + 1 := by
    rcases hN2 with h0 | ⟨i, hi, h0⟩
    · omega
    · rw [hrows] at hi
      rw [ofRows_row hsm.1 hi, hgetD, List.length_map] at h0
      have := twin_length hs hr P hN ⟨i, hi⟩
      simp only at this
      omega
  have hvalid : f.Valid (ofRows n (mapVal val o.h2)) := by
    cases f with
    | csr _ => trivial
    | ell ds is _ _ => exact ⟨hf.1, hf.2, row.pos⟩
    | simd ds is d0 i0 al step =>
      obtain ⟨f1, f2, f3, i, hi, f4⟩ := hf
      obtain ⟨⟨j, v⟩, l, e⟩ := List.exists_cons_of_ne_nil f4
      have hjn : j < n := by
        have hi' : i < h.length := by rw [hs.sorted.1]; exact hi
        have := (hs.sorted.2 (h.getD i []) (by rw [List.getD_eq_getElem _ _ hi']; exact List.getElem_mem _)).2 (j, v) (by rw [e]; exact List.mem_cons_self)
        exact this
      have hA : Adj h i j := ⟨v, by rw [e]; exact List.mem_cons_self⟩
      refine ⟨f1, f2, f3, (σ ⟨i, hi⟩).val, (σ ⟨i, hi⟩).isLt, ?_⟩
      rw [ofRows_row hsm.1 (σ ⟨i, hi⟩).isLt, hgetD]
      have hmem := (twin_keys hs hr P (σ ⟨i, hi⟩) (σ ⟨j, hjn⟩)).2 (by left; simpa using hA)
      intro h0
      rw [List.map_eq_nil_iff] at h0
      rw [h0] at hmem
      cases hmem
  exact ⟨hwf, hrows, hcl, N', eN, hNN, hvalid⟩

end twin

omit [Zero K] [Add K] [Sub K] [Neg K] [Mul K] [DecidableEq K] in
theorem gam_mono (hu : 0 ≤ u) {N M : Nat} (hNM : N ≤ M) : gam u N ≤ gam u M := by
  unfold gam
  have := pow_le_pow_right₀ (show 1 ≤ 1 + u by linarith) (show N + 8 ≤ M + 8 by omega)
  linarith

/-- **C99**.  Green's functions from a stored Hamiltonian, in floating-point arithmetic throughout: scaling by the rounded `2 / a`, shifting by `c`, reordering, and the
recursion with any kernel and algorithm. If the stored elements have relative errors `ε` (C98) and all energies of the exact Hamiltonian `H` are in `[c - a, c + a]`, moment
`k` for column `d` differs from the element `(d, row)` of `T_k((H - c) / a)` at most by `(γ + ν) (R + 1) k (k + 1)`, where `1 + ν = (1 + ε) (1 + η) (1 + u)^5`,
`γ = (1 + u)^(N + 9) - 1` for at most `N` elements in a row of the Hamiltonian, and `R = (1 + ν) (2 / a) (W + |c|)` for sums of the magnitudes in rows and columns of at most `W`. The size of
the system does not matter. -/
theorem C99_greens (A : Arith K val u) {ops : Ops} (hg : ops.Good u) (f : Kernels n) (hf : f.Formed h) (hs : Stores val h H S ε) (hH : H.IsHermitian)
    {W : ℝ} (hW : ∀ i, ∑ j, S i j ≤ W) (hW' : ∀ j, ∑ i, S i j ≤ W) {a : ℝ} (ha : 0 < a) (hspec : ∀ j, |hH.eigenvalues j - c| ≤ a) (hη : 0 ≤ η) {invA b : K}
    (hinv : ‖val invA - (2 / a : ℝ)‖ ≤ η * (2 / a)) (hb : val b = c) {N : Nat} (hN : ∀ i < n, (h.getD i []).length ≤ N) (cfg : AlgorithmConfig) (row : Fin n)
    (hconn : cfg.reorder = true → ∀ i : Fin n, Reach h row i) (cols : List (Fin n)) (hcols : cols ≠ []) {num : Nat} (h2 : 2 ≤ num)
    (heven : cfg.interleaved = true → num % 2 = 0) (junk : Nat → ℂ)
    (hsmall : (gam u (N + 1) + scaleError u ε η) * ((1 + scaleError u ε η) * (2 / a * (W + |c|)) + 1) * ((num - 1) * num) ≤ 1) :
    ∃ res, roundedMoments ops f val cfg h invA b num row (cols.map (·.val)) junk = .ok res ∧ res.length = cols.length ∧
      ∀ i (hi : i < res.length) (hi' : i < cols.length), res[i].length = num ∧ ∀ k (hk : k < res[i].length),
        ‖res[i][k] - (if k = 0 then 1 / 2 else 1) * (aeval (scaledBy H a c) (Chebyshev.T ℂ k)) cols[i] row‖
          ≤ (gam u (N + 1) + scaleError u ε η) * ((1 + scaleError u ε η) * (2 / a * (W + |c|)) + 1) * (k * (k + 1)) := by
  obtain ⟨o, o', σ, eo, hr, P⟩ := optimized_twin A hs hη (t := 2 / a) (by positivity) hinv hb cfg.reorder row [] cols hcols hconn
  rw [List.map_cons, List.map_nil] at eo
  have hν := scaleError_nonneg A.nonneg hs.nonneg hη
  generalize scaleError u ε η = ν at *
  obtain ⟨hwf, hrows, hcl, N', eN, hNN, hvalid⟩ := twin_raw f hf hs hr P hN
  have hT := twin_tame hs hν hH hW hW' ha hspec P
  have hHolds := twin_holds hs hν hr ha P
  have hsrc : o.src = [(σ row).val] := by rw [hr.src, P.src_eq]; rfl
  have hdest : o.dest = cols.map fun i => (σ i).val := by rw [hr.dest, P.dest_eq]
  have hidx : ∀ i : Fin o.dest.length, i.val < cols.length := fun i => by
    have := i.isLt; simpa [hdest] using this
  have hst : unitStart n o.src 0 = .ok (moved σ (unitVec row) : Fin n → ℂ) := by
    rw [hr.src, P.src_eq, unitStart_eq]; rfl
  have hunit : (moved σ (unitVec row) : Fin n → ℂ) = fun i => if i = σ row then 1 else 0 := by
    funext i
    unfold moved unitVec
    simp only [Equiv.symm_apply_eq]
  have hready : Ready cfg o.slices (fun i j => (1 + ν) * (coeff o'.h2 i j).2.1) (moved σ (unitVec row) : Fin n → ℂ)
      (fun x => fun i : Fin o.dest.length => x (σ (cols[i.val]'(hidx i)))) := by
    refine ⟨fun hc => ?_, fun hc => ?_, fun hc x y hxy => ?_⟩
    · have hS := P.slices (reorder_cases cfg hc)
      rw [← hr.slices] at hS
      have key : ∀ i j : Fin n, (1 + ν) * (coeff o'.h2 i j).2.1 ≠ 0 → matrixOf n o'.h2 i j ≠ 0 := by
        intro i j hne h0
        apply hne
        have h0' : coeff o'.h2 i j = 0 := h0
        rw [h0']
        simp
      exact ⟨hS.nonempty, hS.mono, hS.last, fun i j k hne => hS.rows i j k (key i j hne), fun i j k hne => hS.cols i j k (key i j hne)⟩
    · have := P.srcBelow (reorder_cases cfg (Or.inl hc)) row (by simp)
      rw [← hr.slices] at this
      exact zeroAbove_moved this
    · funext i
      have := P.destBelow (reorder_cases cfg (Or.inl hc)) _ (List.getElem_mem (hidx i))
      rw [← hr.slices] at this
      exact hxy _ this
  have hγ := gam_mono A.nonneg hNN
  have hγ0 := gam_nonneg A.nonneg N'
  have hR := hT.nonneg
  have hnum : (0 : ℝ) ≤ (num - 1) * num := by
    have : (2 : ℝ) ≤ num := by exact_mod_cast h2
    nlinarith
  have hle : (gam u N' + ν) * ((1 + ν) * (2 / a * (W + |c|)) + 1) ≤ (gam u (N + 1) + ν) * ((1 + ν) * (2 / a * (W + |c|)) + 1) :=
    mul_le_mul_of_nonneg_right (by linarith) (by linarith)
  obtain ⟨M, ms, eM, ems, hml, hmk⟩ := C97_moments hg f hwf hrows hcl hvalid eN hT hHolds o.slices cfg (moved σ (unitVec row)) (multiUnit o.dest)
    (fun x => fun i : Fin o.dest.length => x (σ (cols[i.val]'(hidx i)))) (fun x => multiUnit_eq cols hdest x) (L := 1) zero_le_one
    (fun x y => by
      rw [one_mul, pi_norm_le_iff_of_nonneg (nrm_nonneg _)]
      intro i
      exact norm_le_nrm (x - y) _) hready ((List.range num).map fun k => fun _ => junk k) (by simpa using h2) (by simpa using heven)
    (by
      rw [List.length_map, List.length_range]
      exact (mul_le_mul_of_nonneg_right hle hnum).trans hsmall)
  rw [List.length_map, List.length_range] at hml
  refine ⟨(List.finRange o.dest.length).map fun i => ms.map fun v => v i, ?_, by simp [hdest], fun i hi hi' => ⟨by simp [hml], fun k hk => ?_⟩⟩
  · unfold roundedMoments
    rw [eo, Res.bind_ok, eM, Res.bind_ok, hst, Res.bind_ok, ems, Res.bind_ok]
    rfl
  · simp only [List.getElem_map, List.getElem_finRange, Fin.cast_mk, List.length_map] at hk ⊢
    have hi'' : i < o.dest.length := by simpa [hdest] using hi'
    have h5 := hmk k hk
    rw [hunit, nrm_unit, mul_one, one_mul] at h5
    have h6 : ‖(ms[k] - _) ⟨i, hi''⟩‖ ≤ _ := (norm_le_pi_norm _ (⟨i, hi''⟩ : Fin o.dest.length)).trans h5
    have hkk : (0 : ℝ) ≤ (k : ℝ) * (k + 1) := by positivity
    refine le_trans ?_ (mul_le_mul_of_nonneg_right hle hkk)
    refine le_trans (le_of_eq ?_) h6
    congr 1
    rw [Pi.sub_apply]
    congr 1
    by_cases h0 : k = 0
    · subst h0
      rw [if_pos rfl, if_pos rfl]
      simp only [Pi.smul_apply, Complex.real_smul]
      simp [Matrix.one_apply]
    · rw [if_neg h0, if_neg h0, one_mul]
      simp only
      rw [chebVec_unit, aeval_submatrix, Matrix.submatrix_apply, Equiv.symm_apply_apply, Equiv.symm_apply_apply]

/-! ## Scalar types -/

omit [Zero K] [Add K] [Sub K] [Neg K] [Mul K] [DecidableEq K] in
theorem le_mul4 (hu : 0 ≤ u) : u ≤ (1 + u) ^ 4 - 1 := by nlinarith [sq_nonneg u, pow_nonneg hu 3, pow_nonneg hu 4]

omit [Zero K] [Add K] [Sub K] [Neg K] [Mul K] [DecidableEq K] in
/-- **C99** (`std::complex<float>`, `std::complex<double>`).  The arithmetic of complex scalars. -/
theorem C99_complex (F : Verif.Hamiltonian.Format) : Arith F.Cx (fun x => x.1) F.unit where
  nonneg := F.unit_nonneg
  zero x := ⟨fun h => Subtype.ext h, fun h => by rw [h]; rfl⟩
  neg _ := rfl
  add x y := F.parts (x.1 + y.1)
  sub x y := F.parts (x.1 - y.1)
  mul x y := F.mul_near x.1 y.1

omit [Zero K] [Add K] [Sub K] [Neg K] [Mul K] [DecidableEq K] in
/-- **C99** (`float`, `double`).  The arithmetic of real scalars. -/
theorem C99_real (F : Verif.Hamiltonian.Format) : Arith F.Rl (fun x => (x.1 : ℂ)) F.unit where
  nonneg := F.unit_nonneg
  zero x := ⟨fun h => Subtype.ext (by exact_mod_cast h), fun h => by rw [h]; rfl⟩
  neg x := Complex.ofReal_neg x.1
  add x y := by
    rw [← Complex.ofReal_add, ← Complex.ofReal_sub, Complex.norm_real, Complex.norm_real]
    exact F.near (x.1 + y.1)
  sub x y := by
    rw [← Complex.ofReal_sub, ← Complex.ofReal_sub, Complex.norm_real, Complex.norm_real]
    exact F.near (x.1 - y.1)
  mul x y := by
    rw [← Complex.ofReal_mul, ← Complex.ofReal_sub, Complex.norm_real, Complex.norm_real, Complex.norm_real]
    refine (F.near (x.1 * y.1)).trans ?_
    rw [abs_mul]
    exact mul_le_mul_of_nonneg_right (le_mul4 F.unit_nonneg) (by positivity)

omit [Zero K] [Add K] [Sub K] [Neg K] [Mul K] [DecidableEq K] in
/-- **C99** (the sizes of the errors).  If all relative errors are at most `u`, scaling adds an error of at most `16 u`. -/
theorem C99_scale (hu : 0 ≤ u) (hu8 : 8 * u ≤ 1) : scaleError u u u ≤ 16 * u := by
  have h1 := gam_le hu 0 (by push_cast; linarith)
  have h2 : scaleError u u u ≤ gam u 0 := by
    unfold scaleError gam
    have : (1 + u) * (1 + u) * (1 + u) ^ 5 = (1 + u) ^ 7 := by ring
    rw [this]
    have := pow_le_pow_right₀ (show 1 ≤ 1 + u by linarith) (show 7 ≤ 0 + 8 by norm_num)
    linarith
  push_cast at h1
  linarith

/-- **C99** (the function).  The damped Green's function of the rounded moments is near the one of the exact moments. -/
theorem C99_function (A : Arith K val u) {ops : Ops} (hg : ops.Good u) (f : Kernels n) (hf : f.Formed h) (hs : Stores val h H S ε) (hH : H.IsHermitian)
    {W : ℝ} (hW : ∀ i, ∑ j, S i j ≤ W) (hW' : ∀ j, ∑ i, S i j ≤ W) (s : Scale ℝ) (ha : 0 < s.a) (hspec : ∀ j, |hH.eigenvalues j - s.b| ≤ s.a) (hη : 0 ≤ η) {invA b : K}
    (hinv : ‖val invA - (2 / s.a : ℝ)‖ ≤ η * (2 / s.a)) (hb : val b = s.b) {N : Nat} (hN : ∀ i < n, (h.getD i []).length ≤ N) (cfg : AlgorithmConfig) (row : Fin n)
    (hconn : cfg.reorder = true → ∀ i : Fin n, Reach h row i) (cols : List (Fin n)) (hcols : cols ≠ []) {num : Nat} (h2 : 2 ≤ num)
    (heven : cfg.interleaved = true → num % 2 = 0) (junk : Nat → ℂ)
    (hsmall : (gam u (N + 1) + scaleError u ε η) * ((1 + scaleError u ε η) * (2 / s.a * (W + |s.b|)) + 1) * ((num - 1) * num) ≤ 1)
    (g : Nat → Nat → ℝ) (hgd : ∀ k, k < num → |g num k| ≤ 1) {energy : ℝ} (hE : -1 < s.apply energy ∧ s.apply energy < 1) :
    ∃ res, roundedMoments ops f val cfg h invA b num row (cols.map (·.val)) junk = .ok res ∧ res.length = cols.length ∧
      ∀ i (hi : i < res.length) (hi' : i < cols.length), ∃ x y, greensFunction s (damp g res[i]) energy = .ok x ∧
        greensFunction s (damp g ((List.range num).map fun k : Nat => (if k = 0 then 1 / 2 else 1) * (aeval (scaledBy H s.a s.b) (Chebyshev.T ℂ k)) cols[i] row)) energy = .ok y ∧
        ‖x - y‖ ≤ 2 / |s.a| / Real.sqrt (1 - s.apply energy * s.apply energy) *
          ((gam u (N + 1) + scaleError u ε η) * ((1 + scaleError u ε η) * (2 / s.a * (W + |s.b|)) + 1) * ((num - 1) * num * (num + 1) / 3)) := by
  obtain ⟨res, e, hl, hr⟩ := C99_greens A hg f hf hs hH hW hW' ha hspec hη hinv hb hN cfg row hconn cols hcols h2 heven junk hsmall
  refine ⟨res, e, hl, fun i hi hi' => ?_⟩
  obtain ⟨h1, h3⟩ := hr i hi hi'
  have := C97_function s g res[i] ((List.range num).map fun k : Nat => (if k = 0 then 1 / 2 else 1) * (aeval (scaledBy H s.a s.b) (Chebyshev.T ℂ k)) cols[i] row)
    (by simp [h1]) (by rw [h1]; exact hgd) (fun k hk hk' => by
      rw [List.getElem_map, List.getElem_range]
      exact h3 k hk) hE
  rw [h1] at this
  exact this

/-! ## Examples -/

section demo

variable (F : Verif.Hamiltonian.Format)

/-- A chain of three sites with hopping energies 1. -/
noncomputable def chainRows : Csr F.Rl := [[(1, F.castReal 1)], [(0, F.castReal 1), (2, F.castReal 1)], [(1, F.castReal 1)]]

/-- The exact Hamiltonian of the chain. -/
noncomputable def chainE : Matrix (Fin 3) (Fin 3) ℂ := fun i j => (chainB i j : ℂ)

theorem chainE_hermitian : chainE.IsHermitian := by
  apply Matrix.IsHermitian.ext
  intro i j
  fin_cases i <;> fin_cases j <;> simp [chainE, chainB]

theorem chainE_norm (i j : Fin 3) : ‖chainE i j‖ = chainB i j := by
  unfold chainE chainB
  split <;> simp

theorem chainRows_stores : Stores (fun x : F.Rl => (x.1 : ℂ)) (chainRows F) chainE chainB F.unit := by
  have h1 : ‖(((F.castReal 1).1 : ℝ) : ℂ) - 1‖ ≤ F.unit := by
    have := F.near 1
    rw [abs_one, mul_one] at this
    rw [← Complex.ofReal_one, ← Complex.ofReal_sub, Complex.norm_real]
    exact this
  have hrow : ∀ i : Fin 3, (chainRows F).getD i [] = match i with | 0 => [(1, F.castReal 1)] | 1 => [(0, F.castReal 1), (2, F.castReal 1)] | 2 => [(1, F.castReal 1)] := by
    intro i
    fin_cases i <;> rfl
  refine ⟨⟨rfl, ?_⟩, F.unit_nonneg, fun i j v hv => ?_, fun i j => le_of_eq (chainE_norm i j), fun i j hv => ?_, fun i j hA => ?_⟩
  · simp [chainRows]
    omega
  · rw [hrow] at hv
    fin_cases i <;> fin_cases j <;> simp at hv <;> (subst hv; simpa [chainE, chainB] using h1)
  · rw [hrow] at hv
    fin_cases i <;> fin_cases j <;> simp [chainB] at hv ⊢
  · unfold Adj at hA ⊢
    rw [hrow] at hA ⊢
    fin_cases i <;> fin_cases j <;> simp at hA ⊢

theorem chainRows_reach (i : Fin 3) : Reach (chainRows F) 0 i := by
  have h1 : Adj (chainRows F) 0 1 := ⟨F.castReal 1, by simp [chainRows]⟩
  have h2 : Adj (chainRows F) 1 2 := ⟨F.castReal 1, by simp [chainRows]⟩
  fin_cases i
  · exact .refl
  · exact .single h1
  · exact .tail (.single h1) h2

end demo

/-- Sixteen moments of the chain in double precision: `a = 3`, `b` is 1/2 in the format, vectors of four rows, all optimisations. -/
example (inter : Bool) :=
  let F : Verif.Hamiltonian.Format := Verif.Hamiltonian.Format.binary 53 (by norm_num)
  have hu : F.unit = (2 : ℝ) ^ (-(53 : ℤ)) := rfl
  have hu0 : F.unit ≤ 1 / 1000000 := by rw [hu]; norm_num
  have hc : |F.fl (1 / 2) - 1 / 2| ≤ 1 / 1000000 := (F.near (1 / 2)).trans (by rw [abs_of_pos (by norm_num)]; linarith)
  have hre : ((1 / 2 : ℂ)).re = 1 / 2 := by norm_num
  C99_greens (n := 3) (C99_real F) (c := F.fl (1 / 2)) (F.toRounding.ops_good true) (.simd 4 8 (fun _ _ => 5) (fun _ _ => 9) (fun _ _ _ _ r => r % 4 == 0) 4)
    ⟨by norm_num, by norm_num, by norm_num, 0, by norm_num, by simp [chainRows]⟩ (chainRows_stores F) chainE_hermitian (W := 2) chainF_tame.rows chainF_tame.cols
    (a := 3) (by norm_num) (fun j => by
      have h1 := energies_le chainE_hermitian (R := 2) (by norm_num) (fun i => by simp only [chainE_norm]; exact chainF_tame.rows i) j
      rw [abs_le] at h1 hc ⊢
      constructor <;> linarith [h1.1, h1.2, hc.1, hc.2]) F.unit_nonneg (invA := F.castReal ((2 / 3 : ℝ) : ℂ)) (b := F.castReal ((1 / 2 : ℝ) : ℂ))
    (by
      have := F.near (2 / 3)
      rw [← Complex.ofReal_sub, Complex.norm_real]
      rwa [abs_of_pos (show (0 : ℝ) < 2 / 3 by norm_num)] at this) rfl (N := 2) (fun i hi => by interval_cases i <;> simp [chainRows]) ⟨true, inter⟩ 0
    (fun _ i => chainRows_reach F i) [1, 2] (by simp) (num := 16) (by norm_num) (by simp) (fun _ => 7) (by
      have h1 := gam_le F.unit_nonneg 3 (by push_cast; linarith)
      have h2 := C99_scale F.unit_nonneg (by linarith)
      have h3 := scaleError_nonneg F.unit_nonneg F.unit_nonneg F.unit_nonneg
      have h4 := gam_nonneg F.unit_nonneg 3
      rw [abs_le] at hc
      have h5 : |F.fl (1 / 2)| ≤ 1 := abs_le.2 ⟨by linarith [hc.1], by linarith [hc.2]⟩
      push_cast at h1
      have h6 : gam F.unit (2 + 1) + scaleError F.unit F.unit F.unit ≤ 1 / 10000 := by
        show gam F.unit 3 + _ ≤ _
        linarith
      have h7 : (1 + scaleError F.unit F.unit F.unit) * (2 / 3 * (2 + |F.fl (1 / 2)|)) + 1 ≤ 5 := by
        have : (1 + scaleError F.unit F.unit F.unit) * (2 / 3 * (2 + |F.fl (1 / 2)|)) ≤ 2 * 2 :=
          mul_le_mul (by linarith) (by linarith) (by positivity) (by norm_num)
        linarith
      have h8 := mul_le_mul h6 h7 (by positivity) (by norm_num)
      push_cast
      linarith)

example := C99_complex (Verif.Hamiltonian.Format.binary 24 (by norm_num))

end Verif.Kpm.Float
