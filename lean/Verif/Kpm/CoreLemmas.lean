import Verif.Kpm.Core
import Verif.Kpm.With
import Mathlib.LinearAlgebra.Matrix.Reindex

/-!
# Lemmas about the calculations of `kpm::Core`

What the optimized matrix, reordered or not, is good for.
-/

namespace Verif.Kpm

open Verif.Numeric Polynomial
open Verif.Hopping (Csr)
open Verif.Hamiltonian (Sorted coeff)

variable {K V α : Type} {n : Nat}

/-! ## Renaming indices -/

theorem moved_moved (σ : Equiv.Perm (Fin n)) (x : Fin n → V) (i : Fin n) : moved σ x (σ i) = x i := by
  simp [moved]

theorem inner_moved [CommRing V] [StarRing V] (σ : Equiv.Perm (Fin n)) (a b : Fin n → V) :
    inner (moved σ a) (moved σ b) = inner a b := by
  unfold inner moved
  exact Equiv.sum_comp σ.symm fun i => star (a i) * b i

theorem act_moved [CommRing K] [AddCommMonoid V] [Module K V] (σ : Equiv.Perm (Fin n)) (A : Matrix (Fin n) (Fin n) K)
    (x : Fin n → V) : act (A.submatrix σ.symm σ.symm) (moved σ x) = moved σ (act A x) := by
  funext i
  simp only [act, moved, Matrix.submatrix_apply]
  exact Equiv.sum_comp σ.symm fun j => A (σ.symm i) j • x j

theorem aeval_submatrix [CommRing K] (σ : Equiv.Perm (Fin n)) (A : Matrix (Fin n) (Fin n) K) (p : K[X]) :
    aeval (A.submatrix σ.symm σ.symm) p = (aeval A p).submatrix σ.symm σ.symm := by
  have h := Polynomial.aeval_algHom_apply (Matrix.reindexAlgEquiv K K σ).toAlgHom A p
  simpa using h

theorem chebVec_moved [CommRing K] [AddCommMonoid V] [Module K V] (σ : Equiv.Perm (Fin n)) (A : Matrix (Fin n) (Fin n) K)
    (x : Fin n → V) (k : Nat) : chebVec (A.submatrix σ.symm σ.symm) (moved σ x) k = moved σ (chebVec A x k) := by
  unfold chebVec
  rw [aeval_submatrix, act_moved]

theorem diagMoment_moved [CommRing K] [CommRing V] [StarRing V] [Module K V] (half : K) (σ : Equiv.Perm (Fin n))
    (A : Matrix (Fin n) (Fin n) K) (x : Fin n → V) (k : Nat) :
    diagMoment half (A.submatrix σ.symm σ.symm) (moved σ x) k = diagMoment half A x k := by
  unfold diagMoment
  rw [chebVec_moved, chebVec_moved, inner_moved, inner_moved]

/-! ## The optimized matrix -/

/-- `(H - b) invA`: twice the scaled matrix. -/
def doubled [CommRing K] (n : Nat) (h : Csr K) (invA b : K) : Matrix (Fin n) (Fin n) K :=
  invA • (matrixOf n h - b • (1 : Matrix (Fin n) (Fin n) K))

/-- What every optimized matrix offers, with or without reordering. -/
structure Prepared [CommRing K] (reorder : Bool) (h : Csr K) (invA b : K) (src dest : List (Fin n)) (o : Optimized K)
    (σ : Equiv.Perm (Fin n)) : Prop where
  sorted : Sorted n o.h2
  mat : matrixOf n o.h2 = (doubled n h invA b).submatrix σ.symm σ.symm
  src_eq : o.src = src.map fun i => (σ i).val
  dest_eq : o.dest = dest.map fun i => (σ i).val
  vec : ∀ (junk x : Fin n → K), reorderVec o.map (List.ofFn junk) (List.ofFn x) = .ok (List.ofFn (moved σ x))
  op : ∀ m : Csr K, Sorted n m → ∃ m', reorderMat o.map m n = .ok m' ∧ matrixOf n m' = (matrixOf n m).submatrix σ.symm σ.symm
  slices : reorder = true → Slices o.slices.data (matrixOf n o.h2)
  srcBelow : reorder = true → ∀ i ∈ src, (σ i).val < border o.slices.data o.slices.src
  destBelow : reorder = true → ∀ i ∈ dest, (σ i).val < border o.slices.data o.slices.dest
  srcDest : reorder = true → src = dest → o.slices.src = o.slices.dest
  few : o.slices.data.length ≤ n + 1

/-- Borders that increase up to `n` are at most `n + 1`. -/
theorem increasing_length : ∀ {l : List Nat} {n : Nat}, l.Pairwise (· < ·) → (∀ x ∈ l, x ≤ n) → l.length ≤ n + 1 := by
  intro l n hp hle
  have hnd : l.Nodup := hp.imp fun h => Nat.ne_of_lt h
  have h1 : l.toFinset ⊆ Finset.range (n + 1) := fun x hx => Finset.mem_range.2 (by have := hle x (List.mem_toFinset.1 hx); omega)
  have h2 := Finset.card_le_card h1
  rwa [List.toFinset_card_of_nodup hnd, Finset.card_range] at h2

theorem Reordered.few [CommRing K] {h : Csr K} {invA b : K} {first : Fin n} {src dest : List (Fin n)} {o : Optimized K} {σ : Equiv.Perm (Fin n)}
    (R : Reordered h invA b first src dest o σ) : o.slices.data.length ≤ n + 1 := by
  refine increasing_length R.borders fun x hx => ?_
  obtain ⟨i, hi, rfl⟩ := List.getElem_of_mem hx
  have hl := R.last
  have hlt : o.slices.data.length - 1 < o.slices.data.length := by omega
  have e : border o.slices.data (o.slices.data.length - 1) = o.slices.data[o.slices.data.length - 1] := by
    unfold border
    rw [List.getD_eq_getElem _ _ (by omega)]
    congr 1
    omega
  rw [e] at hl
  rw [← hl]
  rcases Nat.lt_or_ge i (o.slices.data.length - 1) with h' | h'
  · exact Nat.le_of_lt (List.pairwise_iff_getElem.1 R.borders i _ hi hlt h')
  · have : i = o.slices.data.length - 1 := by omega
    subst this
    exact le_refl _

theorem reorder_op [CommRing K] {map : List Int} {σ : Equiv.Perm (Fin n)} (hm : map = List.ofFn fun i => ((σ i).val : Int))
    {m : Csr K} (hop : Sorted n m) :
    ∃ m', reorderMat map m n = .ok m' ∧ matrixOf n m' = (matrixOf n m).submatrix σ.symm σ.symm := by
  obtain ⟨m', e, -, hc⟩ := reorderMat_eq hm hop
  refine ⟨m', e, ?_⟩
  ext i j
  have := hc (σ.symm i) (σ.symm j)
  rw [σ.apply_symm_apply, σ.apply_symm_apply] at this
  exact this

/-- The optimized matrix exists without reordering, and with reordering if the system is connected. -/
theorem optimizeFor_ok [CommRing K] [DecidableEq K] {h : Csr K} (hs : Sorted n h) (invA b : K) (reorder : Bool)
    (first : Fin n) (src dest : List (Fin n)) (hd : dest ≠ [])
    (hr : reorder = true → ∀ i : Fin n, Reach h first i)
    (hsym : ∀ i j : Fin n, coeff h i j ≠ 0 → coeff h j i ≠ 0) :
    ∃ (o : Optimized K) (σ : Equiv.Perm (Fin n)),
      optimizeFor reorder h invA b ((first :: src).map (·.val)) (dest.map (·.val)) = .ok o ∧
      Prepared reorder h invA b (first :: src) dest o σ := by
  cases reorder with
  | false =>
    refine ⟨createScaled h invA b ((first :: src).map (·.val)) (dest.map (·.val)), 1, rfl, ?_⟩
    obtain ⟨h1, h2, h3, h4, -, -⟩ := C24_scaled (V := K) hs invA b ((first :: src).map (·.val)) (dest.map (·.val))
    refine ⟨h1, ?_, h3, h4, fun _ _ => rfl, fun m _ => ⟨m, rfl, rfl⟩, ?_, ?_, ?_, ?_, ?_⟩
    · rw [h2]; rfl
    rotate_right
    · rw [(createScaled_spec hs invA b ((first :: src).map (·.val)) (dest.map (·.val))).2.2.2.2.2]; simp [SliceMap.single]
    all_goals exact fun hc => absurd hc (by decide)
  | true =>
    obtain ⟨o, σ, e, R⟩ := createReordered_ok hs invA b first src dest hd (hr rfl)
    refine ⟨o, σ, e, ⟨R.sorted, matrixOf_reordered R, R.src_eq, R.dest_eq, ?_, fun m hm => reorder_op R.map_eq hm,
      fun _ => R.slices hsym, fun _ => (R.srcSlice.2 _).1 (le_refl _), fun _ => (R.destSlice.2 _).1 (le_refl _), ?_, R.few⟩⟩
    · intro junk x
      exact reorderVec_eq R.map_eq _ (by simp) x
    · rintro - rfl
      exact Nat.le_antisymm ((R.srcSlice.2 _).2 ((R.destSlice.2 _).1 (le_refl _)))
        ((R.destSlice.2 _).2 ((R.srcSlice.2 _).1 (le_refl _)))

/-! ## Formats -/

/-- The alignment steps and the registers of a format are not empty. -/
def Format.Aligned (f : Format K n V) : Prop :=
  match f with
  | .csr _ => True
  | .ell ds is _ _ => 0 < ds ∧ 0 < is
  | .ellSimd ds is _ _ _ step => 0 < ds ∧ 0 < is ∧ 0 < step
  | .ellSimdBatch ds is _ _ => 0 < ds ∧ 0 < is

theorem Format.Aligned.valid [AddCommMonoid K] {f : Format K n V} (hf : f.Aligned) {m : Raw K} (hm : m.toMatrix n ≠ 0) : f.Valid m := by
  have hrow : ∃ i < n, m.row i ≠ [] := by
    by_contra hno
    push Not at hno
    refine hm ?_
    ext i j
    simp [Raw.toMatrix, hno i.val i.isLt]
  cases f with
  | csr junk => trivial
  | ell ds is d0 i0 => exact ⟨hf.1, hf.2, by obtain ⟨i, hi, _⟩ := hrow; omega⟩
  | ellSimd ds is d0 i0 al step => exact ⟨hf.1, hf.2.1, hf.2.2, hrow⟩
  | ellSimdBatch ds is d0 i0 => exact ⟨hf.1, hf.2, hrow⟩

/-- The kernels of every format implement the optimized matrix. -/
theorem Prepared.implements [CommRing K] [CommRing V] [StarRing V] [Module K V] {half : K} {reorder : Bool} {h : Csr K} {invA b : K}
    {src dest : List (Fin n)} {o : Optimized K} {σ : Equiv.Perm (Fin n)} (P : Prepared reorder h invA b src dest o σ)
    {f : Format K n V} (hf : f.Aligned) (hne : doubled n h invA b ≠ 0) :
    ∃ M, f.mat half (ofRows n o.h2) = .ok M ∧ Implements half M ((doubled n h invA b).submatrix σ.symm σ.symm) := by
  have e : (ofRows n o.h2).toMatrix n = (doubled n h invA b).submatrix σ.symm σ.symm := by
    rw [(C24_compressed P.sorted).2.2.2, P.mat]
  have hm : (ofRows n o.h2).toMatrix n ≠ 0 := by
    rw [e]
    intro h0
    refine hne ?_
    ext i j
    have := congrFun (congrFun h0 (σ i)) (σ j)
    simpa using this
  obtain ⟨M, e1, e2⟩ := f.implements (half := half) (C24_compressed P.sorted).1 rfl rfl (hf.valid hm)
  exact ⟨M, e1, e ▸ e2⟩

/-! ## The scaled matrix -/

/-- `(H - b) / a`, as half of `(H - b) invA`. -/
def scaled [CommRing K] (n : Nat) (half : K) (h : Csr K) (invA b : K) : Matrix (Fin n) (Fin n) K := half • doubled n h invA b

theorem doubled_eq [CommRing K] {half : K} (hhalf : half * 2 = 1) (h : Csr K) (invA b : K) (σ : Equiv.Perm (Fin n)) :
    (doubled n h invA b).submatrix σ.symm σ.symm = (2 : K) • (scaled n half h invA b).submatrix σ.symm σ.symm := by
  ext i j
  simp only [scaled, Matrix.submatrix_apply, Matrix.smul_apply, smul_eq_mul]
  rw [← mul_assoc, mul_comm 2 half, hhalf, one_mul]

theorem scaled_isHermitian [CommRing K] [StarRing K] {half invA b : K} (h1 : star half = half) (h2 : star invA = invA)
    (h3 : star b = b) {h : Csr K} (hH : (matrixOf n h).IsHermitian) : (scaled n half h invA b).IsHermitian := by
  unfold scaled doubled Matrix.IsHermitian
  rw [Matrix.conjTranspose_smul, Matrix.conjTranspose_smul, Matrix.conjTranspose_sub, Matrix.conjTranspose_smul,
    Matrix.conjTranspose_one, h1, h2, h3, hH.eq]

theorem pattern_symm [CommRing K] [StarRing K] {h : Csr K} (hH : (matrixOf n h).IsHermitian) (i j : Fin n)
    (hne : coeff h i j ≠ 0) : coeff h j i ≠ 0 := by
  intro h0
  refine hne ?_
  have := hH.apply i j
  simp only [matrixOf] at this
  rw [← this, h0, star_zero]

/-! ## Unit vectors -/

/-- The unit vector `e_i`. -/
def unitVec [Zero K] [One K] (i : Fin n) : Fin n → K := fun j => if j = i then 1 else 0

theorem unitStart_eq [Zero K] [One K] (σ : Equiv.Perm (Fin n)) (src : List (Fin n)) (k : Nat) :
    unitStart (K := K) n (src.map fun i => (σ i).val) k =
      .ok (match src[k]? with | some i => moved σ (unitVec i) | none => 0) := by
  unfold unitStart
  rw [List.getElem?_map]
  cases src[k]? with
  | none => rfl
  | some i =>
    simp only [Option.map_some, if_pos (σ i).isLt]
    congr 1
    funext j
    simp only [moved, unitVec, Equiv.symm_apply_eq]
    by_cases hj : j = σ i
    · simp [hj]
    · rw [if_neg hj, if_neg fun h => hj (Fin.ext h)]

theorem act_unitVec [CommRing K] (A : Matrix (Fin n) (Fin n) K) (i : Fin n) : act A (unitVec i) = fun j => A j i := by
  funext j
  simp [act, unitVec]

theorem chebVec_unitVec [CommRing K] (A : Matrix (Fin n) (Fin n) K) (i : Fin n) (k : Nat) :
    chebVec A (unitVec i) k = fun j => aeval A (Chebyshev.T K k) j i := act_unitVec _ i

theorem inner_unitVec [CommRing K] [StarRing K] (i : Fin n) (x : Fin n → K) : inner (unitVec i) x = x i := by
  unfold inner unitVec
  rw [Finset.sum_eq_single i]
  · simp
  · intro j _ hj; simp [hj]
  · simp

theorem zeroAbove_moved [Zero K] [One K] {data : List Nat} {k : Nat} {σ : Equiv.Perm (Fin n)} {i : Fin n}
    (h : (σ i).val < border data k) : ZeroAbove (V := K) data k (moved σ (unitVec i)) := by
  intro j hj
  simp only [moved, unitVec, Equiv.symm_apply_eq]
  rw [if_neg]
  rintro rfl
  omega

end Verif.Kpm
