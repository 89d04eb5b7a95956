import Verif.Sublat.Props
import Verif.Hopping.Props
import Verif.Lattice.Props
import Mathlib.LinearAlgebra.Matrix.NonsingularInverse

/-!
# Exact criteria for C05, C13 and C40
-/

namespace Verif.Hopping

open Spec HoppingBlocks

/-- The bonds between the pairs of sites `(rows[i], cols[i])`, as returned by a generator. -/
def Generated (rows cols : List Nat) (c : COO) : Prop := ∃ i m n : Nat, rows[i]? = some m ∧ cols[i]? = some n ∧ SameBond c ⟨m, n⟩

/-- **C05**, exactly when each unordered pair is stored once: if it was before, and no generated pair connects two sites whose bond is stored with the higher index first. -/
theorem C05_unique_exact (b : List COO) (rows cols : List Nat) :
    (appendBlock b rows cols).Pairwise (fun x y => ¬ SameBond x y) ↔
      (∀ x ∈ b, ∀ y ∈ b, SameBond x y → x = y) ∧ ∀ c ∈ b, c.col < c.row → ¬ Generated rows cols c := by
  have hp := pairwise_appendBlock b rows cols
  have hsymm : ∀ x y : COO, SameBond x y → SameBond y x := by
    rintro x y (rfl | ⟨h1, h2⟩)
    · exact Or.inl rfl
    · exact Or.inr ⟨h2.symm, h1.symm⟩
  have hall : (appendBlock b rows cols).Pairwise (fun x y => ¬ SameBond x y) ↔ ∀ x ∈ appendBlock b rows cols, ∀ y ∈ appendBlock b rows cols, SameBond x y → x = y := by
    constructor
    · intro h x hx y hy hs
      by_contra hne
      haveI : Std.Symm (fun x y : COO => ¬ SameBond x y) := ⟨fun x y h h' => h (hsymm _ _ h')⟩
      exact List.Pairwise.forall h hx hy hne hs
    · intro h
      refine List.Pairwise.imp_of_mem ?_ hp
      rintro x y hx hy hlt hs
      obtain rfl := h x hx y hy hs
      rcases hlt with h | ⟨-, h⟩ <;> exact lt_irrefl _ h
  rw [hall]
  simp only [mem_appendBlock]
  constructor
  · intro h
    refine ⟨fun x hx y hy => h x (Or.inl hx) y (Or.inl hy), ?_⟩
    rintro c hc hlt ⟨i, m, n, hm, hn, hs⟩
    have := h c (Or.inl hc) ⟨min m n, max m n⟩ (Or.inr ⟨i, m, n, hm, hn, rfl⟩) (by
      rcases hs with rfl | ⟨h1, h2⟩
      · right; simp only at hlt ⊢; omega
      · right; simp only at h1 h2 ⊢; omega)
    rw [this] at hlt
    simp only at hlt
    omega
  · rintro ⟨h1, h2⟩
    have hmix : ∀ x y : COO, x ∈ b → (∃ i m n : Nat, rows[i]? = some m ∧ cols[i]? = some n ∧ y = ⟨min m n, max m n⟩) → SameBond x y → x = y := by
      rintro ⟨xr, xc⟩ y hx ⟨i, m, n, hm, hn, rfl⟩ hs
      by_cases hlt : xc < xr
      · refine absurd ⟨i, m, n, hm, hn, ?_⟩ (h2 _ hx hlt)
        simp only [SameBond, COO.mk.injEq] at hs ⊢
        omega
      · simp only [SameBond, COO.mk.injEq] at hs ⊢
        omega
    rintro x (hx | hx) y (hy | hy) hs
    · exact h1 x hx y hy hs
    · exact hmix x y hx hy hs
    · exact (hmix y x hy hx (hsymm _ _ hs)).symm
    · obtain ⟨i, m, n, -, -, rfl⟩ := hx
      obtain ⟨j, m', n', -, -, rfl⟩ := hy
      simp only [SameBond, COO.mk.injEq] at hs ⊢
      omega

/-- A family with a bond stored the other way round, and a generator which does not touch it. -/
example : (∀ x ∈ [(⟨3, 1⟩ : COO)], ∀ y ∈ [(⟨3, 1⟩ : COO)], SameBond x y → x = y) ∧ ∀ c ∈ [(⟨3, 1⟩ : COO)], c.col < c.row → ¬ Generated [2] [1] c := by
  refine ⟨by simp, ?_⟩
  rintro c hc - ⟨i, m, n, hm, hn, hs⟩
  simp only [List.mem_singleton] at hc
  subst hc
  rcases i with _ | i
  · simp only [List.getElem?_cons_zero, Option.some.injEq] at hm hn
    subst hm hn
    simp [SameBond] at hs
  · simp at hm

end Verif.Hopping

namespace Verif.Lattice

open Matrix

variable {F : Type} [Field F] [LinearOrder F] [IsStrictOrderedRing F]

/-- **C13**, exactly when coordinates can be recovered: the leading components (the first one for one vector, the first two for two) of the lattice vectors are linearly independent.  Otherwise
the result is undefined for every position. -/
theorem C13_exact (vectors : List (Cart F)) (hd : vectors.length ≤ 3) :
    ((∀ c : Fin vectors.length → F, translateCoordinates vectors hd (combination vectors c) = some c) ↔
      LinearIndependent F fun (i : Fin vectors.length) (k : Fin vectors.length) => vectors[i] (k.castLE hd)) ∧
    (¬ LinearIndependent F (fun (i : Fin vectors.length) (k : Fin vectors.length) => vectors[i] (k.castLE hd)) → ∀ p, translateCoordinates vectors hd p = none) := by
  have hdet : LinearIndependent F (fun (i : Fin vectors.length) (k : Fin vectors.length) => vectors[i] (k.castLE hd)) ↔ (latticeMatrix vectors hd).det ≠ 0 := by
    rw [← isUnit_iff_ne_zero, ← det_transpose, ← Matrix.isUnit_iff_isUnit_det, ← Matrix.linearIndependent_rows_iff_isUnit]
    rfl
  rw [hdet]
  refine ⟨⟨fun h h0 => ?_, fun h c => C13_translate_partial vectors hd h c⟩, fun h p => ?_⟩
  · have := h 0
    unfold translateCoordinates at this
    simp only at this
    rw [if_pos h0] at this
    cases this
  · unfold translateCoordinates
    simp only
    rw [if_pos (not_not.1 h)]

/-- One vector along x, and one along y. -/
example : (LinearIndependent ℚ fun (i : Fin 1) (k : Fin 1) => [(![1, 0, 0] : Cart ℚ)][i] (k.castLE (by norm_num))) ∧
    ¬ LinearIndependent ℚ fun (i : Fin 1) (k : Fin 1) => [(![0, 1, 0] : Cart ℚ)][i] (k.castLE (by norm_num)) := by
  constructor
  · rw [linearIndependent_unique_iff]
    intro h
    have := congrFun h 0
    simp at this
  · rw [linearIndependent_unique_iff, not_not]
    funext k
    fin_cases k
    simp

end Verif.Lattice

namespace Verif.Sublat

/-- What `find_nearest` with a label should do: give the first nearest of the sites with this label, or an error if there are none. -/
def NearestRight {K : Type u} [LinearOrder K] (labels : List Int) (dist : Nat → K) (t : Int) (result : Res Nat) : Prop :=
  (t ∈ labels → ∃ r, result = .ok r ∧ labels[r]? = some t ∧ ∀ j, labels[j]? = some t → dist r ≤ dist j ∧ (dist j = dist r → r ≤ j)) ∧
  (t ∉ labels → ∃ e, result = .err e)

/-- **C40**, exactly when the result is right: the label has sites or is not in the table at all.  For a label which is in the table without sites it is wrong for all positions. -/
theorem C40_exact {K : Type u} [LinearOrder K] (data : Table) (n : Nat) (hv : verify data n = .ok ()) (labels : List Int)
    (hl : decompressed data = labels.map some) (t : Int) (dist : Nat → K) :
    NearestRight labels dist t (findNearest data n dist (some t)) ↔ (t ∈ labels ∨ t ∉ aliasIds data) := by
  have hmem : some t ∈ decompressed data ↔ t ∈ labels := by rw [hl]; simp
  have hget : ∀ j : Nat, (decompressed data)[j]? = some (some t) ↔ labels[j]? = some t := by
    intro j
    rw [hl, List.getElem?_map]
    cases labels[j]? <;> simp
  constructor
  · rintro ⟨-, h⟩
    by_contra hc
    rw [not_or, not_not] at hc
    obtain ⟨e, he⟩ := h hc.1
    rcases hf : (iters data).find? (fun sub => sub.elem.id == t) with _ | sub
    · exact (find_block_none data 0 0 t).1 hf hc.2
    · simp only [findNearest, sublatticeRange, hf] at he
      split at he <;> cases he
  · rintro (h | h)
    · obtain ⟨r, h1, h2, h3⟩ := C40_find_nearest_sublattice_partial data n hv t (hmem.2 h) dist
      exact ⟨fun _ => ⟨r, h1, (hget r).1 h2, fun j hj => h3 j ((hget j).2 hj)⟩, fun h' => absurd h h'⟩
    · have hne : t ∉ labels := by
        intro h'
        apply h
        have := hmem.2 h'
        rw [decompressed_eq] at this
        exact mem_ids_of_mem_labels data t (by simpa using this)
      exact ⟨fun h' => absurd h' hne, fun _ => ⟨_, C40_unknown_label data n t h dist⟩⟩

example : verify [⟨0, 0, 1⟩, ⟨1, 2, 1⟩] 2 = .ok () ∧ decompressed [⟨0, 0, 1⟩, ⟨1, 2, 1⟩] = [1, 1].map some ∧
    ¬ ((0 : Int) ∈ [(1 : Int), 1] ∨ (0 : Int) ∉ aliasIds [⟨0, 0, 1⟩, ⟨1, 2, 1⟩]) := by decide

end Verif.Sublat
