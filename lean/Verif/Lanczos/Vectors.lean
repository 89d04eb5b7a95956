import Verif.Lanczos.Model
import Verif.Numeric.Kernels
import Mathlib.LinearAlgebra.Matrix.Hermitian
import Mathlib.LinearAlgebra.Matrix.DotProduct

/-!
# The vector operations of the Lanczos procedure
-/

namespace Verif.Lanczos

open Verif.Numeric
open Matrix

variable {𝕜 : Type} [RCLike 𝕜] {n : Nat}

/-- A loop which replaces `y[row]` by a function of `row` and its old value and adds up another function of them. -/
theorem rowsAcc {V : Type} (F : Fin n → V → V) (G : Fin n → V → ℝ) (f : ℝ × (Fin n → V) → Nat → Res (ℝ × (Fin n → V))) (l : List Nat)
    (hnd : l.Nodup) (hl : ∀ r ∈ l, r < n) (s : ℝ × (Fin n → V))
    (hf : ∀ (s : ℝ × (Fin n → V)) (r : Nat) (hr : r < n), r ∈ l →
      f s r = .ok (s.1 + G ⟨r, hr⟩ (s.2 ⟨r, hr⟩), Function.update s.2 ⟨r, hr⟩ (F ⟨r, hr⟩ (s.2 ⟨r, hr⟩)))) :
    l.foldlM f s = .ok (s.1 + ∑ i, (if i.val ∈ l then G i (s.2 i) else 0), fun i => if i.val ∈ l then F i (s.2 i) else s.2 i) := by
  induction l generalizing s with
  | nil => simp
  | cons r l ih =>
    have hr := hl r (List.mem_cons_self ..)
    have hnm := (List.nodup_cons.1 hnd).1
    rw [List.foldlM_cons, hf s r hr (List.mem_cons_self ..), Res.bind_ok,
      ih (List.nodup_cons.1 hnd).2 (fun r h => hl r (List.mem_cons_of_mem _ h)) _
        (fun y r h h' => hf y r h (List.mem_cons_of_mem _ h'))]
    congr 2
    · rw [add_assoc]
      congr 1
      have e : ∀ i : Fin n, (if i.val ∈ r :: l then G i (s.2 i) else 0) = (if i = ⟨r, hr⟩ then G i (s.2 i) else 0) +
          (if i.val ∈ l then G i (Function.update s.2 ⟨r, hr⟩ (F ⟨r, hr⟩ (s.2 ⟨r, hr⟩)) i) else 0) := by
        intro i
        by_cases hi : i = ⟨r, hr⟩
        · subst hi; simp [hnm]
        · have hne : i.val ≠ r := fun e => hi (Fin.ext e)
          simp [Function.update_of_ne hi, hi, hne]
      rw [Finset.sum_congr rfl fun i _ => e i, Finset.sum_add_distrib, Finset.sum_ite_eq', if_pos (Finset.mem_univ _)]
    · funext i
      by_cases hi : i.val = r
      · have : i = ⟨r, hr⟩ := Fin.ext hi
        subst this
        simp [hnm]
      · have hne : i ≠ ⟨r, hr⟩ := fun e => hi (by rw [e])
        simp [Function.update_of_ne hne, hi]

/-- `lanczos_spmv` computes the product, the scalar product and the difference. -/
theorem lanczosSpmv_eq {m : Raw 𝕜} (h : m.WF) (hr : m.rows = n) (hc : m.cols = n) (bPrev : ℝ) (v1 v0 : Fin n → 𝕜) :
    lanczosSpmv bPrev m v1 v0 =
      .ok (∑ i, realDot ((m.toMatrix n *ᵥ v1) i) (v1 i), fun i => (m.toMatrix n *ᵥ v1) i - (bPrev : 𝕜) * v0 i) := by
  unfold lanczosSpmv
  rw [rowsAcc (fun i y => (m.toMatrix n *ᵥ v1) i - (bPrev : 𝕜) * y) (fun i _ => realDot ((m.toMatrix n *ᵥ v1) i) (v1 i)) _ _
    List.nodup_range (fun r hr' => by rw [List.mem_range] at hr'; omega) _ (fun s r hr' _ => ?_)]
  · congr 2
    · simp only [zero_add]
      refine Finset.sum_congr rfl fun i _ => ?_
      rw [if_pos (List.mem_range.2 (by have := i.isLt; omega))]
    · funext i
      rw [if_pos (List.mem_range.2 (by have := i.isLt; omega))]
  · unfold spmvRow
    have e := csrRowSum_eq h hr hc v1 ⟨r, hr'⟩
    simp only [smul_eq_mul] at e
    rw [e, Res.bind_ok, getV_ok _ _ hr', Res.bind_ok, setV_ok _ _ _ hr', Res.bind_ok, getV_ok _ _ hr', Res.bind_ok]
    rfl

theorem axpyRow_eq (a : ℝ) (v1 : Fin n → 𝕜) (s : ℝ × (Fin n → 𝕜)) (i : Nat) (h : i < n) :
    axpyRow a v1 s i = .ok (s.1 + square (s.2 ⟨i, h⟩ - (a : 𝕜) * v1 ⟨i, h⟩), Function.update s.2 ⟨i, h⟩ (s.2 ⟨i, h⟩ - (a : 𝕜) * v1 ⟨i, h⟩)) := by
  unfold axpyRow
  rw [getV_ok _ _ h, Res.bind_ok, getV_ok _ _ h, Res.bind_ok]
  simp only
  rw [setV_ok _ _ _ h, Res.bind_ok]
  rfl

theorem axpyRows_eq (a : ℝ) (v1 : Fin n → 𝕜) (s : ℝ × (Fin n → 𝕜)) (l : List Nat) (hnd : l.Nodup) (hl : ∀ r ∈ l, r < n) :
    l.foldlM (axpyRow a v1) s = .ok (s.1 + ∑ i, (if i.val ∈ l then square (s.2 i - (a : 𝕜) * v1 i) else 0),
      fun i => if i.val ∈ l then s.2 i - (a : 𝕜) * v1 i else s.2 i) :=
  rowsAcc (fun i y => y - (a : 𝕜) * v1 i) (fun i y => square (y - (a : 𝕜) * v1 i)) _ l hnd hl s
    (fun s r h _ => axpyRow_eq a v1 s r h)

/-- The specification of `lanczos_axpy`. -/
noncomputable def axpySpec (a : ℝ) (v1 v0 : Fin n → 𝕜) : ℝ × (Fin n → 𝕜) :=
  (√(∑ i, square (v0 i - (a : 𝕜) * v1 i)), fun i => v0 i - (a : 𝕜) * v1 i)

theorem axpyGeneric_eq (a : ℝ) (v1 v0 : Fin n → 𝕜) : axpyGeneric a v1 v0 = .ok (axpySpec a v1 v0) := by
  unfold axpyGeneric
  rw [axpyRows_eq a v1 (0, v0) _ List.nodup_range (fun r h => List.mem_range.1 h), Res.bind_ok]
  show Res.ok _ = Res.ok _
  congr 1
  unfold axpySpec
  have hm : ∀ i : Fin n, i.val ∈ List.range n := fun i => List.mem_range.2 i.isLt
  simp only [hm, if_true, zero_add]

/-- The sum of all lanes of the register. -/
def total (step : Nat) (acc : Nat → ℝ × ℝ) : ℝ := ((List.range step).map fun k => (acc k).1 + (acc k).2).sum

theorem total_update {step l : Nat} (hl : l < step) (acc : Nat → ℝ × ℝ) (p q : ℝ) :
    total step (Function.update acc l ((acc l).1 + p, (acc l).2 + q)) = total step acc + (p + q) := by
  unfold total
  induction step with
  | zero => omega
  | succ step ih =>
    rw [List.range_succ, List.map_append, List.map_append, List.sum_append, List.sum_append]
    simp only [List.map_cons, List.map_nil, List.sum_cons, List.sum_nil, add_zero]
    by_cases h : l = step
    · subst h
      rw [Function.update_self]
      have : (List.range l).map (fun k => (Function.update acc l ((acc l).1 + p, (acc l).2 + q) k).1 + (Function.update acc l ((acc l).1 + p, (acc l).2 + q) k).2) =
          (List.range l).map fun k => (acc k).1 + (acc k).2 := by
        refine List.map_congr_left fun k hk => ?_
        rw [Function.update_of_ne (by have := List.mem_range.1 hk; omega)]
      rw [this]; ring
    · rw [ih (by omega), Function.update_of_ne (Ne.symm h)]; ring

theorem lane_sim (a : ℝ) (v1 : Fin n → 𝕜) {step i l : Nat} (hl : l < step) (hi : i + l < n) (acc : Nat → ℝ × ℝ) (y : Fin n → 𝕜) :
    ∃ acc', axpyLane a v1 i (acc, y) l = .ok (acc', Function.update y ⟨i + l, hi⟩ (y ⟨i + l, hi⟩ - (a : 𝕜) * v1 ⟨i + l, hi⟩)) ∧
      total step acc' = total step acc + square (y ⟨i + l, hi⟩ - (a : 𝕜) * v1 ⟨i + l, hi⟩) := by
  unfold axpyLane
  rw [getV_ok _ _ hi, Res.bind_ok, getV_ok _ _ hi, Res.bind_ok]
  simp only
  rw [setV_ok _ _ _ hi, Res.bind_ok]
  exact ⟨_, rfl, total_update hl _ _ _⟩

theorem lanes_sim (a : ℝ) (v1 : Fin n → 𝕜) {step i : Nat} : ∀ (l : List Nat), (∀ k ∈ l, k < step ∧ i + k < n) →
    ∀ (acc : Nat → ℝ × ℝ) (y : Fin n → 𝕜), ∃ acc' y', l.foldlM (axpyLane a v1 i) (acc, y) = .ok (acc', y') ∧
      (l.map (i + ·)).foldlM (axpyRow a v1) (total step acc, y) = .ok (total step acc', y') := by
  intro l
  induction l with
  | nil => intro _ acc y; exact ⟨acc, y, rfl, rfl⟩
  | cons k l ih =>
    intro h acc y
    obtain ⟨h1, h2⟩ := h k (List.mem_cons_self ..)
    obtain ⟨acc', e1, t1⟩ := lane_sim a v1 h1 h2 acc y
    obtain ⟨acc'', y'', e2, e3⟩ := ih (fun k hk => h k (List.mem_cons_of_mem _ hk)) acc'
      (Function.update y ⟨i + k, h2⟩ (y ⟨i + k, h2⟩ - (a : 𝕜) * v1 ⟨i + k, h2⟩))
    refine ⟨acc'', y'', ?_, ?_⟩
    · rw [List.foldlM_cons, e1, Res.bind_ok, e2]
    · rw [List.map_cons, List.foldlM_cons, axpyRow_eq a v1 _ _ h2, Res.bind_ok]
      simp only
      rw [← t1, e3]

theorem blocks_sim (a : ℝ) (v1 : Fin n → 𝕜) {step : Nat} : ∀ (l : List Nat), (∀ i ∈ l, i + step ≤ n) →
    ∀ (acc : Nat → ℝ × ℝ) (y : Fin n → 𝕜), ∃ acc' y', l.foldlM (axpyBlock a v1 step) (acc, y) = .ok (acc', y') ∧
      (l.flatMap fun i => List.range' i step).foldlM (axpyRow a v1) (total step acc, y) = .ok (total step acc', y') := by
  intro l
  induction l with
  | nil => intro _ acc y; exact ⟨acc, y, rfl, rfl⟩
  | cons i l ih =>
    intro h acc y
    have hi := h i (List.mem_cons_self ..)
    obtain ⟨acc', y', e1, e2⟩ := lanes_sim a v1 (step := step) (i := i) (List.range step)
      (fun k hk => by have := List.mem_range.1 hk; omega) acc y
    obtain ⟨acc'', y'', e3, e4⟩ := ih (fun k hk => h k (List.mem_cons_of_mem _ hk)) acc' y'
    refine ⟨acc'', y'', ?_, ?_⟩
    · rw [List.foldlM_cons]
      unfold axpyBlock
      rw [e1, Res.bind_ok]
      exact e3
    · rw [List.flatMap_cons, List.foldlM_append, List.range'_eq_map_range (s := i), e2, Res.bind_ok, e4]

/-- The vectorised version computes the same, if the vectors are aligned. -/
theorem axpySimd_eq (aligned : Nat → Bool) {step : Nat} (hstep : 0 < step) (ha : aligned 0 = true) (a : ℝ) (v1 v0 : Fin n → 𝕜) :
    axpySimd aligned step a v1 v0 = .ok (axpySpec a v1 v0) := by
  obtain ⟨e1, e2, h1, h2, h3, h4, h5, _⟩ := splitLoop_spec aligned step 0 n hstep (Nat.zero_le _)
  have hpeel : (splitLoop aligned step 0 n).peelEnd = 0 := by
    unfold splitLoop
    simp only
    cases n with
    | zero => rfl
    | succ n => simp [peelLoop, ha]
  unfold axpySimd
  simp only
  generalize splitLoop aligned step 0 n = l at *
  rw [hpeel] at h4 h2
  have ht := trips_eq 0 l.vecEnd step hstep h4
  obtain ⟨acc, y, e3, e4⟩ := blocks_sim a v1 (step := step) (List.range' 0 (trips 0 l.vecEnd step) step) (fun i hi => by
    rw [List.mem_range'] at hi
    obtain ⟨k, hk, rfl⟩ := hi
    have : (k + 1) * step ≤ trips 0 l.vecEnd step * step := Nat.mul_le_mul_right _ hk
    rw [Nat.add_mul, Nat.one_mul, ht] at this
    rw [Nat.mul_comm step k]
    omega) (fun _ => (0, 0)) v0
  have ht0 : total step (fun _ => ((0 : ℝ), (0 : ℝ))) = 0 := by
    unfold total
    simp
  rw [flatMap_range', ht, Nat.sub_zero, ht0] at e4
  rw [axpyRows_eq a v1 (0, v0) _ List.nodup_range' (fun r hr => by rw [List.mem_range'_1] at hr; omega)] at e4
  injection e4 with e4
  injection e4 with e5 e6
  rw [e3, Res.bind_ok]
  simp only
  rw [axpyRows_eq a v1 (0, y) _ List.nodup_range' (fun r hr => by rw [List.mem_range'_1] at hr; omega), Res.bind_ok]
  show Res.ok _ = Res.ok _
  congr 1
  unfold axpySpec
  have m1 : ∀ i : Fin n, i.val ∈ List.range' 0 l.vecEnd ↔ i.val < l.vecEnd := fun i => by rw [List.mem_range'_1]; omega
  have m2 : ∀ i : Fin n, i.val ∈ List.range' l.vecEnd (l.stop - l.vecEnd) ↔ ¬ i.val < l.vecEnd := fun i => by
    rw [List.mem_range'_1]; have := i.isLt; omega
  refine Prod.ext ?_ ?_
  · show √(total step acc + _) = _
    rw [← e5, ← e6]
    congr 1
    simp only [zero_add, m1, m2]
    rw [← Finset.sum_add_distrib]
    refine Finset.sum_congr rfl fun i _ => ?_
    by_cases hi : i.val < l.vecEnd <;> simp [hi]
  · simp only
    rw [← e6]
    funext i
    simp only [m1, m2]
    by_cases hi : i.val < l.vecEnd <;> simp [hi]

/-- The compiled version of `lanczos_axpy` is usable: the vectors are aligned. -/
def Axpy.Valid : Axpy → Prop
  | .generic => True
  | .simd aligned step => 0 < step ∧ aligned 0 = true

theorem Axpy.run_eq {f : Axpy} (hf : f.Valid) (a : ℝ) (v1 v0 : Fin n → 𝕜) : f.run a v1 v0 = .ok (axpySpec a v1 v0) := by
  cases f with
  | generic => exact axpyGeneric_eq a v1 v0
  | simd aligned step => exact axpySimd_eq aligned hf.1 hf.2 a v1 v0

end Verif.Lanczos
