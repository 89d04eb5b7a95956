import Verif.Kpm.ScaleRelated
import Verif.Kpm.FloatContracts
import Verif.Hamiltonian.RoundedNumbers

/-!
# Scaling and reordering in floating-point arithmetic

The rounded matrix is compared with a matrix of triples at the same places: the exact element, a bound of the magnitudes which were added up for it, and a positive number
(so that the elements which are stored can be counted).
-/

namespace Verif.Kpm.Float

open Verif.Numeric Verif.Kpm Finset
open Verif.Hopping (Csr)
open Verif.Hamiltonian (Sorted coeff stored Format)

variable {K L : Type} {n : Nat}

/-- Rounded arithmetic on a type of scalars: the values and the errors of single operations. -/
structure Arith (K : Type) [Zero K] [Add K] [Sub K] [Neg K] [Mul K] (val : K → ℂ) (u : ℝ) : Prop where
  nonneg : 0 ≤ u
  zero : ∀ x, val x = 0 ↔ x = 0
  neg : ∀ x, val (-x) = -val x
  add : ∀ x y, ‖val (x + y) - (val x + val y)‖ ≤ u * ‖val x + val y‖
  sub : ∀ x y, ‖val (x - y) - (val x - val y)‖ ≤ u * ‖val x - val y‖
  mul : ∀ x y, ‖val (x * y) - val x * val y‖ ≤ ((1 + u) ^ 4 - 1) * (‖val x‖ * ‖val y‖)

/-! ## Errors of sums and products -/

/-- `z` is near `e`, relative to the magnitude `s`. -/
structure Near (ρ : ℝ) (z e : ℂ) (s : ℝ) : Prop where
  err : ‖z - e‖ ≤ (ρ - 1) * s
  size : ‖e‖ ≤ s
  one : 1 ≤ ρ

namespace Near

variable {ρ ρ' : ℝ} {z z' e e' : ℂ} {s s' : ℝ}

theorem nonneg (h : Near ρ z e s) : 0 ≤ s := (norm_nonneg _).trans h.size

theorem le (h : Near ρ z e s) : ‖z‖ ≤ ρ * s := by
  have := norm_add_le (z - e) e
  rw [sub_add_cancel] at this
  have h1 := h.err
  have h2 := h.size
  linarith

theorem mono (h : Near ρ z e s) (hr : ρ ≤ ρ') : Near ρ' z e s :=
  ⟨h.err.trans (mul_le_mul_of_nonneg_right (by linarith) h.nonneg), h.size, h.one.trans hr⟩

theorem exact (hs : ‖e‖ ≤ s) : Near 1 e e s := ⟨by simp, hs, le_refl _⟩

theorem neg (h : Near ρ z e s) : Near ρ (-z) (-e) s := ⟨by rw [← neg_sub', norm_neg]; exact h.err, by rw [norm_neg]; exact h.size, h.one⟩

theorem round (h : Near ρ z e s) {r : ℂ} {η : ℝ} (hη : 0 ≤ η) (hr : ‖r - z‖ ≤ η * ‖z‖) : Near (ρ * (1 + η)) r e s := by
  refine ⟨?_, h.size, by nlinarith [h.one]⟩
  have t := norm_add_le (r - z) (z - e)
  rw [sub_add_sub_cancel] at t
  have h1 := h.err
  have h2 := mul_le_mul_of_nonneg_left h.le hη
  calc ‖r - e‖ ≤ η * (ρ * s) + (ρ - 1) * s := by linarith
    _ = _ := by ring

theorem sum (h : Near ρ z e s) (h' : Near ρ z' e' s') : Near ρ (z + z') (e + e') (s + s') := by
  refine ⟨?_, (norm_add_le _ _).trans (add_le_add h.size h'.size), h.one⟩
  have t := norm_add_le (z - e) (z' - e')
  rw [show z - e + (z' - e') = z + z' - (e + e') by ring] at t
  have h1 := h.err
  have h2 := h'.err
  linarith

theorem prod (h : Near ρ z e s) (h' : Near ρ' z' e' s') : Near (ρ * ρ') (z * z') (e * e') (s * s') := by
  refine ⟨?_, ?_, by nlinarith [h.one, h'.one]⟩
  · have t := norm_add_le ((z - e) * z') (e * (z' - e'))
    rw [show (z - e) * z' + e * (z' - e') = z * z' - e * e' by ring, norm_mul, norm_mul] at t
    have h1 := mul_le_mul h.err h'.le (norm_nonneg _) (mul_nonneg (by linarith [h.one]) h.nonneg)
    have h2 := mul_le_mul h.size h'.err (norm_nonneg _) h.nonneg
    calc ‖z * z' - e * e'‖ ≤ (ρ - 1) * s * (ρ' * s') + s * ((ρ' - 1) * s') := by linarith
      _ = _ := by ring
  · rw [norm_mul]
    exact mul_le_mul h.size h'.size (norm_nonneg _) h.nonneg

end Near

section ops

variable [Zero K] [Add K] [Sub K] [Neg K] [Mul K] {val : K → ℂ} {u : ℝ} (A : Arith K val u) {ρ ρ' : ℝ} {x y : K} {e e' : ℂ} {s s' : ℝ}

include A

theorem Arith.mul_near (h : Near ρ (val x) e s) (h' : Near ρ' (val y) e' s') : Near (ρ * ρ' * (1 + u) ^ 4) (val (x * y)) (e * e') (s * s') := by
  have h1 := (h.prod h').round (η := (1 + u) ^ 4 - 1) (by have := one_le_pow₀ (n := 4) (show 1 ≤ 1 + u by linarith [A.nonneg]); linarith)
    (r := val (x * y)) (by rw [norm_mul]; exact A.mul x y)
  rwa [add_sub_cancel] at h1

theorem Arith.add_near (h : Near ρ (val x) e s) (h' : Near ρ (val y) e' s') : Near (ρ * (1 + u)) (val (x + y)) (e + e') (s + s') :=
  (h.sum h').round A.nonneg (A.add x y)

theorem Arith.sub_near (h : Near ρ (val x) e s) (h' : Near ρ (val y) e' s') : Near (ρ * (1 + u)) (val (x - y)) (e - e') (s + s') := by
  have := (h.sum h'.neg).round A.nonneg (r := val (x - y)) (by rw [← sub_eq_add_neg]; exact A.sub x y)
  rwa [← sub_eq_add_neg] at this

theorem Arith.neg_near (h : Near ρ (val x) e s) : Near ρ (val (-x)) (-e) s := by
  rw [A.neg]
  exact h.neg

end ops

/-! ## Triples -/

/-- The exact element, the magnitude, a positive number if something is stored. -/
abbrev Trip : Type := ℂ × ℝ × ℤ

/-- A rounded element and its exact counterpart. -/
def Twin (val : K → ℂ) (ρ : ℝ) (x : K) (w : Trip) : Prop := Near ρ (val x) w.1 w.2.1 ∧ 0 < w.2.2

/-- The relative error of the scaled elements. -/
noncomputable def scaleError (u ε η : ℝ) : ℝ := (1 + ε) * (1 + η) * (1 + u) ^ 5 - 1

theorem scaleError_nonneg {u ε η : ℝ} (hu : 0 ≤ u) (hε : 0 ≤ ε) (hη : 0 ≤ η) : 0 ≤ scaleError u ε η := by
  unfold scaleError
  have h1 := one_le_pow₀ (n := 5) (show 1 ≤ 1 + u by linarith)
  have h2 : 1 ≤ (1 + ε) * (1 + η) := by nlinarith
  nlinarith

section scaling

variable [Zero K] [Add K] [Sub K] [Neg K] [Mul K] {val : K → ℂ} {u : ℝ}

/-- The arithmetic of `create_scaled` and `create_reordered` on elements with relative errors `ε`, for a rounded `2 / a` with a relative error `η`. -/
theorem scaling_twin (A : Arith K val u) {ε η : ℝ} (hε : 0 ≤ ε) (hη : 0 ≤ η) {invA b : K} {t c : ℝ} (ht : 0 ≤ t) (hinv : ‖val invA - t‖ ≤ η * t) (hb : val b = c) :
    Scaling (Twin val (1 + ε)) (Twin val (1 + scaleError u ε η)) invA b ((t : ℂ), t, 1) ((c : ℂ), -|c|, if c = 0 then 0 else -1) := by
  have hu := A.nonneg
  have hI : Near (1 + η) (val invA) (t : ℂ) t := ⟨by rw [add_sub_cancel_left]; exact hinv, by rw [Complex.norm_real, Real.norm_eq_abs, abs_of_nonneg ht], by linarith⟩
  have hB : Near 1 (val b) (c : ℂ) |c| := by rw [hb]; exact Near.exact (by rw [Complex.norm_real, Real.norm_eq_abs])
  have hB' : Near (1 + ε) (val b) (c : ℂ) |c| := hB.mono (by linarith)
  have p1 := one_le_pow₀ (n := 4) (show 1 ≤ 1 + u by linarith)
  have hs : 1 + scaleError u ε η = (1 + ε) * (1 + η) * (1 + u) ^ 5 := by unfold scaleError; ring
  have hs' : (1 + ε) * (1 + η) * (1 + u) ^ 4 ≤ 1 + scaleError u ε η := by
    rw [hs]
    exact mul_le_mul_of_nonneg_left (pow_le_pow_right₀ (by linarith) (by norm_num)) (by positivity)
  have hmul : ∀ (v : K) (e : ℂ) (s : ℝ), Near (1 + ε) (val v) e s → Near ((1 + ε) * (1 + η) * (1 + u) ^ 4) (val (v * invA)) (e * t) (s * t) := fun v e s hv => A.mul_near hv hI
  refine ⟨?_, ?_, ?_, ?_, ?_⟩
  · rw [← A.zero, hb]
    constructor
    · intro h
      have hc : c = 0 := by exact_mod_cast h
      subst hc
      simp
    · intro h
      exact congrArg Prod.fst h
  · rintro v ⟨e, s, q⟩ ⟨h1, h2⟩
    refine ⟨?_, by simpa using h2⟩
    exact (hmul v e s h1).mono hs'
  · rintro v ⟨e, s, q⟩ ⟨h1, h2⟩
    refine ⟨?_, ?_⟩
    · have h3 := A.sub_near (hmul v e s h1) (hmul b c |c| hB')
      have h4 : (1 + ε) * (1 + η) * (1 + u) ^ 4 * (1 + u) = 1 + scaleError u ε η := by rw [hs]; ring
      rw [h4] at h3
      have e1 : s * t - -|c| * t = s * t + |c| * t := by ring
      show Near _ _ (e * (t : ℂ) - (c : ℂ) * (t : ℂ)) (s * t - -|c| * t)
      rw [e1]
      exact h3
    · show 0 < q * 1 - (if c = 0 then (0 : ℤ) else -1) * 1
      have : (0 : ℤ) < q := h2
      split <;> omega
  · intro hne
    have hc : c ≠ 0 := by
      rintro rfl
      exact hne (by simp)
    refine ⟨?_, ?_⟩
    · have h3 := (hmul (-b) (-c) |c| (A.neg_near hB')).mono hs'
      show Near _ _ (-(c : ℂ) * (t : ℂ)) (- -|c| * t)
      rw [neg_neg]
      exact h3
    · show 0 < -(if c = 0 then (0 : ℤ) else -1) * 1
      rw [if_neg hc]
      norm_num
  · rintro v ⟨e, s, q⟩ ⟨h1, h2⟩
    refine ⟨?_, ?_⟩
    · have h3 := A.mul_near (A.add_near h1 (A.neg_near hB')) hI
      have h4 : (1 + ε) * (1 + u) * (1 + η) * (1 + u) ^ 4 = 1 + scaleError u ε η := by rw [hs]; ring
      rw [h4] at h3
      have e1 : s + - -|c| = s + |c| := by ring
      show Near _ _ ((e + -(c : ℂ)) * (t : ℂ)) ((s + - -|c|) * t)
      rw [e1]
      exact h3
    · show 0 < (q + -(if c = 0 then (0 : ℤ) else -1)) * 1
      have : (0 : ℤ) < q := h2
      split <;> omega

end scaling

/-! ## Elements of related matrices -/

open Verif.Hamiltonian (rowCoeff)

/-- The matrix with a function applied to the elements. -/
def mapVal (f : K → L) (m : Csr K) : Csr L := m.map fun r => r.map fun e => (e.1, f e.2)

theorem mapVal_rel {M : Type} {Q : K → M → Prop} {Q' : L → M → Prop} {f : K → L} (hf : ∀ x w, Q x w → Q' (f x) w) {m : Csr K} {m' : Csr M} (h : RowsRel Q m m') :
    RowsRel Q' (mapVal f m) m' := by
  unfold RowsRel mapVal
  rw [List.forall₂_map_left_iff]
  refine h.imp fun r r' hr => ?_
  unfold RowRel
  rw [List.forall₂_map_left_iff]
  exact hr.imp fun e e' he => ⟨he.1, hf _ _ he.2⟩

theorem rel_keys {Q : K → L → Prop} {r : List (Nat × K)} {r' : List (Nat × L)} (h : RowRel Q r r') : r.map (·.1) = r'.map (·.1) := by
  induction h with
  | nil => rfl
  | cons h1 _ ih => rw [List.map_cons, List.map_cons, ih, h1.1]

theorem rel_sorted {Q : K → L → Prop} {m : Csr K} {m' : Csr L} (h : RowsRel Q m m') (hs : Sorted n m') : Sorted n m := by
  refine ⟨(List.Forall₂.length_eq h).trans hs.1, fun r hr => ?_⟩
  obtain ⟨i, hi, rfl⟩ := List.mem_iff_getElem.1 hr
  have hi' : i < m'.length := by rw [← List.Forall₂.length_eq h]; exact hi
  have hrel : RowRel Q m[i] m'[i] := List.Forall₂.get h hi hi'
  have hk := rel_keys hrel
  obtain ⟨h1, h2⟩ := hs.2 m'[i] (List.getElem_mem hi')
  refine ⟨by rw [hk]; exact h1, fun e he => ?_⟩
  have : e.1 ∈ m'[i].map (·.1) := by rw [← hk]; exact List.mem_map_of_mem he
  obtain ⟨e', he', e1⟩ := List.mem_map.1 this
  rw [← e1]
  exact h2 e' he'

theorem rowCoeff_none [AddCommMonoid K] {r : List (Nat × K)} {j : Nat} (h : j ∉ r.map (·.1)) : rowCoeff r j = 0 := by
  unfold rowCoeff
  rw [List.filter_eq_nil_iff.2, List.map_nil, List.sum_nil]
  intro e he hc
  exact h (List.mem_map.2 ⟨e, he, by simpa using hc⟩)

theorem rowCoeff_rel [AddCommMonoid K] [AddCommMonoid L] {Q : K → L → Prop} {r : List (Nat × K)} {r' : List (Nat × L)} (h : RowRel Q r r') (hs : (r'.map (·.1)).Pairwise (· < ·)) (j : Nat) :
    (j ∉ r'.map (·.1) ∧ rowCoeff r j = 0 ∧ rowCoeff r' j = 0) ∨ (j ∈ r'.map (·.1) ∧ Q (rowCoeff r j) (rowCoeff r' j)) := by
  induction h with
  | nil => exact .inl ⟨by simp, rfl, rfl⟩
  | @cons a b l l' hab hl ih =>
    rw [List.map_cons, List.pairwise_cons] at hs
    have hk := rel_keys hl
    by_cases hj : b.1 = j
    · have hj' : a.1 = j := hab.1.trans hj
      have hn : j ∉ l'.map (·.1) := fun hm => absurd (hs.1 j hm) (by omega)
      have e1 : rowCoeff (a :: l) j = a.2 := by
        have := rowCoeff_none (r := l) (j := j) (by rw [hk]; exact hn)
        unfold rowCoeff at this ⊢
        rw [List.filter_cons_of_pos (by simpa using hj'), List.map_cons, List.sum_cons, this, add_zero]
      have e2 : rowCoeff (b :: l') j = b.2 := by
        have := rowCoeff_none (r := l') (j := j) hn
        unfold rowCoeff at this ⊢
        rw [List.filter_cons_of_pos (by simpa using hj), List.map_cons, List.sum_cons, this, add_zero]
      rw [e1, e2]
      exact .inr ⟨by simp [hj], hab.2⟩
    · have hj' : ¬ a.1 = j := fun x => hj (hab.1.symm.trans x)
      have e1 : rowCoeff (a :: l) j = rowCoeff l j := by
        unfold rowCoeff
        rw [List.filter_cons_of_neg (by simpa using hj')]
      have e2 : rowCoeff (b :: l') j = rowCoeff l' j := by
        unfold rowCoeff
        rw [List.filter_cons_of_neg (by simpa using hj)]
      rw [e1, e2, List.map_cons, List.mem_cons]
      rcases ih hs.2 with ⟨h1, h2⟩ | ⟨h1, h2⟩
      · exact .inl ⟨by rintro (h | h); exacts [hj h.symm, h1 h], h2⟩
      · exact .inr ⟨.inr h1, h2⟩

theorem rows_rel {Q : K → L → Prop} {m : Csr K} {m' : Csr L} (h : RowsRel Q m m') (i : Nat) : RowRel Q (m.getD i []) (m'.getD i []) := by
  by_cases hi : i < m'.length
  · have hi' : i < m.length := by rw [List.Forall₂.length_eq h]; exact hi
    rw [List.getD_eq_getElem _ _ hi, List.getD_eq_getElem _ _ hi']
    exact List.Forall₂.get h hi' hi
  · have hi' : ¬ i < m.length := by rw [List.Forall₂.length_eq h]; exact hi
    rw [List.getD_eq_default _ _ (by omega), List.getD_eq_default _ _ (by omega)]
    exact .nil

theorem sorted_row {m : Csr K} (hs : Sorted n m) (i : Nat) : ((m.getD i []).map (·.1)).Pairwise (· < ·) := by
  by_cases hi : i < m.length
  · rw [List.getD_eq_getElem _ _ hi]
    exact (hs.2 _ (List.getElem_mem hi)).1
  · rw [List.getD_eq_default _ _ (by omega)]
    exact .nil

theorem rowCoeff_mem [AddCommMonoid K] {r : List (Nat × K)} (hs : (r.map (·.1)).Pairwise (· < ·)) {j : Nat} {v : K} (hm : (j, v) ∈ r) : rowCoeff r j = v := by
  induction r with
  | nil => cases hm
  | cons a l ih =>
    rw [List.map_cons, List.pairwise_cons] at hs
    rcases List.mem_cons.1 hm with rfl | hm
    · have := rowCoeff_none (r := l) (j := j) fun hj => absurd (hs.1 j hj) (lt_irrefl _)
      unfold rowCoeff at this ⊢
      rw [List.filter_cons_of_pos (by simp), List.map_cons, List.sum_cons, this, add_zero]
    · have hne : ¬ a.1 = j := fun e => absurd (hs.1 j (List.mem_map.2 ⟨_, hm, rfl⟩)) (by omega)
      rw [← ih hs.2 hm]
      unfold rowCoeff
      rw [List.filter_cons_of_neg (by simpa using hne)]

/-- Elements of related matrices: nothing is stored in both, or the values are related. -/
theorem coeff_rel [AddCommMonoid K] [AddCommMonoid L] {Q : K → L → Prop} {m : Csr K} {m' : Csr L} (h : RowsRel Q m m') (hs : Sorted n m') (i j : Nat) :
    (j ∉ (m'.getD i []).map (·.1) ∧ coeff m i j = 0 ∧ coeff m' i j = 0) ∨ (j ∈ (m'.getD i []).map (·.1) ∧ Q (coeff m i j) (coeff m' i j)) :=
  rowCoeff_rel (rows_rel h i) (sorted_row hs i) j

/-! ## The matrix of triples -/

/-- Specification: the stored elements of `h` are the elements of `H` up to relative errors `ε` of the magnitudes `S`; elements which are not stored are zero. Elements are
stored at symmetric places. -/
structure Stores (val : K → ℂ) (h : Csr K) (H : Matrix (Fin n) (Fin n) ℂ) (S : Matrix (Fin n) (Fin n) ℝ) (ε : ℝ) : Prop where
  sorted : Sorted n h
  nonneg : 0 ≤ ε
  near : ∀ (i j : Fin n) v, (j.val, v) ∈ h.getD i [] → ‖val v - H i j‖ ≤ ε * S i j
  size : ∀ i j, ‖H i j‖ ≤ S i j
  outside : ∀ i j : Fin n, (∀ v, (j.val, v) ∉ h.getD i []) → S i j = 0
  symm : ∀ i j : Fin n, Adj h i j → Adj h j i

/-- The triples at the places of `h`. -/
noncomputable def triples (h : Csr K) (H : Matrix (Fin n) (Fin n) ℂ) (S : Matrix (Fin n) (Fin n) ℝ) : Csr Trip :=
  h.zipIdx.map fun p => p.1.map fun e => (e.1, if c : p.2 < n ∧ e.1 < n then (H ⟨p.2, c.1⟩ ⟨e.1, c.2⟩, S ⟨p.2, c.1⟩ ⟨e.1, c.2⟩, 1) else 0)

theorem triples_getD (h : Csr K) (H : Matrix (Fin n) (Fin n) ℂ) (S : Matrix (Fin n) (Fin n) ℝ) (i : Nat) :
    (triples h H S).getD i [] = (h.getD i []).map fun e => (e.1, if c : i < n ∧ e.1 < n then (H ⟨i, c.1⟩ ⟨e.1, c.2⟩, S ⟨i, c.1⟩ ⟨e.1, c.2⟩, 1) else 0) := by
  unfold triples
  by_cases hi : i < h.length
  · rw [List.getD_eq_getElem _ _ (by simpa using hi), List.getD_eq_getElem _ _ hi]
    simp
  · rw [List.getD_eq_default _ _ (by simpa using hi), List.getD_eq_default _ _ (by omega)]
    rfl

theorem triples_length (h : Csr K) (H : Matrix (Fin n) (Fin n) ℂ) (S : Matrix (Fin n) (Fin n) ℝ) : (triples h H S).length = h.length := by
  unfold triples
  simp

theorem triples_keys (h : Csr K) (H : Matrix (Fin n) (Fin n) ℂ) (S : Matrix (Fin n) (Fin n) ℝ) (i : Nat) :
    ((triples h H S).getD i []).map (·.1) = (h.getD i []).map (·.1) := by
  rw [triples_getD, List.map_map]
  rfl

variable {val : K → ℂ} {h : Csr K} {H : Matrix (Fin n) (Fin n) ℂ} {S : Matrix (Fin n) (Fin n) ℝ} {ε : ℝ}

theorem Stores.rel (hs : Stores val h H S ε) : RowsRel (Twin val (1 + ε)) h (triples h H S) := by
  unfold RowsRel
  rw [List.forall₂_iff_get]
  refine ⟨(triples_length h H S).symm, fun i hi hi' => ?_⟩
  have hin : i < n := by rw [← hs.sorted.1]; exact hi
  have e1 : (triples h H S).get ⟨i, hi'⟩ = (triples h H S).getD i [] := by rw [List.getD_eq_getElem _ _ hi']; rfl
  have e2 : h.get ⟨i, hi⟩ = h.getD i [] := by rw [List.getD_eq_getElem _ _ hi]; rfl
  have hrow := (hs.sorted.2 (h.getD i []) (by rw [List.getD_eq_getElem _ _ hi]; exact List.getElem_mem _)).2
  have hnear := hs.near ⟨i, hin⟩
  rw [e1, e2, triples_getD]
  unfold RowRel
  rw [List.forall₂_map_right_iff, List.forall₂_same]
  intro e he
  have hj := hrow e he
  refine ⟨rfl, ?_⟩
  simp only
  rw [dif_pos ⟨hin, hj⟩]
  exact ⟨⟨by rw [add_sub_cancel_left]; exact hnear ⟨e.1, hj⟩ e.2 he, hs.size _ _, by linarith [hs.nonneg]⟩, Int.one_pos⟩

theorem Stores.tsorted (hs : Stores val h H S ε) : Sorted n (triples h H S) := by
  refine ⟨(triples_length h H S).trans hs.sorted.1, fun r hr => ?_⟩
  obtain ⟨i, hi, rfl⟩ := List.mem_iff_getElem.1 hr
  have hi' : i < h.length := by rw [← triples_length h H S]; exact hi
  have hk := triples_keys h H S i
  rw [List.getD_eq_getElem _ _ hi, List.getD_eq_getElem _ _ hi'] at hk
  obtain ⟨h1, h2⟩ := hs.sorted.2 _ (List.getElem_mem hi')
  refine ⟨by rw [hk]; exact h1, fun e he => ?_⟩
  have : e.1 ∈ h[i].map (·.1) := by rw [← hk]; exact List.mem_map_of_mem he
  obtain ⟨e', he', e1⟩ := List.mem_map.1 this
  rw [← e1]
  exact h2 e' he'

theorem adj_keys (h : Csr K) (i j : Nat) : Adj h i j ↔ j ∈ (h.getD i []).map (·.1) := by
  unfold Adj
  constructor
  · rintro ⟨v, hv⟩
    exact List.mem_map.2 ⟨_, hv, rfl⟩
  · intro hj
    obtain ⟨e, he, rfl⟩ := List.mem_map.1 hj
    exact ⟨e.2, he⟩

theorem triples_adj (h : Csr K) (H : Matrix (Fin n) (Fin n) ℂ) (S : Matrix (Fin n) (Fin n) ℝ) : Adj (triples h H S) = Adj h := by
  funext i j
  rw [eq_iff_iff, adj_keys, adj_keys, triples_keys]

open Classical in
theorem Stores.coeff_triples (hs : Stores val h H S ε) (i j : Fin n) : coeff (triples h H S) i j = (H i j, S i j, if Adj h i j then 1 else 0) := by
  by_cases hA : Adj h i j
  · rw [if_pos hA]
    obtain ⟨v, hv⟩ := hA
    have hmem : (j.val, ((H i j, S i j, 1) : Trip)) ∈ (triples h H S).getD i [] := by
      rw [triples_getD]
      exact List.mem_map.2 ⟨_, hv, by simp⟩
    exact rowCoeff_mem (sorted_row hs.tsorted i) hmem
  · rw [if_neg hA]
    have hS := hs.outside i j fun v hv => hA ⟨v, hv⟩
    have hH : H i j = 0 := by
      have := hs.size i j
      rw [hS] at this
      exact norm_le_zero_iff.1 this
    have : coeff (triples h H S) i j = 0 := rowCoeff_none (r := (triples h H S).getD i []) (by rw [triples_keys, ← adj_keys]; exact hA)
    rw [this, hS, hH]
    rfl

end Verif.Kpm.Float
