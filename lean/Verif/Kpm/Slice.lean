import Verif.Kpm.Cheb
import Verif.Numeric.Loops

/-!
# Slices, sizes and interleaving
-/

namespace Verif.Kpm

open Verif.Numeric

variable {K V α : Type} {n : Nat}

/-! ## Borders -/

theorem border_mono {data : List Nat} (hm : data.Pairwise (· ≤ ·)) {k l : Nat} (h : k ≤ l) :
    border data k ≤ border data l := by
  unfold border
  rcases Nat.eq_or_lt_of_le (show min k (data.length - 1) ≤ min l (data.length - 1) by omega) with e | e
  · rw [e]
  · by_cases hd : data = []
    · subst hd; simp
    · have hl : 0 < data.length := List.length_pos_of_ne_nil hd
      have h2 : min l (data.length - 1) < data.length := by omega
      rw [List.getD_eq_getElem _ _ h2, List.getD_eq_getElem _ _ (Nat.lt_trans e h2)]
      exact List.pairwise_iff_getElem.1 hm _ _ _ _ e

theorem border_sat (data : List Nat) {k : Nat} (h : data.length - 1 ≤ k) :
    border data k = border data (data.length - 1) := by
  unfold border
  rw [Nat.min_eq_right h, Nat.min_self]

theorem Slices.le [Zero K] {data : List Nat} {A : Matrix (Fin n) (Fin n) K} (h : Slices data A) (k : Nat) :
    border data k ≤ n := by
  rw [← h.last]
  by_cases hk : k ≤ data.length - 1
  · exact border_mono h.mono hk
  · rw [border_sat data (by omega)]

theorem SliceMap.at_eq {m : SliceMap} {i : Int} (h0 : 0 ≤ i) (h1 : i ≤ m.lastIndex) :
    m.at i = .ok (border m.data i.toNat) := by
  unfold SliceMap.at
  rw [if_pos h0]
  unfold SliceMap.lastIndex at h1
  have h2 : i.toNat < m.data.length := by omega
  unfold rd border
  rw [Nat.min_eq_left (by omega), List.getD_eq_getElem _ _ h2, List.getElem?_eq_getElem h2]

/-! ## The index of the slice used for moment `k` -/

theorem index_range {m : SliceMap} (hd : m.data ≠ []) {k num : Nat} (hk : k < num) :
    0 ≤ m.index k num ∧ m.index k num ≤ m.lastIndex := by
  have hl : 0 < m.data.length := List.length_pos_of_ne_nil hd
  have hl2 : 0 ≤ m.lastIndex := by unfold SliceMap.lastIndex; omega
  simp only [SliceMap.index]
  generalize hmid : ((num : Int) - 1 + m.dest - m.src).tdiv 2 = mid
  have hmid2 : (num : Int) - 1 + m.dest - m.src = 2 * mid + ((num : Int) - 1 + m.dest - m.src).tmod 2 := by
    rw [← hmid]; exact (Int.mul_tdiv_add_tmod _ _).symm
  have hr1 := Int.tmod_lt_of_pos ((num : Int) - 1 + m.dest - m.src) (show (0 : Int) < 2 by omega)
  have hr2 : -2 < ((num : Int) - 1 + m.dest - m.src).tmod 2 := by
    have := Int.lt_tmod_of_pos ((num : Int) - 1 + m.dest - m.src) (show (0 : Int) < 2 by omega)
    omega
  generalize ((num : Int) - 1 + m.dest - m.src).tmod 2 = r at *
  split <;> constructor <;> omega

theorem index_upper {m : SliceMap} {k num : Nat} :
    m.index k num ≤ (num : Int) - 1 - k + m.dest := by
  simp only [SliceMap.index]
  generalize hmid : ((num : Int) - 1 + m.dest - m.src).tdiv 2 = mid
  have hmid2 : (num : Int) - 1 + m.dest - m.src = 2 * mid + ((num : Int) - 1 + m.dest - m.src).tmod 2 := by
    rw [← hmid]; exact (Int.mul_tdiv_add_tmod _ _).symm
  by_cases h0 : 0 ≤ (num : Int) - 1 + m.dest - m.src
  · have hr1 := Int.tmod_nonneg 2 h0
    generalize ((num : Int) - 1 + m.dest - m.src).tmod 2 = r at *
    split <;> omega
  · have hr2 := Int.lt_tmod_of_pos ((num : Int) - 1 + m.dest - m.src) (show (0 : Int) < 2 by omega)
    have : mid ≤ 0 := by omega
    split <;> omega

theorem index_lower {m : SliceMap} {k num : Nat} :
    min (min ((k : Int) + m.src) ((num : Int) - 1 - k + m.dest)) m.lastIndex ≤ m.index k num := by
  simp only [SliceMap.index]
  generalize hmid : ((num : Int) - 1 + m.dest - m.src).tdiv 2 = mid
  have hmid2 : (num : Int) - 1 + m.dest - m.src = 2 * mid + ((num : Int) - 1 + m.dest - m.src).tmod 2 := by
    rw [← hmid]; exact (Int.mul_tdiv_add_tmod _ _).symm
  have hr1 := Int.tmod_lt_of_pos ((num : Int) - 1 + m.dest - m.src) (show (0 : Int) < 2 by omega)
  generalize ((num : Int) - 1 + m.dest - m.src).tmod 2 = r at *
  split <;> omega

/-- The size for the next moment is smaller by at most one slice. -/
theorem index_step {m : SliceMap} {k num : Nat} : m.index k num - 1 ≤ m.index (k + 1) num := by
  simp only [SliceMap.index]
  generalize hmid : ((num : Int) - 1 + m.dest - m.src).tdiv 2 = mid
  have hmid2 : (num : Int) - 1 + m.dest - m.src = 2 * mid + ((num : Int) - 1 + m.dest - m.src).tmod 2 := by
    rw [← hmid]; exact (Int.mul_tdiv_add_tmod _ _).symm
  by_cases h0 : 0 ≤ (num : Int) - 1 + m.dest - m.src
  · have hr1 := Int.tmod_nonneg 2 h0
    generalize ((num : Int) - 1 + m.dest - m.src).tmod 2 = r at *
    split <;> split <;> omega
  · have hr2 := Int.lt_tmod_of_pos ((num : Int) - 1 + m.dest - m.src) (show (0 : Int) < 2 by omega)
    have : mid ≤ 0 := by omega
    split <;> split <;> omega

/-- The bounds of the interleaved loops. -/
theorem ilMax_range {m : SliceMap} (hd : m.data ≠ []) {opt : Bool} {k num : Nat} (hk : k < num) :
    0 ≤ ilMax m opt k num ∧ ilMax m opt k num ≤ m.lastIndex := by
  unfold ilMax
  split
  · exact index_range hd hk
  · have hl : 0 < m.data.length := List.length_pos_of_ne_nil hd
    unfold SliceMap.lastIndex; omega

theorem ilMax_step {m : SliceMap} {opt : Bool} {k num : Nat} : ilMax m opt k num - 1 ≤ ilMax m opt (k + 1) num := by
  unfold ilMax
  split
  · exact index_step
  · omega

/-- The number of rows that are computed for moment `k`. -/
def rowsFor (m : SliceMap) (opt : Bool) (k num : Nat) : Nat := border m.data (ilMax m opt k num).toNat

theorem rowsFor_le [Zero K] {m : SliceMap} {A : Matrix (Fin n) (Fin n) K} (h : Slices m.data A) (opt : Bool)
    (k num : Nat) : rowsFor m opt k num ≤ n := h.le _

theorem sizeFor_eq {m : SliceMap} {opt : Bool} (h : opt = true → m.data ≠ [])
    (hl : border m.data (m.data.length - 1) = n) {k num : Nat} (hk : k < num) :
    sizeFor n m opt k num = .ok (rowsFor m opt k num) := by
  unfold sizeFor rowsFor ilMax
  cases opt with
  | true =>
    simp only [if_true]
    have := index_range (h rfl) hk
    unfold SliceMap.optimalSize
    exact SliceMap.at_eq this.1 this.2
  | false =>
    simp only [Bool.false_eq_true, if_false]
    unfold SliceMap.lastIndex
    congr 1
    rw [← hl]
    congr 1
    omega

/-! ## Two interleaved products -/

section products

variable [CommRing K] [CommRing V] [Module K V]

theorem mulSub_congr {A : Matrix (Fin n) (Fin n) K} {a b : Nat} {x x' y : Fin n → V}
    (h : ∀ i j, a ≤ i.val → i.val < b → A i j ≠ 0 → x' j = x j) : mulSub A a b x' y = mulSub A a b x y := by
  funext i
  unfold mulSub
  split
  · rename_i hi
    congr 1
    refine Finset.sum_congr rfl fun j _ => ?_
    by_cases hz : A i j = 0
    · rw [hz, zero_smul, zero_smul]
    · rw [h i j hi.1 hi.2 hz]
  · rfl

theorem mulSub_join {A : Matrix (Fin n) (Fin n) K} {a b c : Nat} (hab : a ≤ b) (hbc : b ≤ c) (x y : Fin n → V) :
    mulSub A b c x (mulSub A a b x y) = mulSub A a c x y := by
  funext i
  unfold mulSub
  by_cases h1 : b ≤ i.val ∧ i.val < c
  · rw [if_pos h1, if_neg (by omega), if_pos (by omega)]
  · rw [if_neg h1]
    by_cases h2 : a ≤ i.val ∧ i.val < b
    · rw [if_pos h2, if_pos (by omega)]
    · rw [if_neg h2, if_neg (by omega)]

theorem mulSub_lt {A : Matrix (Fin n) (Fin n) K} {b : Nat} {x y : Fin n → V} {i : Fin n} (h : i.val < b) :
    mulSub A 0 b x y i = act A x i - y i := by
  unfold mulSub act
  rw [if_pos ⟨Nat.zero_le _, h⟩]

theorem mulSub_ge {A : Matrix (Fin n) (Fin n) K} {a b : Nat} {x y : Fin n → V} {i : Fin n} (h : b ≤ i.val) :
    mulSub A a b x y i = y i := by
  unfold mulSub
  rw [if_neg (by omega)]

theorem mulSub_below {A : Matrix (Fin n) (Fin n) K} {a b : Nat} {x y : Fin n → V} {i : Fin n} (h : i.val < a) :
    mulSub A a b x y i = y i := by
  unfold mulSub
  rw [if_neg (by omega)]

theorem mulSub_self {A : Matrix (Fin n) (Fin n) K} {a : Nat} {x y : Fin n → V} : mulSub A a a x y = y := by
  funext i
  unfold mulSub
  rw [if_neg (by omega)]

/-- The borders, preceded by 0. -/
def edge (data : List Nat) : Nat → Nat
  | 0 => 0
  | k + 1 => border data k

theorem edge_mono {data : List Nat} (hm : data.Pairwise (· ≤ ·)) {k l : Nat} (h : k ≤ l) : edge data k ≤ edge data l := by
  cases k with
  | zero => exact Nat.zero_le _
  | succ k =>
    cases l with
    | zero => omega
    | succ l => exact border_mono hm (by omega)

theorem edge_rows {data : List Nat} {A : Matrix (Fin n) (Fin n) K} (h : Slices data A) {i j : Fin n} {k : Nat}
    (hz : A i j ≠ 0) (hi : i.val < edge data k) : j.val < edge data (k + 1) := by
  cases k with
  | zero => exact absurd hi (Nat.not_lt_zero _)
  | succ k => exact h.rows i j k hz hi

theorem edge_cols {data : List Nat} {A : Matrix (Fin n) (Fin n) K} (h : Slices data A) {i j : Fin n} {k : Nat}
    (hz : A i j ≠ 0) (hj : j.val < edge data k) : i.val < edge data (k + 1) := by
  cases k with
  | zero => exact absurd hj (Nat.not_lt_zero _)
  | succ k => exact h.cols i j k hz hj

/-- First product of an inner iteration: extends the first result by one slice, although the input has
already been overwritten in part. -/
theorem il_first {data : List Nat} {A : Matrix (Fin n) (Fin n) K} (h : Slices data A) (k : Nat)
    (y0 : Fin n → V) (r0 r1 : Fin n → V) :
    mulSub A (edge data k) (edge data (k + 1)) (mulSub A 0 (edge data (k - 1)) y0 r1)
      (mulSub A 0 (edge data k) r1 r0) = mulSub A 0 (edge data (k + 1)) r1 r0 := by
  rw [mulSub_congr (x := r1), mulSub_join (Nat.zero_le _) (edge_mono h.mono (by omega))]
  intro i j h1 h2 hz
  apply mulSub_ge
  by_contra hc
  cases k with
  | zero => exact hc (Nat.zero_le _)
  | succ k =>
    have := edge_cols h hz (Nat.lt_of_not_le hc)
    simp only [Nat.add_sub_cancel] at this
    omega

/-- Second product of an inner iteration (not the last one). -/
theorem il_second {data : List Nat} {A : Matrix (Fin n) (Fin n) K} (h : Slices data A) (k : Nat) {full : Nat}
    (hf : edge data (k + 1) ≤ full) (r0 r1 : Fin n → V) :
    mulSub A (edge data (k - 1)) (edge data k) (mulSub A 0 (edge data (k + 1)) r1 r0)
      (mulSub A 0 (edge data (k - 1)) (mulSub A 0 full r1 r0) r1)
      = mulSub A 0 (edge data k) (mulSub A 0 full r1 r0) r1 := by
  rw [mulSub_congr (x := mulSub A 0 full r1 r0), mulSub_join (Nat.zero_le _) (edge_mono h.mono (by omega))]
  intro i j h1 h2 hz
  have := edge_rows h hz h2
  rw [mulSub_lt this, mulSub_lt (by omega)]

end products

end Verif.Kpm
