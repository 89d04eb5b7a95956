import Verif.Kpm.Stats
import Verif.Kpm.Interleave
import Verif.Kpm.CoreLemmas
import Mathlib.Algebra.BigOperators.Intervals
import Mathlib.Data.List.GetD

/-!
# Lemmas about the statistics and about counting the work of the algorithms
-/

namespace Verif.Kpm

open Verif.Numeric

variable {K : Type} {n : Nat}

/-- Borders that do not decrease and end at the size of the system. -/
structure Borders (data : List Nat) (n : Nat) : Prop where
  nonempty : data ≠ []
  mono : data.Pairwise (· ≤ ·)
  last : data.getLast? = some n

theorem Borders.border_last {data : List Nat} (h : Borders data n) : border data (data.length - 1) = n := by
  have hl : 0 < data.length := List.length_pos_of_ne_nil h.nonempty
  have := h.last
  rw [List.getLast?_eq_getElem?, List.getElem?_eq_getElem (by omega), Option.some.injEq] at this
  unfold border
  rw [Nat.min_self, List.getD_eq_getElem _ _ (by omega), this]

theorem Borders.le {data : List Nat} (h : Borders data n) (k : Nat) : border data k ≤ n := by
  rw [← h.border_last]
  by_cases hk : k ≤ data.length - 1
  · exact border_mono h.mono hk
  · rw [border_sat data (by omega)]

theorem sizeFor_rows {m : SliceMap} (h : Borders m.data n) (opt : Bool) {k num : Nat} (hk : k < num) :
    sizeFor n m opt k num = .ok (rowsFor m opt k num) :=
  sizeFor_eq (fun _ => h.nonempty) h.border_last hk

theorem optimalSize_rows {m : SliceMap} (h : Borders m.data n) {k num : Nat} (hk : k < num) :
    m.optimalSize k num = .ok (rowsFor m true k num) := sizeFor_rows h true hk

theorem foldlM_sum (f : Nat → Res Nat) (g : Nat → Nat) (num : Nat) (h : ∀ k < num, f k = .ok (g k)) :
    (List.range num).foldlM (fun total k => do let z ← f k; return total + z) 0 = .ok (∑ k ∈ Finset.range num, g k) := by
  have : ∀ t ≤ num, (List.range t).foldlM (fun total k => do let z ← f k; return total + z) 0
      = .ok (∑ k ∈ Finset.range t, g k) := by
    intro t
    induction t with
    | zero => intro _; rfl
    | succ t ih =>
      intro ht
      rw [List.range_succ, List.foldlM_append, ih (by omega), Res.bind_ok]
      simp only [List.foldlM_cons, List.foldlM_nil, h t (by omega), Res.bind_ok, Res.pure_eq, Finset.sum_range_succ]
  exact this num (le_refl _)

theorem rowsFor_false {m : SliceMap} (h : Borders m.data n) (k num : Nat) : rowsFor m false k num = n := by
  unfold rowsFor ilMax SliceMap.lastIndex
  simp only [Bool.false_eq_true, if_false]
  rw [show ((m.data.length : Int) - 1).toNat = m.data.length - 1 by omega]
  exact h.border_last

theorem numVecElements_eq {m : SliceMap} (h : Borders m.data n) (diagonal opt : Bool) (num : Nat) :
    numVecElements n m diagonal opt num = .ok (halveIf diagonal (∑ k ∈ Finset.range num, rowsFor m opt k num)) := by
  unfold numVecElements totalElements
  cases opt with
  | true =>
    simp only [if_true]
    rw [foldlM_sum (fun k => m.optimalSize k num) (fun k => rowsFor m true k num) num
      (fun k hk => optimalSize_rows h hk), Res.bind_ok]
    rfl
  | false =>
    simp only [Bool.false_eq_true, if_false, rowsFor_false h, Finset.sum_const, Finset.card_range, smul_eq_mul]
    rfl

theorem numNonzeros_eq {m : SliceMap} (h : Borders m.data n) (s : Stored K) (c : Nat → Nat)
    (hc : ∀ k ≤ n, s.nonZeros k = .ok (c k)) (diagonal opt : Bool) (num : Nat) :
    numNonzeros n s m diagonal opt num = .ok (halveIf diagonal (∑ k ∈ Finset.range num, c (rowsFor m opt k num))) := by
  unfold numNonzeros totalNonzeros
  cases opt with
  | true =>
    simp only [if_true]
    have := foldlM_sum (fun k => m.optimalSize k num >>= fun size => s.nonZeros size) (fun k => c (rowsFor m true k num)) num
      (fun k hk => by rw [optimalSize_rows h hk, Res.bind_ok, hc (rowsFor m true k num) (h.le _)])
    simp only [bind_assoc] at this
    rw [this, Res.bind_ok]
    rfl
  | false =>
    simp only [Bool.false_eq_true, if_false, rowsFor_false h, Finset.sum_const, Finset.card_range, smul_eq_mul]
    rw [hc n (le_refl _)]
    rfl

/-! ## Counting the work -/

/-- A matrix whose kernels count: the result of a product of the rows `start..stop` is what the factor has counted plus
the cost of these rows (none if the range is empty).  In the algorithms the factor is always the vector computed last, so
every vector carries the cost of everything computed before.  A measuring device, not a part of the program. -/
def counter (n : Nat) (cost : Nat → Nat) : Mat (n + 1) Int where
  spmv start stop x _ := .ok fun i => x i + ((cost stop - cost start : Nat) : Int)
  diag start stop x _ _ _ :=
    let y : Fin (n + 1) → Int := fun i => x i + ((cost stop - cost start : Nat) : Int)
    .ok ⟨y, y 0, y 0⟩
  r1 x := .ok x

section count

variable {map : SliceMap} {cost : Nat → Nat}

/-- A constant vector. -/
def cvec (n : Nat) (w : Nat) : Fin (n + 1) → Int := fun _ => (w : Int)

theorem counter_spmv (w a b : Nat) (y : Fin (n + 1) → Int) :
    (counter n cost).spmv a b (cvec n w) y = .ok (cvec n (w + (cost b - cost a))) := by
  unfold cvec
  simp [counter]

theorem counter_diag (w a b : Nat) (y : Fin (n + 1) → Int) (m2 m3 : Int) :
    (counter n cost).diag a b (cvec n w) y m2 m3
      = .ok ⟨cvec n (w + (cost b - cost a)), ((w + (cost b - cost a) : Nat) : Int), ((w + (cost b - cost a) : Nat) : Int)⟩ := by
  unfold cvec
  simp [counter]

theorem offIl_count (hB : Borders map.data (n + 1)) (hc : Monotone cost) (h0 : cost 0 = 0) (p : Nat) (q : Int)
    (hp : (p : Int) ≤ map.lastIndex) (w : Nat) (r0 : Fin (n + 1) → Int) (t : Nat) (ht : t ≤ p) :
    ∃ y0, (List.range t).foldlM (offIlStep (counter n cost) map p q) ⟨r0, cvec n w, 0, 0⟩
      = .ok ⟨y0, cvec n (w + cost (edge map.data t) + cost (edge map.data (t - 1))), edge map.data t,
          edge map.data (t - 1)⟩ := by
  induction t with
  | zero => exact ⟨r0, by simp [edge, h0]⟩
  | succ t ih =>
    obtain ⟨y0, ih⟩ := ih (by omega)
    rw [List.range_succ, List.foldlM_append, ih, Res.bind_ok]
    simp only [List.foldlM_cons, List.foldlM_nil]
    unfold offIlStep
    rw [SliceMap.at_eq (by omega) (by omega), Res.bind_ok]
    unfold end1For
    rw [if_neg (by omega), Res.bind_ok, counter_spmv, Res.bind_ok, counter_spmv, Res.bind_ok]
    have e1 : border map.data ((t : Int)).toNat = edge map.data (t + 1) := by
      rw [Int.toNat_natCast]; rfl
    have m1 := hc (edge_mono hB.mono (show t ≤ t + 1 by omega))
    have m2 := hc (edge_mono hB.mono (show t - 1 ≤ t by omega))
    have ew : w + cost (edge map.data t) + cost (edge map.data (t - 1)) + (cost (edge map.data (t + 1)) - cost (edge map.data t))
        + (cost (edge map.data t) - cost (edge map.data (t - 1)))
        = w + cost (edge map.data (t + 1)) + cost (edge map.data (t + 1 - 1)) := by
      rw [Nat.add_sub_cancel]; omega
    rw [e1, ew]
    exact ⟨_, rfl⟩

theorem offIl_count_all (hB : Borders map.data (n + 1)) (hc : Monotone cost) (h0 : cost 0 = 0) (max1 max2 : Int)
    (h1 : 0 ≤ max1) (h1' : max1 ≤ map.lastIndex) (h2 : 0 ≤ max2) (h2' : max2 ≤ map.lastIndex) (h12 : max1 - 1 ≤ max2)
    (w : Nat) (r0 : Fin (n + 1) → Int) :
    ∃ y0 a b, (List.range (max1 + 1).toNat).foldlM (offIlStep (counter n cost) map max1 max2) ⟨r0, cvec n w, 0, 0⟩
      = .ok ⟨y0, cvec n (w + cost (border map.data max1.toNat) + cost (border map.data max2.toNat)), a, b⟩ := by
  obtain ⟨p, rfl⟩ := Int.eq_ofNat_of_zero_le h1
  obtain ⟨y0, e⟩ := offIl_count hB hc h0 p max2 h1' w r0 p (le_refl p)
  rw [show ((p : Int) + 1).toNat = p + 1 by omega, List.range_succ, List.foldlM_append, e, Res.bind_ok]
  simp only [List.foldlM_cons, List.foldlM_nil]
  unfold offIlStep
  rw [SliceMap.at_eq (by omega) (by omega), Res.bind_ok]
  unfold end1For
  rw [if_pos rfl, SliceMap.at_eq h2 h2', Res.bind_ok, counter_spmv, Res.bind_ok, counter_spmv, Res.bind_ok]
  have e1 : border map.data ((p : Int)).toNat = edge map.data (p + 1) := by
    rw [Int.toNat_natCast]; rfl
  have m1 := hc (edge_mono hB.mono (show p ≤ p + 1 by omega))
  have m2 := hc (show edge map.data (p - 1) ≤ border map.data max2.toNat from
    (edge_mono hB.mono (by omega) : edge map.data (p - 1) ≤ edge map.data (max2.toNat + 1)))
  have ew : w + cost (edge map.data p) + cost (edge map.data (p - 1)) + (cost (edge map.data (p + 1)) - cost (edge map.data p))
      + (cost (border map.data max2.toNat) - cost (edge map.data (p - 1)))
      = w + cost (edge map.data (p + 1)) + cost (border map.data max2.toNat) := by omega
  rw [e1, ew]
  exact ⟨_, _, _, rfl⟩

theorem wr_set {α : Type} {l : List α} {i : Nat} (a : α) (h : i < l.length) : wr l i a = .ok (l.set i a) := by
  unfold wr
  rw [if_pos h]

/-- The work of the moments `2 .. k - 1`. -/
def workTo (map : SliceMap) (opt : Bool) (num : Nat) (cost : Nat → Nat) (k : Nat) : Nat :=
  ∑ i ∈ Finset.Ico 2 k, cost (rowsFor map opt i num)

theorem workTo_succ (opt : Bool) (num : Nat) {k : Nat} (hk : 2 ≤ k) :
    workTo map opt num cost (k + 1) = workTo map opt num cost k + cost (rowsFor map opt k num) :=
  Finset.sum_Ico_succ_top hk _

theorem offBasicStep_count (hB : Borders map.data (n + 1)) (h0 : cost 0 = 0) (opt : Bool) (num : Nat)
    (l : List Int) (hl : l.length = num) (w : Nat) (r0 : Fin (n + 1) → Int) {k : Nat} (hk : k < num) :
    ∃ r0', offBasicStep (counter n cost) map opt num (fun r => .ok (r 0)) ⟨l, r0, cvec n w⟩ k
      = .ok ⟨l.set k (w + cost (rowsFor map opt k num) : Nat), r0', cvec n (w + cost (rowsFor map opt k num))⟩ := by
  unfold offBasicStep
  rw [sizeFor_rows hB opt hk, Res.bind_ok, counter_spmv, Res.bind_ok]
  unfold offCollect
  simp only [Res.bind_ok]
  rw [wr_set _ (by rw [hl]; exact hk), Res.bind_ok, h0]
  exact ⟨_, rfl⟩

theorem offInterStep_count (hB : Borders map.data (n + 1)) (hc : Monotone cost) (h0 : cost 0 = 0) (opt : Bool) (num : Nat)
    (l : List Int) (hl : l.length = num) (w : Nat) (r0 : Fin (n + 1) → Int) {k : Nat} (hk : k + 1 < num) :
    ∃ r0' x, offInterStep (counter n cost) map opt num (fun r => .ok (r 0)) ⟨l, r0, cvec n w⟩ k
      = .ok ⟨(l.set k x).set (k + 1) (w + cost (rowsFor map opt k num) + cost (rowsFor map opt (k + 1) num) : Nat), r0',
          cvec n (w + cost (rowsFor map opt k num) + cost (rowsFor map opt (k + 1) num))⟩ := by
  have r1 := ilMax_range (m := map) hB.nonempty (opt := opt) (show k < num by omega)
  have r2 := ilMax_range (m := map) hB.nonempty (opt := opt) hk
  obtain ⟨y0, a, b, e⟩ := offIl_count_all hB hc h0 _ _ r1.1 r1.2 r2.1 r2.2 ilMax_step w r0
  unfold offInterStep
  simp only [e, Res.bind_ok]
  unfold offCollect
  simp only [Res.bind_ok]
  rw [wr_set _ (by omega), Res.bind_ok, wr_set _ (by rw [List.length_set]; omega), Res.bind_ok]
  exact ⟨_, _, rfl⟩

/-- The variables after some iterations: the last vector carries the whole work, and so does the last moment. -/
structure Counted (map : SliceMap) (opt : Bool) (num : Nat) (cost : Nat → Nat) (k : Nat) (s : St (n + 1) Int (List Int)) :
    Prop where
  len : s.col.length = num
  r1 : s.r1 = cvec n (workTo map opt num cost k)
  last : 2 < k → s.col[k - 1]? = some (workTo map opt num cost k : Int)

theorem offBasic_count (hB : Borders map.data (n + 1)) (h0 : cost 0 = 0) (opt : Bool) {num : Nat} (hnum : 2 < num) :
    ∃ ms, offBasic (counter n cost) map opt (fun r => .ok (r 0)) (List.replicate num 0) 0 0 = .ok ms ∧
      ms.length = num ∧ ms[num - 1]? = some (workTo map opt num cost num : Int) := by
  unfold offBasic
  simp only [List.length_replicate]
  have key : ∀ t ≤ num - 2, ∃ s, (List.range' 2 t).foldlM (offBasicStep (counter n cost) map opt num fun r => .ok (r 0))
      ⟨List.replicate num 0, 0, 0⟩ = .ok s ∧ Counted map opt num cost (2 + t) s := by
    intro t
    induction t with
    | zero =>
      refine fun _ => ⟨_, rfl, by simp, ?_, fun h => absurd h (by omega)⟩
      funext i
      simp [cvec, workTo]
    | succ t ih =>
      intro ht
      obtain ⟨⟨l, r0, r1⟩, e, C⟩ := ih (by omega)
      rw [List.range'_concat, List.foldlM_append, e, Res.bind_ok]
      simp only [List.foldlM_cons, List.foldlM_nil, Nat.one_mul]
      have hr := C.r1
      simp only at hr
      subst hr
      obtain ⟨r0', e'⟩ := offBasicStep_count hB h0 opt num l C.len (workTo map opt num cost (2 + t)) r0 (show 2 + t < num by omega)
      rw [← workTo_succ opt num (show 2 ≤ 2 + t by omega)] at e'
      rw [e', Res.bind_ok]
      refine ⟨_, rfl, by simp [C.len], by rw [show 2 + (t + 1) = 2 + t + 1 by omega], fun _ => ?_⟩
      simp only [show 2 + (t + 1) = 2 + t + 1 by omega, Nat.add_sub_cancel]
      rw [List.getElem?_set_self (by rw [C.len]; omega)]
  obtain ⟨s, e, C⟩ := key (num - 2) (le_refl _)
  rw [show 2 + (num - 2) = num by omega] at C
  rw [e, Res.bind_ok]
  exact ⟨s.col, rfl, C.len, C.last hnum⟩

theorem offInterleaved_count (hB : Borders map.data (n + 1)) (hc : Monotone cost) (h0 : cost 0 = 0) (opt : Bool) {num : Nat}
    (hnum : 2 < num) (heven : num % 2 = 0) :
    ∃ ms, offInterleaved (counter n cost) map opt (fun r => .ok (r 0)) (List.replicate num 0) 0 0 = .ok ms ∧
      ms.length = num ∧ ms[num - 1]? = some (workTo map opt num cost num : Int) := by
  unfold offInterleaved
  simp only [List.length_replicate]
  have key : ∀ t ≤ (num - 1) / 2, ∃ s, (List.range' 2 t 2).foldlM (offInterStep (counter n cost) map opt num fun r => .ok (r 0))
      ⟨List.replicate num 0, 0, 0⟩ = .ok s ∧ Counted map opt num cost (2 + 2 * t) s := by
    intro t
    induction t with
    | zero =>
      refine fun _ => ⟨_, rfl, by simp, ?_, fun h => absurd h (by omega)⟩
      funext i
      simp [cvec, workTo]
    | succ t ih =>
      intro ht
      obtain ⟨⟨l, r0, r1⟩, e, C⟩ := ih (by omega)
      rw [List.range'_concat, List.foldlM_append, e, Res.bind_ok]
      simp only [List.foldlM_cons, List.foldlM_nil]
      have hr := C.r1
      simp only at hr
      subst hr
      obtain ⟨r0', x, e'⟩ := offInterStep_count hB hc h0 opt num l C.len (workTo map opt num cost (2 + 2 * t)) r0
        (show 2 + 2 * t + 1 < num by omega)
      rw [← workTo_succ opt num (show 2 ≤ 2 + 2 * t by omega), ← workTo_succ opt num (show 2 ≤ 2 + 2 * t + 1 by omega)] at e'
      rw [e', Res.bind_ok]
      refine ⟨_, rfl, by simp [C.len], by rw [show 2 + 2 * (t + 1) = 2 + 2 * t + 1 + 1 by omega], fun _ => ?_⟩
      simp only [show 2 + 2 * (t + 1) = 2 + 2 * t + 1 + 1 by omega, Nat.add_sub_cancel]
      rw [List.getElem?_set_self (by rw [List.length_set, C.len]; omega)]
  obtain ⟨s, e, C⟩ := key ((num - 1) / 2) (le_refl _)
  rw [show 2 + 2 * ((num - 1) / 2) = num by omega] at C
  rw [e, Res.bind_ok]
  exact ⟨s.col, rfl, C.len, C.last hnum⟩

/-! ### Diagonal -/

theorem diagIl_count (hB : Borders map.data (n + 1)) (hc : Monotone cost) (h0 : cost 0 = 0) (p : Nat) (q : Int)
    (hp : (p : Int) ≤ map.lastIndex) (w : Nat) (r0 : Fin (n + 1) → Int) (t : Nat) (ht : t ≤ p) :
    ∃ y0 m2 m3 m4 m5, (List.range t).foldlM (diagIlStep (counter n cost) map p q) ⟨r0, cvec n w, 0, 0, 0, 0, 0, 0⟩
      = .ok ⟨y0, cvec n (w + cost (edge map.data t) + cost (edge map.data (t - 1))), m2, m3, m4, m5, edge map.data t,
          edge map.data (t - 1)⟩ := by
  induction t with
  | zero => exact ⟨r0, 0, 0, 0, 0, by simp [edge, h0]⟩
  | succ t ih =>
    obtain ⟨y0, m2, m3, m4, m5, ih⟩ := ih (by omega)
    rw [List.range_succ, List.foldlM_append, ih, Res.bind_ok]
    simp only [List.foldlM_cons, List.foldlM_nil]
    unfold diagIlStep
    rw [SliceMap.at_eq (by omega) (by omega), Res.bind_ok]
    unfold end1For
    rw [if_neg (by omega), Res.bind_ok, counter_diag, Res.bind_ok, counter_diag, Res.bind_ok]
    have e1 : border map.data ((t : Int)).toNat = edge map.data (t + 1) := by
      rw [Int.toNat_natCast]; rfl
    have m1 := hc (edge_mono hB.mono (show t ≤ t + 1 by omega))
    have m2 := hc (edge_mono hB.mono (show t - 1 ≤ t by omega))
    have ew : w + cost (edge map.data t) + cost (edge map.data (t - 1)) + (cost (edge map.data (t + 1)) - cost (edge map.data t))
        + (cost (edge map.data t) - cost (edge map.data (t - 1)))
        = w + cost (edge map.data (t + 1)) + cost (edge map.data (t + 1 - 1)) := by
      rw [Nat.add_sub_cancel]; omega
    rw [e1, ew]
    exact ⟨_, _, _, _, _, rfl⟩

theorem diagIl_count_all (hB : Borders map.data (n + 1)) (hc : Monotone cost) (h0 : cost 0 = 0) (max1 max2 : Int)
    (h1 : 0 ≤ max1) (h1' : max1 ≤ map.lastIndex) (h2 : 0 ≤ max2) (h2' : max2 ≤ map.lastIndex) (h12 : max1 - 1 ≤ max2)
    (w : Nat) (r0 : Fin (n + 1) → Int) :
    ∃ y0 m2 m3 a b, (List.range (max1 + 1).toNat).foldlM (diagIlStep (counter n cost) map max1 max2)
        ⟨r0, cvec n w, 0, 0, 0, 0, 0, 0⟩
      = .ok ⟨y0, cvec n (w + cost (border map.data max1.toNat) + cost (border map.data max2.toNat)), m2, m3,
          (w + cost (border map.data max1.toNat) + cost (border map.data max2.toNat) : Nat),
          (w + cost (border map.data max1.toNat) + cost (border map.data max2.toNat) : Nat), a, b⟩ := by
  obtain ⟨p, rfl⟩ := Int.eq_ofNat_of_zero_le h1
  obtain ⟨y0, m2, m3, m4, m5, e⟩ := diagIl_count hB hc h0 p max2 h1' w r0 p (le_refl p)
  rw [show ((p : Int) + 1).toNat = p + 1 by omega, List.range_succ, List.foldlM_append, e, Res.bind_ok]
  simp only [List.foldlM_cons, List.foldlM_nil]
  unfold diagIlStep
  rw [SliceMap.at_eq (by omega) (by omega), Res.bind_ok]
  unfold end1For
  rw [if_pos rfl, SliceMap.at_eq h2 h2', Res.bind_ok, counter_diag, Res.bind_ok, counter_diag, Res.bind_ok]
  have e1 : border map.data ((p : Int)).toNat = edge map.data (p + 1) := by
    rw [Int.toNat_natCast]; rfl
  have m1 := hc (edge_mono hB.mono (show p ≤ p + 1 by omega))
  have m2 := hc (show edge map.data (p - 1) ≤ border map.data max2.toNat from
    (edge_mono hB.mono (by omega) : edge map.data (p - 1) ≤ edge map.data (max2.toNat + 1)))
  rw [e1]
  have ew : w + cost (edge map.data p) + cost (edge map.data (p - 1)) + (cost (edge map.data (p + 1)) - cost (edge map.data p))
      + (cost (border map.data max2.toNat) - cost (edge map.data (p - 1)))
      = w + cost (edge map.data (p + 1)) + cost (border map.data max2.toNat) := by omega
  rw [ew]
  exact ⟨_, _, _, _, _, rfl⟩

theorem diagBasicStep_count (hB : Borders map.data (n + 1)) (h0 : cost 0 = 0) (opt : Bool) (num : Nat)
    (l : List Int) (hl : l.length = num) (w : Nat) (r0 : Fin (n + 1) → Int) {k : Nat} (hk2 : 2 ≤ k) (hk : k < num)
    (hk' : 2 * (k - 1) + 1 < num) :
    ∃ r0' x, diagBasicStep (counter n cost) map opt num ⟨⟨l, 0, 0⟩, r0, cvec n w⟩ k
      = .ok ⟨⟨(l.set (2 * (k - 1)) x).set (2 * (k - 1) + 1) (2 * (w + cost (rowsFor map opt k num) : Nat)), 0, 0⟩, r0',
          cvec n (w + cost (rowsFor map opt k num))⟩ := by
  unfold diagBasicStep
  rw [sizeFor_rows hB opt hk, Res.bind_ok, counter_diag, Res.bind_ok]
  unfold DiagCol.collect
  simp only
  rw [wr_set _ (by omega), Res.bind_ok, wr_set _ (by rw [List.length_set]; omega), Res.bind_ok, h0]
  simp only [Res.pure_eq, Res.bind_ok, sub_zero, Nat.sub_zero]
  exact ⟨_, _, rfl⟩

theorem diagInterStep_count (hB : Borders map.data (n + 1)) (hc : Monotone cost) (h0 : cost 0 = 0) (opt : Bool) (num : Nat)
    (l : List Int) (hl : l.length = num) (w : Nat) (r0 : Fin (n + 1) → Int) {k : Nat} (hk2 : 2 ≤ k) (hk : k + 1 < num)
    (hk' : 2 * k + 1 < num) :
    ∃ r0' x y z, diagInterStep (counter n cost) map opt num ⟨⟨l, 0, 0⟩, r0, cvec n w⟩ k
      = .ok ⟨⟨(((l.set (2 * (k - 1)) x).set (2 * (k - 1) + 1) y).set (2 * k) z).set (2 * k + 1)
            (2 * (w + cost (rowsFor map opt k num) + cost (rowsFor map opt (k + 1) num) : Nat)), 0, 0⟩, r0',
          cvec n (w + cost (rowsFor map opt k num) + cost (rowsFor map opt (k + 1) num))⟩ := by
  have r1 := ilMax_range (m := map) hB.nonempty (opt := opt) (show k < num by omega)
  have r2 := ilMax_range (m := map) hB.nonempty (opt := opt) hk
  obtain ⟨y0, m2, m3, a, b, e⟩ := diagIl_count_all hB hc h0 _ _ r1.1 r1.2 r2.1 r2.2 ilMax_step w r0
  unfold diagInterStep
  simp only [e, Res.bind_ok]
  unfold DiagCol.collect
  simp only
  rw [wr_set _ (by omega), Res.bind_ok, wr_set _ (by rw [List.length_set]; omega), Res.bind_ok]
  simp only [Res.pure_eq, Res.bind_ok, Nat.add_sub_cancel]
  rw [wr_set _ (by simp only [List.length_set]; omega), Res.bind_ok, wr_set _ (by simp only [List.length_set]; omega), Res.bind_ok]
  simp only [Res.bind_ok, sub_zero]
  exact ⟨_, _, _, _, rfl⟩

/-- The variables after some iterations of a diagonal algorithm. -/
structure CountedDiag (map : SliceMap) (opt : Bool) (num : Nat) (cost : Nat → Nat) (k : Nat) (s : St (n + 1) Int (DiagCol Int)) :
    Prop where
  len : s.col.moments.length = num
  m0 : s.col.m0 = 0
  m1 : s.col.m1 = 0
  r1 : s.r1 = cvec n (workTo map opt num cost k)
  last : 2 < k → s.col.moments[2 * (k - 2) + 1]? = some (2 * (workTo map opt num cost k : Int))

theorem diagBasic_count (hB : Borders map.data (n + 1)) (h0 : cost 0 = 0) (opt : Bool) {num : Nat} (hnum : 2 < num)
    (heven : num % 2 = 0) :
    ∃ c, diagBasic (counter n cost) map opt ⟨List.replicate num 0, 0, 0⟩ 0 0 = .ok c ∧
      c.moments[num - 1]? = some (2 * (workTo map opt num cost (num / 2 + 1) : Int)) := by
  unfold diagBasic
  simp only [List.length_replicate]
  have key : ∀ t ≤ num / 2 - 1, ∃ s, (List.range' 2 t).foldlM (diagBasicStep (counter n cost) map opt num)
      ⟨⟨List.replicate num 0, 0, 0⟩, 0, 0⟩ = .ok s ∧ CountedDiag map opt num cost (2 + t) s := by
    intro t
    induction t with
    | zero =>
      refine fun _ => ⟨_, rfl, by simp, rfl, rfl, ?_, fun h => absurd h (by omega)⟩
      funext i
      simp [cvec, workTo]
    | succ t ih =>
      intro ht
      obtain ⟨⟨⟨l, m0, m1⟩, r0, r1⟩, e, C⟩ := ih (by omega)
      rw [List.range'_concat, List.foldlM_append, e, Res.bind_ok]
      simp only [List.foldlM_cons, List.foldlM_nil, Nat.one_mul]
      have hr := C.r1
      have hm0 := C.m0
      have hm1 := C.m1
      simp only at hr hm0 hm1
      subst hr hm0 hm1
      obtain ⟨r0', x, e'⟩ := diagBasicStep_count hB h0 opt num l C.len (workTo map opt num cost (2 + t)) r0
        (show 2 ≤ 2 + t by omega) (show 2 + t < num by omega) (by omega)
      rw [← workTo_succ opt num (show 2 ≤ 2 + t by omega)] at e'
      rw [e', Res.bind_ok]
      have hlen := C.len
      simp only at hlen
      refine ⟨_, rfl, by simp [hlen], rfl, rfl, by rw [show 2 + (t + 1) = 2 + t + 1 by omega], fun _ => ?_⟩
      simp only [show 2 + (t + 1) = 2 + t + 1 by omega, show 2 * (2 + t + 1 - 2) + 1 = 2 * (2 + t - 1) + 1 by omega]
      rw [List.getElem?_set_self (by rw [List.length_set, hlen]; omega)]
  obtain ⟨s, e, C⟩ := key (num / 2 - 1) (le_refl _)
  rw [show 2 + (num / 2 - 1) = num / 2 + 1 by omega] at C
  rw [e, Res.bind_ok]
  refine ⟨s.col, rfl, ?_⟩
  have := C.last (by omega)
  rwa [show 2 * (num / 2 + 1 - 2) + 1 = num - 1 by omega] at this

theorem diagInterleaved_count (hB : Borders map.data (n + 1)) (hc : Monotone cost) (h0 : cost 0 = 0) (opt : Bool) {num : Nat}
    (hnum : 2 < num) (hmod : num % 4 = 2) :
    ∃ c, diagInterleaved (counter n cost) map opt ⟨List.replicate num 0, 0, 0⟩ 0 0 = .ok c ∧
      c.moments[num - 1]? = some (2 * (workTo map opt num cost (num / 2 + 1) : Int)) := by
  unfold diagInterleaved
  simp only [List.length_replicate]
  have key : ∀ t ≤ num / 2 / 2, ∃ s, (List.range' 2 t 2).foldlM (diagInterStep (counter n cost) map opt num)
      ⟨⟨List.replicate num 0, 0, 0⟩, 0, 0⟩ = .ok s ∧ CountedDiag map opt num cost (2 + 2 * t) s := by
    intro t
    induction t with
    | zero =>
      refine fun _ => ⟨_, rfl, by simp, rfl, rfl, ?_, fun h => absurd h (by omega)⟩
      funext i
      simp [cvec, workTo]
    | succ t ih =>
      intro ht
      obtain ⟨⟨⟨l, m0, m1⟩, r0, r1⟩, e, C⟩ := ih (by omega)
      rw [List.range'_concat, List.foldlM_append, e, Res.bind_ok]
      simp only [List.foldlM_cons, List.foldlM_nil]
      have hr := C.r1
      have hm0 := C.m0
      have hm1 := C.m1
      simp only at hr hm0 hm1
      subst hr hm0 hm1
      obtain ⟨r0', x, y, z, e'⟩ := diagInterStep_count hB hc h0 opt num l C.len (workTo map opt num cost (2 + 2 * t)) r0
        (show 2 ≤ 2 + 2 * t by omega) (show 2 + 2 * t + 1 < num by omega) (by omega)
      rw [← workTo_succ opt num (show 2 ≤ 2 + 2 * t by omega), ← workTo_succ opt num (show 2 ≤ 2 + 2 * t + 1 by omega)] at e'
      rw [e', Res.bind_ok]
      have hlen := C.len
      simp only at hlen
      refine ⟨_, rfl, by simp [hlen], rfl, rfl, by rw [show 2 + 2 * (t + 1) = 2 + 2 * t + 1 + 1 by omega], fun _ => ?_⟩
      simp only [show 2 + 2 * (t + 1) = 2 + 2 * t + 1 + 1 by omega,
        show 2 * (2 + 2 * t + 1 + 1 - 2) + 1 = 2 * (2 + 2 * t) + 1 by omega]
      rw [List.getElem?_set_self (by simp only [List.length_set, hlen]; omega)]
  obtain ⟨s, e, C⟩ := key (num / 2 / 2) (le_refl _)
  rw [show 2 + 2 * (num / 2 / 2) = num / 2 + 1 by omega] at C
  rw [e, Res.bind_ok]
  refine ⟨s.col, rfl, ?_⟩
  have := C.last (by omega)
  rwa [show 2 * (num / 2 + 1 - 2) + 1 = num - 1 by omega] at this

end count

end Verif.Kpm
