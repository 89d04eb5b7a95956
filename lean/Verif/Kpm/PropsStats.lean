import Verif.Kpm.StatsLemmas
import Mathlib.Tactic.FieldSimp
import Mathlib.Tactic.Linarith

/-!
# C70: the reported workload of a KPM calculation
-/

namespace Verif.Kpm

open Verif.Numeric
open Verif.Hopping (Csr)
open Verif.Hamiltonian (Sorted coeff)

variable {K : Type} {n : Nat}

/-- The stored matrix has `n` rows, and the arrays of a CSR matrix fit together. -/
def Stored.WF (s : Stored K) (n : Nat) : Prop :=
  match s with
  | .csr m => m.WF ∧ m.rows = n
  | .ell m => m.rows = n

/-- Specification: the number of elements stored in the first `k` rows.  ELLPACK stores the same number in every row. -/
def Stored.count (s : Stored K) (k : Nat) : Nat :=
  match s with
  | .csr m => ∑ i ∈ Finset.range k, (m.row i).length
  | .ell m => k * m.nnzPerRow

theorem Stored.count_mono (s : Stored K) : Monotone s.count := by
  intro a b h
  cases s with
  | csr m => exact Finset.sum_le_sum_of_subset (Finset.range_mono h)
  | ell m => exact Nat.mul_le_mul_right _ h

theorem Stored.count_zero (s : Stored K) : s.count 0 = 0 := by
  cases s <;> simp [Stored.count]

theorem Stored.nonZeros_eq {s : Stored K} (h : s.WF n) {k : Nat} (hk : k ≤ n) : s.nonZeros k = .ok (s.count k) := by
  cases s with
  | ell m => rfl
  | csr m =>
    obtain ⟨h, rfl⟩ := h
    have key : ∀ k ≤ m.rows, m.outer[k]? = some (∑ i ∈ Finset.range k, (m.row i).length) := by
      intro k
      induction k with
      | zero => intro _; simpa using h.first
      | succ k ih =>
        intro hk
        have ih := ih (by omega)
        have hlen := h.outerLen
        rw [Finset.sum_range_succ]
        have h1 : k < m.outer.length := by omega
        have h2 : k + 1 < m.outer.length := by omega
        rw [List.getElem?_eq_getElem h1, Option.some.injEq] at ih
        rw [List.getElem?_eq_getElem h2, Option.some.injEq, ← ih]
        have hmono : m.outer[k] ≤ m.outer[k + 1] := List.pairwise_iff_getElem.1 h.mono _ _ _ _ (by omega)
        have hb := h.bound _ (List.getElem_mem h2)
        have hvl := h.len
        have : (m.row k).length = m.outer[k + 1] - m.outer[k] := by
          unfold Raw.row
          simp [List.getElem?_eq_getElem h1, List.getElem?_eq_getElem h2]
          omega
        omega
    unfold Stored.nonZeros Stored.count rd
    simp only [key k hk]

theorem halveIf_mono (d : Bool) {a b : Nat} (h : a ≤ b) : halveIf d a ≤ halveIf d b := by
  unfold halveIf
  split
  · exact Nat.div_le_div_right h
  · exact h

/-- **C70** (counters).  The counters of the report are defined.  Without the size optimisation the optimised counters are
the plain ones.  With it they are never larger, and the reported percentage is the part by which the number of elements
is reduced: a number from 0 to 100.  (Without any stored elements it is not a number.) -/
theorem C70_counters {map : SliceMap} (hB : Borders map.data n) {s : Stored K} (hs : s.WF n) (diagonal opt : Bool) (num : Nat)
    (hsize : num * s.count n < 2 ^ 64) :
    ∃ st : Stats, Stats.reset n s map diagonal opt num = .ok st ∧
      st.nnz = (if diagonal then num * s.count n / 2 else num * s.count n) ∧
      st.vec = (if diagonal then num * n / 2 else num * n) ∧
      st.optNnz ≤ st.nnz ∧ st.optVec ≤ st.vec ∧
      (opt = false → st.optNnz = st.nnz ∧ st.optVec = st.vec) ∧
      (st.nnz = 0 → st.percentRemoved = none) ∧
      (st.nnz ≠ 0 → ∃ p, st.percentRemoved = some p ∧ 0 ≤ p ∧ p ≤ 100 ∧ (st.optNnz : ℝ) = st.nnz * (1 - p / 100)) := by
  have hz := fun k (hk : k ≤ n) => Stored.nonZeros_eq hs hk
  have e1 := numNonzeros_eq hB s s.count hz diagonal false num
  have e2 := numNonzeros_eq hB s s.count hz diagonal opt num
  have e3 := numVecElements_eq hB diagonal false num
  have e4 := numVecElements_eq hB diagonal opt num
  simp only [rowsFor_false hB, Finset.sum_const, Finset.card_range, smul_eq_mul] at e1 e3
  have l2 : ∑ k ∈ Finset.range num, s.count (rowsFor map opt k num) ≤ num * s.count n := by
    calc ∑ k ∈ Finset.range num, s.count (rowsFor map opt k num) ≤ ∑ k ∈ Finset.range num, s.count n :=
          Finset.sum_le_sum fun k _ => s.count_mono (hB.le _)
      _ = num * s.count n := by simp
  have l4 : ∑ k ∈ Finset.range num, rowsFor map opt k num ≤ num * n := by
    calc ∑ k ∈ Finset.range num, rowsFor map opt k num ≤ ∑ k ∈ Finset.range num, n := Finset.sum_le_sum fun k _ => hB.le _
      _ = num * n := by simp
  refine ⟨⟨map.usesFullSystem num, halveIf diagonal (num * s.count n),
    halveIf diagonal (∑ k ∈ Finset.range num, s.count (rowsFor map opt k num)), halveIf diagonal (num * n),
    halveIf diagonal (∑ k ∈ Finset.range num, rowsFor map opt k num)⟩, by unfold Stats.reset; rw [e1, e2, e3, e4]; rfl, rfl, rfl,
    halveIf_mono _ l2, halveIf_mono _ l4, ?_, ?_, ?_⟩
  · rintro rfl
    simp only [rowsFor_false hB, Finset.sum_const, Finset.card_range, smul_eq_mul]
    exact ⟨trivial, trivial⟩
  · intro h0
    unfold Stats.percentRemoved
    simp only at h0 ⊢
    rw [if_pos h0]
  · intro h0
    simp only at h0
    have l2' := halveIf_mono diagonal l2
    have hle : halveIf diagonal (num * s.count n) ≤ num * s.count n := by
      unfold halveIf; split
      · exact Nat.div_le_self _ _
      · exact le_refl _
    unfold Stats.percentRemoved
    simp only
    rw [if_neg h0]
    generalize halveIf diagonal (num * s.count n) = N at *
    generalize halveIf diagonal (∑ k ∈ Finset.range num, s.count (rowsFor map opt k num)) = m at *
    have hmod : ((N : Int) - m) % 2 ^ 64 = ((N - m : Nat) : Int) := by
      rw [Int.emod_eq_of_lt (by omega) (by omega)]
      omega
    rw [hmod, Int.cast_natCast, Nat.cast_sub l2']
    have hN : (0 : ℝ) < N := by exact_mod_cast Nat.pos_of_ne_zero h0
    have hmN : (m : ℝ) ≤ N := by exact_mod_cast l2'
    have hm : (0 : ℝ) ≤ m := by positivity
    refine ⟨_, rfl, ?_, ?_, ?_⟩
    · exact div_nonneg (by linarith) hN.le
    · rw [div_le_iff₀ hN]; linarith
    · field_simp
      ring

/-! ## The mark "*" -/

/-- **C70** (full system).  If the report does not carry the mark for an inefficient calculation, some moment is computed
with the whole system.  Full claim: no mark if and only if some moment is.  The other direction is false, see below. -/
theorem C70_full_partial {map : SliceMap} (hB : Borders map.data n) {num : Nat} (h : map.usesFullSystem num = true) :
    ∃ k < num, map.optimalSize k num = .ok n := by
  have hl : 0 < map.data.length := List.length_pos_of_ne_nil hB.nonempty
  have hlen : map.data.length < num / 2 := by simpa [SliceMap.usesFullSystem] using h
  have key : ∃ k < num, map.index k num = map.lastIndex := by
    unfold SliceMap.index SliceMap.lastIndex
    simp only
    generalize hmid : ((num : Int) - 1 + map.dest - map.src).tdiv 2 = mid
    have hmid2 : (num : Int) - 1 + map.dest - map.src = 2 * mid + ((num : Int) - 1 + map.dest - map.src).tmod 2 := by
      rw [← hmid]; exact (Int.mul_tdiv_add_tmod _ _).symm
    have hr1 := Int.tmod_lt_of_pos ((num : Int) - 1 + map.dest - map.src) (show (0 : Int) < 2 by omega)
    have hr2 : -2 < ((num : Int) - 1 + map.dest - map.src).tmod 2 := by
      have := Int.lt_tmod_of_pos ((num : Int) - 1 + map.dest - map.src) (show (0 : Int) < 2 by omega)
      omega
    have hr3 : 0 ≤ (num : Int) - 1 + map.dest - map.src → 0 ≤ ((num : Int) - 1 + map.dest - map.src).tmod 2 :=
      fun h0 => Int.tmod_nonneg 2 h0
    generalize ((num : Int) - 1 + map.dest - map.src).tmod 2 = r at *
    by_cases h1 : mid < 0
    · refine ⟨0, by omega, ?_⟩
      rw [if_neg (by omega)]
      omega
    · by_cases h2 : mid < num
      · refine ⟨mid.toNat, by omega, ?_⟩
        rw [if_neg (by omega)]
        omega
      · refine ⟨num - 1, by omega, ?_⟩
        rw [if_pos (by omega)]
        omega
  obtain ⟨k, hk, e⟩ := key
  refine ⟨k, hk, ?_⟩
  have hr := index_range hB.nonempty hk
  unfold SliceMap.optimalSize
  rw [SliceMap.at_eq hr.1 hr.2, e]
  unfold SliceMap.lastIndex
  rw [show ((map.data.length : Int) - 1).toNat = map.data.length - 1 by omega, hB.border_last]

/-- **C70**: the converse is false.  With two slices and four moments the report carries the mark although the two
moments in the middle use the whole system (the comparison in `uses_full_system` is off by one). -/
theorem C70_full_converse_witness :
    ∃ map : SliceMap, Borders map.data 3 ∧ map.usesFullSystem 4 = false ∧ map.optimalSize 1 4 = .ok 3 ∧
      map.optimalSize 2 4 = .ok 3 :=
  ⟨⟨[1, 3], 0, 0⟩, ⟨by decide, by decide, by decide⟩, by decide, by decide, by decide⟩

/-! ## The reported and the actual work -/

/-- The work of an off-diagonal algorithm, measured by running it on a matrix that counts. -/
def measureOff (n : Nat) (cost : Nat → Nat) (map : SliceMap) (cfg : AlgorithmConfig) (num : Nat) : Res (List Int) :=
  if cfg.interleaved then offInterleaved (counter n cost) map cfg.optimalSize (fun r => .ok (r 0)) (List.replicate num 0) 0 0
  else offBasic (counter n cost) map cfg.optimalSize (fun r => .ok (r 0)) (List.replicate num 0) 0 0

/-- The work of a diagonal algorithm. -/
def measureDiag (n : Nat) (cost : Nat → Nat) (map : SliceMap) (cfg : AlgorithmConfig) (num : Nat) : Res (DiagCol Int) :=
  if cfg.interleaved then diagInterleaved (counter n cost) map cfg.optimalSize ⟨List.replicate num 0, 0, 0⟩ 0 0
  else diagBasic (counter n cost) map cfg.optimalSize ⟨List.replicate num 0, 0, 0⟩ 0 0

theorem sum_split {num : Nat} (hnum : 2 < num) (f : Nat → Nat) :
    ∑ k ∈ Finset.range num, f k = f 0 + f 1 + ∑ k ∈ Finset.Ico 2 num, f k := by
  rw [Finset.range_eq_Ico, ← Finset.sum_Ico_consecutive f (show 0 ≤ 2 by omega) (show 2 ≤ num by omega)]
  rw [← Finset.range_eq_Ico, Finset.sum_range_succ, Finset.sum_range_succ]
  simp

/-- **C70** (off-diagonal work).  The vector elements and the matrix elements that the algorithm really processes,
interleaved or not and with or without the size optimisation, are the reported ones less those of the first two moments (which
need no product of this kind).  In particular interleaving causes no additional work. -/
theorem C70_work_offdiagonal {map : SliceMap} (hB : Borders map.data (n + 1)) {s : Stored K} (hs : s.WF (n + 1))
    (cfg : AlgorithmConfig) {num : Nat} (hnum : 2 < num) (heven : num % 2 = 0) :
    ∃ (a b : Nat) (v z : Nat) (mv mz : List Int) (wv wz : Nat),
      sizeFor (n + 1) map cfg.optimalSize 0 num = .ok a ∧ sizeFor (n + 1) map cfg.optimalSize 1 num = .ok b ∧
      numVecElements (n + 1) map false cfg.optimalSize num = .ok v ∧
      numNonzeros (n + 1) s map false cfg.optimalSize num = .ok z ∧
      measureOff n id map cfg num = .ok mv ∧ mv[num - 1]? = some (wv : Int) ∧
      measureOff n s.count map cfg num = .ok mz ∧ mz[num - 1]? = some (wz : Int) ∧
      v = a + b + wv ∧ z = s.count a + s.count b + wz := by
  have hm : ∀ cost : Nat → Nat, Monotone cost → cost 0 = 0 → ∃ ms, measureOff n cost map cfg num = .ok ms ∧
      ms[num - 1]? = some (workTo map cfg.optimalSize num cost num : Int) := by
    intro cost hc h0
    unfold measureOff
    split
    · obtain ⟨ms, e, -, h⟩ := offInterleaved_count hB hc h0 cfg.optimalSize hnum heven
      exact ⟨ms, e, h⟩
    · obtain ⟨ms, e, -, h⟩ := offBasic_count hB h0 cfg.optimalSize hnum
      exact ⟨ms, e, h⟩
  obtain ⟨mv, e1, h1⟩ := hm id monotone_id rfl
  obtain ⟨mz, e2, h2⟩ := hm s.count s.count_mono s.count_zero
  refine ⟨_, _, _, _, mv, mz, _, _, sizeFor_rows hB _ (by omega), sizeFor_rows hB _ (by omega),
    numVecElements_eq hB _ _ _, numNonzeros_eq hB s s.count (fun k hk => Stored.nonZeros_eq hs hk) _ _ _, e1, h1, e2, h2, ?_, ?_⟩
  · unfold halveIf workTo
    rw [if_neg (by decide), sum_split hnum]
    rfl
  · unfold halveIf workTo
    rw [if_neg (by decide), sum_split hnum]

theorem index_symm {map : SliceMap} (hsd : map.src = map.dest) {num k : Nat} (heven : num % 2 = 0) (hk : k < num) :
    map.index (num - 1 - k) num = map.index k num := by
  unfold SliceMap.index
  simp only [hsd]
  generalize hmid : ((num : Int) - 1 + map.dest - map.dest).tdiv 2 = mid
  have : mid = ((num - 1) / 2 : Nat) := by
    rw [← hmid, show (num : Int) - 1 + map.dest - map.dest = ((num - 1 : Nat) : Int) by omega]
    rfl
  generalize map.lastIndex = L
  split <;> split <;> omega

theorem rows_symm {map : SliceMap} (hsd : map.src = map.dest) (opt : Bool) {num k : Nat} (heven : num % 2 = 0) (hk : k < num) :
    rowsFor map opt (num - 1 - k) num = rowsFor map opt k num := by
  unfold rowsFor ilMax
  split
  · rw [index_symm hsd heven hk]
  · rfl

theorem sum_symm {num : Nat} (heven : num % 2 = 0) (f : Nat → Nat) (hf : ∀ k < num, f (num - 1 - k) = f k) :
    ∑ k ∈ Finset.range num, f k = 2 * ∑ k ∈ Finset.range (num / 2), f k := by
  obtain ⟨m, rfl⟩ : ∃ m, num = m + m := ⟨num / 2, by omega⟩
  rw [show (m + m) / 2 = m by omega, Finset.sum_range_add, two_mul]
  congr 1
  rw [← Finset.sum_range_reflect f m]
  refine Finset.sum_congr rfl fun k hk => ?_
  have hk := Finset.mem_range.1 hk
  rw [← hf (m + k) (by omega)]
  congr 1
  omega

/-- **C70** (diagonal work).  For a diagonal element the products are done for the moments from 2 to half the number, and
each gives two moments.  The report counts half of all moments, so it differs from the work by the first two moments and the one in
the middle. -/
theorem C70_work_diagonal {map : SliceMap} (hB : Borders map.data (n + 1)) {s : Stored K} (hs : s.WF (n + 1))
    (hsd : map.src = map.dest) (cfg : AlgorithmConfig) {num : Nat} (hnum : 2 < num) (hmod : num % 4 = 2) :
    ∃ (a b c : Nat) (v z : Nat) (mv mz : DiagCol Int) (wv wz : Nat),
      sizeFor (n + 1) map cfg.optimalSize 0 num = .ok a ∧ sizeFor (n + 1) map cfg.optimalSize 1 num = .ok b ∧
      sizeFor (n + 1) map cfg.optimalSize (num / 2) num = .ok c ∧
      numVecElements (n + 1) map true cfg.optimalSize num = .ok v ∧
      numNonzeros (n + 1) s map true cfg.optimalSize num = .ok z ∧
      measureDiag n id map cfg num = .ok mv ∧ mv.moments[num - 1]? = some (2 * (wv : Int)) ∧
      measureDiag n s.count map cfg num = .ok mz ∧ mz.moments[num - 1]? = some (2 * (wz : Int)) ∧
      v + c = a + b + wv ∧ z + s.count c = s.count a + s.count b + wz := by
  have hm : ∀ cost : Nat → Nat, Monotone cost → cost 0 = 0 → ∃ ms, measureDiag n cost map cfg num = .ok ms ∧
      ms.moments[num - 1]? = some (2 * (workTo map cfg.optimalSize num cost (num / 2 + 1) : Int)) := by
    intro cost hc h0
    unfold measureDiag
    split
    · exact diagInterleaved_count hB hc h0 cfg.optimalSize hnum hmod
    · exact diagBasic_count hB h0 cfg.optimalSize hnum (by omega)
  obtain ⟨mv, e1, h1⟩ := hm id monotone_id rfl
  obtain ⟨mz, e2, h2⟩ := hm s.count s.count_mono s.count_zero
  have key : ∀ cost : Nat → Nat, halveIf true (∑ k ∈ Finset.range num, cost (rowsFor map cfg.optimalSize k num))
      + cost (rowsFor map cfg.optimalSize (num / 2) num)
      = cost (rowsFor map cfg.optimalSize 0 num) + cost (rowsFor map cfg.optimalSize 1 num)
        + workTo map cfg.optimalSize num cost (num / 2 + 1) := by
    intro cost
    rw [sum_symm (show num % 2 = 0 by omega) _ (fun k hk => by rw [rows_symm hsd _ (by omega) hk])]
    unfold halveIf workTo
    rw [if_pos rfl, Nat.mul_div_cancel_left _ (by decide)]
    rw [← Finset.sum_range_succ, sum_split (show 2 < num / 2 + 1 by omega)]
  refine ⟨_, _, _, _, _, mv, mz, _, _, sizeFor_rows hB _ (by omega), sizeFor_rows hB _ (by omega), sizeFor_rows hB _ (by omega),
    numVecElements_eq hB _ _ _, numNonzeros_eq hB s s.count (fun k hk => Stored.nonZeros_eq hs hk) _ _ _, e1, h1, e2, h2,
    key id, key s.count⟩

/-! ## Memory -/

/-- Specification: the bytes of the arrays that hold a matrix. -/
def Stored.bytes (s : Stored K) (scalar index : Nat) : Nat :=
  match s with
  | .csr m => m.vals.length * scalar + m.inner.length * index + m.outer.length * index
  | .ell m => m.dataRows * m.nnzPerRow * scalar + m.idxRows * m.nnzPerRow * index

/-- **C70** (memory).  The reported memory of a CSR matrix is the size of its arrays.  For an ELLPACK matrix the report leaves
out the rows added for alignment. -/
theorem C70_memory {s : Stored K} (hs : s.WF n) (scalar index : Nat) :
    match s with
    | .csr _ => s.memory scalar index = s.bytes scalar index
    | .ell m => m.rows ≤ m.dataRows → m.rows ≤ m.idxRows →
        s.memory scalar index + ((m.dataRows - m.rows) * m.nnzPerRow * scalar + (m.idxRows - m.rows) * m.nnzPerRow * index)
          = s.bytes scalar index := by
  cases s with
  | csr m =>
    obtain ⟨h, rfl⟩ := hs
    simp only [Stored.memory, Stored.bytes, h.len, h.outerLen]
  | ell m =>
    intro h1 h2
    simp only [Stored.memory, Stored.bytes]
    obtain ⟨d, hd⟩ := Nat.exists_eq_add_of_le h1
    obtain ⟨e, he⟩ := Nat.exists_eq_add_of_le h2
    rw [hd, he, Nat.add_sub_cancel_left, Nat.add_sub_cancel_left]
    ring

/-! ## The hypotheses hold for every optimized Hamiltonian -/

/-- **C70** (scope).  What the theorems above assume is what `optimize_for` produces: with or without reordering, for every
Hamiltonian (connected if it is reordered). -/
theorem C70_scope [CommRing K] [DecidableEq K] {h : Csr K} (hs : Sorted n h) (invA b : K) (reorder : Bool)
    (first : Fin n) (src dest : List (Fin n)) (hd : dest ≠ [])
    (hr : reorder = true → ∀ i : Fin n, Reach h first i) :
    ∃ o, optimizeFor reorder h invA b ((first :: src).map (·.val)) (dest.map (·.val)) = .ok o ∧
      Borders o.slices.data n ∧ (Stored.csr (ofRows n o.h2)).WF n ∧
      (o.src = o.dest → o.slices.src = o.slices.dest) := by
  cases reorder with
  | false =>
    obtain ⟨h1, h2, h3, h4, -, -⟩ := C24_scaled (V := K) hs invA b ((first :: src).map (·.val)) (dest.map (·.val))
    refine ⟨createScaled h invA b ((first :: src).map (·.val)) (dest.map (·.val)), rfl, ?_,
      ⟨(C24_compressed h1).1, rfl⟩, fun _ => rfl⟩
    have : h.length = n := hs.1
    exact ⟨by simp [createScaled, SliceMap.single], by simp [createScaled, SliceMap.single],
      by simp [createScaled, SliceMap.single, this]⟩
  | true =>
    obtain ⟨o, σ, e, R⟩ := createReordered_ok hs invA b first src dest hd (hr rfl)
    have hL : 0 < o.slices.data.length := List.length_pos_of_ne_nil R.nonempty
    refine ⟨o, e, ⟨R.nonempty, R.borders.imp Nat.le_of_lt, ?_⟩, ⟨(C24_compressed R.sorted).1, rfl⟩, ?_⟩
    · have := R.last
      unfold border at this
      rw [Nat.min_self, List.getD_eq_getElem _ _ (by omega)] at this
      rw [List.getLast?_eq_getElem?, List.getElem?_eq_getElem (by omega), this]
    · intro hsd
      rw [R.src_eq, R.dest_eq] at hsd
      have : first :: src = dest := by
        refine List.map_injective_iff.2 ?_ hsd
        intro a b hab
        exact σ.injective (Fin.ext hab)
      subst this
      exact Nat.le_antisymm ((R.srcSlice.2 _).2 ((R.destSlice.2 _).1 (le_refl _)))
        ((R.destSlice.2 _).2 ((R.srcSlice.2 _).1 (le_refl _)))

/-! ## Examples -/

/-- Three slices of a system with four sites. -/
def map4 : SliceMap := ⟨[1, 3, 4], 0, 0⟩

/-- A ring of four sites with onsite energies: three elements in each row. -/
def ell4 : Stored Int := .ell ⟨4, 4, 3, 8, 8, fun _ _ => 1, fun i k => (i + k) % 4⟩

example : Borders map4.data 4 := ⟨by decide, by decide, by decide⟩
example : ell4.WF 4 := rfl
example : 10 * ell4.count 4 < 2 ^ 64 := by decide
example : Stats.reset 4 ell4 map4 false true 10 = .ok ⟨true, 120, 96, 40, 32⟩ := by decide
example : map4.usesFullSystem 10 = true := by decide
example : (measureOff 3 id map4 ⟨true, true⟩ 10 >>= fun l => rd l 9) = .ok 28 := by decide +kernel
example : (measureDiag 3 id map4 ⟨true, true⟩ 10 >>= fun c => rd c.moments 9) = .ok (2 * 16) := by decide +kernel
example : sizeFor 4 map4 true 0 10 = .ok 1 ∧ sizeFor 4 map4 true 1 10 = .ok 3 ∧ sizeFor 4 map4 true 5 10 = .ok 4 := by decide

example : ∃ o, optimizeFor true ring4 2 1 [2] [0] = .ok o ∧ Borders o.slices.data 4 ∧ (Stored.csr (ofRows 4 o.h2)).WF 4 ∧
    (o.src = o.dest → o.slices.src = o.slices.dest) :=
  C70_scope ring4_sorted 2 1 true 2 [] [0] (by decide) (fun _ => ring4_reach)

end Verif.Kpm
