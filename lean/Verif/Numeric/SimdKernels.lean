import Verif.Numeric.SimdLemmas
import Verif.Numeric.Kernels

/-!
# The complete kernels on raw memory
-/

namespace Verif.Simd

open Finset

/-- A scalar as a complex number. -/
def toC (v : ℝ × ℝ) : ℂ := ⟨v.1, v.2⟩

theorem toC_scalarAt (s : Scalar) (p : Reg ℝ) (j : Nat) : toC (scalarAt s p j) = val s p j := by
  cases s
  · apply Complex.ext <;> simp [toC, scalarAt, val]
  · rfl

theorem val_putScalar (s : Scalar) (p : Reg ℝ) (i j : Nat) (v : ℝ × ℝ) (hv : s = .real → v.2 = 0) :
    val s (putScalar s p i v) j = if j = i then toC v else val s p j := by
  cases s
  · by_cases h : j = i
    · rw [if_pos h]; apply Complex.ext <;> simp [val, putScalar, h, toC, hv rfl]
    · rw [if_neg h]; simp [val, putScalar, h]
  · by_cases h : j = i
    · subst h; simp [val, putScalar, toC]
    · rw [if_neg h]
      simp only [val, putScalar]
      rw [if_neg (by omega), if_neg (by omega), if_neg (by omega), if_neg (by omega)]

theorem toC_scalarMul (s : Scalar) (a b : ℝ × ℝ) (ha : s = .real → a.2 = 0) (hb : s = .real → b.2 = 0) :
    toC (scalarMul s a b) = toC a * toC b := by
  cases s
  · apply Complex.ext <;> simp [toC, scalarMul, ha rfl, hb rfl]
  · apply Complex.ext <;> simp [toC, scalarMul]

theorem scalarMul_real (a b : ℝ × ℝ) {s : Scalar} (h : s = .real) : (scalarMul s a b).2 = 0 := by subst h; rfl

theorem scalarAt_real (p : Reg ℝ) (j : Nat) {s : Scalar} (h : s = .real) : (scalarAt s p j).2 = 0 := by subst h; rfl

theorem scalarSquare_eq (s : Scalar) (a : ℝ × ℝ) (ha : s = .real → a.2 = 0) :
    scalarSquare s a = Complex.normSq (toC a) := by
  cases s
  · simp [scalarSquare, toC, Complex.normSq_apply, ha rfl]
  · simp [scalarSquare, toC, Complex.normSq_apply]

theorem newScalar_real (n : Nat) (data : Reg ℝ) (idx : Nat → Nat) (x y : Reg ℝ) (row : Nat) {s : Scalar} (h : s = .real) :
    (newScalar s n data idx x y row).2 = 0 := by
  unfold newScalar
  simp only
  split <;> simp [scalarMul_real _ _ h, scalarAt_real _ _ h]

theorem toC_newScalar (s : Scalar) (n : Nat) (data : Reg ℝ) (idx : Nat → Nat) (x y : Reg ℝ) (row : Nat) :
    toC (newScalar s n data idx x y row) = column s n data idx x row (val s y row) := by
  have h := toC_scalarMul s (scalarAt s data row) (scalarAt s x (idx row)) (fun h => scalarAt_real _ _ h)
    (fun h => scalarAt_real _ _ h)
  rw [toC_scalarAt, toC_scalarAt] at h
  have hy := toC_scalarAt s y row
  unfold column newScalar
  rw [← h, ← hy]
  simp only
  split <;> apply Complex.ext <;> simp [toC]

theorem val_scalarIter (t : Target) (n : Nat) (data : Reg ℝ) (idx : Nat → Nat) (x y : Reg ℝ) (row j : Nat) :
    val t.scalar (scalarIter t n data idx x y row) j =
      if j = row then column t.scalar n data idx x j (val t.scalar y j) else val t.scalar y j := by
  unfold scalarIter
  rw [val_putScalar _ _ _ _ _ (fun h => newScalar_real _ _ _ _ _ _ h), toC_newScalar]
  by_cases h : j = row
  · subst h; rfl
  · rw [if_neg h, if_neg h]

theorem val_scalarFold (t : Target) (n : Nat) (data : Reg ℝ) (idx : Nat → Nat) (x : Reg ℝ) (c : Nat) :
    ∀ (a : Nat) (y : Reg ℝ) (j : Nat),
      val t.scalar ((List.range' a c).foldl (scalarIter t n data idx x) y) j =
      if a ≤ j ∧ j < a + c then column t.scalar n data idx x j (val t.scalar y j) else val t.scalar y j := by
  induction c with
  | zero => intro a y j; rw [if_neg (by omega)]; rfl
  | succ c ih =>
    intro a y j
    rw [List.range'_succ, List.foldl_cons, ih, val_scalarIter]
    by_cases h1 : j = a
    · rw [if_neg (by omega), if_pos h1, if_pos (by omega)]
    · rw [if_neg h1]
      by_cases h2 : a + 1 ≤ j ∧ j < a + 1 + c
      · rw [if_pos h2, if_pos (by omega)]
      · rw [if_neg h2, if_neg (by omega)]

/-- The sections of a split loop: consecutive, the middle one a number of whole registers. -/
structure Sections (l : Numeric.Split) (step start stop : Nat) : Prop where
  start_eq : l.start = start
  stop_eq : l.stop = stop
  peel : start ≤ l.peelEnd
  vec : l.peelEnd ≤ l.vecEnd
  rest : l.vecEnd ≤ stop
  trips : Numeric.trips l.peelEnd l.vecEnd step * step = l.vecEnd - l.peelEnd

theorem sections (aligned : Nat → Bool) (t : Target) {start stop : Nat} (h : start ≤ stop) :
    Sections (Numeric.splitLoop aligned t.step start stop) t.step start stop := by
  obtain ⟨h1, h2, h3, h4, h5, h6, _, _⟩ := Numeric.splitLoop_spec aligned t.step start stop t.step_pos h
  exact ⟨h1, h2, h3, h4, h5, Numeric.trips_eq _ _ _ t.step_pos h6⟩

theorem val_columnRaw (t : Target) (m : RawEll) (n : Nat) {l : Numeric.Split} {start stop : Nat}
    (hl : Sections l t.step start stop) (x y : Reg ℝ) (j : Nat) :
    val t.scalar (columnRaw t m n l x y) j =
      if start ≤ j ∧ j < stop then column t.scalar n (m.column t.scalar n) (m.rowIndices n) x j (val t.scalar y j)
      else val t.scalar y j := by
  obtain ⟨h1, h2, h3, h4, h5, h6⟩ := hl
  unfold columnRaw
  simp only
  rw [val_scalarFold, val_spmvLoop, val_scalarFold, h6, h1, h2]
  by_cases a1 : start ≤ j ∧ j < l.peelEnd
  · rw [if_neg (by omega), if_neg (by omega), if_pos (by omega), if_pos (by omega)]
  · by_cases a2 : l.peelEnd ≤ j ∧ j < l.vecEnd
    · rw [if_neg (by omega), if_pos (by omega), if_neg (by omega), if_pos (by omega)]
    · by_cases a3 : l.vecEnd ≤ j ∧ j < stop
      · rw [if_pos (by omega), if_neg (by omega), if_neg (by omega), if_pos (by omega)]
      · rw [if_neg (by omega), if_neg (by omega), if_neg (by omega), if_neg (by omega)]

theorem val_column (m : RawEll) (s : Scalar) (n j : Nat) :
    val s (m.column s n) j = val s m.data (n * m.dataRows + j) := by
  have := val_load s m.data (n * m.dataRows) j
  exact this

/-- The product of row `j` of the first `c` columns with a vector. -/
noncomputable def rowSum (s : Scalar) (m : RawEll) (c : Nat) (x : Reg ℝ) (j : Nat) : ℂ :=
  ∑ n ∈ range c, val s m.data (n * m.dataRows + j) * val s x (m.indices (n * m.idxRows + j))

theorem column_rowSum (s : Scalar) (m : RawEll) (c : Nat) (x : Reg ℝ) (j : Nat) (old : ℂ) :
    column s c (m.column s c) (m.rowIndices c) x j (if c = 0 then old else rowSum s m c x j - old) =
      rowSum s m (c + 1) x j - old := by
  unfold column
  rw [val_column, RawEll.rowIndices, rowSum, rowSum, sum_range_succ]
  by_cases h : c = 0
  · subst h; simp; ring
  · rw [if_neg h, if_neg h]; ring

theorem val_columns (t : Target) (m : RawEll) {l : Numeric.Split} {start stop : Nat}
    (hl : Sections l t.step start stop) (x : Reg ℝ) (c : Nat) (y : Reg ℝ) (j : Nat) :
    val t.scalar ((List.range c).foldl (fun y n => columnRaw t m n l x y) y) j =
      if start ≤ j ∧ j < stop then if c = 0 then val t.scalar y j else rowSum t.scalar m c x j - val t.scalar y j
      else val t.scalar y j := by
  induction c with
  | zero => simp
  | succ c ih =>
    rw [List.range_succ, List.foldl_append, List.foldl_cons, List.foldl_nil, val_columnRaw t m c hl, ih]
    by_cases h : start ≤ j ∧ j < stop
    · rw [if_pos h, if_pos h, if_pos h, column_rowSum, if_neg (Nat.succ_ne_zero c)]
    · rw [if_neg h, if_neg h, if_neg h]

theorem diagScalarFold (t : Target) (n : Nat) (data : Reg ℝ) (idx : Nat → Nat) (x : Reg ℝ) (c : Nat) :
    ∀ (a : Nat) (s : DiagScalars),
      let r := (List.range' a c).foldl (diagScalarIter t n data idx x) s
      r.y = (List.range' a c).foldl (scalarIter t n data idx x) s.y ∧
      r.m2 = s.m2 + ∑ j ∈ Ico a (a + c), (Complex.normSq (val t.scalar x j) : ℂ) ∧
      r.m3 = s.m3 + ∑ j ∈ Ico a (a + c),
        (starRingEnd ℂ) (column t.scalar n data idx x j (val t.scalar s.y j)) * val t.scalar x j := by
  induction c with
  | zero => intro a s; simp
  | succ c ih =>
    intro a s
    obtain ⟨h1, h2, h3⟩ := ih (a + 1) (diagScalarIter t n data idx x s a)
    have e : a + (c + 1) = a + 1 + c := by omega
    simp only [List.range'_succ, List.foldl_cons]
    refine ⟨h1, ?_, ?_⟩
    · rw [h2, e, ← sum_Ico_consecutive _ (Nat.le_add_right a 1) (Nat.le_add_right (a + 1) c), ← add_assoc]
      congr 1
      unfold diagScalarIter
      simp only
      rw [scalarSquare_eq _ _ (fun h => scalarAt_real _ _ h), toC_scalarAt]
      simp
    · rw [h3, e, ← sum_Ico_consecutive _ (Nat.le_add_right a 1) (Nat.le_add_right (a + 1) c), ← add_assoc]
      congr 1
      · unfold diagScalarIter
        simp only
        congr 1
        have := toC_scalarMul t.scalar ((newScalar t.scalar n data idx x s.y a).1, -(newScalar t.scalar n data idx x s.y a).2)
          (scalarAt t.scalar x a) (fun h => by simp [newScalar_real _ _ _ _ _ _ h]) (fun h => scalarAt_real _ _ h)
        rw [toC_scalarAt] at this
        refine this.trans ?_
        have e2 : toC ((newScalar t.scalar n data idx x s.y a).1, -(newScalar t.scalar n data idx x s.y a).2) =
            (starRingEnd ℂ) (toC (newScalar t.scalar n data idx x s.y a)) := by
          apply Complex.ext <;> simp [toC]
        rw [e2, toC_newScalar]
        simp
      · refine sum_congr rfl fun j hj => ?_
        have hj := mem_Ico.1 hj
        have : val t.scalar (diagScalarIter t n data idx x s a).y j = val t.scalar s.y j := by
          have := val_scalarIter t n data idx x s.y a j
          rw [if_neg (by omega)] at this
          exact this
        rw [this]

theorem sum_three {M : Type} [AddCommMonoid M] (f : Nat → M) {a b c d : Nat} (h1 : a ≤ b) (h2 : b ≤ c) (h3 : c ≤ d) :
    ∑ j ∈ Ico a b, f j + ∑ j ∈ Ico b c, f j + ∑ j ∈ Ico c d, f j = ∑ j ∈ Ico a d, f j := by
  rw [sum_Ico_consecutive _ h1 h2, sum_Ico_consecutive _ (h1.trans h2) h3]

theorem diagRaw_eq (t : Target) (m : RawEll) (hm : m.nnzPerRow ≠ 0) {l : Numeric.Split} {start stop : Nat}
    (hl : Sections l t.step start stop) (x y : Reg ℝ) (m2 m3 : ℂ) :
    let r := diagRaw t m l x y m2 m3
    (∀ j, val t.scalar r.y j = if start ≤ j ∧ j < stop then rowSum t.scalar m m.nnzPerRow x j - val t.scalar y j
      else val t.scalar y j) ∧
    r.m2 = m2 + ∑ j ∈ Ico start stop, (Complex.normSq (val t.scalar x j) : ℂ) ∧
    r.m3 = m3 + ∑ j ∈ Ico start stop,
      (starRingEnd ℂ) (rowSum t.scalar m m.nnzPerRow x j - val t.scalar y j) * val t.scalar x j := by
  have hc : m.nnzPerRow - 1 + 1 = m.nnzPerRow := by omega
  have hy0 : ∀ j, start ≤ j → j < stop → column t.scalar (m.nnzPerRow - 1) (m.column t.scalar (m.nnzPerRow - 1))
      (m.rowIndices (m.nnzPerRow - 1)) x j (val t.scalar (spmvRaw t m 1 l x y) j) =
      rowSum t.scalar m m.nnzPerRow x j - val t.scalar y j := by
    intro j h1 h2
    unfold spmvRaw
    rw [val_columns t m hl, if_pos ⟨h1, h2⟩, column_rowSum, hc]
  have hout : ∀ j, ¬ (start ≤ j ∧ j < stop) → val t.scalar (spmvRaw t m 1 l x y) j = val t.scalar y j := by
    intro j h
    unfold spmvRaw
    rw [val_columns t m hl, if_neg h]
  obtain ⟨h1, h2, h3, h4, h5, h6⟩ := hl
  unfold diagRaw
  simp only
  rw [h1, h2]
  generalize spmvRaw t m 1 l x y = y0 at hy0 hout ⊢
  generalize m.column t.scalar (m.nnzPerRow - 1) = data at hy0 ⊢
  generalize m.rowIndices (m.nnzPerRow - 1) = idx at hy0 ⊢
  generalize m.nnzPerRow - 1 = n at hy0 ⊢
  obtain ⟨a1, a2, a3⟩ := diagScalarFold t n data idx x (l.peelEnd - start) start ⟨y0, m2, m3⟩
  simp only [show start + (l.peelEnd - start) = l.peelEnd by omega] at a2 a3
  simp only at a1
  generalize hs1 : List.foldl (diagScalarIter t n data idx x) ⟨y0, m2, m3⟩ (List.range' start (l.peelEnd - start)) = s1
    at a1 a2 a3 ⊢
  have v1 : ∀ j, val t.scalar s1.y j = if start ≤ j ∧ j < l.peelEnd then column t.scalar n data idx x j (val t.scalar y0 j)
      else val t.scalar y0 j := by
    intro j
    rw [a1, val_scalarFold, show start + (l.peelEnd - start) = l.peelEnd by omega]
  obtain ⟨b1, b2, b3⟩ := diagFold t n data idx x (Numeric.trips l.peelEnd l.vecEnd t.step) l.peelEnd
    ⟨s1.y, fun _ => 0, fun _ => 0⟩
  simp only [h6, show l.peelEnd + (l.vecEnd - l.peelEnd) = l.vecEnd by omega] at b2 b3
  simp only at b1
  change (diagLoop t n data idx x l.peelEnd (Numeric.trips l.peelEnd l.vecEnd t.step) s1.y).y = _ at b1
  change reduceAdd t.lanes (diagLoop t n data idx x l.peelEnd (Numeric.trips l.peelEnd l.vecEnd t.step) s1.y).m2 = _ at b2
  change ∑ k ∈ range t.step, val t.scalar (diagLoop t n data idx x l.peelEnd (Numeric.trips l.peelEnd l.vecEnd t.step)
    s1.y).m3 k = _ at b3
  rw [← reduceAddRc_eq, ← t.lanes_eq] at b3
  generalize diagLoop t n data idx x l.peelEnd (Numeric.trips l.peelEnd l.vecEnd t.step) s1.y = v at b1 b2 b3 ⊢
  have v2 : ∀ j, val t.scalar v.y j = if l.peelEnd ≤ j ∧ j < l.vecEnd then column t.scalar n data idx x j (val t.scalar s1.y j)
      else val t.scalar s1.y j := by
    intro j
    rw [b1, val_spmvLoop, h6, show l.peelEnd + (l.vecEnd - l.peelEnd) = l.vecEnd by omega]
  obtain ⟨c1, c2, c3⟩ := diagScalarFold t n data idx x (stop - l.vecEnd) l.vecEnd ⟨v.y, s1.m2, s1.m3⟩
  simp only [show l.vecEnd + (stop - l.vecEnd) = stop by omega] at c2 c3
  simp only at c1
  generalize List.foldl (diagScalarIter t n data idx x) ⟨v.y, s1.m2, s1.m3⟩ (List.range' l.vecEnd (stop - l.vecEnd)) = s2
    at c1 c2 c3 ⊢
  refine ⟨?_, ?_, ?_⟩
  · intro j
    rw [c1, val_scalarFold, v2, v1, show l.vecEnd + (stop - l.vecEnd) = stop by omega]
    by_cases k1 : start ≤ j ∧ j < l.peelEnd
    · rw [if_neg (by omega), if_neg (by omega), if_pos (by omega), if_pos (by omega), hy0 j (by omega) (by omega)]
    · by_cases k2 : l.peelEnd ≤ j ∧ j < l.vecEnd
      · rw [if_neg (by omega), if_pos (by omega), if_neg (by omega), if_pos (by omega), hy0 j (by omega) (by omega)]
      · by_cases k3 : l.vecEnd ≤ j ∧ j < stop
        · rw [if_pos (by omega), if_neg (by omega), if_neg (by omega), if_pos (by omega), hy0 j (by omega) (by omega)]
        · rw [if_neg (by omega), if_neg (by omega), if_neg (by omega), if_neg (by omega), hout j (by omega)]
  · rw [c2, a2, b2, reduceAdd_eq]
    simp only [sum_const_zero, zero_add, Complex.ofReal_sum]
    rw [← sum_three (fun j => (Complex.normSq (val t.scalar x j) : ℂ)) h3 h4 h5]
    ring
  · have d1 : ∀ j ∈ Ico start l.peelEnd, (starRingEnd ℂ) (column t.scalar n data idx x j (val t.scalar y0 j)) * val t.scalar x j =
        (starRingEnd ℂ) (rowSum t.scalar m m.nnzPerRow x j - val t.scalar y j) * val t.scalar x j := by
      intro j hj
      have hj := mem_Ico.1 hj
      rw [hy0 j (by omega) (by omega)]
    have d2 : ∀ j ∈ Ico l.peelEnd l.vecEnd, (starRingEnd ℂ) (column t.scalar n data idx x j (val t.scalar s1.y j)) * val t.scalar x j =
        (starRingEnd ℂ) (rowSum t.scalar m m.nnzPerRow x j - val t.scalar y j) * val t.scalar x j := by
      intro j hj
      have hj := mem_Ico.1 hj
      rw [v1, if_neg (by omega), hy0 j (by omega) (by omega)]
    have d3 : ∀ j ∈ Ico l.vecEnd stop, (starRingEnd ℂ) (column t.scalar n data idx x j (val t.scalar v.y j)) * val t.scalar x j =
        (starRingEnd ℂ) (rowSum t.scalar m m.nnzPerRow x j - val t.scalar y j) * val t.scalar x j := by
      intro j hj
      have hj := mem_Ico.1 hj
      rw [v2, if_neg (by omega), v1, if_neg (by omega), hy0 j (by omega) (by omega)]
    rw [c3, a3, b3, sum_congr rfl d1, sum_congr rfl d2, sum_congr rfl d3]
    simp only [val_zero, sum_const_zero, zero_add]
    rw [← sum_three (fun j => (starRingEnd ℂ) (rowSum t.scalar m m.nnzPerRow x j - val t.scalar y j) * val t.scalar x j) h3 h4 h5]
    ring

/-! ### Blocks -/

/-- The product of row `i` of the first `c` columns with column `k` of a block. -/
noncomputable def blockSum (t : Target) (m : RawEll) (c : Nat) (x : Reg ℝ) (i k : Nat) : ℂ :=
  ∑ n ∈ range c, val t.scalar m.data (n * m.dataRows + i) *
    val t.scalar x (m.indices (n * m.idxRows + i) * t.step + k)

theorem batchColumn_blockSum (t : Target) (m : RawEll) (c : Nat) (x : Reg ℝ) (i k : Nat) (old : ℂ) :
    batchColumn t c (m.column t.scalar c) (m.rowIndices c) x i k (if c = 0 then old else blockSum t m c x i k - old) =
      blockSum t m (c + 1) x i k - old := by
  unfold batchColumn
  rw [val_column, RawEll.rowIndices, blockSum, blockSum, sum_range_succ]
  by_cases h : c = 0
  · subst h; simp; ring
  · rw [if_neg h, if_neg h]; ring

theorem val_blockColumns (t : Target) (m : RawEll) {start stop : Nat} (hs : start ≤ stop) (x : Reg ℝ) (c : Nat) (y : Reg ℝ)
    (i : Nat) {k : Nat} (hk : k < t.step) :
    val t.scalar ((List.range c).foldl (fun y n => batchLoop t n (m.column t.scalar n) (m.rowIndices n) x start stop y) y)
        (i * t.step + k) =
      if start ≤ i ∧ i < stop then
        if c = 0 then val t.scalar y (i * t.step + k) else blockSum t m c x i k - val t.scalar y (i * t.step + k)
      else val t.scalar y (i * t.step + k) := by
  induction c with
  | zero => simp
  | succ c ih =>
    rw [List.range_succ, List.foldl_append, List.foldl_cons, List.foldl_nil]
    conv_lhs => unfold batchLoop
    rw [val_batchFold _ _ _ _ _ _ _ _ _ _ hk, show start + (stop - start) = stop by omega]
    change (if _ then batchColumn t c _ _ x i k (val t.scalar ((List.range c).foldl
      (fun y n => batchLoop t n (m.column t.scalar n) (m.rowIndices n) x start stop y) y) (i * t.step + k)) else
      val t.scalar ((List.range c).foldl
        (fun y n => batchLoop t n (m.column t.scalar n) (m.rowIndices n) x start stop y) y) (i * t.step + k)) = _
    rw [ih]
    by_cases h : start ≤ i ∧ i < stop
    · rw [if_pos h, if_pos h, if_pos h, batchColumn_blockSum, if_neg (Nat.succ_ne_zero c)]
    · rw [if_neg h, if_neg h, if_neg h]

theorem val_store0 (t : Target) (p r : Reg ℝ) {k : Nat} (hk : k < t.step) :
    val t.scalar (store t.lanes p 0 r) k = val t.scalar r k := by
  have := val_store t.scalar t.step p r 0 k
  rw [Nat.mul_zero, ← t.lanes_eq] at this
  rw [this, if_pos (by omega), Nat.sub_zero]

theorem val_load0 (t : Target) (p : Reg ℝ) (k : Nat) : val t.scalar (load p 0) k = val t.scalar p k := by
  have := val_load t.scalar p 0 k
  rwa [Nat.mul_zero, Nat.zero_add] at this

theorem diagRawBatch_eq (t : Target) (m : RawEll) (hm : m.nnzPerRow ≠ 0) {start stop : Nat} (hs : start ≤ stop)
    (x y m2 m3 : Reg ℝ) {k : Nat} (hk : k < t.step) :
    let r := diagRawBatch t m start stop x y m2 m3
    (∀ i, val t.scalar r.y (i * t.step + k) =
      if start ≤ i ∧ i < stop then blockSum t m m.nnzPerRow x i k - val t.scalar y (i * t.step + k)
      else val t.scalar y (i * t.step + k)) ∧
    val t.scalar r.m2 k = val t.scalar m2 k +
      ∑ i ∈ Ico start stop, (Complex.normSq (val t.scalar x (i * t.step + k)) : ℂ) ∧
    val t.scalar r.m3 k = val t.scalar m3 k + ∑ i ∈ Ico start stop,
      (starRingEnd ℂ) (blockSum t m m.nnzPerRow x i k - val t.scalar y (i * t.step + k)) *
        val t.scalar x (i * t.step + k) := by
  have hc : m.nnzPerRow - 1 + 1 = m.nnzPerRow := by omega
  have hy0 : ∀ i, start ≤ i → i < stop → batchColumn t (m.nnzPerRow - 1) (m.column t.scalar (m.nnzPerRow - 1))
      (m.rowIndices (m.nnzPerRow - 1)) x i k (val t.scalar (spmvRawBatch t m 1 start stop x y) (i * t.step + k)) =
      blockSum t m m.nnzPerRow x i k - val t.scalar y (i * t.step + k) := by
    intro i h1 h2
    unfold spmvRawBatch
    rw [val_blockColumns t m hs x _ y i hk, if_pos ⟨h1, h2⟩, batchColumn_blockSum, hc]
  have hout : ∀ i, ¬ (start ≤ i ∧ i < stop) → val t.scalar (spmvRawBatch t m 1 start stop x y) (i * t.step + k) =
      val t.scalar y (i * t.step + k) := by
    intro i h
    unfold spmvRawBatch
    rw [val_blockColumns t m hs x _ y i hk, if_neg h]
  unfold diagRawBatch batchDiagLoop
  simp only
  generalize spmvRawBatch t m 1 start stop x y = y0 at hy0 hout ⊢
  generalize m.column t.scalar (m.nnzPerRow - 1) = data at hy0 ⊢
  generalize m.rowIndices (m.nnzPerRow - 1) = idx at hy0 ⊢
  generalize m.nnzPerRow - 1 = n at hy0 ⊢
  obtain ⟨a1, a2⟩ := batchDiagFold t n data idx x (stop - start) start ⟨y0, fun _ => 0, fun _ => 0⟩
  obtain ⟨a2, a3⟩ := a2 k hk
  simp only [show start + (stop - start) = stop by omega] at a2 a3
  refine ⟨fun i => ?_, ?_, ?_⟩
  · rw [a1, val_batchFold _ _ _ _ _ _ _ _ _ _ hk, show start + (stop - start) = stop by omega]
    by_cases h : start ≤ i ∧ i < stop
    · rw [if_pos h, if_pos h, hy0 i h.1 h.2]
    · rw [if_neg h, if_neg h, hout i h]
  · rw [val_store0 t _ _ hk, val_add, val_load0, a2, val_reduceImag_zero, zero_add]
  · rw [val_store0 t _ _ hk, val_add, val_load0, a3, val_zero, zero_add]
    congr 1
    refine sum_congr rfl fun i hi => ?_
    have hi := mem_Ico.1 hi
    rw [hy0 i hi.1 hi.2]

/-! ### The Lanczos procedure -/

theorem axpyScalars (t : Target) (a : ℝ) (v1 : Reg ℝ) (c : Nat) :
    ∀ (i : Nat) (s : Reg ℝ × ℝ),
      let r := (List.range' i c).foldl (fun (s : Reg ℝ × ℝ) i =>
        let p := scalarAt t.scalar s.1 i
        let q := scalarAt t.scalar v1 i
        let tmp := (p.1 - a * q.1, p.2 - a * q.2)
        (putScalar t.scalar s.1 i tmp, s.2 + scalarSquare t.scalar tmp)) s
      (∀ j, val t.scalar r.1 j = if i ≤ j ∧ j < i + c then val t.scalar s.1 j - a * val t.scalar v1 j
        else val t.scalar s.1 j) ∧
      r.2 = s.2 + ∑ j ∈ Ico i (i + c), Complex.normSq (val t.scalar s.1 j - a * val t.scalar v1 j) := by
  induction c with
  | zero =>
    intro i s
    refine ⟨fun j => ?_, by simp⟩
    rw [if_neg (by omega)]; rfl
  | succ c ih =>
    intro i s
    have e : i + (c + 1) = i + 1 + c := by omega
    have hreal : t.scalar = .real → ((scalarAt t.scalar s.1 i).1 - a * (scalarAt t.scalar v1 i).1,
        (scalarAt t.scalar s.1 i).2 - a * (scalarAt t.scalar v1 i).2).2 = 0 := by
      intro h; simp [scalarAt_real _ _ h]
    have hC : toC ((scalarAt t.scalar s.1 i).1 - a * (scalarAt t.scalar v1 i).1,
        (scalarAt t.scalar s.1 i).2 - a * (scalarAt t.scalar v1 i).2) = val t.scalar s.1 i - a * val t.scalar v1 i := by
      rw [← toC_scalarAt, ← toC_scalarAt]
      apply Complex.ext <;> simp [toC]
    simp only [List.range'_succ, List.foldl_cons]
    obtain ⟨h1, h2⟩ := ih (i + 1) (putScalar t.scalar s.1 i ((scalarAt t.scalar s.1 i).1 - a * (scalarAt t.scalar v1 i).1,
        (scalarAt t.scalar s.1 i).2 - a * (scalarAt t.scalar v1 i).2), s.2 + scalarSquare t.scalar
        ((scalarAt t.scalar s.1 i).1 - a * (scalarAt t.scalar v1 i).1,
          (scalarAt t.scalar s.1 i).2 - a * (scalarAt t.scalar v1 i).2))
    constructor
    · intro j
      rw [h1, val_putScalar _ _ _ _ _ hreal, hC]
      by_cases g1 : j = i
      · subst g1; rw [if_neg (by omega), if_pos rfl, if_pos (by omega)]
      · rw [if_neg g1]
        by_cases g2 : i + 1 ≤ j ∧ j < i + 1 + c
        · rw [if_pos g2, if_pos (by omega)]
        · rw [if_neg g2, if_neg (by omega)]
    · rw [h2, e, ← sum_Ico_consecutive _ (Nat.le_add_right i 1) (Nat.le_add_right (i + 1) c), ← add_assoc]
      congr 1
      · simp only
        rw [scalarSquare_eq _ _ hreal, hC]; simp
      · refine sum_congr rfl fun j hj => ?_
        have hj := mem_Ico.1 hj
        simp only
        rw [val_putScalar _ _ _ _ _ hreal, if_neg (by omega)]

end Verif.Simd
