import Verif.Numeric.SimdKernels
import Verif.Numeric.Ell
import Mathlib.Data.Matrix.Mul

/-!
# C68, C69: the vectorised kernels on raw memory

A register and an array are sequences of real numbers; `val` reads a scalar from them: one real number, or two
consecutive ones as real and imaginary part (this is how C++ lays out `std::complex`).  The claims are about these
scalars, for every instruction set, element type, and position of the sections of the loops.
-/

namespace Verif.Simd

open Finset Matrix

/-! ## Specification -/

/-- The matrix stored in an ELLPACK matrix in memory: entries at the same place are added. -/
noncomputable def RawEll.matrix (m : RawEll) (s : Scalar) (N : Nat) : Matrix (Fin N) (Fin N) ℂ := fun i j =>
  ∑ n ∈ range m.nnzPerRow, if m.indices (n * m.idxRows + i) = j then val s m.data (n * m.dataRows + i) else 0

/-- The column indices of the first `N` rows are those of an `N` by `N` matrix. -/
def RawEll.InRange (m : RawEll) (N : Nat) : Prop :=
  ∀ n < m.nnzPerRow, ∀ i < N, m.indices (n * m.idxRows + i) < N

/-- An array as a vector of length `N`. -/
noncomputable def vec (s : Scalar) (N : Nat) (p : Reg ℝ) : Fin N → ℂ := fun i => val s p i

/-- Column `k` of a block with `c` columns, stored by rows. -/
noncomputable def blockCol (s : Scalar) (N c : Nat) (p : Reg ℝ) (k : Nat) : Fin N → ℂ := fun i => val s p (i * c + k)

theorem sum_matrix {N : Nat} (m : RawEll) (s : Scalar) (h : m.InRange N) (f : Nat → ℂ) (i : Fin N) :
    ∑ n ∈ range m.nnzPerRow, val s m.data (n * m.dataRows + i) * f (m.indices (n * m.idxRows + i)) =
      (m.matrix s N *ᵥ fun j => f j) i := by
  simp only [mulVec, dotProduct, RawEll.matrix, sum_mul]
  rw [sum_comm]
  refine sum_congr rfl fun n hn => ?_
  have := h n (mem_range.1 hn) i i.2
  rw [sum_eq_single (⟨_, this⟩ : Fin N)]
  · simp
  · intro j _ hj
    rw [if_neg (fun h => hj (Fin.ext h.symm)), zero_mul]
  · intro h; exact absurd (mem_univ _) h

theorem rowSum_eq {N : Nat} (m : RawEll) (s : Scalar) (h : m.InRange N) (x : Reg ℝ) (i : Fin N) :
    rowSum s m m.nnzPerRow x i = (m.matrix s N *ᵥ vec s N x) i :=
  sum_matrix m s h (fun j => val s x j) i

theorem blockSum_eq {N : Nat} (t : Target) (m : RawEll) (h : m.InRange N) (x : Reg ℝ) (i : Fin N) (k : Nat) :
    blockSum t m m.nnzPerRow x i k = (m.matrix t.scalar N *ᵥ blockCol t.scalar N t.step x k) i :=
  sum_matrix m t.scalar h (fun j => val t.scalar x (j * t.step + k)) i

/-! ## C68 -/

/-- Permuting, shuffling and flipping the sign bits of lanes amounts to complex arithmetic on every pair of lanes: the
multiplications of the kernels and the sums of the lanes, for registers of every width, with and without the intrinsic
for alternating signs. -/
theorem C68_arithmetic (hw : Bool) (s : Scalar) (a b c : Reg ℝ) (m k : Nat) :
    val s (maddRc hw s a b c) k = val s a k * val s b k + val s c k ∧
    val s (conjugateMaddRc hw s a b c) k = (starRingEnd ℂ) (val s a k) * val s b k + val s c k ∧
    reduceAddRc (s.width * m) s a = ∑ i ∈ range m, val s a i ∧
    reduceAdd (s.width * m) (mul a a) = ∑ i ∈ range m, Complex.normSq (val s a i) ∧
    val s (reduceImag s (mul a a)) k = (Complex.normSq (val s a k) : ℝ) :=
  ⟨val_maddRc .., val_conjugateMaddRc .., reduceAddRc_eq .., reduceAdd_sq .., val_reduceImag_sq ..⟩

/-- `gather` reads `data[indices[i]]` into place `i`, whichever specialisation is compiled, and `load_splat_rc` fills a register with one
scalar. -/
theorem C68_gather (isa : Isa) (e : Elem) (s : Scalar) (data : Reg ℝ) (indices : Nat → Nat) (k : Nat)
    (hk : k < 32 / (e.bytes * s.width)) (j : Nat) :
    val s (gather isa e s data indices) k = val s data (indices k) ∧
    val s (loadSplatRc e s data j) k = val s data j := by
  refine ⟨gather_eq isa e s data indices ?_, loadSplatRc_eq ..⟩
  cases e <;> cases s <;> exact hk

/-- `kpm_spmv`: `y = matrix * x - y` for the rows from `start` to `stop`, and nothing else is written. -/
theorem C68_spmv {N : Nat} (t : Target) (m : RawEll) (hm : m.nnzPerRow ≠ 0) (hr : m.InRange N) (aligned : Nat → Bool)
    (start stop : Nat) (hs : start ≤ stop) (x y : Reg ℝ) :
    let y' := spmvRaw t m 0 (Numeric.splitLoop aligned t.step start stop) x y
    (∀ i : Fin N, start ≤ i.1 → i.1 < stop →
      vec t.scalar N y' i = (m.matrix t.scalar N *ᵥ vec t.scalar N x) i - vec t.scalar N y i) ∧
    ∀ j, ¬ (start ≤ j ∧ j < stop) → val t.scalar y' j = val t.scalar y j := by
  have h := val_columns t m (sections aligned t hs) x m.nnzPerRow y
  simp only [if_neg hm] at h
  refine ⟨fun i h1 h2 => ?_, fun j hj => ?_⟩
  · rw [← rowSum_eq m _ hr]
    have := h i
    rw [if_pos ⟨h1, h2⟩] at this
    exact this
  · have := h j
    rw [if_neg hj] at this
    exact this

/-- `kpm_spmv_diagonal`: the same, and `m2` grows by the squared norm of the slice of `x`, `m3` by the scalar product of the
new `y` with `x`. -/
theorem C68_diagonal {N : Nat} (t : Target) (m : RawEll) (hm : m.nnzPerRow ≠ 0) (hr : m.InRange N) (aligned : Nat → Bool)
    (start stop : Nat) (hs : start ≤ stop) (hn : stop ≤ N) (x y : Reg ℝ) (m2 m3 : ℂ) :
    let r := diagRaw t m (Numeric.splitLoop aligned t.step start stop) x y m2 m3
    (∀ i : Fin N, start ≤ i.1 → i.1 < stop →
      vec t.scalar N r.y i = (m.matrix t.scalar N *ᵥ vec t.scalar N x) i - vec t.scalar N y i) ∧
    (∀ j, ¬ (start ≤ j ∧ j < stop) → val t.scalar r.y j = val t.scalar y j) ∧
    r.m2 = m2 + ∑ j ∈ Ico start stop, (Complex.normSq (val t.scalar x j) : ℂ) ∧
    r.m3 = m3 + ∑ j ∈ Ico start stop, (starRingEnd ℂ) (val t.scalar r.y j) * val t.scalar x j := by
  obtain ⟨h1, h2, h3⟩ := diagRaw_eq t m hm (sections aligned t hs) x y m2 m3
  refine ⟨fun i a b => ?_, fun j hj => ?_, h2, ?_⟩
  · rw [← rowSum_eq m _ hr]
    have := h1 i
    rw [if_pos ⟨a, b⟩] at this
    exact this
  · have := h1 j
    rw [if_neg hj] at this
    exact this
  · rw [h3]
    congr 1
    refine sum_congr rfl fun j hj => ?_
    have := h1 j
    rw [if_pos (mem_Ico.1 hj)] at this
    rw [this]

/-- The batched kernels do this for each column of a block, and `m2[k]`, `m3[k]` belong to column `k`. -/
theorem C68_block {N : Nat} (t : Target) (m : RawEll) (hm : m.nnzPerRow ≠ 0) (hr : m.InRange N)
    (start stop : Nat) (hs : start ≤ stop) (x y m2 m3 : Reg ℝ) (k : Nat) (hk : k < t.step) :
    let y' := spmvRawBatch t m 0 start stop x y
    let r := diagRawBatch t m start stop x y m2 m3
    (∀ i : Fin N, start ≤ i.1 → i.1 < stop →
      blockCol t.scalar N t.step y' k i =
        (m.matrix t.scalar N *ᵥ blockCol t.scalar N t.step x k) i - blockCol t.scalar N t.step y k i) ∧
    (∀ i, ¬ (start ≤ i ∧ i < stop) → val t.scalar y' (i * t.step + k) = val t.scalar y (i * t.step + k)) ∧
    (∀ i, val t.scalar r.y (i * t.step + k) = val t.scalar y' (i * t.step + k)) ∧
    val t.scalar r.m2 k = val t.scalar m2 k + ∑ i ∈ Ico start stop, (Complex.normSq (val t.scalar x (i * t.step + k)) : ℂ) ∧
    val t.scalar r.m3 k = val t.scalar m3 k + ∑ i ∈ Ico start stop,
      (starRingEnd ℂ) (val t.scalar r.y (i * t.step + k)) * val t.scalar x (i * t.step + k) := by
  obtain ⟨h1, h2, h3⟩ := diagRawBatch_eq t m hm hs x y m2 m3 hk
  have g : ∀ i, val t.scalar (spmvRawBatch t m 0 start stop x y) (i * t.step + k) = _ :=
    fun i => val_blockColumns t m hs x m.nnzPerRow y i hk
  simp only [if_neg hm] at g
  refine ⟨fun i a b => ?_, fun i hi => ?_, fun i => ?_, h2, ?_⟩
  · rw [← blockSum_eq t m hr]
    have := g i
    rw [if_pos ⟨a, b⟩] at this
    exact this
  · rw [g, if_neg hi]
  · rw [h1, g]
  · rw [h3]
    congr 1
    refine sum_congr rfl fun i hi => ?_
    have := h1 i
    rw [if_pos (mem_Ico.1 hi)] at this
    rw [this]

/-- A complex matrix of three rows with two entries each, in double precision: it satisfies the hypotheses. -/
example : ∃ m : RawEll, m.nnzPerRow ≠ 0 ∧ m.InRange 3 ∧ m.matrix .complex 3 0 1 = Complex.I := by
  refine ⟨⟨2, 4, 8, fun i => if i = 9 then 1 else 0, fun i => if i = 8 then 1 else 0⟩, by decide, ?_, ?_⟩
  · intro n _ i _
    dsimp only
    split <;> omega
  · apply Complex.ext <;> simp [RawEll.matrix, sum_range_succ, val]

/-! ## C69 -/

/-- The matrix was made by the constructor of `EllMatrix` for `rows` rows: its columns are padded to multiples of 32 bytes. -/
structure RawEll.Padded (m : RawEll) (t : Target) (rows : Nat) : Prop where
  data : m.dataRows = Numeric.alignedSize (32 / t.scalarBytes) rows
  indices : m.idxRows = Numeric.alignedSize (32 / 4) rows

/-- The arrays are where Eigen puts them with `EIGEN_MAX_ALIGN_BYTES` 32. -/
structure Arrays.Aligned (a : Arrays) : Prop where
  x : 32 ∣ a.x
  y : 32 ∣ a.y
  data : 32 ∣ a.data
  indices : 32 ∣ a.indices

/-- An access is legal: aligned, and inside one of the arrays, given by address and size. -/
def Access.Legal (arrays : List (Nat × Nat)) (a : Access) : Prop :=
  a.align ∣ a.address ∧ ∃ r ∈ arrays, r.1 ≤ a.address ∧ a.address + a.size ≤ r.1 + r.2

/-- The arrays of a kernel for blocks of `c` vectors. -/
def regions (t : Target) (m : RawEll) (at_ : Arrays) (N c : Nat) : List (Nat × Nat) :=
  [(at_.x, t.scalarBytes * (N * c)), (at_.y, t.scalarBytes * (N * c)),
    (at_.data, t.scalarBytes * (m.nnzPerRow * m.dataRows)), (at_.indices, 4 * (m.nnzPerRow * m.idxRows))]

theorem scalarBytes_step (t : Target) : t.scalarBytes * t.step = 32 := by
  obtain ⟨_, _, e, s⟩ := t
  cases e <;> cases s <;> simp [Target.scalarBytes, Target.step, Simd.step, Elem.lanes, Elem.bytes, Scalar.width]

theorem div_scalarBytes (t : Target) : 32 / t.scalarBytes = t.step := by
  obtain ⟨_, _, e, s⟩ := t
  cases e <;> cases s <;> simp [Target.scalarBytes, Target.step, Simd.step, Elem.lanes, Elem.bytes, Scalar.width]

/-- An aligned element of an aligned array has a number that is a multiple of `step`. -/
theorem step_dvd_of_aligned (t : Target) {base i : Nat} (hb : 32 ∣ base)
    (h : Numeric.alignedAt base t.scalarBytes 32 i = true) : t.step ∣ i := by
  have h' : 32 ∣ base + i * t.scalarBytes := Nat.dvd_of_mod_eq_zero (by simpa [Numeric.alignedAt] using h)
  have h'' : 32 ∣ i * t.scalarBytes := (Nat.dvd_add_right hb).1 h'
  rw [← scalarBytes_step t, Nat.mul_comm i] at h''
  have hp : 0 < t.scalarBytes := by
    have := scalarBytes_step t
    rcases Nat.eq_zero_or_pos t.scalarBytes with h | h
    · rw [h] at this; omega
    · exact h
  exact Nat.dvd_of_mul_dvd_mul_left hp h''

/-- Rows of the vector section: multiples of `step`, and the whole register is inside the slice. -/
theorem vecRow (t : Target) {base start stop row : Nat} (hs : start ≤ stop) (hb : 32 ∣ base)
    (hrow : let l := Numeric.splitLoop (Numeric.alignedAt base t.scalarBytes 32) t.step start stop
      row ∈ List.range' l.peelEnd (Numeric.trips l.peelEnd l.vecEnd t.step) t.step) :
    t.step ∣ row ∧ row + t.step ≤ stop := by
  have hsec := sections (Numeric.alignedAt base t.scalarBytes 32) t hs
  obtain ⟨_, _, _, _, _, _, _, hal⟩ := Numeric.splitLoop_spec (Numeric.alignedAt base t.scalarBytes 32) t.step start stop
    t.step_pos hs
  generalize Numeric.splitLoop (Numeric.alignedAt base t.scalarBytes 32) t.step start stop = l at *
  obtain ⟨_, _, h3, h4, h5, h6⟩ := hsec
  simp only at hrow
  have h7 := Numeric.range'_step_mem hrow
  rw [h6] at h7
  obtain ⟨i, _, rfl⟩ := List.mem_range'.1 hrow
  have hp := t.step_pos
  have : l.peelEnd < stop := by omega
  exact ⟨(Nat.dvd_add_right (step_dvd_of_aligned t hb (hal this))).2 (Nat.dvd_mul_right _ _), by omega⟩

theorem mul_dvd32 (t : Target) {i : Nat} (h : t.step ∣ i) : 32 ∣ t.scalarBytes * i := by
  rw [← scalarBytes_step t]; exact Nat.mul_dvd_mul_left _ h

theorem RawEll.Padded.spec {m : RawEll} {t : Target} {rows : Nat} (h : m.Padded t rows) :
    rows ≤ m.dataRows ∧ t.step ∣ m.dataRows ∧ rows ≤ m.idxRows ∧ 8 ∣ m.idxRows := by
  obtain ⟨h1, h2, _⟩ := Numeric.alignedSize_spec t.step t.step_pos rows
  obtain ⟨h3, h4, _⟩ := Numeric.alignedSize_spec 8 (by decide) rows
  rw [h.data, h.indices, div_scalarBytes]
  exact ⟨h1, h2, h3, h4⟩

/-- Every vector load and store of the kernels is aligned as the instructions demand and stays inside the arrays, for all
slices of the matrix: only the position of `y` is tested, and the padding of the matrix does the rest. -/
theorem C69_aligned {N : Nat} (t : Target) (m : RawEll) (hp : m.Padded t N) (hr : m.InRange N) (at_ : Arrays) (ha : at_.Aligned)
    (start stop : Nat) (hs : start ≤ stop) (hn : stop ≤ N) (n : Nat) (hnz : n < m.nnzPerRow) (row : Nat)
    (hrow : let l := Numeric.splitLoop (Numeric.alignedAt at_.y t.scalarBytes 32) t.step start stop
      row ∈ List.range' l.peelEnd (Numeric.trips l.peelEnd l.vecEnd t.step) t.step) :
    ∀ a ∈ vecAccesses t m at_ n row, a.Legal (regions t m at_ N 1) := by
  obtain ⟨d1, d2⟩ := vecRow t hs ha.y hrow
  obtain ⟨p1, p2, p3, p4⟩ := hp.spec
  have hb := scalarBytes_step t
  have hx : t.scalarBytes * row + 32 ≤ t.scalarBytes * (N * 1) := by
    rw [← hb, ← Nat.mul_add, Nat.mul_one]; exact Nat.mul_le_mul_left _ (by omega)
  have hcol : ∀ R, row + t.step ≤ R → n * R + row + t.step ≤ m.nnzPerRow * R := by
    intro R hR
    have : (n + 1) * R ≤ m.nnzPerRow * R := Nat.mul_le_mul_right _ hnz
    rw [Nat.add_mul, Nat.one_mul] at this; omega
  intro a hmem
  simp only [vecAccesses, List.mem_append, List.mem_cons, List.not_mem_nil, or_false] at hmem
  rcases hmem with (rfl | rfl | rfl) | hmem
  · refine ⟨(Nat.dvd_add_right ha.data).2 (mul_dvd32 t ((Nat.dvd_add_right (Nat.dvd_mul_left_of_dvd p2 n)).2 d1)),
      (at_.data, t.scalarBytes * (m.nnzPerRow * m.dataRows)), by simp [regions], Nat.le_add_right _ _, ?_⟩
    have := Nat.mul_le_mul_left t.scalarBytes (hcol m.dataRows (by omega))
    rw [Nat.mul_add _ _ t.step, hb] at this
    simp only [wholeRegister]; omega
  · refine ⟨(Nat.dvd_add_right ha.y).2 (mul_dvd32 t d1), (at_.y, t.scalarBytes * (N * 1)), by simp [regions],
      Nat.le_add_right _ _, ?_⟩
    simp only [wholeRegister]; omega
  · refine ⟨(Nat.dvd_add_right ha.x).2 (mul_dvd32 t d1), (at_.x, t.scalarBytes * (N * 1)), by simp [regions],
      Nat.le_add_right _ _, ?_⟩
    simp only [wholeRegister]; omega
  · have h4 : ∀ q, q ∣ 8 → q ∣ row → 4 * q ∣ at_.indices + 4 * (n * m.idxRows + row) ∨ ¬ (4 * q ∣ 32) := by
      intro q hq hqr
      by_cases h32 : 4 * q ∣ 32
      · left
        refine (Nat.dvd_add_right (h32.trans ha.indices)).2 (Nat.mul_dvd_mul_left 4 ?_)
        exact (Nat.dvd_add_right (Nat.dvd_mul_left_of_dvd (hq.trans p4) n)).2 hqr
      · exact Or.inr h32
    have hidx : ∀ q, q ≤ t.step → at_.indices + 4 * (n * m.idxRows + row) + 4 * q ≤
        at_.indices + 4 * (m.nnzPerRow * m.idxRows) := by
      intro q hq
      have := hcol m.idxRows (by omega)
      omega
    have hin : ∀ i, i < t.step → m.rowIndices n (row + i) < N := by
      intro i hi
      exact hr n hnz (row + i) (by omega)
    have hl : (at_.indices, 4 * (m.nnzPerRow * m.idxRows)) ∈ regions t m at_ N 1 := by simp [regions]
    have hlx : (at_.x, t.scalarBytes * (N * 1)) ∈ regions t m at_ N 1 := by simp [regions]
    obtain ⟨isa, hw, e, s⟩ := t
    have w : ∀ k, (⟨isa, hw, .f64, .complex⟩ : Target) = ⟨isa, hw, e, s⟩ → k < 2 →
        Access.Legal (regions ⟨isa, hw, e, s⟩ m at_ N 1) ⟨at_.x + 16 * m.rowIndices n (row + k), 16, 16⟩ := by
      intro k he hk
      cases he
      refine ⟨(Nat.dvd_add_right ((by decide : 16 ∣ 32).trans ha.x)).2 (Nat.dvd_mul_right _ _), _, hlx,
        Nat.le_add_right _ _, ?_⟩
      have := hin k (by simpa [Target.step, Simd.step, Elem.lanes, Scalar.width] using hk)
      show at_.x + 16 * m.rowIndices n (row + k) + 16 ≤ at_.x + 16 * (N * 1)
      omega
    cases isa <;> cases e <;> cases s <;>
      simp only [gatherAccesses, List.mem_cons, List.not_mem_nil, or_false] at hmem
    · rcases hmem with rfl | rfl
      · exact w 0 rfl (by decide)
      · exact w 1 rfl (by decide)
    · rcases hmem with rfl | rfl
      · exact w 0 rfl (by decide)
      · exact w 1 rfl (by decide)
    · subst hmem
      exact ⟨(h4 8 (by decide) (by simpa [Target.step, Simd.step, Elem.lanes, Scalar.width] using d1)).resolve_right (by decide), _, hl, Nat.le_add_right _ _, 
        hidx 8 (by simp [Target.step, Simd.step, Elem.lanes, Scalar.width])⟩
    · subst hmem
      exact ⟨(h4 4 (by decide) (by simpa [Target.step, Simd.step, Elem.lanes, Scalar.width] using d1)).resolve_right (by decide), _, hl, Nat.le_add_right _ _, 
        hidx 4 (by simp [Target.step, Simd.step, Elem.lanes, Scalar.width])⟩
    · subst hmem
      exact ⟨(h4 4 (by decide) (by simpa [Target.step, Simd.step, Elem.lanes, Scalar.width] using d1)).resolve_right (by decide), _, hl, Nat.le_add_right _ _, 
        hidx 4 (by simp [Target.step, Simd.step, Elem.lanes, Scalar.width])⟩
    · rcases hmem with rfl | rfl
      · exact w 0 rfl (by decide)
      · exact w 1 rfl (by decide)

/-- The same for the batched kernels, for every row of every slice. -/
theorem C69_aligned_block {N : Nat} (t : Target) (m : RawEll) (hr : m.InRange N) (at_ : Arrays) (ha : at_.Aligned)
    (n : Nat) (hnz : n < m.nnzPerRow) (row : Nat) (hrow : row < N) :
    ∀ a ∈ batchAccesses t m at_ n row, a.Legal (regions t m at_ N t.step) := by
  have hb := scalarBytes_step t
  have hin : ∀ i < N, t.scalarBytes * (i * t.step) + 32 ≤ t.scalarBytes * (N * t.step) := by
    intro i hi
    have : (i + 1) * t.step ≤ N * t.step := Nat.mul_le_mul_right _ hi
    rw [Nat.add_mul, Nat.one_mul] at this
    rw [← hb, ← Nat.mul_add]; exact Nat.mul_le_mul_left _ this
  have hal : ∀ i, 32 ∣ t.scalarBytes * (i * t.step) := fun i => mul_dvd32 t (Nat.dvd_mul_left _ _)
  intro a hmem
  simp only [batchAccesses, List.mem_cons, List.not_mem_nil, or_false] at hmem
  rcases hmem with rfl | rfl | rfl
  · refine ⟨(Nat.dvd_add_right ha.x).2 (hal _), (at_.x, t.scalarBytes * (N * t.step)), by simp [regions], Nat.le_add_right _ _, ?_⟩
    have := hin _ (hr n hnz row hrow)
    simp only [wholeRegister, RawEll.rowIndices]; omega
  · refine ⟨(Nat.dvd_add_right ha.y).2 (hal _), (at_.y, t.scalarBytes * (N * t.step)), by simp [regions], Nat.le_add_right _ _, ?_⟩
    have := hin _ hrow
    simp only [wholeRegister]; omega
  · refine ⟨(Nat.dvd_add_right ha.x).2 (hal _), (at_.x, t.scalarBytes * (N * t.step)), by simp [regions], Nat.le_add_right _ _, ?_⟩
    have := hin _ hrow
    simp only [wholeRegister]; omega

/-- `lanczos_axpy` starts its vector loop at the first element without looking: since `v0` is aligned this is where the
loop would start anyway, every element is treated once, and the result is the norm of the new `v0`. -/
theorem C69_axpy (t : Target) (a : ℝ) (v1 v0 : Reg ℝ) (N base : Nat) (hb : 32 ∣ base) :
    let r := axpyRaw t a (Numeric.splitLoop (Numeric.alignedAt base t.scalarBytes 32) t.step 0 N) v1 v0
    (∀ j < N, val t.scalar r.1 j = val t.scalar v0 j - a * val t.scalar v1 j) ∧
    (∀ j, N ≤ j → val t.scalar r.1 j = val t.scalar v0 j) ∧
    r.2 = ∑ j ∈ range N, Complex.normSq (val t.scalar r.1 j) := by
  have hsec := sections (Numeric.alignedAt base t.scalarBytes 32) t (Nat.zero_le N)
  have hpeel : (Numeric.splitLoop (Numeric.alignedAt base t.scalarBytes 32) t.step 0 N).peelEnd = 0 := by
    obtain ⟨_, _, _, h4⟩ := Numeric.peelLoop_spec (Numeric.alignedAt base t.scalarBytes 32) (N - 0) 0
    by_contra h
    have := h4 0 (Nat.le_refl _) (Nat.pos_of_ne_zero h)
    simp [Numeric.alignedAt, Nat.mod_eq_zero_of_dvd hb] at this
  generalize Numeric.splitLoop (Numeric.alignedAt base t.scalarBytes 32) t.step 0 N = l at *
  obtain ⟨h1, h2, h3, h4, h5, h6⟩ := hsec
  rw [hpeel] at h6
  simp only [Nat.sub_zero] at h6
  obtain ⟨a1, a2⟩ := axpyFold t a v1 (Numeric.trips 0 l.vecEnd t.step) 0 (v0, fun _ => 0)
  simp only [h6, Nat.zero_add] at a1 a2
  unfold axpyRaw axpyLoop
  simp only [h2]
  generalize List.foldl (axpyIter t a v1) (v0, fun _ => 0) (List.range' 0 (Numeric.trips 0 l.vecEnd t.step) t.step) = v at a1 a2 ⊢
  obtain ⟨b1, b2⟩ := axpyScalars t a v1 (N - l.vecEnd) l.vecEnd (v.1, 0)
  simp only [show l.vecEnd + (N - l.vecEnd) = N by omega] at b1 b2
  have hval : ∀ j, val t.scalar (List.foldl (fun (s : Reg ℝ × ℝ) i =>
        (putScalar t.scalar s.1 i ((scalarAt t.scalar s.1 i).1 - a * (scalarAt t.scalar v1 i).1,
          (scalarAt t.scalar s.1 i).2 - a * (scalarAt t.scalar v1 i).2),
          s.2 + scalarSquare t.scalar ((scalarAt t.scalar s.1 i).1 - a * (scalarAt t.scalar v1 i).1,
          (scalarAt t.scalar s.1 i).2 - a * (scalarAt t.scalar v1 i).2))) (v.1, 0) (List.range' l.vecEnd (N - l.vecEnd))).1 j =
      if j < N then val t.scalar v0 j - a * val t.scalar v1 j else val t.scalar v0 j := by
    intro j
    rw [b1, a1]
    by_cases c1 : j < l.vecEnd
    · rw [if_neg (by omega), if_pos (by omega), if_pos (by omega)]
    · by_cases c2 : j < N
      · rw [if_pos (by omega), if_neg (by omega), if_pos (by omega)]
      · rw [if_neg (by omega), if_neg (by omega), if_neg (by omega)]
  refine ⟨fun j hj => by rw [hval, if_pos hj], fun j hj => by rw [hval, if_neg (by omega)], ?_⟩
  rw [b2, a2, reduceAdd_eq]
  simp only [sum_const_zero, zero_add]
  rw [range_eq_Ico, ← sum_Ico_consecutive _ (Nat.zero_le l.vecEnd) h5]
  congr 1
  · refine sum_congr rfl fun j hj => ?_
    rw [hval, if_pos (by have := mem_Ico.1 hj; omega)]
  · refine sum_congr rfl fun j hj => ?_
    have hj := mem_Ico.1 hj
    rw [hval, if_pos hj.2, a1, if_neg (by omega)]

/-- Nine rows in double precision with AVX2: the slice from row 1 on peels three rows, and the row 4 is the first of a
register; the padded matrix and the addresses satisfy the hypotheses. -/
example : ∃ (t : Target) (m : RawEll) (at_ : Arrays), m.Padded t 9 ∧ m.InRange 9 ∧ at_.Aligned ∧ m.nnzPerRow = 2 ∧
    (let l := Numeric.splitLoop (Numeric.alignedAt at_.y t.scalarBytes 32) t.step 1 9;
      l = ⟨1, 4, 8, 9⟩ ∧ 4 ∈ List.range' l.peelEnd (Numeric.trips l.peelEnd l.vecEnd t.step) t.step) ∧
    (vecAccesses t m at_ 1 4).length = 4 :=
  ⟨⟨.avx2, true, .f64, .real⟩, ⟨2, 12, 16, fun _ => 1, fun _ => 0⟩, ⟨0, 1024, 2048, 4096⟩, ⟨by decide, by decide⟩,
    fun _ _ _ _ => (by decide : (0 : Nat) < 9), ⟨by decide, by decide, by decide, by decide⟩, rfl, ⟨by decide, by decide⟩, by decide⟩

end Verif.Simd
