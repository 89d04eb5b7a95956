import Verif.Numeric.Ell
import Verif.Numeric.Loops
import Verif.Numeric.Insert
import Verif.Hamiltonian.Translate
import Mathlib.Algebra.Star.Pi
import Mathlib.Algebra.Module.Pi

/-!
# Property theorems: sparse storage and kernels (C29, C41, C42)
-/

namespace Verif.Numeric

variable {K V : Type}

/-! ## C29 -/

/-- **C29**, conversion: for every compressed square matrix, of any number of rows and with rows of any
length (empty ones included), `csr_to_ell` succeeds and stores the same matrix. -/
theorem C29_conversion [AddCommMonoid K] {csr : Raw K} {n : Nat} (h : csr.WF) (hr : csr.rows = n) (hc : csr.cols = n)
    (hn : 0 < n) (ds is : Nat) (hds : 0 < ds) (his : 0 < is) (data0 : Nat → Nat → K) (idx0 : Nat → Nat → Nat) :
    ∃ m, csrToEll ds is data0 idx0 csr = .ok m ∧ m.WF n ∧ m.toMatrix n = csr.toMatrix n :=
  let ⟨m, h1, h2, h3, _⟩ := csrToEll_spec h hr hc hn ds is hds his data0 idx0
  ⟨m, h1, h2, h3⟩

/-- **C29**, CSR: the kernel computes `y := A x - y` on the requested rows and leaves others unchanged. -/
theorem C29_csr [Ring K] [AddCommGroup V] [Module K V] {csr : Raw K} {n : Nat} (h : csr.WF)
    (hr : csr.rows = n) (hc : csr.cols = n) (start stop : Nat) (hs : stop ≤ n) (x y : Fin n → V) :
    ∃ y', kpmSpmvCsr csr start stop x y = .ok y' ∧
      (∀ i : Fin n, start ≤ i.val → i.val < stop → y' i = (∑ j, csr.toMatrix n i j • x j) - y i) ∧
      (∀ i : Fin n, ¬(start ≤ i.val ∧ i.val < stop) → y' i = y i) := by
  refine ⟨_, kpmSpmvCsr_eq h hr hc start stop hs x y, fun i h1 h2 => ?_, fun i hi => ?_⟩
  · unfold mulSub; rw [if_pos ⟨h1, h2⟩]
  · unfold mulSub; rw [if_neg hi]

/-- **C29**, all kernels multiply alike: for every CSR matrix and its ELLPACK conversion, every row
range and all vectors, the generic ELLPACK kernel returns exactly what the CSR kernel returns. -/
theorem C29_ell [Ring K] [AddCommGroup V] [Module K V] {csr : Raw K} {n : Nat} (h : csr.WF)
    (hr : csr.rows = n) (hc : csr.cols = n) (hn : 0 < n) (ds is : Nat) (hds : 0 < ds) (his : 0 < is)
    (data0 : Nat → Nat → K) (idx0 : Nat → Nat → Nat) (start stop : Nat) (hs : stop ≤ n) (x y : Fin n → V) :
    ∃ m y', csrToEll ds is data0 idx0 csr = .ok m ∧ kpmSpmvCsr csr start stop x y = .ok y' ∧
      kpmSpmvEll m start stop x y = .ok y' := by
  obtain ⟨m, h1, h2, h3⟩ := C29_conversion h hr hc hn ds is hds his data0 idx0
  refine ⟨m, _, h1, kpmSpmvCsr_eq h hr hc start stop hs x y, ?_⟩
  rw [kpmSpmvEll_eq h2 start stop hs, h3]

/-- **C29**, vectorised kernels: whatever the address of the data (`aligned`) and the number of lanes
(`step`), the SIMD kernels for one vector and for a block of vectors return what the CSR kernel returns.

Partial: the matrix must have a stored element.  `C29_simd_empty` shows that this is needed. -/
theorem C29_simd_partial [Ring K] [AddCommGroup V] [Module K V] {csr : Raw K} {n : Nat} (h : csr.WF)
    (hr : csr.rows = n) (hc : csr.cols = n) (ds is : Nat) (hds : 0 < ds) (his : 0 < is)
    (data0 : Nat → Nat → K) (idx0 : Nat → Nat → Nat) (hne : ∃ i < n, csr.row i ≠ [])
    (aligned : Nat → Bool) (step : Nat) (hstep : 0 < step)
    (start stop : Nat) (hss : start ≤ stop) (hs : stop ≤ n) (x y : Fin n → V) :
    ∃ m y', csrToEll ds is data0 idx0 csr = .ok m ∧ kpmSpmvCsr csr start stop x y = .ok y' ∧
      kpmSpmvSimd m aligned step 0 start stop x y = .ok y' ∧ kpmSpmvSimdBatch m 0 start stop x y = .ok y' := by
  obtain ⟨i0, hi0, hrow⟩ := hne
  obtain ⟨m, h1, h2, h3, h4⟩ := csrToEll_spec h hr hc (by omega) ds is hds his data0 idx0
  have hnz : m.nnzPerRow ≠ 0 := by
    obtain ⟨N, e, hN, _⟩ := maxNnzPerRow_spec h
    have e' : N = m.nnzPerRow := Res.ok.inj (e.symm.trans h4)
    have := hN i0 (by omega)
    have := List.length_pos_iff.2 hrow
    omega
  refine ⟨m, _, h1, kpmSpmvCsr_eq h hr hc start stop hs x y, ?_, ?_⟩
  · rw [kpmSpmvSimd_eq h2 hnz aligned step hstep start stop hss hs, h3]
  · rw [kpmSpmvSimdBatch_eq h2 hnz start stop hs, h3]

/-- Specification of the diagonal kernels: besides `y := A x - y`, add `<x|x>` and `<y|x>` over the
requested rows to the two accumulators. -/
def DiagCorrect [Semiring K] [CommRing V] [StarRing V] [Module K V] {n : Nat} (A : Matrix (Fin n) (Fin n) K)
    (start stop : Nat) (x y : Fin n → V) (m2 m3 : V) (r : Res (DiagOut n V)) : Prop :=
  ∃ o, r = .ok o ∧ (∀ i, o.y i = if start ≤ i.val ∧ i.val < stop then (∑ j, A i j • x j) - y i else y i) ∧
    o.m2 = m2 + ∑ i : Fin n, (if start ≤ i.val ∧ i.val < stop then star (x i) * x i else 0) ∧
    o.m3 = m3 + ∑ i : Fin n, (if start ≤ i.val ∧ i.val < stop then star (o.y i) * x i else 0)

theorem diagCorrect_of [Semiring K] [CommRing V] [StarRing V] [Module K V] {n : Nat} {A : Matrix (Fin n) (Fin n) K}
    {start stop : Nat} {x y : Fin n → V} {m2 m3 : V} {r : Res (DiagOut n V)}
    (h : r = .ok (diagSpec A start stop x y m2 m3)) : DiagCorrect A start stop x y m2 m3 r :=
  ⟨_, h, fun _ => rfl, rfl, rfl⟩

/-- **C29**, kernels with dot products: the CSR and the generic ELLPACK kernels compute the product and
both dot products over the requested rows. -/
theorem C29_diagonal [Ring K] [CommRing V] [StarRing V] [Module K V] {csr : Raw K} {n : Nat} (h : csr.WF)
    (hr : csr.rows = n) (hc : csr.cols = n) (hn : 0 < n) (ds is : Nat) (hds : 0 < ds) (his : 0 < is)
    (data0 : Nat → Nat → K) (idx0 : Nat → Nat → Nat) (start stop : Nat) (hss : start ≤ stop) (hs : stop ≤ n)
    (x y : Fin n → V) (m2 m3 : V) :
    ∃ m, csrToEll ds is data0 idx0 csr = .ok m ∧
      DiagCorrect (csr.toMatrix n) start stop x y m2 m3 (diagAfter (kpmSpmvCsr csr) start stop x y m2 m3) ∧
      DiagCorrect (csr.toMatrix n) start stop x y m2 m3 (diagAfter (kpmSpmvEll m) start stop x y m2 m3) := by
  obtain ⟨m, h1, h2, h3⟩ := C29_conversion h hr hc hn ds is hds his data0 idx0
  refine ⟨m, h1, diagCorrect_of ?_, diagCorrect_of ?_⟩
  · exact diagAfter_eq _ _ start stop hss hs x y m2 m3 (kpmSpmvCsr_eq h hr hc start stop hs x y)
  · rw [← h3]
    exact diagAfter_eq _ _ start stop hss hs x y m2 m3 (kpmSpmvEll_eq h2 start stop hs x y)

/-- **C29**, vectorised kernels with dot products.  Partial: the matrix must have a stored element; see
`C29_diagonal_simd_empty`. -/
theorem C29_diagonal_simd_partial [Ring K] [CommRing V] [StarRing V] [Module K V] {csr : Raw K} {n : Nat} (h : csr.WF)
    (hr : csr.rows = n) (hc : csr.cols = n) (ds is : Nat) (hds : 0 < ds) (his : 0 < is)
    (data0 : Nat → Nat → K) (idx0 : Nat → Nat → Nat) (hne : ∃ i < n, csr.row i ≠ [])
    (aligned : Nat → Bool) (step : Nat) (hstep : 0 < step)
    (start stop : Nat) (hss : start ≤ stop) (hs : stop ≤ n) (x y : Fin n → V) (m2 m3 : V) :
    ∃ m, csrToEll ds is data0 idx0 csr = .ok m ∧
      DiagCorrect (csr.toMatrix n) start stop x y m2 m3 (kpmDiagSimd m aligned step start stop x y m2 m3) ∧
      DiagCorrect (csr.toMatrix n) start stop x y m2 m3 (kpmDiagSimdBatch m start stop x y m2 m3) := by
  obtain ⟨i0, hi0, hrow⟩ := hne
  obtain ⟨m, h1, h2, h3, h4⟩ := csrToEll_spec h hr hc (by omega) ds is hds his data0 idx0
  have hnz : m.nnzPerRow ≠ 0 := by
    obtain ⟨N, e, hN, _⟩ := maxNnzPerRow_spec h
    have e' : N = m.nnzPerRow := Res.ok.inj (e.symm.trans h4)
    have := hN i0 (by omega)
    have := List.length_pos_iff.2 hrow
    omega
  refine ⟨m, h1, diagCorrect_of ?_, diagCorrect_of ?_⟩
  · rw [← h3]; exact kpmDiagSimd_eq h2 hnz aligned step hstep start stop hss hs x y m2 m3
  · rw [← h3]; exact kpmDiagSimdBatch_eq h2 hnz start stop hss hs x y m2 m3

/-- **C29**, first vector: both versions of `make_r1` compute half the product. -/
theorem C29_first_vector [Ring K] [AddCommGroup V] [Module K V] {csr : Raw K} {n : Nat} (h : csr.WF)
    (hr : csr.rows = n) (hc : csr.cols = n) (hn : 0 < n) (ds is : Nat) (hds : 0 < ds) (his : 0 < is)
    (data0 : Nat → Nat → K) (idx0 : Nat → Nat → Nat) (half : K) (junk r0 : Fin n → V) :
    ∃ m, csrToEll ds is data0 idx0 csr = .ok m ∧
      makeR1Csr half junk csr r0 = .ok (fun i => half • ∑ j, csr.toMatrix n i j • r0 j) ∧
      makeR1Ell half m r0 = .ok (fun i => half • ∑ j, csr.toMatrix n i j • r0 j) := by
  obtain ⟨m, h1, h2, h3⟩ := C29_conversion h hr hc hn ds is hds his data0 idx0
  exact ⟨m, h1, makeR1Csr_eq h hr hc half junk r0, by rw [makeR1Ell_eq h2, h3]⟩

/-- **C29**, the padding of the arrays: the allocated number of rows is the least multiple of the
number of elements per 32 bytes that is large enough. -/
theorem C29_aligned_size (step : Nat) (hstep : 0 < step) (size : Nat) :
    IsLeast {t | size ≤ t ∧ step ∣ t} (alignedSize step size) := by
  obtain ⟨h1, h2, h3⟩ := alignedSize_spec step hstep size
  exact ⟨⟨h1, h2⟩, fun t ht => h3 t ht.1 ht.2⟩

/-- **C29**, the split loop: the three sections cover the range, in order, the vector section is a
whole number of vectors and, unless it is empty, starts at an aligned element. -/
theorem C29_split_loop (aligned : Nat → Bool) (step start stop : Nat) (hstep : 0 < step) (h : start ≤ stop) :
    let l := splitLoop aligned step start stop
    l.start = start ∧ l.stop = stop ∧ start ≤ l.peelEnd ∧ l.peelEnd ≤ l.vecEnd ∧ l.vecEnd ≤ stop ∧
      step ∣ l.vecEnd - l.peelEnd ∧ (l.peelEnd < l.vecEnd → aligned l.peelEnd = true) ∧ stop < l.vecEnd + step := by
  obtain ⟨e1, e2, h1, h2, h3, h4, h5, h6⟩ := splitLoop_spec aligned step start stop hstep h
  exact ⟨e1, e2, h1, h2, h3, h4, fun hlt => h6 (Nat.lt_of_lt_of_le hlt h3), by omega⟩

/-- A 3×3 matrix with an empty row: `[[0, 2, 0], [0, 0, 0], [1, 0, 3]]`. -/
def sampleCsr : Raw Int := ⟨3, 3, [0, 1, 1, 3], [1, 0, 2], [2, 1, 3]⟩

theorem sampleCsr_wf : sampleCsr.WF :=
  ⟨rfl, rfl, by decide, by decide, rfl, by decide⟩

/-- The hypotheses of the theorems above are met by a matrix with an empty row. -/
example : sampleCsr.WF ∧ sampleCsr.rows = 3 ∧ sampleCsr.cols = 3 ∧ ∃ i < 3, sampleCsr.row i ≠ [] :=
  ⟨sampleCsr_wf, rfl, rfl, 2, by decide, by decide⟩

/-- Rows 1 and 2 are updated, row 0 is not. -/
example : ∃ y, kpmSpmvCsr sampleCsr 1 3 (![10, 20, 30] : Fin 3 → Int) ![1, 2, 3] = .ok y ∧
    y 0 = 1 ∧ y 1 = -2 ∧ y 2 = 97 := ⟨_, rfl, by decide, by decide, by decide⟩

/-- A matrix without stored elements, as for one isolated site. -/
def emptyCsr : Raw Int := ⟨1, 1, [0, 0], [], []⟩

/-- Without stored elements the SIMD kernel does not negate `y`: the CSR kernel returns `0 x - y`, the
SIMD kernels return `y`. -/
theorem C29_simd_empty : emptyCsr.WF ∧ ∃ m y1 y2 y3 y4,
    csrToEll 4 8 (fun _ _ => 0) (fun _ _ => 0) emptyCsr = .ok m ∧
    kpmSpmvCsr emptyCsr 0 1 (![5] : Fin 1 → Int) ![7] = .ok y1 ∧ y1 0 = -7 ∧
    kpmSpmvEll m 0 1 (![5] : Fin 1 → Int) ![7] = .ok y2 ∧ y2 0 = -7 ∧
    kpmSpmvSimd m (fun _ => true) 4 0 0 1 (![5] : Fin 1 → Int) ![7] = .ok y3 ∧ y3 0 = 7 ∧
    kpmSpmvSimdBatch m 0 0 1 (![5] : Fin 1 → Int) ![7] = .ok y4 ∧ y4 0 = 7 :=
  ⟨⟨rfl, rfl, by decide, by decide, rfl, by decide⟩, _, _, _, _, _, rfl, rfl, by decide, rfl, by decide, rfl,
    by decide, rfl, by decide⟩

/-- Without stored elements the SIMD kernel with dot products reads before the start of the arrays. -/
theorem C29_diagonal_simd_empty [StarRing Int] : ∃ m, csrToEll 4 8 (fun _ _ => 0) (fun _ _ => 0) emptyCsr = .ok m ∧
    kpmDiagSimd m (fun _ => true) 4 0 1 (![5] : Fin 1 → Int) ![7] 0 0 = .ub := ⟨_, rfl, rfl⟩

/-! ## C41 -/

/-- **C41**, `sliced`: the slices of any sequence are, in order, the sequence; no slice is empty or
longer than requested, and only the last one may be shorter. -/
theorem C41_sliced {α : Type} (step : Nat) (hstep : 0 < step) (xs : List α) :
    let ys := Hamiltonian.sliced step xs.length xs
    ys.flatten = xs ∧ (∀ y ∈ ys, y ≠ [] ∧ y.length ≤ step) ∧ (∀ y ∈ ys.dropLast, y.length = step) := by
  refine ⟨Hamiltonian.sliced_flatten step hstep _ xs (Nat.le_refl _), ?_⟩
  suffices H : ∀ fuel (xs : List α), xs.length ≤ fuel →
      (∀ y ∈ Hamiltonian.sliced step fuel xs, y ≠ [] ∧ y.length ≤ step) ∧
      (∀ y ∈ (Hamiltonian.sliced step fuel xs).dropLast, y.length = step) from H _ xs (Nat.le_refl _)
  intro fuel
  induction fuel with
  | zero => intro xs _; exact ⟨by simp [Hamiltonian.sliced], by simp [Hamiltonian.sliced]⟩
  | succ fuel ih =>
    intro xs hl
    cases xs with
    | nil => exact ⟨by simp [Hamiltonian.sliced], by simp [Hamiltonian.sliced]⟩
    | cons x xs =>
      have hd : ((x :: xs).drop step).length ≤ fuel := by
        rw [List.length_drop]; simp at hl ⊢; omega
      obtain ⟨h1, h2⟩ := ih _ hd
      unfold Hamiltonian.sliced
      constructor
      · intro y hy
        rcases List.mem_cons.1 hy with rfl | hy
        · refine ⟨?_, by rw [List.length_take]; omega⟩
          obtain ⟨k, rfl⟩ : ∃ k, step = k + 1 := ⟨step - 1, by omega⟩
          simp
        · exact h1 y hy
      · intro y hy
        rcases hr : Hamiltonian.sliced step fuel ((x :: xs).drop step) with _ | ⟨z, zs⟩
        · rw [hr] at hy; simp at hy
        · rw [hr, List.dropLast_cons_cons] at hy
          rcases List.mem_cons.1 hy with rfl | hy
          · have hne : (x :: xs).drop step ≠ [] := by
              intro e
              rw [e] at hr
              cases fuel <;> simp [Hamiltonian.sliced] at hr
            have := List.length_pos_iff.2 hne
            rw [List.length_drop] at this
            rw [List.length_take]; omega
          · exact h2 y (by rw [hr]; exact hy)

example : Hamiltonian.sliced 3 7 [0, 1, 2, 3, 4, 5, 6] = [[0, 1, 2], [3, 4, 5], [6]] := by decide

/-- **C41**, `for_each`: every stored element is visited once, row by row. -/
theorem C41_for_each {σ : Type} {m : Raw K} (h : m.WF) (f : σ → Nat → Nat → K → Res σ) (s : σ) :
    forEach m f s = m.entries.foldlM (fun s e => f s e.1 e.2.1 e.2.2) s := forEach_eq h f s

/-- **C41**, `buffered_for_each`: for every compressed matrix, buffer size of at least one and
callbacks, the stored elements are split, in order, into chunks; a chunk is handled by giving its
elements to the callback, numbered from zero, and then processing a buffer of its length.  All chunks
but the last are full and none is longer than the buffer.  Each chunk can be revisited: `slice_for_each`
started with the arguments given to the process function visits exactly the elements of the chunk. -/
theorem C41_buffered {σ : Type} {m : Raw K} (h : m.WF) (size : Nat) (hsize : 0 < size)
    (f : σ → Nat → Nat → K → Nat → Res σ) (p : σ → Nat → Nat → Nat → Res σ) (s : σ) :
    ∃ cs : List (Nat × Nat × List (Nat × Nat × K)),
      (cs.map (·.2.2)).flatten = m.entries ∧ (∀ c ∈ cs, c.2.2.length ≤ size) ∧
      (∀ c ∈ cs.dropLast, c.2.2.length = size) ∧
      bufferedForEach m size f p s = cs.foldlM (fun s c => do
        let s ← (c.2.2.zipIdx).foldlM (fun s e => f s e.1.1 e.1.2.1 e.1.2.2 e.2) s
        p s c.1 c.2.1 c.2.2.length) s ∧
      ∀ c ∈ cs, ∀ {τ : Type} (g : τ → Nat → Nat → K → Nat → Res τ) (t : τ),
        sliceForEach m c.1 c.2.1 c.2.2.length g t =
          (c.2.2.zipIdx).foldlM (fun s e => g s e.1.1 e.1.2.1 e.1.2.2 e.2) t := by
  obtain ⟨t, cs, h1, h2, h3, h4, h5, h6⟩ := buffered_chunks size hsize f p m.entries.zipIdx 0 0 0 (Nat.zero_le _)
  let cs' : List (Chunk K) := ⟨0, 0, t⟩ :: cs
  let out : Chunk K → Nat × Nat × List (Nat × Nat × K) := fun c => (c.outer, c.idx, c.items.map (·.1))
  have hflat : (cs'.map (·.items)).flatten = m.entries.zipIdx := by simpa [cs'] using h1
  refine ⟨cs'.map out, ?_, ?_, ?_, ?_, ?_⟩
  · have : (cs'.map (·.items)).flatten.map (·.1) = m.entries := by rw [hflat]; simp
    rw [← this, List.map_flatten, List.map_map, List.map_map]
    rfl
  · intro c hc
    obtain ⟨c', hc', rfl⟩ := List.mem_map.1 hc
    simp only [out, List.length_map]
    rcases List.mem_cons.1 hc' with rfl | hc'
    · simpa using h2
    · exact (h5 c' hc').1
  · intro c hc
    rw [← List.map_dropLast] at hc
    obtain ⟨c', hc', rfl⟩ := List.mem_map.1 hc
    simp only [out, List.length_map]
    cases hcs : cs with
    | nil => simp [cs', hcs] at hc'
    | cons c0 cs0 =>
      simp only [cs', hcs, List.dropLast_cons_cons] at hc'
      rcases List.mem_cons.1 hc' with rfl | hc'
      · simpa using h3 (by simp [hcs])
      · exact h4 c' (by rw [hcs]; exact hc')
  · rw [bufferedForEach_items h, h6 s, List.foldlM_map]
    simp only [cs', List.foldlM_cons, Nat.zero_add, out, List.length_map]
    unfold visit
    simp only [bind_assoc]
    refine bind_congr' _ _ _ (fun s1 _ => bind_congr' _ _ _ (fun s2 _ => ?_))
    refine foldlM_congr _ _ _ _ (fun c _ s => rfl)
  · intro c hc τ g u
    obtain ⟨c', hc', rfl⟩ := List.mem_map.1 hc
    obtain ⟨l1, l2, hl⟩ := List.append_of_mem hc'
    have hpart : m.entries.zipIdx = (l1.map (·.items)).flatten ++ (c'.items ++ (l2.map (·.items)).flatten) := by
      rw [← hflat, hl]; simp
    -- the chunk is the part of the entries starting at its first position
    have hpos : (l1.map (·.items)).flatten.length = c'.idx ∧
        (c'.outer ≤ m.rows ∧ m.outer.getD c'.outer 0 ≤ c'.idx ∧
          (c'.outer < m.rows → c'.idx ≤ m.outer.getD (c'.outer + 1) 0)) := by
      cases l1 with
      | nil =>
        have : c' = ⟨0, 0, t⟩ := by
          simp only [cs', List.nil_append] at hl
          exact (List.cons.inj hl).1.symm
        subst this
        exact ⟨rfl, Nat.zero_le _, by rw [h.outer_zero], fun _ => Nat.zero_le _⟩
      | cons a l1 =>
        have hm : c' ∈ cs := by
          simp only [cs', List.cons_append] at hl
          rw [(List.cons.inj hl).2]; simp
        obtain ⟨_, x, hx, ho, hi⟩ := h5 c' hm
        obtain ⟨its, hits⟩ : ∃ its, c'.items = x :: its := by
          cases hci : c'.items with
          | nil => rw [hci] at hx; simp at hx
          | cons y ys => rw [hci] at hx; exact ⟨ys, by rw [Option.some.inj hx]⟩
        have hget : m.entries.zipIdx[(((a :: l1).map (·.items)).flatten).length]? = some x := by
          rw [hpart, List.getElem?_append_right (Nat.le_refl _), hits]; simp
        rw [List.getElem?_zipIdx] at hget
        rcases he : m.entries[(((a :: l1).map (·.items)).flatten).length]? with _ | e
        · rw [he] at hget; simp at hget
        · rw [he] at hget
          have hxe : x = (e, (((a :: l1).map (·.items)).flatten).length) := by simpa using hget.symm
          have hlen : (((a :: l1).map (·.items)).flatten).length = c'.idx := by rw [hi, hxe]
          refine ⟨hlen, ?_⟩
          have hlt : c'.idx < m.entries.length := by
            rw [← hlen]
            exact (List.getElem?_eq_some_iff.1 he).1
          -- find the row containing this position
          have hmem : (e, c'.idx) ∈ m.entries.zipIdx := by
            rw [hpart, hits, hxe, hlen]; simp
          rw [h.entries_zip.1] at hmem
          obtain ⟨r, hr, hmem⟩ := List.mem_flatMap.1 hmem
          have hr := List.mem_range.1 hr
          obtain ⟨q1, q2, q3⟩ := List.mem_zipIdx hmem
          rw [List.length_map, h.row_length r hr] at q2
          have her : e.1 = r := by
            have : e ∈ (m.row r).map fun e => (r, e.1, e.2) := by rw [q3]; exact List.getElem_mem _
            obtain ⟨e', _, rfl⟩ := List.mem_map.1 this
            rfl
          have hor : c'.outer = r := by rw [ho, hxe]; exact her
          rw [hor]
          have := h.outer_mono (Nat.le_add_right r 1) hr
          exact ⟨by omega, q1, fun _ => by omega⟩
    obtain ⟨hlen, p1, p2, p3⟩ := hpos
    simp only [out]
    rw [sliceForEach_eq h c'.outer c'.idx _ p1 p2 p3]
    unfold visit
    congr 2
    have hent : m.entries = m.entries.zipIdx.map (·.1) := by simp
    rw [hent, hpart, List.map_append, ← hlen, List.drop_left' (by rw [List.length_map]), List.map_append,
      List.take_left' rfl]

/-- A buffer of two on the sample matrix: two chunks, the second one shorter. -/
example : bufferedForEach sampleCsr 2
    (fun (s : List (Nat × Nat × Int × Nat) × List (Nat × Nat × Nat)) r c v k => .ok (s.1 ++ [(r, c, v, k)], s.2))
    (fun s o i n => .ok (s.1, s.2 ++ [(o, i, n)])) ([], []) =
      .ok ([(0, 1, 2, 0), (2, 0, 1, 1), (2, 2, 3, 0)], [(0, 0, 2), (2, 2, 1)]) := by rfl

/-- **C41**, `slice_for_each`: started at any position of any row, it visits the requested number of
following elements, or all that are left. -/
theorem C41_slice {σ : Type} {m : Raw K} (h : m.WF) (outer idx size : Nat) (hr : outer < m.rows)
    (h1 : m.outer.getD outer 0 ≤ idx) (h2 : idx ≤ m.outer.getD (outer + 1) 0)
    (f : σ → Nat → Nat → K → Nat → Res σ) (s : σ) :
    sliceForEach m outer idx size f s =
      (((m.entries.drop idx).take size).zipIdx).foldlM (fun s e => f s e.1.1 e.1.2.1 e.1.2.2 e.2) s :=
  sliceForEach_eq h outer idx size (by omega) h1 (fun _ => h2) f s

example : sampleCsr.WF ∧ 2 < sampleCsr.rows ∧ sampleCsr.outer.getD 2 0 ≤ 2 ∧ 2 ≤ sampleCsr.outer.getD 3 0 :=
  ⟨sampleCsr_wf, by decide, by decide, by decide⟩

/-! ## C42 -/

/-- **C42**: for every sequence of row starts and inserts that stays within the matrix, the result is a
valid compressed matrix with `R` rows in which every row is sorted by column and contains exactly the
entries inserted in that row; rows that were never started are empty.  What the buffers contained
before does not matter. -/
theorem C42_inserter (R cap cols : Nat) (outer0 inner0 : List Nat) (vals0 : List K)
    (ho : outer0.length = R + 1) (hi : inner0.length = cap) (hv : vals0.length = cap)
    (ops : List (InsOp K)) (hw : Within R cap cols [] ops) :
    ∃ s m, ops.foldlM Inserter.run (Inserter.mk' outer0 inner0 vals0) = .ok s ∧ s.compress cols = .ok m ∧
      m.WF ∧ m.rows = R ∧ m.cols = cols ∧ m.inner.length = (ops.foldl rowsOf []).flatten.length ∧
      ∀ i < R, ColSorted (m.row i) ∧ (m.row i).Perm ((ops.foldl rowsOf []).getD i []) := by
  have h0 : Inv R cap cols [] (Inserter.mk' outer0 inner0 vals0) :=
    ⟨rfl, rfl, ho, fun i hi => absurd hi (Nat.not_lt_zero i), ⟨inner0, vals0, rfl, rfl, by simpa using hi,
      by simpa using hv⟩, fun r hr => absurd hr List.not_mem_nil, fun r hr => absurd hr List.not_mem_nil⟩
  obtain ⟨s, rs, e1, h1, hp, hl⟩ := run_ops ops [] [] _ hw h0 List.Forall₂.nil (Nat.zero_le _)
  have hlen : rs.length = (ops.foldl rowsOf []).length := List.Forall₂.length_eq hp
  obtain ⟨m, e2, h2, h3, h4, h5, h6⟩ := compress_spec h1 (by omega)
  refine ⟨s, m, e1, e2, h2, h3, h4, h5.trans hp.flatten_length, fun i hi => ?_⟩
  rw [h6 i hi]
  by_cases hir : i < rs.length
  · rw [List.getD_eq_getElem _ _ hir, List.getD_eq_getElem _ _ (by omega)]
    exact ⟨h1.sorted _ (List.getElem_mem hir), List.forall₂_iff_get.1 hp |>.2 i hir (by omega)⟩
  · rw [List.getD_eq_default _ _ (by omega), List.getD_eq_default _ _ (by omega)]
    exact ⟨List.Pairwise.nil, List.Perm.refl _⟩

/-- Two entries out of order in the first row, the second row skipped. -/
def sampleOps : List (InsOp Int) :=
  [.startRow, .insert 2 7, .insert 0 5, .insert 1 6, .startRowAt 2, .insert 1 9]

example : Within 4 5 3 [] sampleOps := by
  refine ⟨by decide, by decide, trivial, by decide, by decide, ⟨by decide, by decide⟩, by decide, by decide,
    ⟨by decide, by decide⟩, by decide, by decide, ⟨by decide, by decide⟩, by decide, by decide, trivial,
    by decide, by decide, ⟨by decide, by decide⟩, trivial⟩

example : (sampleOps.foldlM Inserter.run (Inserter.mk' [8, 8, 8, 8, 8] [9, 9, 9, 9, 9] [1, 1, 1, 1, 1]) >>=
    fun s => s.compress 3) = .ok ⟨4, 3, [0, 3, 3, 4, 4], [0, 1, 2, 1], [5, 6, 7, 9]⟩ := by decide

end Verif.Numeric
