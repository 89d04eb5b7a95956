import Verif.Numeric.Diag

/-!
# Converting CSR to ELLPACK
-/

namespace Verif.Numeric

variable {K V : Type}

/-! ## Alignment -/

theorem alignedLoop_spec (step : Nat) (hstep : 0 < step) (fuel size : Nat)
    (hf : (step - size % step) % step ≤ fuel) :
    size ≤ alignedLoop step fuel size ∧ step ∣ alignedLoop step fuel size ∧
      ∀ t, size ≤ t → step ∣ t → alignedLoop step fuel size ≤ t := by
  induction fuel generalizing size with
  | zero =>
    have hlt := Nat.mod_lt size hstep
    have h0 : size % step = 0 := by
      by_contra h
      rw [Nat.mod_eq_of_lt (by omega)] at hf
      omega
    exact ⟨Nat.le_refl _, Nat.dvd_of_mod_eq_zero h0, fun t h _ => h⟩
  | succ fuel ih =>
    unfold alignedLoop
    split
    · rename_i h
      have hlt := Nat.mod_lt size hstep
      have hlt' : (step - size % step) % step = step - size % step := Nat.mod_eq_of_lt (by omega)
      have hdm := Nat.div_add_mod size step
      have hstep1 : (step - (size + 1) % step) % step ≤ fuel := by
        by_cases hw : size % step + 1 = step
        · have : (size + 1) % step = 0 := by
            rw [Nat.add_mod, ]
            by_cases h1 : step = 1
            · subst h1; exact Nat.mod_one _
            · rw [Nat.mod_eq_of_lt (show 1 < step by omega), hw, Nat.mod_self]
          rw [this]; simp
        · have : (size + 1) % step = size % step + 1 := by
            rw [Nat.add_mod, Nat.mod_eq_of_lt (show 1 < step by omega), Nat.mod_eq_of_lt (by omega)]
          rw [this, Nat.mod_eq_of_lt (by omega)]; omega
      obtain ⟨h1, h2, h3⟩ := ih (size + 1) hstep1
      refine ⟨by omega, h2, fun t ht hd => ?_⟩
      refine h3 t ?_ hd
      rcases Nat.lt_or_ge size t with hlt | hge
      · exact hlt
      · have : t = size := by omega
        subst this
        exact absurd (Nat.mod_eq_zero_of_dvd hd) h
    · rename_i h
      exact ⟨Nat.le_refl _, Nat.dvd_of_mod_eq_zero (by simpa using h), fun t ht _ => ht⟩

theorem alignedSize_spec (step : Nat) (hstep : 0 < step) (size : Nat) :
    size ≤ alignedSize step size ∧ step ∣ alignedSize step size ∧
      ∀ t, size ≤ t → step ∣ t → alignedSize step size ≤ t :=
  alignedLoop_spec step hstep step size (Nat.le_of_lt (Nat.mod_lt _ hstep))

/-! ## The longest row -/

theorem foldl_max_spec (l : List Nat) (f : Nat → Nat) (a : Nat) :
    let r := l.foldl (fun mx i => if f i > mx then f i else mx) a
    a ≤ r ∧ (∀ i ∈ l, f i ≤ r) ∧ (r = a ∨ ∃ i ∈ l, r = f i) := by
  induction l generalizing a with
  | nil => simp
  | cons i l ih =>
    simp only [List.foldl_cons]
    obtain ⟨h1, h2, h3⟩ := ih (if f i > a then f i else a)
    refine ⟨?_, ?_, ?_⟩
    · exact Nat.le_trans (by split <;> omega) h1
    · intro j hj
      rcases List.mem_cons.1 hj with rfl | hj
      · exact Nat.le_trans (by split <;> omega) h1
      · exact h2 j hj
    · rcases h3 with h3 | ⟨j, hj, h3⟩
      · by_cases hc : f i > a
        · rw [if_pos hc] at h3
          exact Or.inr ⟨i, List.mem_cons_self .., by rw [if_pos hc]; exact h3⟩
        · rw [if_neg hc] at h3
          exact Or.inl (by rw [if_neg hc]; exact h3)
      · exact Or.inr ⟨j, List.mem_cons_of_mem _ hj, h3⟩

theorem maxNnzPerRow_spec {m : Raw K} (h : m.WF) :
    ∃ N, maxNnzPerRow m = .ok N ∧ (∀ i < m.rows, (m.row i).length ≤ N) ∧
      (N = 0 ∨ ∃ i < m.rows, N = (m.row i).length) := by
  have e : maxNnzPerRow m = .ok ((List.range m.rows).foldl
      (fun mx i => if (m.row i).length > mx then (m.row i).length else mx) 0) := by
    unfold maxNnzPerRow
    refine foldlM_ok' _ _ _ _ (fun i hi mx => ?_)
    have hi := List.mem_range.1 hi
    rw [h.outer_at (i + 1) hi, Res.bind_ok, h.outer_at i (by omega), Res.bind_ok, h.row_length i hi]
    rfl
  obtain ⟨_, h2, h3⟩ := foldl_max_spec (List.range m.rows) (fun i => (m.row i).length) 0
  refine ⟨_, e, fun i hi => h2 i (List.mem_range.2 hi), ?_⟩
  rcases h3 with h3 | ⟨i, hi, h3⟩
  · exact Or.inl h3
  · exact Or.inr ⟨i, List.mem_range.1 hi, h3⟩

/-! ## Filling the ELLPACK arrays -/

/-- Same sizes. -/
structure SameShape (a b : Ell K) : Prop where
  rows : b.rows = a.rows
  cols : b.cols = a.cols
  nnz : b.nnzPerRow = a.nnzPerRow
  dataRows : b.dataRows = a.dataRows
  idxRows : b.idxRows = a.idxRows

theorem SameShape.rfl' (a : Ell K) : SameShape a a := ⟨rfl, rfl, rfl, rfl, rfl⟩

theorem SameShape.trans {a b c : Ell K} (h : SameShape a b) (h' : SameShape b c) : SameShape a c :=
  ⟨h'.rows.trans h.rows, h'.cols.trans h.cols, h'.nnz.trans h.nnz, h'.dataRows.trans h.dataRows,
    h'.idxRows.trans h.idxRows⟩

theorem put_ok (m : Ell K) (row n : Nat) (v : K) (c : Nat)
    (h : row < m.dataRows ∧ row < m.idxRows ∧ n < m.nnzPerRow) :
    ∃ m', m.put row n v c = .ok m' ∧ SameShape m m' ∧ m'.data row n = v ∧ m'.indices row n = c ∧
      ∀ i k, ¬(i = row ∧ k = n) → m'.data i k = m.data i k ∧ m'.indices i k = m.indices i k := by
  unfold Ell.put
  rw [if_pos h]
  refine ⟨_, rfl, ⟨rfl, rfl, rfl, rfl, rfl⟩, by simp, by simp, ?_⟩
  intro i k hne
  simp only [if_neg hne]
  exact ⟨trivial, trivial⟩

/-- The loop copying the entries of a row. -/
theorem fillRow (row : Nat) (es : List (Nat × K)) (m : Ell K) (n0 : Nat) (hd : row < m.dataRows)
    (hi : row < m.idxRows) (hn : n0 + es.length ≤ m.nnzPerRow) :
    ∃ m', es.foldlM (fun (s : Ell K × Nat) e => do
        let m ← s.1.put row s.2 e.2 e.1
        return (m, s.2 + 1)) (m, n0) = .ok (m', n0 + es.length) ∧ SameShape m m' ∧
      (∀ k (hk : k < es.length), m'.data row (n0 + k) = es[k].2 ∧ m'.indices row (n0 + k) = es[k].1) ∧
      (∀ i k, (i ≠ row ∨ k < n0 ∨ n0 + es.length ≤ k) →
        m'.data i k = m.data i k ∧ m'.indices i k = m.indices i k) := by
  induction es generalizing m n0 with
  | nil => exact ⟨m, rfl, SameShape.rfl' m, fun k hk => absurd hk (Nat.not_lt_zero k), fun i k _ => ⟨rfl, rfl⟩⟩
  | cons e es ih =>
    rw [List.length_cons] at hn
    obtain ⟨m1, e1, s1, d1, i1, o1⟩ := put_ok m row n0 e.2 e.1 ⟨hd, hi, by omega⟩
    obtain ⟨m2, e2, s2, f2, o2⟩ := ih m1 (n0 + 1) (by rw [s1.dataRows]; exact hd) (by rw [s1.idxRows]; exact hi)
      (by rw [s1.nnz]; omega)
    refine ⟨m2, ?_, s1.trans s2, ?_, ?_⟩
    · rw [List.foldlM_cons]
      simp only [e1, Res.bind_ok, Res.pure_eq]
      refine Eq.trans e2 ?_
      rw [List.length_cons]
      congr 2; omega
    · intro k hk
      cases k with
      | zero =>
        obtain ⟨a, b⟩ := o2 row n0 (Or.inr (Or.inl (by omega)))
        simp only [Nat.add_zero, List.getElem_cons_zero]
        exact ⟨a.trans d1, b.trans i1⟩
      | succ k =>
        have := f2 k (by simpa using hk)
        rw [show n0 + (k + 1) = n0 + 1 + k by omega]
        simpa using this
    · intro i k hik
      rw [List.length_cons] at hik
      obtain ⟨a, b⟩ := o2 i k (by omega)
      obtain ⟨a', b'⟩ := o1 i k (by omega)
      exact ⟨a.trans a', b.trans b'⟩

/-- The padding loop. -/
theorem padRow [Zero K] (row cnt : Nat) (m : Ell K) (n0 N : Nat) (hd : row < m.dataRows) (hi : row < m.idxRows)
    (hn : n0 + cnt ≤ m.nnzPerRow) (hN : 0 < N) (hprev : row > 0 → ∀ k < m.nnzPerRow, m.indices (row - 1) k < N) :
    ∃ m', (List.range' n0 cnt).foldlM (fun (m : Ell K) n => do
        let c ← padCol row m n
        m.put row n 0 c) m = .ok m' ∧ SameShape m m' ∧
      (∀ k, n0 ≤ k → k < n0 + cnt → m'.data row k = 0 ∧ m'.indices row k < N) ∧
      (∀ i k, (i ≠ row ∨ k < n0 ∨ n0 + cnt ≤ k) →
        m'.data i k = m.data i k ∧ m'.indices i k = m.indices i k) := by
  induction cnt generalizing m n0 with
  | zero => exact ⟨m, rfl, SameShape.rfl' m, fun k h1 h2 => by omega, fun i k _ => ⟨rfl, rfl⟩⟩
  | succ cnt ih =>
    have hc : ∃ c, padCol row m n0 = .ok c ∧ c < N := by
      unfold padCol
      by_cases h0 : row > 0
      · refine ⟨m.indices (row - 1) n0, ?_, hprev h0 n0 (by omega)⟩
        rw [if_pos h0]
        unfold Ell.idxAt
        rw [if_pos ⟨by omega, by omega⟩]
      · exact ⟨0, by rw [if_neg h0], hN⟩
    obtain ⟨c, hc1, hc2⟩ := hc
    obtain ⟨m1, e1, s1, d1, i1, o1⟩ := put_ok m row n0 0 c ⟨hd, hi, by omega⟩
    obtain ⟨m2, e2, s2, f2, o2⟩ := ih m1 (n0 + 1) (by rw [s1.dataRows]; exact hd) (by rw [s1.idxRows]; exact hi)
      (by rw [s1.nnz]; omega) (fun h0 k hk => by
        rw [(o1 (row - 1) k (by omega)).2]
        exact hprev h0 k (by rw [← s1.nnz]; exact hk))
    refine ⟨m2, ?_, s1.trans s2, ?_, ?_⟩
    · rw [List.range'_succ, List.foldlM_cons]
      simp only [hc1, Res.bind_ok, e1]
      exact e2
    · intro k h1 h2
      by_cases hk : k = n0
      · subst hk
        obtain ⟨a, b⟩ := o2 row k (by omega)
        exact ⟨a.trans d1, by rw [b, i1]; exact hc2⟩
      · exact f2 k (by omega) (by omega)
    · intro i k hik
      obtain ⟨a, b⟩ := o2 i k (by omega)
      obtain ⟨a', b'⟩ := o1 i k (by omega)
      exact ⟨a.trans a', b.trans b'⟩

/-- Row `i` of the ELLPACK matrix holds the entries of row `i` of the CSR matrix, padded with zeros. -/
def RowDone [Zero K] (csr : Raw K) (m : Ell K) (i : Nat) : Prop :=
  (∀ k (hk : k < (csr.row i).length), m.data i k = (csr.row i)[k].2 ∧ m.indices i k = (csr.row i)[k].1) ∧
  (∀ k, (csr.row i).length ≤ k → k < m.nnzPerRow → m.data i k = 0) ∧
  (∀ k < m.nnzPerRow, m.indices i k < csr.cols)

theorem ellRow_spec [Zero K] {csr : Raw K} (h : csr.WF) (hcols : 0 < csr.cols) (m : Ell K) (row : Nat)
    (hrow : row < csr.rows) (hd : row < m.dataRows) (hi : row < m.idxRows)
    (hlen : (csr.row row).length ≤ m.nnzPerRow) (hprev : ∀ i < row, RowDone csr m i) :
    ∃ m', ellRow csr m row = .ok m' ∧ SameShape m m' ∧ ∀ i < row + 1, RowDone csr m' i := by
  obtain ⟨m1, e1, s1, f1, o1⟩ := fillRow row (csr.row row) m 0 hd hi (by omega)
  rw [Nat.zero_add] at e1
  have hpd : row > 0 → ∀ k < m1.nnzPerRow, m1.indices (row - 1) k < csr.cols := fun h0 k hk => by
    rw [(o1 (row - 1) k (Or.inl (by omega))).2]
    exact (hprev (row - 1) (by omega)).2.2 k (by rw [← s1.nnz]; exact hk)
  obtain ⟨m2, e2, s2, f2, o2⟩ := padRow row (m1.nnzPerRow - (csr.row row).length) m1 (csr.row row).length csr.cols
    (by rw [s1.dataRows]; exact hd) (by rw [s1.idxRows]; exact hi) (by rw [s1.nnz]; omega) hcols hpd
  refine ⟨m2, ?_, s1.trans s2, ?_⟩
  · unfold ellRow
    rw [forEachInRow_eq h row hrow]
    simp only [e1, Res.bind_ok]
    exact e2
  · have hsum : (csr.row row).length + (m1.nnzPerRow - (csr.row row).length) = m1.nnzPerRow := by
      have := s1.nnz; omega
    rw [hsum] at f2 o2
    have hnz : m2.nnzPerRow = m1.nnzPerRow := s2.nnz
    have hnz1 : m1.nnzPerRow = m.nnzPerRow := s1.nnz
    intro i hi'
    by_cases hir : i = row
    · subst hir
      refine ⟨?_, ?_, ?_⟩
      · intro k hk
        obtain ⟨a, b⟩ := o2 i k (Or.inr (Or.inl hk))
        obtain ⟨a', b'⟩ := f1 k hk
        rw [Nat.zero_add] at a' b'
        exact ⟨a.trans a', b.trans b'⟩
      · intro k h1 h2
        exact (f2 k h1 (by omega)).1
      · intro k hk
        by_cases hkl : k < (csr.row i).length
        · obtain ⟨_, b⟩ := o2 i k (Or.inr (Or.inl hkl))
          obtain ⟨_, b'⟩ := f1 k hkl
          rw [Nat.zero_add] at b'
          rw [b, b']
          exact h.row_col (List.getElem_mem hkl)
        · exact (f2 k (by omega) (by omega)).2
    · obtain ⟨p1, p2, p3⟩ := hprev i (by omega)
      have he : ∀ k, m2.data i k = m.data i k ∧ m2.indices i k = m.indices i k := fun k => by
        obtain ⟨a, b⟩ := o2 i k (Or.inl hir)
        obtain ⟨a', b'⟩ := o1 i k (Or.inl hir)
        exact ⟨a.trans a', b.trans b'⟩
      refine ⟨?_, ?_, ?_⟩
      · intro k hk; rw [(he k).1, (he k).2]; exact p1 k hk
      · intro k h1 h2; rw [(he k).1]; exact p2 k h1 (by omega)
      · intro k hk; rw [(he k).2]; exact p3 k (by omega)

theorem csrToEll_rows [Zero K] {csr : Raw K} (h : csr.WF) (hcols : 0 < csr.cols) (m : Ell K)
    (hd : csr.rows ≤ m.dataRows) (hi : csr.rows ≤ m.idxRows)
    (hlen : ∀ i < csr.rows, (csr.row i).length ≤ m.nnzPerRow) (c : Nat) (hc : c ≤ csr.rows) :
    ∃ m', (List.range c).foldlM (ellRow csr) m = .ok m' ∧ SameShape m m' ∧ ∀ i < c, RowDone csr m' i := by
  induction c with
  | zero => exact ⟨m, rfl, SameShape.rfl' m, fun i hi => absurd hi (Nat.not_lt_zero i)⟩
  | succ c ih =>
    obtain ⟨m1, e1, s1, r1⟩ := ih (by omega)
    obtain ⟨m2, e2, s2, r2⟩ := ellRow_spec h hcols m1 c (by omega) (by rw [s1.dataRows]; omega)
      (by rw [s1.idxRows]; omega) (by rw [s1.nnz]; exact hlen c (by omega)) r1
    refine ⟨m2, ?_, s1.trans s2, r2⟩
    rw [List.range_succ, List.foldlM_append, e1, Res.bind_ok, List.foldlM_cons, e2]
    rfl

/-- A row as a sum over positions. -/
theorem row_sum_pos [AddCommMonoid K] (r : List (Nat × K)) (j : Nat) :
    ((r.filter (fun e => e.1 = j)).map (·.2)).sum =
      ∑ k ∈ Finset.range r.length, if (r[k]?.map (·.1)) = some j then ((r[k]?.map (·.2)).getD 0) else 0 := by
  induction r with
  | nil => simp
  | cons e r ih =>
    rw [List.length_cons, Finset.sum_range_succ']
    simp only [List.getElem?_cons_succ, List.getElem?_cons_zero, Option.map_some, Option.getD_some,
      Option.some.injEq]
    rw [← ih]
    by_cases hj : e.1 = j
    · rw [List.filter_cons_of_pos (by simpa using hj), if_pos hj, List.map_cons, List.sum_cons, add_comm]
    · rw [List.filter_cons_of_neg (by simpa using hj), if_neg hj, add_zero]

theorem toMatrix_of_rows [AddCommMonoid K] {csr : Raw K} {m : Ell K} {n : Nat}
    (hlen : ∀ i < n, (csr.row i).length ≤ m.nnzPerRow) (hr : ∀ i < n, RowDone csr m i) :
    m.toMatrix n = csr.toMatrix n := by
  funext i j
  unfold Ell.toMatrix Raw.toMatrix
  obtain ⟨h1, h2, _⟩ := hr i.val i.isLt
  rw [row_sum_pos]
  have hsub : Finset.range (csr.row i.val).length ⊆ Finset.range m.nnzPerRow :=
    Finset.range_subset_range.2 (hlen i.val i.isLt)
  rw [← Finset.sum_subset hsub]
  · refine Finset.sum_congr rfl (fun k hk => ?_)
    have hk := Finset.mem_range.1 hk
    obtain ⟨a, b⟩ := h1 k hk
    rw [List.getElem?_eq_getElem hk, a, b]
    simp
  · intro k hk hnk
    have hk := Finset.mem_range.1 hk
    have hnk : ¬ k < (csr.row i.val).length := fun h => hnk (Finset.mem_range.2 h)
    rw [h2 k (by omega) hk, ite_self]

/-- `csr_to_ell` produces a valid ELLPACK matrix storing the same matrix. -/
theorem csrToEll_spec [AddCommMonoid K] {csr : Raw K} {n : Nat} (h : csr.WF) (hr : csr.rows = n) (hc : csr.cols = n)
    (hn : 0 < n) (ds is : Nat) (hds : 0 < ds) (his : 0 < is) (data0 : Nat → Nat → K) (idx0 : Nat → Nat → Nat) :
    ∃ m, csrToEll ds is data0 idx0 csr = .ok m ∧ m.WF n ∧ m.toMatrix n = csr.toMatrix n ∧
      maxNnzPerRow csr = .ok m.nnzPerRow := by
  obtain ⟨N, hN, hN1, _⟩ := maxNnzPerRow_spec h
  have hda := (alignedSize_spec ds hds csr.rows).1
  have hia := (alignedSize_spec is his csr.rows).1
  obtain ⟨m, e, s, r⟩ := csrToEll_rows h (by omega)
    (⟨csr.rows, csr.cols, N, alignedSize ds csr.rows, alignedSize is csr.rows, data0, idx0⟩ : Ell K)
    hda hia hN1 csr.rows (Nat.le_refl _)
  have hnz : m.nnzPerRow = N := s.nnz
  refine ⟨m, ?_, ⟨s.rows.trans hr, ?_, ?_, ?_⟩, ?_, ?_⟩
  · unfold csrToEll
    rw [hN, Res.bind_ok, e]
  · rw [s.dataRows]; show n ≤ alignedSize ds csr.rows; omega
  · rw [s.idxRows]; show n ≤ alignedSize is csr.rows; omega
  · intro i hi k hk
    have := (r i (by omega)).2.2 k hk
    omega
  · exact toMatrix_of_rows (fun i hi => by rw [hnz]; exact hN1 i (by omega)) (fun i hi => r i (by omega))
  · rw [hN, hnz]

end Verif.Numeric
