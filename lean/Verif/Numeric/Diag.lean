import Verif.Numeric.Kernels

/-!
# The diagonal kernels and the first vector
-/

namespace Verif.Numeric

variable {K V : Type}

theorem list_sum_dotOn [CommRing V] [StarRing V] {n : Nat} (start stop : Nat) (hs : stop ≤ n) (a b : Fin n → V) :
    ((List.range' start (stop - start)).map (fun r => star (ex a r) * ex b r)).sum = dotOn start stop a b := by
  unfold dotOn
  induction stop with
  | zero => simp
  | succ stop ih =>
    by_cases h : start ≤ stop
    · rw [show stop + 1 - start = (stop - start) + 1 by omega, List.range'_concat, List.map_append,
        List.sum_append, ih (by omega)]
      simp only [List.map_cons, List.map_nil, List.sum_cons, List.sum_nil, add_zero]
      rw [show start + 1 * (stop - start) = stop by omega, ex_lt a (by omega), ex_lt b (by omega)]
      rw [← sum_fin_ite (fun j => star (a j) * b j) stop (by omega), ← Finset.sum_add_distrib]
      refine Finset.sum_congr rfl (fun i _ => ?_)
      by_cases hi : stop = i.val
      · rw [if_neg (by omega), if_pos hi, if_pos (by omega), zero_add]
      · rw [if_neg hi, add_zero]
        by_cases h2 : start ≤ i.val ∧ i.val < stop
        · rw [if_pos h2, if_pos (by omega)]
        · rw [if_neg h2, if_neg (by omega)]
    · rw [show stop + 1 - start = 0 by omega]
      simp only [List.range'_zero, List.map_nil, List.sum_nil]
      symm
      exact Finset.sum_eq_zero (fun i _ => if_neg (by omega))

theorem diagSums_eq [CommRing V] [StarRing V] {n : Nat} (start stop : Nat) (h : start ≤ stop) (hs : stop ≤ n)
    (x y : Fin n → V) (m2 m3 : V) :
    diagSums start stop x y m2 m3 = .ok (m2 + dotOn start stop x x, m3 + dotOn start stop y x) := by
  unfold diagSums
  rw [if_pos h, ← list_sum_dotOn start stop hs, ← list_sum_dotOn start stop hs]
  have hl := range'_lt (start := start) hs
  generalize List.range' start (stop - start) = l at hl
  induction l generalizing m2 m3 with
  | nil => simp
  | cons r l ih =>
    have hr := hl r (List.mem_cons_self ..)
    rw [List.foldlM_cons, getV_ok x r hr, Res.bind_ok, getV_ok y r hr, Res.bind_ok]
    refine Eq.trans (ih _ _ (fun r h => hl r (List.mem_cons_of_mem _ h))) ?_
    simp only [List.map_cons, List.sum_cons, ex_lt x hr, ex_lt y hr, add_assoc]

/-- What every diagonal kernel must return. -/
def diagSpec [Semiring K] [CommRing V] [StarRing V] [Module K V] {n : Nat} (A : Matrix (Fin n) (Fin n) K)
    (start stop : Nat) (x y : Fin n → V) (m2 m3 : V) : DiagOut n V :=
  ⟨mulSub A start stop x y, m2 + dotOn start stop x x, m3 + dotOn start stop (mulSub A start stop x y) x⟩

theorem diagAfter_eq [Semiring K] [CommRing V] [StarRing V] [Module K V] {n : Nat} (A : Matrix (Fin n) (Fin n) K)
    (spmv : Nat → Nat → (Fin n → V) → (Fin n → V) → Res (Fin n → V))
    (start stop : Nat) (h : start ≤ stop) (hs : stop ≤ n) (x y : Fin n → V) (m2 m3 : V)
    (hsp : spmv start stop x y = .ok (mulSub A start stop x y)) :
    diagAfter spmv start stop x y m2 m3 = .ok (diagSpec A start stop x y m2 m3) := by
  unfold diagAfter
  rw [hsp, Res.bind_ok, diagSums_eq start stop h hs]
  rfl

section
variable [Ring K] [CommRing V] [StarRing V] [Module K V] {n : Nat} {m : Ell K}

/-- The effect of processing the rows of a list: `F` is applied to `y`, and the two sums grow. -/
structure DiagRel (F : Nat → V → V) (x : Fin n → V) (l : List Nat) (s s' : DiagSt n V) : Prop where
  y : s'.y = onRows F l s.y
  t2 : s'.m2 + s'.m2v.sum = s.m2 + s.m2v.sum + (l.map (fun r => star (ex x r) * ex x r)).sum
  t3 : s'.m3 + s'.m3v.sum = s.m3 + s.m3v.sum + (l.map (fun r => star (F r (ex s.y r)) * ex x r)).sum
  l2 : s'.m2v.length = s.m2v.length
  l3 : s'.m3v.length = s.m3v.length

omit [StarRing V] in
theorem ex_onRows_not (F : Nat → V → V) (l : List Nat) (y : Fin n → V) {r : Nat} (h : r ∉ l) :
    ex (onRows F l y) r = ex y r := by
  unfold ex
  split
  · unfold onRows; rw [if_neg h]
  · rfl

omit [StarRing V] in
theorem ex_onRows_mem (F : Nat → V → V) (l : List Nat) (y : Fin n → V) {r : Nat} (h : r ∈ l) (hr : r < n) :
    ex (onRows F l y) r = F r (ex y r) := by
  rw [ex_lt _ hr, ex_lt _ hr]
  unfold onRows; rw [if_pos h]

theorem DiagRel.nil (F : Nat → V → V) (x : Fin n → V) (s : DiagSt n V) : DiagRel F x [] s s := by
  refine ⟨?_, by simp, by simp, rfl, rfl⟩
  funext i; simp [onRows]

theorem DiagRel.trans {F : Nat → V → V} {x : Fin n → V} {l₁ l₂ : List Nat} {s₁ s₂ s₃ : DiagSt n V}
    (h₁ : DiagRel F x l₁ s₁ s₂) (h₂ : DiagRel F x l₂ s₂ s₃) (hd : List.Disjoint l₁ l₂) :
    DiagRel F x (l₁ ++ l₂) s₁ s₃ := by
  refine ⟨?_, ?_, ?_, h₂.l2.trans h₁.l2, h₂.l3.trans h₁.l3⟩
  · rw [h₂.y, h₁.y]
    funext i
    unfold onRows
    by_cases h1 : i.val ∈ l₁
    · have h2 : i.val ∉ l₂ := fun h2 => hd h1 h2
      rw [if_neg h2, if_pos h1, if_pos (List.mem_append_left _ h1)]
    · rw [if_neg h1]
      by_cases h2 : i.val ∈ l₂
      · rw [if_pos h2, if_pos (List.mem_append_right _ h2)]
      · rw [if_neg h2, if_neg (by simp [h1, h2])]
  · rw [h₂.t2, h₁.t2, List.map_append, List.sum_append, add_assoc]
  · rw [h₂.t3, h₁.t3, List.map_append, List.sum_append, add_assoc]
    congr 2
    refine congrArg List.sum (List.map_congr_left (fun r hr => ?_))
    rw [h₁.y, ex_onRows_not F l₁ s₁.y (fun h => hd h hr)]

theorem diagScalarStep_rel (h : m.WF n) {k : Nat} (hk : k < m.nnzPerRow) (x : Fin n → V) (s : DiagSt n V)
    {r : Nat} (hr : r < n) :
    ∃ s', diagScalarStep m k x s r = .ok s' ∧ DiagRel (laneF m x k) x [r] s s' := by
  unfold diagScalarStep
  rw [ellLane_eq h x s.y hk hr, Res.bind_ok, getV_ok x r hr, Res.bind_ok, setV_ok _ _ _ hr, Res.bind_ok]
  refine ⟨_, rfl, ?_, ?_, ?_, rfl, rfl⟩
  · funext i
    simp only [onRows, List.mem_singleton]
    by_cases hi : i.val = r
    · have : i = ⟨r, hr⟩ := Fin.ext hi
      subst this; simp
    · have : i ≠ ⟨r, hr⟩ := fun e => hi (by rw [e])
      rw [Function.update_of_ne this, if_neg hi]
  · simp only [List.map_cons, List.map_nil, List.sum_cons, List.sum_nil, ex_lt x hr]; ring
  · simp only [List.map_cons, List.map_nil, List.sum_cons, List.sum_nil, ex_lt x hr, ex_lt s.y hr]; ring

theorem sum_zipWith_add (a b : List V) (h : a.length = b.length) :
    (List.zipWith (· + ·) a b).sum = a.sum + b.sum := by
  induction a generalizing b with
  | nil => cases b <;> simp at h ⊢
  | cons x a ih =>
    cases b with
    | nil => simp at h
    | cons y b =>
      rw [List.zipWith_cons_cons, List.sum_cons, ih b (by simpa using h), List.sum_cons, List.sum_cons]
      ring

theorem zipWith_map_map {α β γ δ : Type} (f : β → γ → δ) (g : α → β) (g' : α → γ) (l : List α) :
    List.zipWith f (l.map g) (l.map g') = l.map (fun a => f (g a) (g' a)) := by
  induction l with
  | nil => rfl
  | cons a l ih => simp [ih]

theorem diagVecStep_rel (h : m.WF n) {k : Nat} (hk : k < m.nnzPerRow) (step : Nat) (x : Fin n → V) (s : DiagSt n V)
    (h2 : s.m2v.length = step) (h3 : s.m3v.length = step) {r : Nat} (hr : r + step ≤ n) :
    ∃ s', diagVecStep m k step x s r = .ok s' ∧ DiagRel (laneF m x k) x (List.range' r step) s s' := by
  have hl : ∀ i ∈ List.range' r step, i < n := fun i hm => by
    have := List.mem_range'_1.1 hm; omega
  unfold diagVecStep
  rw [mapM_ok (getV x) (ex x) _ (fun i hi => by rw [getV_ok x i (hl i hi), ex_lt x (hl i hi)]), Res.bind_ok,
    mapM_ok (ellLane m k x s.y) (fun i => laneF m x k i (ex s.y i)) _ (fun i hi => by
      rw [ellLane_eq h x s.y hk (hl i hi), ex_lt s.y (hl i hi)]), Res.bind_ok,
    store_lanes _ _ (nodup_range' ..) hl, Res.bind_ok]
  refine ⟨_, rfl, ?_, ?_, ?_, ?_, ?_⟩
  · funext i
    simp only [onRows, ex_lt s.y i.isLt]
  · simp only [List.map_map]
    rw [sum_zipWith_add _ _ (by simp [h2]), ← add_assoc]
    rfl
  · simp only [zipWith_map_map]
    rw [sum_zipWith_add _ _ (by simp [h3]), ← add_assoc]
  · simp [h2]
  · simp [h3]

/-- Loops of steps that process pairwise disjoint groups of rows. -/
theorem diagLoop {F : Nat → V → V} {x : Fin n → V} (f : DiagSt n V → Nat → Res (DiagSt n V))
    (rows : Nat → List Nat) (len : Nat) (l : List Nat) (s : DiagSt n V) (h2 : s.m2v.length = len)
    (h3 : s.m3v.length = len) (hnd : (l.flatMap rows).Nodup)
    (hf : ∀ r ∈ l, ∀ s : DiagSt n V, s.m2v.length = len → s.m3v.length = len →
      ∃ s', f s r = .ok s' ∧ DiagRel F x (rows r) s s') :
    ∃ s', l.foldlM f s = .ok s' ∧ DiagRel F x (l.flatMap rows) s s' := by
  induction l generalizing s with
  | nil => exact ⟨s, rfl, DiagRel.nil F x s⟩
  | cons r l ih =>
    rw [List.flatMap_cons] at hnd ⊢
    obtain ⟨n1, n2, n3⟩ := List.nodup_append'.1 hnd
    obtain ⟨s1, e1, r1⟩ := hf r (List.mem_cons_self ..) s h2 h3
    obtain ⟨s2, e2, r2⟩ := ih s1 (r1.l2.trans h2) (r1.l3.trans h3) n2
      (fun r hr => hf r (List.mem_cons_of_mem _ hr))
    refine ⟨s2, ?_, r1.trans r2 n3⟩
    rw [List.foldlM_cons, e1, Res.bind_ok, e2]

theorem flatMap_singleton' (l : List Nat) : l.flatMap (fun r => [r]) = l := by
  induction l with
  | nil => rfl
  | cons a l ih => simp

theorem kpmDiagSimd_eq (h : m.WF n) (hnz : m.nnzPerRow ≠ 0) (aligned : Nat → Bool) (step : Nat)
    (hstep : 0 < step) (start stop : Nat) (hs : start ≤ stop) (hn : stop ≤ n) (x y : Fin n → V) (m2 m3 : V) :
    kpmDiagSimd m aligned step start stop x y m2 m3 = .ok (diagSpec (m.toMatrix n) start stop x y m2 m3) := by
  obtain ⟨e1, e2, h1, h2, h3, h4, _, _⟩ := splitLoop_spec aligned step start stop hstep hs
  have hk : m.nnzPerRow - 1 < m.nnzPerRow := by omega
  unfold kpmDiagSimd
  rw [if_neg (by omega), kpmSpmvSimd_part h aligned step hstep 1 start stop hs hn, Res.bind_ok]
  generalize splitLoop aligned step start stop = l at *
  simp only
  rw [e1, e2]
  have hrows := split_rows start l.peelEnd l.vecEnd stop step hstep h1 h2 h3 h4
  have hnd := hrows ▸ nodup_range' start (stop - start)
  obtain ⟨n1, n23, d1⟩ := List.nodup_append'.1 hnd
  obtain ⟨n2, n3, d2⟩ := List.nodup_append'.1 n23
  have hsc : ∀ lo hi, hi ≤ n → ∀ r ∈ List.range' lo (hi - lo), ∀ s : DiagSt n V, s.m2v.length = step →
      s.m3v.length = step → ∃ s', diagScalarStep m (m.nnzPerRow - 1) x s r = .ok s' ∧
        DiagRel (laneF m x (m.nnzPerRow - 1)) x [r] s s' :=
    fun lo hi hh r hr s _ _ => diagScalarStep_rel h hk x s (range'_lt hh r hr)
  obtain ⟨s1, q1, r1⟩ := diagLoop (F := laneF m x (m.nnzPerRow - 1)) (x := x)
    (diagScalarStep m (m.nnzPerRow - 1) x) (fun r => [r]) step (List.range' start (l.peelEnd - start))
    ⟨onRows (colsF m x (m.nnzPerRow - 1)) (List.range' start (stop - start)) y, m2, m3,
      List.replicate step 0, List.replicate step 0⟩ (by simp) (by simp)
    (by rw [flatMap_singleton']; exact n1) (hsc start l.peelEnd (by omega))
  obtain ⟨s2, q2, r2⟩ := diagLoop (F := laneF m x (m.nnzPerRow - 1)) (x := x)
    (diagVecStep m (m.nnzPerRow - 1) step x) (fun r => List.range' r step) step
    (List.range' l.peelEnd (trips l.peelEnd l.vecEnd step) step) s1
    (by rw [r1.l2]; simp) (by rw [r1.l3]; simp) n2 (fun r hr s g2 g3 => by
      have := range'_step_mem hr
      rw [trips_eq _ _ _ hstep h4] at this
      exact diagVecStep_rel h hk step x s g2 g3 (by omega))
  obtain ⟨s3, q3, r3⟩ := diagLoop (F := laneF m x (m.nnzPerRow - 1)) (x := x)
    (diagScalarStep m (m.nnzPerRow - 1) x) (fun r => [r]) step (List.range' l.vecEnd (stop - l.vecEnd)) s2
    (by rw [r2.l2, r1.l2]; simp) (by rw [r2.l3, r1.l3]; simp)
    (by rw [flatMap_singleton']; exact n3) (hsc l.vecEnd stop hn)
  rw [q1, Res.bind_ok, q2, Res.bind_ok, q3, Res.bind_ok]
  rw [flatMap_singleton'] at r1 r3
  have R := r1.trans (r2.trans r3 d2) d1
  rw [hrows] at R
  have hy : s3.y = mulSub (m.toMatrix n) start stop x y := by
    rw [R.y, ← onRows_mulSub h hnz, onRows_comp]
    congr 1
    funext r v
    rw [colsF_succ, show m.nnzPerRow - 1 + 1 = m.nnzPerRow by omega]
  have ht2 := R.t2
  have ht3 := R.t3
  simp only [List.sum_replicate, smul_zero, add_zero] at ht2 ht3
  have hsum : dotOn start stop s3.y x = ((List.range' start (stop - start)).map (fun r =>
      star (laneF m x (m.nnzPerRow - 1) r (ex (onRows (colsF m x (m.nnzPerRow - 1))
        (List.range' start (stop - start)) y) r)) * ex x r)).sum := by
    rw [← list_sum_dotOn start stop hn, R.y]
    refine congrArg List.sum (List.map_congr_left (fun r hr => ?_))
    rw [ex_onRows_mem (laneF m x (m.nnzPerRow - 1)) _ _ hr (range'_lt hn r hr)]
  rw [← hsum] at ht3
  unfold diagSpec
  show Res.ok _ = Res.ok _
  rw [ht2, ht3, hy, list_sum_dotOn start stop hn]

theorem kpmDiagSimdBatch_eq (h : m.WF n) (hnz : m.nnzPerRow ≠ 0)
    (start stop : Nat) (hs : start ≤ stop) (hn : stop ≤ n) (x y : Fin n → V) (m2 m3 : V) :
    kpmDiagSimdBatch m start stop x y m2 m3 = .ok (diagSpec (m.toMatrix n) start stop x y m2 m3) := by
  have hk : m.nnzPerRow - 1 < m.nnzPerRow := by omega
  unfold kpmDiagSimdBatch
  rw [if_neg (by omega), kpmSpmvSimdBatch_part h 1 start stop hn, Res.bind_ok]
  obtain ⟨s1, q1, R⟩ := diagLoop (F := laneF m x (m.nnzPerRow - 1)) (x := x)
    (diagScalarStep m (m.nnzPerRow - 1) x) (fun r => [r]) 0 (List.range' start (stop - start))
    ⟨onRows (colsF m x (m.nnzPerRow - 1)) (List.range' start (stop - start)) y, 0, 0, [], []⟩ (by simp) (by simp)
    (by rw [flatMap_singleton']; exact nodup_range' ..)
    (fun r hr s _ _ => diagScalarStep_rel h hk x s (range'_lt hn r hr))
  rw [q1, Res.bind_ok]
  rw [flatMap_singleton'] at R
  have hy : s1.y = mulSub (m.toMatrix n) start stop x y := by
    rw [R.y, ← onRows_mulSub h hnz, onRows_comp]
    congr 1
    funext r v
    rw [colsF_succ, show m.nnzPerRow - 1 + 1 = m.nnzPerRow by omega]
  have ht2 := R.t2
  have ht3 := R.t3
  rw [List.length_eq_zero_iff.1 R.l2] at ht2
  rw [List.length_eq_zero_iff.1 R.l3] at ht3
  simp only [List.sum_nil, zero_add, add_zero] at ht2 ht3
  have hsum : dotOn start stop s1.y x = ((List.range' start (stop - start)).map (fun r =>
      star (laneF m x (m.nnzPerRow - 1) r (ex (onRows (colsF m x (m.nnzPerRow - 1))
        (List.range' start (stop - start)) y) r)) * ex x r)).sum := by
    rw [← list_sum_dotOn start stop hn, R.y]
    refine congrArg List.sum (List.map_congr_left (fun r hr => ?_))
    rw [ex_onRows_mem (laneF m x (m.nnzPerRow - 1)) _ _ hr (range'_lt hn r hr)]
  rw [← hsum] at ht3
  unfold diagSpec
  show Res.ok _ = Res.ok _
  rw [ht2, ht3, hy, list_sum_dotOn start stop hn]

end

/-! ## `make_r1` -/

theorem makeR1Csr_eq [Ring K] [AddCommGroup V] [Module K V] {m : Raw K} {n : Nat} (h : m.WF)
    (hr : m.rows = n) (hc : m.cols = n) (half : K) (junk r0 : Fin n → V) :
    makeR1Csr half junk m r0 = .ok (fun i => half • ∑ j, m.toMatrix n i j • r0 j) := by
  unfold makeR1Csr
  rw [List.range_eq_range', rowsLoop (fun r _ => half • (if h : r < n then ∑ j, m.toMatrix n ⟨r, h⟩ j • r0 j else 0))
    _ _ (nodup_range' ..) (fun r hr' => by have := List.mem_range'_1.1 hr'; omega)]
  · congr 1
    funext i
    rw [if_pos (by rw [List.mem_range'_1]; have := i.isLt; omega), dif_pos i.isLt]
  · intro y r hr' _
    have := csrRowSum_eq h hr hc r0 ⟨r, hr'⟩
    simp only at this
    rw [this, Res.bind_ok, setV_ok _ _ _ hr', dif_pos hr']

theorem makeR1Ell_eq [Ring K] [AddCommGroup V] [Module K V] {m : Ell K} {n : Nat} (h : m.WF n)
    (half : K) (r0 : Fin n → V) :
    makeR1Ell half m r0 = .ok (fun i => half • ∑ j, m.toMatrix n i j • r0 j) := by
  unfold makeR1Ell
  suffices H : ∀ c ≤ m.nnzPerRow, (List.range c).foldlM (fun r1 k =>
      (List.range m.rows).foldlM (fun r1 row => do
        let a ← m.dataAt row k
        let c ← m.idxAt row k
        let b ← getV r0 c
        let old ← getV r1 row
        setV r1 row (old + half • (a • b))) r1) (fun _ : Fin n => (0 : V)) =
      .ok (fun i : Fin n => half • ellPart m r0 i.val c) by
    rw [H _ (Nat.le_refl _)]
    congr 1
    funext i
    rw [ellPart_all h]
  intro c hc
  induction c with
  | zero =>
    show Res.ok _ = Res.ok _
    congr 1
    funext i; simp [ellPart]
  | succ c ih =>
    rw [List.range_succ, List.foldlM_append, ih (by omega), Res.bind_ok, List.foldlM_cons]
    rw [List.range_eq_range', h.rowsEq, rowsLoop (fun r old => old + half • ellTerm m r0 r c) _ _ (nodup_range' ..)
      (fun r hr' => by have := List.mem_range'_1.1 hr'; omega)]
    · show Res.ok _ = Res.ok _
      congr 1
      funext i
      rw [if_pos (by rw [List.mem_range'_1]; have := i.isLt; omega), ellPart_succ, smul_add]
    · intro y r hr _
      obtain ⟨h1, h2, b, h3, h4⟩ := h.reads r0 hr (show c < m.nnzPerRow by omega)
      rw [h1, Res.bind_ok, h2, Res.bind_ok, h3, Res.bind_ok, getV_ok y r hr, Res.bind_ok, setV_ok _ _ _ hr, h4]

end Verif.Numeric
