import Verif.Kpm.FloatKernels

/-!
# All kernels follow a rule with a bounded error; the kernels that work element by element follow a function
-/

namespace Verif.Kpm.Float

open Verif.Numeric Finset

variable {n : Nat} {o : Ops} {u : ℝ}

/-! ## Bounded errors -/

theorem nearRule_mono {A A' : Matrix (Fin n) (Fin n) ℂ} {B B' : Matrix (Fin n) (Fin n) ℝ} {γ ν : ℝ} (hγ : 0 ≤ γ) (hν : 0 ≤ ν) (hB : ∀ i j, B i j ≤ B' i j)
    (hA : ∀ i j, ‖A i j - A' i j‖ ≤ ν * B' i j) {M : Mat n ℂ} (h : (nearRule A B γ).Follows M) : (nearRule A' B' (γ + ν)).Follows M := by
  have hsum : ∀ (i : Fin n) (x : Fin n → ℂ), ‖∑ j, A i j * x j - ∑ j, A' i j * x j‖ ≤ ν * ∑ j, B' i j * ‖x j‖ := by
    intro i x
    rw [← sum_sub_distrib, mul_sum]
    refine (norm_sum_le _ _).trans (sum_le_sum fun j _ => ?_)
    rw [← sub_mul, norm_mul, ← mul_assoc]
    exact mul_le_mul_of_nonneg_right (hA i j) (norm_nonneg _)
  have hBB : ∀ (i : Fin n) (x : Fin n → ℂ), ∑ j, B i j * ‖x j‖ ≤ ∑ j, B' i j * ‖x j‖ := fun i x =>
    sum_le_sum fun j _ => mul_le_mul_of_nonneg_right (hB i j) (norm_nonneg _)
  refine ⟨fun start stop x y h1 h2 => ?_, fun r0 => ?_⟩
  · obtain ⟨y', e, hm, hk⟩ := h.spmv start stop x y h1 h2
    refine ⟨y', e, fun i a b => ?_, hk⟩
    have hs : ‖y' i - (∑ j, A i j * x j - y i)‖ ≤ γ * (∑ j, B i j * ‖x j‖ + ‖y i‖) := hm i a b
    show ‖y' i - (∑ j, A' i j * x j - y i)‖ ≤ (γ + ν) * (∑ j, B' i j * ‖x j‖ + ‖y i‖)
    have e : y' i - (∑ j, A' i j * x j - y i) = (y' i - (∑ j, A i j * x j - y i)) + (∑ j, A i j * x j - ∑ j, A' i j * x j) := by ring
    rw [e]
    refine (norm_add_le _ _).trans ?_
    have s1 := hsum i x
    have s2 := mul_le_mul_of_nonneg_left (add_le_add (hBB i x) (le_refl ‖y i‖)) hγ
    have s3 := mul_nonneg hν (norm_nonneg (y i))
    have e2 : (γ + ν) * (∑ j, B' i j * ‖x j‖ + ‖y i‖) = γ * (∑ j, B' i j * ‖x j‖ + ‖y i‖) + ν * ∑ j, B' i j * ‖x j‖ + ν * ‖y i‖ := by ring
    rw [e2]
    linarith
  · obtain ⟨w, e, hf⟩ := h.r1 r0
    refine ⟨w, e, fun i => ?_⟩
    have hs : ‖w i - ∑ j, A i j / 2 * r0 j‖ ≤ γ * ∑ j, B i j * ‖r0 j‖ := hf i
    have halfSum : ∀ C : Matrix (Fin n) (Fin n) ℂ, ∑ j, C i j / 2 * r0 j = (∑ j, C i j * r0 j) * (1 / 2) := fun C => by
      rw [sum_mul]; exact sum_congr rfl fun j _ => by ring
    rw [halfSum] at hs ⊢
    have e : w i - (∑ j, A' i j * r0 j) * (1 / 2) = (w i - (∑ j, A i j * r0 j) * (1 / 2)) + (∑ j, A i j * r0 j - ∑ j, A' i j * r0 j) * (1 / 2) := by ring
    rw [e]
    refine (norm_add_le _ _).trans ?_
    rw [norm_mul (_ - _) (1 / 2 : ℂ), show ‖(1 / 2 : ℂ)‖ = 1 / 2 by norm_num]
    have s1 := hsum i r0
    have s2 := mul_le_mul_of_nonneg_left (hBB i r0) hγ
    have s3 := norm_nonneg (∑ j, A i j * r0 j - ∑ j, A' i j * r0 j)
    rw [add_mul]
    linarith

/-- What a format asks of the matrix. -/
def Kernels.Valid (f : Kernels n) (m : Raw ℂ) : Prop :=
  match f with
  | .csr _ => True
  | .ell ds is _ _ => 0 < ds ∧ 0 < is ∧ 0 < n
  | .simd ds is _ _ _ step => 0 < ds ∧ 0 < is ∧ 0 < step ∧ ∃ i < n, m.row i ≠ []

theorem rowDone_norm {m : Raw ℂ} {e : Ell ℂ} {i : Nat} (h : RowDone m e i) : RowDone (rawNorm m) (ellNorm e) i := by
  obtain ⟨h1, h2, h3⟩ := h
  have hl : ((rawNorm m).row i).length = (m.row i).length := by rw [rawNorm_row, List.length_map]
  refine ⟨fun k hk => ?_, fun k a b => ?_, h3⟩
  · obtain ⟨a, b⟩ := h1 k (by omega)
    simp only [rawNorm_row, List.getElem_map]
    exact ⟨congrArg (‖·‖) a, b⟩
  · show ‖e.data i k‖ = 0
    rw [h2 k (by omega) b, norm_zero]

theorem csrToEll_full {m : Raw ℂ} (h : m.WF) (hr : m.rows = n) (hc : m.cols = n) (hn : 0 < n) (ds is : Nat) (hds : 0 < ds) (his : 0 < is)
    (data0 : Nat → Nat → ℂ) (idx0 : Nat → Nat → Nat) :
    ∃ e, csrToEll ds is data0 idx0 m = .ok e ∧ e.WF n ∧ maxNnzPerRow m = .ok e.nnzPerRow ∧ (∀ i < n, (m.row i).length ≤ e.nnzPerRow) ∧ ∀ i < n, RowDone m e i := by
  obtain ⟨N, hN, hN1, _⟩ := maxNnzPerRow_spec h
  have hda := (alignedSize_spec ds hds m.rows).1
  have hia := (alignedSize_spec is his m.rows).1
  obtain ⟨e, he, s, r⟩ := csrToEll_rows h (by omega)
    (⟨m.rows, m.cols, N, alignedSize ds m.rows, alignedSize is m.rows, data0, idx0⟩ : Ell ℂ) hda hia hN1 m.rows (Nat.le_refl _)
  have hnz : e.nnzPerRow = N := s.nnz
  refine ⟨e, ?_, ⟨s.rows.trans hr, ?_, ?_, ?_⟩, by rw [hN, hnz], fun i hi => by rw [hnz]; exact hN1 i (by omega), fun i hi => r i (by omega)⟩
  · unfold csrToEll
    rw [hN, Res.bind_ok, he]
  · rw [s.dataRows]; show n ≤ alignedSize ds m.rows; omega
  · rw [s.idxRows]; show n ≤ alignedSize is m.rows; omega
  · intro i hi k hk
    have := (r i (by omega)).2.2 k hk
    omega

/-- The kernels of every format have a bounded error. -/
theorem Kernels.follows (hg : o.Good u) (f : Kernels n) {m : Raw ℂ} (h : m.WF) (hr : m.rows = n) (hc : m.cols = n) (hv : f.Valid m) {N : Nat}
    (hN : maxNnzPerRow m = .ok N) :
    ∃ M, f.mat o m = .ok M ∧ (nearRule (m.toMatrix n) ((rawNorm m).toMatrix n) (gam u N)).Follows M := by
  obtain ⟨N', e', hN', _⟩ := maxNnzPerRow_spec h
  have hNN : N' = N := Res.ok.inj (e'.symm.trans hN)
  subst hNN
  have ell : ∀ e : Ell ℂ, (∀ i < n, (m.row i).length ≤ e.nnzPerRow) → (∀ i < n, RowDone m e i) →
      e.toMatrix n = m.toMatrix n ∧ (ellNorm e).toMatrix n = (rawNorm m).toMatrix n := fun e h1 h2 =>
    ⟨toMatrix_of_rows h1 h2, toMatrix_of_rows (fun i hi => by rw [rawNorm_row, List.length_map]; exact h1 i hi) fun i hi => rowDone_norm (h2 i hi)⟩
  cases f with
  | csr junk =>
    exact ⟨_, rfl, fun a b x y _ hb => spmvCsr_follows hg h hr hc hN' a b hb x y, fun r0 => r1Csr_follows hg h hr hc hN' junk r0⟩
  | ell ds is d0 i0 =>
    obtain ⟨e, h1, h2, h3, h4, h5⟩ := csrToEll_full h hr hc hv.2.2 ds is hv.1 hv.2.1 d0 i0
    have hle : e.nnzPerRow ≤ N' := le_of_eq (Res.ok.inj (h3.symm.trans hN))
    obtain ⟨a1, a2⟩ := ell e h4 h5
    refine ⟨⟨spmvEll o e, fun _ _ _ _ _ _ => .ub, r1Ell o e⟩, ?_, ?_⟩
    · unfold Kernels.mat
      simp only [h1, Res.bind_ok]
      rfl
    · rw [← a1, ← a2]
      exact ⟨fun a b x y _ hb => spmvEll_follows hg h2 hle a b hb x y, fun r0 => r1Ell_follows hg h2 hle r0⟩
  | simd ds is d0 i0 aligned step =>
    obtain ⟨v1, v2, v3, i, hi, hrow⟩ := hv
    obtain ⟨e, h1, h2, h3, h4, h5⟩ := csrToEll_full h hr hc (by omega) ds is v1 v2 d0 i0
    have hle : e.nnzPerRow ≤ N' := le_of_eq (Res.ok.inj (h3.symm.trans hN))
    have hpos : 0 < e.nnzPerRow := lt_of_lt_of_le (List.length_pos_iff.2 hrow) (h4 i hi)
    obtain ⟨a1, a2⟩ := ell e h4 h5
    refine ⟨⟨fun start stop x y => spmvSimd o e (aligned start stop x y) step start stop x y, fun _ _ _ _ _ _ => .ub, r1Ell o e⟩, ?_, ?_⟩
    · unfold Kernels.mat
      simp only [h1, Res.bind_ok]
      rfl
    · rw [← a1, ← a2]
      exact ⟨fun a b x y hab hb => spmvSimd_follows hg h2 hle hpos _ step v3 a b hab hb x y, fun r0 => r1Ell_follows hg h2 hle r0⟩

/-- The error of a kernel is about the number of operations times the unit roundoff. -/
theorem gam_le (hu : 0 ≤ u) (N : Nat) (h : (N + 8) * u ≤ 1) : gam u N ≤ 2 * (N + 8) * u := by
  have key : ∀ k : Nat, (k : ℝ) * u ≤ 1 → (1 + u) ^ k ≤ 1 + 2 * k * u := by
    intro k hk
    have h1 : (1 + u) ^ k ≤ Real.exp (k * u) := by
      rw [Real.exp_nat_mul]
      exact pow_le_pow_left₀ (by linarith) (by linarith [Real.add_one_le_exp u]) k
    have hx : 0 ≤ (k : ℝ) * u := by positivity
    have h2 : Real.exp (k * u) ≤ 1 + k * u + (k * u) ^ 2 := by
      have := Real.abs_exp_sub_one_sub_id_le (x := k * u) (by rw [abs_of_nonneg hx]; exact hk)
      have := (abs_le.1 this).2
      linarith
    nlinarith
  have := key (N + 8) (by push_cast; exact h)
  unfold gam
  push_cast at this
  linarith

/-! ## Kernels that are functions -/

/-- The operations do nothing to zeros. -/
structure Ops.Plain (o : Ops) : Prop where
  acc : ∀ a, o.acc 0 a 0 = 0
  pad : ∀ v b, o.acc v 0 b = o.acc v 0 0
  sub : o.sub 0 0 = 0
  mulLeft : ∀ b, o.mul 0 b = 0
  mulRight : ∀ a, o.mul a 0 = 0

theorem Rounding.fl_zero (R : Rounding) : R.fl 0 = 0 := by
  have := R.near 0
  rw [abs_zero, mul_zero, sub_zero] at this
  exact abs_nonpos_iff.1 this

theorem Rounding.ops_plain (R : Rounding) (fma : Bool) : (R.ops fma).Plain := by
  have h0 := R.fl_zero
  have ml : ∀ b, R.mul 0 b = 0 := fun b => by unfold Rounding.mul; simp [h0, Complex.ext_iff]
  have mr : ∀ a, R.mul a 0 = 0 := fun b => by unfold Rounding.mul; simp [h0, Complex.ext_iff]
  refine ⟨fun a => ?_, fun v b => ?_, ?_, ml, mr⟩
  · show R.add 0 (R.mul a 0) = 0
    rw [mr]; unfold Rounding.add; simp [h0, Complex.ext_iff]
  · show R.add v (R.mul 0 b) = R.add v (R.mul 0 0)
    rw [ml, ml]
  · show R.sub 0 0 = 0
    unfold Rounding.sub; simp [h0, Complex.ext_iff]

/-- The rule of a function. -/
def detRule (F : Fin n → (Fin n → ℂ) → ℂ → ℂ) (G : (Fin n → ℂ) → Fin n → ℂ) : RowRule n ℂ := ⟨fun i x v v' => v' = F i x v, fun r w => w = G r⟩

/-- Where elements are stored, zeros included. -/
def pattern (n : Nat) (m : Raw ℂ) : Matrix (Fin n) (Fin n) ℤ := fun i j => if j.val ∈ (m.row i.val).map Prod.fst then 1 else 0

theorem pattern_ne {m : Raw ℂ} {i j : Fin n} {e : Nat × ℂ} (he : e ∈ m.row i.val) (hj : e.1 = j.val) : pattern n m i j ≠ 0 := by
  unfold pattern
  rw [if_pos (List.mem_map.2 ⟨e, he, hj⟩)]
  exact one_ne_zero

theorem ex_congr {m : Raw ℂ} (h : m.WF) (hc : m.cols = n) {i : Fin n} {x x' : Fin n → ℂ} (hx : ∀ j, pattern n m i j ≠ 0 → x j = x' j) {e : Nat × ℂ}
    (he : e ∈ m.row i.val) : ex x e.1 = ex x' e.1 := by
  have hlt : e.1 < n := hc ▸ h.row_col he
  rw [ex_lt x hlt, ex_lt x' hlt]
  exact hx ⟨e.1, hlt⟩ (pattern_ne he rfl)

theorem ex_zero {m : Raw ℂ} (h : m.WF) (hc : m.cols = n) {i : Fin n} {x : Fin n → ℂ} (hx : ∀ j, pattern n m i j ≠ 0 → x j = 0) {e : Nat × ℂ}
    (he : e ∈ m.row i.val) : ex x e.1 = 0 := by
  have hlt : e.1 < n := hc ▸ h.row_col he
  rw [ex_lt x hlt]
  exact hx ⟨e.1, hlt⟩ (pattern_ne he rfl)

theorem foldl_congr' {α β : Type} {f g : β → α → β} {l : List α} (h : ∀ a ∈ l, ∀ b, f b a = g b a) (b : β) : l.foldl f b = l.foldl g b := by
  induction l generalizing b with
  | nil => rfl
  | cons a l ih =>
    rw [List.foldl_cons, List.foldl_cons, h a (by simp), ih fun a' ha' => h a' (by simp [ha'])]

theorem foldl_fixed {α β : Type} {f : β → α → β} {l : List α} {b : β} (h : ∀ a ∈ l, f b a = b) : l.foldl f b = b := by
  induction l with
  | nil => rfl
  | cons a l ih => rw [List.foldl_cons, h a (by simp), ih fun a' ha' => h a' (by simp [ha'])]

theorem onRows_det {F : Fin n → (Fin n → ℂ) → ℂ → ℂ} {G : (Fin n → ℂ) → Fin n → ℂ} {F' : Nat → ℂ → ℂ} {start stop : Nat} {x y : Fin n → ℂ}
    (h : ∀ i : Fin n, F' i.val (y i) = F i x (y i)) : (detRule F G).Moved start stop x y (onRows F' (List.range' start (stop - start)) y) := by
  refine ⟨fun i h1 h2 => ?_, fun i hi => ?_⟩
  · have e : onRows F' (List.range' start (stop - start)) y i = F' i.val (y i) := by
      unfold onRows
      rw [if_pos ((range'_mem start stop i.val).2 ⟨h1, h2⟩)]
    rw [e]
    exact h i
  · unfold onRows
    rw [if_neg fun hm => hi ((range'_mem start stop i.val).1 hm)]

theorem csr_det (hp : o.Plain) {m : Raw ℂ} (h : m.WF) (hr : m.rows = n) (hc : m.cols = n) (junk : Fin n → ℂ) :
    ∃ F G, (detRule F G).Local (pattern n m) ∧ (detRule F G).Follows ⟨spmvCsr o m, fun _ _ _ _ _ _ => .ub, r1Csr o junk m⟩ := by
  have zero : ∀ (i : Fin n) (x : Fin n → ℂ), (∀ j, pattern n m i j ≠ 0 → x j = 0) → rowVal o m x i.val = 0 := by
    intro i x hx
    unfold rowVal
    exact foldl_fixed fun e he => by rw [ex_zero h hc hx he, hp.acc]
  refine ⟨fun i x v => o.sub (rowVal o m x i.val) v, fun r i => o.mul (rowVal o m r i.val) (1 / 2), ⟨?_, ?_, ?_, fun i x v => ⟨_, rfl⟩⟩, ?_, ?_⟩
  · intro i x x' v v' hx hs
    have e : rowVal o m x i.val = rowVal o m x' i.val := foldl_congr' (fun e he r => by rw [ex_congr h hc hx he]) 0
    show v' = o.sub (rowVal o m x' i.val) v
    rw [← e]
    exact hs
  · intro i x v' hx hs
    have hs' : v' = o.sub (rowVal o m x i.val) 0 := hs
    rw [hs', zero i x hx, hp.sub]
  · intro i r w hx hs
    have hs' : w = fun i : Fin n => o.mul (rowVal o m r i.val) (1 / 2) := hs
    rw [hs']
    show o.mul (rowVal o m r i.val) (1 / 2) = 0
    rw [zero i r hx, hp.mulLeft]
  · intro start stop x y _ hs
    refine ⟨onRows (fun r old => o.sub (rowVal o m x r) old) (List.range' start (stop - start)) y, ?_, onRows_det fun i => rfl⟩
    show spmvCsr o m start stop x y = _
    unfold spmvCsr
    refine rowsLoop' _ _ _ (nodup_range' ..) (range'_lt hs) y fun y r hr' _ => ?_
    rw [rowSum_eq h hr hc x hr', Res.bind_ok, getV_ok y r hr', Res.bind_ok, setV_ok _ _ _ hr']
  · intro r0
    refine ⟨onRows (fun r _ => o.mul (rowVal o m r0 r) (1 / 2)) (List.range m.rows) junk, ?_, ?_⟩
    · show r1Csr o junk m r0 = _
      unfold r1Csr
      refine rowsLoop' _ _ _ List.nodup_range (fun r hr' => by have := List.mem_range.1 hr'; omega) junk fun y r hr' _ => ?_
      rw [rowSum_eq h hr hc r0 hr', Res.bind_ok, setV_ok _ _ _ hr']
    · funext i
      unfold onRows
      rw [if_pos (List.mem_range.2 (by rw [hr]; exact i.isLt))]

theorem ell_det (hp : o.Plain) {m : Raw ℂ} (h : m.WF) (hc : m.cols = n) {e : Ell ℂ} (he : e.WF n)
    (hd : ∀ i < n, RowDone m e i) :
    ∃ F G, (detRule F G).Local (pattern n m) ∧ (detRule F G).Follows ⟨spmvEll o e, fun _ _ _ _ _ _ => .ub, r1Ell o e⟩ := by
  have stored : ∀ (i : Fin n) k, k < e.nnzPerRow → e.data i.val k = 0 ∨ ∃ c ∈ m.row i.val, c.1 = e.indices i.val k := by
    intro i k hk
    obtain ⟨h1, h2, _⟩ := hd i.val i.isLt
    by_cases hl : k < (m.row i.val).length
    · exact Or.inr ⟨_, List.getElem_mem hl, (h1 k hl).2.symm⟩
    · exact Or.inl (h2 k (by omega) hk)
  have accCongr : ∀ (i : Fin n) (x x' : Fin n → ℂ), (∀ j, pattern n m i j ≠ 0 → x j = x' j) → ∀ k, k < e.nnzPerRow → ∀ v,
      laneVal o false e x k i.val v = laneVal o false e x' k i.val v := by
    intro i x x' hx k hk v
    show o.acc v _ _ = o.acc v _ _
    rcases stored i k hk with h0 | ⟨c, hcm, hce⟩
    · rw [h0, hp.pad v (ex x _), hp.pad v (ex x' _)]
    · rw [← hce, ex_congr h hc hx hcm]
  have accZero : ∀ (i : Fin n) (x : Fin n → ℂ), (∀ j, pattern n m i j ≠ 0 → x j = 0) → ∀ k, k < e.nnzPerRow → laneVal o false e x k i.val 0 = 0 := by
    intro i x hx k hk
    show o.acc 0 _ _ = 0
    rcases stored i k hk with h0 | ⟨c, hcm, hce⟩
    · rw [h0, hp.pad, hp.acc]
    · rw [← hce, ex_zero h hc hx hcm, hp.acc]
  refine ⟨fun i x v => laneFold o (fun _ _ => false) e x i.val e.nnzPerRow (-v), fun r i => (List.range e.nnzPerRow).foldl (fun v k => firstVal o e r i.val k v) 0,
    ⟨?_, ?_, ?_, fun i x v => ⟨_, rfl⟩⟩, ?_, ?_⟩
  · intro i x x' v v' hx hs
    have e1 : laneFold o (fun _ _ => false) e x i.val e.nnzPerRow (-v) = laneFold o (fun _ _ => false) e x' i.val e.nnzPerRow (-v) :=
      foldl_congr' (fun k hk w => accCongr i x x' hx k (List.mem_range.1 hk) w) _
    show v' = laneFold o (fun _ _ => false) e x' i.val e.nnzPerRow (-v)
    rw [← e1]
    exact hs
  · intro i x v' hx hs
    have hs' : v' = laneFold o (fun _ _ => false) e x i.val e.nnzPerRow (-0) := hs
    rw [hs', neg_zero]
    exact foldl_fixed fun k hk => accZero i x hx k (List.mem_range.1 hk)
  · intro i r w hx hs
    have hs' : w = fun i : Fin n => (List.range e.nnzPerRow).foldl (fun v k => firstVal o e r i.val k v) 0 := hs
    rw [hs']
    refine foldl_fixed fun k hk => ?_
    show o.acc 0 (o.mul (e.data i.val k) (ex r (e.indices i.val k))) (1 / 2) = 0
    have : o.mul (e.data i.val k) (ex r (e.indices i.val k)) = 0 := by
      rcases stored i k (List.mem_range.1 hk) with h0 | ⟨c, hcm, hce⟩
      · rw [h0, hp.mulLeft]
      · rw [← hce, ex_zero h hc hx hcm, hp.mulRight]
    rw [this, hp.pad, hp.acc]
  · intro start stop x y _ hs
    exact ⟨onRows (fun r old => laneFold o (fun _ _ => false) e x r e.nnzPerRow (-old)) (List.range' start (stop - start)) y,
      spmvEll_eq he start stop hs x y, onRows_det fun i => rfl⟩
  · intro r0
    exact ⟨_, r1Ell_eq he r0, rfl⟩

/-- The kernels which treat one element after the other. -/
def Kernels.Scalar : Kernels n → Prop
  | .simd .. => False
  | _ => True

theorem Kernels.det (hp : o.Plain) (f : Kernels n) (hf : f.Scalar) {m : Raw ℂ} (h : m.WF) (hr : m.rows = n) (hc : m.cols = n) (hv : f.Valid m) :
    ∃ M F G, f.mat o m = .ok M ∧ (detRule F G).Local (pattern n m) ∧ (detRule F G).Follows M := by
  cases f with
  | csr junk =>
    obtain ⟨F, G, h1, h2⟩ := csr_det hp h hr hc junk
    exact ⟨_, F, G, rfl, h1, h2⟩
  | ell ds is d0 i0 =>
    obtain ⟨e, h1, h2, -, h4, h5⟩ := csrToEll_full h hr hc hv.2.2 ds is hv.1 hv.2.1 d0 i0
    obtain ⟨F, G, h6, h7⟩ := ell_det (o := o) hp h hc h2 h5
    refine ⟨_, F, G, ?_, h6, h7⟩
    unfold Kernels.mat
    simp only [h1, Res.bind_ok]
    rfl
  | simd => exact hf.elim

theorem det_run {F : Fin n → (Fin n → ℂ) → ℂ → ℂ} {G : (Fin n → ℂ) → Fin n → ℂ} {r : Fin n → ℂ} {num : Nat} {w w' : Nat → Fin n → ℂ}
    (h : (detRule F G).Run r num w) (h' : (detRule F G).Run r num w') (k : Nat) (hk : k < num) : w k = w' k := by
  induction k using Nat.strong_induction_on with
  | _ k ih =>
    match k with
    | 0 => rw [h.zero, h'.zero]
    | 1 => exact (show w 1 = G r from h.one).trans (show w' 1 = G r from h'.one).symm
    | k + 2 =>
      funext i
      have a : w (k + 2) i = F i (w (k + 1)) (w k i) := h.next k hk i
      have b : w' (k + 2) i = F i (w' (k + 1)) (w' k i) := h'.next k hk i
      rw [a, b, ih (k + 1) (by omega) (by omega), ih k (by omega) (by omega)]

end Verif.Kpm.Float
