import Verif.Kpm.FloatContracts
import Verif.Kpm.PropsGreens

/-!
# C97: KPM in floating-point arithmetic
-/

namespace Verif.Kpm.Float

open Verif.Numeric Finset Polynomial

variable {n : Nat} {o : Ops} {u : ℝ}

/-- Specification: `m` holds twice the matrix `H` up to a relative error `ν`, and `B` bounds the magnitudes in both. -/
structure Holds (m : Raw ℂ) (H : Matrix (Fin n) (Fin n) ℂ) (B : Matrix (Fin n) (Fin n) ℝ) (ν : ℝ) : Prop where
  nonneg : 0 ≤ ν
  size : ∀ i j, (rawNorm m).toMatrix n i j ≤ B i j
  near : ∀ i j, ‖m.toMatrix n i j - ((2 : ℂ) • H) i j‖ ≤ ν * B i j

/-- **C97** (moments).  All kernels of all storage formats, with or without vectors and fused operations, and all algorithms, with or without the size optimisation and
interleaving: moment `k` differs from `l(T_k(H) r)` at most by `L (γ + ν) (R + 1) k (k + 1) ‖r‖`, where `γ = (1 + u)^(N + 8) - 1` for the unit roundoff `u` and at most `N`
elements in a row. -/
theorem C97_moments {α : Type} [SeminormedAddCommGroup α] [NormedSpace ℝ α] (hg : o.Good u) (f : Kernels n) {m : Raw ℂ} (h : m.WF) (hr : m.rows = n) (hc : m.cols = n)
    (hv : f.Valid m) {N : Nat} (hN : maxNnzPerRow m = .ok N) {H : Matrix (Fin n) (Fin n) ℂ} {B : Matrix (Fin n) (Fin n) ℝ} {R ν : ℝ} (hT : Tame H B R)
    (hH : Holds m H B ν) (map : SliceMap) (cfg : AlgorithmConfig) (r : Fin n → ℂ) (val : (Fin n → ℂ) → Res α) (l : (Fin n → ℂ) → α) (hval : ∀ x, val x = .ok (l x))
    {L : ℝ} (hL : 0 ≤ L) (hl : ∀ x y, ‖l x - l y‖ ≤ L * nrm (x - y)) (hready : Ready cfg map B r l) (moments : List α) (h2 : 2 ≤ moments.length)
    (heven : cfg.interleaved = true → moments.length % 2 = 0)
    (hsmall : (gam u N + ν) * (R + 1) * ((moments.length - 1) * moments.length) ≤ 1) :
    ∃ M res, f.mat o m = .ok M ∧ withOff (1 / 2 : ℝ) M map cfg val moments r = .ok res ∧ res.length = moments.length ∧
      ∀ k (hk : k < res.length), ‖res[k] - (if k = 0 then (1 / 2 : ℝ) • l r else l (chebVec H r k))‖ ≤ L * ((gam u N + ν) * (R + 1) * (k * (k + 1)) * nrm r) := by
  obtain ⟨M, eM, hM⟩ := f.follows hg h hr hc hv hN
  have hγ := gam_nonneg hg.nonneg N
  have hM' := nearRule_mono hγ hH.nonneg hH.size hH.near hM
  have hγν : 0 ≤ gam u N + ν := add_nonneg hγ hH.nonneg
  obtain ⟨w, hw, e⟩ := withOff_rows (half := (1 / 2 : ℝ)) (nearRule_local hγν hT.size) hM' hval hready h2 heven
  refine ⟨M, _, eM, e, by simp, fun k hk => ?_⟩
  rw [List.length_map, List.length_range] at hk
  rw [List.getElem_map, List.getElem_range]
  have herr := hT.run_error hγν hw h2 hsmall k hk
  unfold runMoment
  by_cases h0 : k = 0
  · subst h0
    rw [if_pos rfl, if_pos rfl, hw.zero, sub_self, norm_zero]
    simp
  · rw [if_neg h0, if_neg h0]
    refine (hl _ _).trans ?_
    exact mul_le_mul_of_nonneg_left herr hL

theorem nrm_unit (s : Fin n) : nrm (fun i => if i = s then (1 : ℂ) else 0) = 1 := by
  have h := nrm_sq (fun i => if i = s then (1 : ℂ) else 0)
  have e : ∑ i, ‖(if i = s then (1 : ℂ) else 0)‖ ^ 2 = 1 := by
    rw [sum_eq_single s]
    · simp
    · intro i _ hi
      simp [hi]
    · simp
  rw [e] at h
  have h0 := nrm_nonneg (fun i => if i = s then (1 : ℂ) else 0)
  nlinarith

theorem chebVec_unit (H : Matrix (Fin n) (Fin n) ℂ) (s d : Fin n) (k : Nat) :
    chebVec H (fun i => if i = s then (1 : ℂ) else 0) k d = (aeval H (Chebyshev.T ℂ k)) d s := by
  unfold chebVec act
  simp

/-- **C97** (Green's functions).  The moments which `calc_greens(d, s)` computes from a unit vector: their errors do not depend on the size of the system. -/
theorem C97_greens (hg : o.Good u) (f : Kernels n) {m : Raw ℂ} (h : m.WF) (hr : m.rows = n) (hc : m.cols = n)
    (hv : f.Valid m) {N : Nat} (hN : maxNnzPerRow m = .ok N) {H : Matrix (Fin n) (Fin n) ℂ} {B : Matrix (Fin n) (Fin n) ℝ} {R ν : ℝ} (hT : Tame H B R)
    (hH : Holds m H B ν) (map : SliceMap) (cfg : AlgorithmConfig) (s d : Fin n) (hready : Ready cfg map B (fun i => if i = s then (1 : ℂ) else 0) (fun x => x d))
    (moments : List ℂ) (h2 : 2 ≤ moments.length) (heven : cfg.interleaved = true → moments.length % 2 = 0)
    (hsmall : (gam u N + ν) * (R + 1) * ((moments.length - 1) * moments.length) ≤ 1) :
    ∃ M res, f.mat o m = .ok M ∧ withOff (1 / 2 : ℝ) M map cfg (fun x => .ok (x d)) moments (fun i => if i = s then 1 else 0) = .ok res ∧
      res.length = moments.length ∧
      ∀ k (hk : k < res.length), ‖res[k] - (if k = 0 then 1 / 2 else 1) * (aeval H (Chebyshev.T ℂ k)) d s‖ ≤ (gam u N + ν) * (R + 1) * (k * (k + 1)) := by
  obtain ⟨M, res, h1, h3, h4, h5⟩ := C97_moments hg f h hr hc hv hN hT hH map cfg (fun i => if i = s then (1 : ℂ) else 0) (fun x => .ok (x d)) (fun x => x d) (fun _ => rfl)
    (L := 1) zero_le_one (fun x y => by rw [one_mul]; exact norm_le_nrm (x - y) d) hready moments h2 heven hsmall
  refine ⟨M, res, h1, h3, h4, fun k hk => ?_⟩
  have := h5 k hk
  rw [nrm_unit, mul_one, one_mul] at this
  have e : (if k = 0 then (1 / 2 : ℝ) • (if d = s then (1 : ℂ) else 0) else chebVec H (fun i => if i = s then (1 : ℂ) else 0) k d) =
      (if k = 0 then 1 / 2 else 1) * (aeval H (Chebyshev.T ℂ k)) d s := by
    by_cases h0 : k = 0
    · subst h0
      rw [if_pos rfl, if_pos rfl, Complex.real_smul]
      simp [Matrix.one_apply]
    · rw [if_neg h0, if_neg h0, one_mul, chebVec_unit]
  rw [← e]
  exact this

theorem range_of_list {α : Type} [Inhabited α] (l : List α) : l = (List.range l.length).map fun k => l.getD k default :=
  List.ext_getElem (by simp) fun i h1 h2 => by simp [List.getD_eq_getElem?_getD, List.getElem?_eq_getElem h1]

theorem sum_products (num : Nat) : ∑ k ∈ range num, ((k : ℝ) * (k + 1)) = (num - 1) * num * (num + 1) / 3 := by
  induction num with
  | zero => simp
  | succ c ih => rw [sum_range_succ, ih]; push_cast; ring

/-- **C97** (the function).  Moments with such errors, damped with coefficients of at most 1 and summed up, give a Green's function whose error is at most
`2 / (a √(1 - E²)) (γ + ν) (R + 1) (num - 1) num (num + 1) / 3`. -/
theorem C97_function (s : Scale ℝ) (g : Nat → Nat → ℝ) (a b : List ℂ) (hlen : a.length = b.length) {ε : ℝ} (hg : ∀ k, k < a.length → |g a.length k| ≤ 1)
    (hab : ∀ k (h1 : k < a.length) (h2 : k < b.length), ‖a[k] - b[k]‖ ≤ ε * (k * (k + 1))) {energy : ℝ} (hE : -1 < s.apply energy ∧ s.apply energy < 1) :
    ∃ x y, greensFunction s (damp g a) energy = .ok x ∧ greensFunction s (damp g b) energy = .ok y ∧
      ‖x - y‖ ≤ 2 / |s.a| / Real.sqrt (1 - s.apply energy * s.apply energy) * (ε * ((a.length - 1) * a.length * (a.length + 1) / 3)) := by
  unfold greensFunction
  simp only [if_pos hE]
  refine ⟨_, _, rfl, rfl, ?_⟩
  rw [← mul_sub, norm_mul]
  have hpre : ‖-2 * Complex.I / (s.a : ℂ) / (Real.sqrt (1 - s.apply energy * s.apply energy) : ℂ)‖ =
      2 / |s.a| / Real.sqrt (1 - s.apply energy * s.apply energy) := by
    rw [norm_div, norm_div, norm_mul, Complex.norm_I, norm_neg, Complex.norm_real, Complex.norm_real, Real.norm_eq_abs, Real.norm_eq_abs,
      abs_of_nonneg (Real.sqrt_nonneg _)]
    norm_num
  rw [hpre]
  refine mul_le_mul_of_nonneg_left ?_ (by positivity)
  have sumOf : ∀ c : List ℂ, ((damp g c).mapIdx fun n m => m * Complex.exp (-Complex.I * n * Real.arccos (s.apply energy))).sum =
      ∑ k ∈ range c.length, (g c.length k • c.getD k default) * Complex.exp (-Complex.I * k * Real.arccos (s.apply energy)) := by
    intro c
    conv_lhs => rw [range_of_list c]
    rw [damp_range, sum_mapIdx_range]
  rw [sumOf, sumOf, hlen, ← sum_sub_distrib]
  have hb : ∑ k ∈ range b.length, ε * ((k : ℝ) * (k + 1)) = ε * ((b.length - 1) * b.length * (b.length + 1) / 3) := by rw [← mul_sum, sum_products]
  rw [← hb]
  refine (norm_sum_le _ _).trans (sum_le_sum fun k hk => ?_)
  have hk := mem_range.1 hk
  rw [← sub_mul, ← smul_sub, norm_mul, norm_smul, Real.norm_eq_abs]
  have hexp : ‖Complex.exp (-Complex.I * k * Real.arccos (s.apply energy))‖ = 1 := by
    rw [show -Complex.I * k * (Real.arccos (s.apply energy) : ℂ) = ((-(k * Real.arccos (s.apply energy)) : ℝ) : ℂ) * Complex.I by push_cast; ring]
    exact Complex.norm_exp_ofReal_mul_I _
  rw [hexp, mul_one]
  have h1 := hab k (by omega) hk
  have e1 : a.getD k default = a[k]'(by omega) := by simp [List.getD_eq_getElem?_getD, List.getElem?_eq_getElem (show k < a.length by omega)]
  have e2 : b.getD k default = b[k] := by simp [List.getD_eq_getElem?_getD, List.getElem?_eq_getElem hk]
  rw [e1, e2]
  have h2 := hg k (by omega)
  rw [hlen] at h2
  have := mul_le_mul h2 h1 (norm_nonneg _) zero_le_one
  rwa [one_mul] at this

/-- **C97** (the unit).  In arithmetic with `p` binary digits the error `γ` of a kernel is at most `(N + 8) 2^(1 - p)`. -/
theorem C97_unit (p : Nat) (fma : Bool) (N : Nat) (h : ((N : ℝ) + 8) * (2 : ℝ) ^ (-(p : ℤ)) ≤ 1) :
    ((Rounding.binary p).ops fma).Good ((2 : ℝ) ^ (-(p : ℤ))) ∧ gam ((2 : ℝ) ^ (-(p : ℤ))) N ≤ 2 * (N + 8) * (2 : ℝ) ^ (-(p : ℤ)) :=
  ⟨(Rounding.binary p).ops_good fma, gam_le (zpow_pos (by norm_num) _).le N h⟩

/-- **C97** (the same numbers).  The kernels which treat one element after the other give the same rounded numbers, to the last digit, with and without the size
optimisation and with and without interleaving. -/
theorem C97_identical {α S : Type} [SMul S α] (half : S) (hp : o.Plain) (f : Kernels n) (hf : f.Scalar) {m : Raw ℂ} (h : m.WF) (hr : m.rows = n) (hc : m.cols = n)
    (hv : f.Valid m) (map : SliceMap) (hS : Slices map.data (pattern n m)) (r : Fin n → ℂ) (hsrc : ZeroAbove map.data map.src r)
    (val : (Fin n → ℂ) → Res α) (l : (Fin n → ℂ) → α) (hval : ∀ x, val x = .ok (l x)) (hdest : DependsBelow map.data map.dest l)
    (moments : List α) (h2 : 2 ≤ moments.length) (heven : moments.length % 2 = 0) :
    ∃ M res, f.mat o m = .ok M ∧ ∀ cfg, withOff half M map cfg val moments r = .ok res := by
  obtain ⟨M, F, G, e, hL, hM⟩ := f.det hp hf h hr hc hv
  have all : ∀ cfg, ∃ w, (detRule F G).Run r moments.length w ∧ withOff half M map cfg val moments r = .ok ((List.range moments.length).map (runMoment half l w)) :=
    fun cfg => withOff_rows hL hM hval ⟨fun _ => hS, fun _ => hsrc, fun _ => hdest⟩ h2 fun _ => heven
  obtain ⟨w, hw, -⟩ := all ⟨false, false⟩
  refine ⟨M, (List.range moments.length).map (runMoment half l w), e, fun cfg => ?_⟩
  obtain ⟨w', hw', e'⟩ := all cfg
  rw [e']
  congr 1
  exact List.map_congr_left fun k hk => runMoment_congr (det_run hw' hw k (List.mem_range.1 hk))

/-! ## Vectors round differently -/

theorem binary_exact {p : Nat} {x : ℝ} (q : ℤ) (e : ℤ) (hx : x ≠ 0) (hlog : Int.log 2 |x| = e) (hq : round (x / (2 : ℝ) ^ (e - p + 1)) = q) :
    binary p x = q * (2 : ℝ) ^ (e - p + 1) := by
  unfold binary
  rw [if_neg hx, hlog, hq]

theorem binary_zero (p : Nat) : binary p 0 = 0 := by
  unfold binary
  rw [if_pos rfl]

theorem log_nine : Int.log 2 |(9 : ℝ)| = 3 := by
  rw [abs_of_pos (by norm_num), show (9 : ℝ) = ((9 : ℕ) : ℝ) by norm_num, Int.log_natCast,
    (Nat.log_eq_iff (b := 2) (m := 3) (n := 9) (Or.inl (by norm_num))).2 (by norm_num)]
  rfl

theorem log_one : Int.log 2 |(1 : ℝ)| = 0 := by
  rw [abs_of_pos (by norm_num), Int.log_one_right]

theorem binary_nine : binary 2 9 = 8 := by
  rw [binary_exact 2 3 (by norm_num) log_nine]
  · norm_num
  · norm_num [round_eq]

theorem binary_one : binary 2 1 = 1 := by
  rw [binary_exact 2 0 (by norm_num) log_one]
  · norm_num
  · norm_num [round_eq]

/-- The matrix `diag(3, 3)`. -/
noncomputable def threes : Ell ℂ := ⟨2, 2, 1, 2, 2, fun _ _ => 3, fun i _ => i⟩

theorem threes_wf : threes.WF 2 := ⟨rfl, le_refl _, le_refl _, fun i hi _ _ => hi⟩

theorem fused : ((Rounding.binary 2).ops true).madd 3 3 (-8) = 1 := by
  show (Rounding.binary 2).madd true 3 3 (-8) = 1
  unfold Rounding.madd
  rw [if_pos (by simp)]
  show (⟨binary 2 _, 0⟩ : ℂ) = 1
  norm_num
  rw [binary_one]
  rfl

theorem separate : ((Rounding.binary 2).ops true).acc (-8) 3 3 = 0 := by
  show (Rounding.binary 2).add (-8) ((Rounding.binary 2).mul 3 3) = 0
  have h8 : binary 2 8 = 8 := by
    have hl : Int.log 2 |(8 : ℝ)| = 3 := by
      rw [abs_of_pos (by norm_num), show (8 : ℝ) = ((8 : ℕ) : ℝ) by norm_num, Int.log_natCast,
        (Nat.log_eq_iff (b := 2) (m := 3) (n := 8) (Or.inl (by norm_num))).2 (by norm_num)]
      rfl
    rw [binary_exact 2 3 (by norm_num) hl]
    · norm_num
    · norm_num [round_eq]
  have e : (Rounding.binary 2).mul 3 3 = 8 := by
    unfold Rounding.mul
    show (⟨binary 2 (binary 2 _ - binary 2 _), binary 2 (binary 2 _ + binary 2 _)⟩ : ℂ) = 8
    norm_num
    rw [binary_nine, binary_zero]
    norm_num
    rw [h8, binary_zero]
    rfl
  rw [e]
  unfold Rounding.add
  show (⟨binary 2 _, binary 2 _⟩ : ℂ) = 0
  norm_num
  rw [binary_zero]
  rfl

theorem threes_row (aligned : Nat → Bool) (start stop : Nat) (hse : start ≤ stop) (hs : stop ≤ 2) (i : Fin 2) :
    ∃ y', spmvSimd ((Rounding.binary 2).ops true) threes aligned 2 start stop (fun _ => 3) (fun _ : Fin 2 => 8) = .ok y' ∧
      (start ≤ i.val → i.val < stop →
        y' i = if (splitLoop aligned 2 start stop).peelEnd ≤ i.val ∧ i.val < (splitLoop aligned 2 start stop).vecEnd then 1 else 0) := by
  have e := column_eq (o := (Rounding.binary 2).ops true) threes_wf aligned 2 (by norm_num) (show 0 < threes.nnzPerRow by decide) start stop hse hs (fun _ => 3) (fun _ => 8)
  refine ⟨onRows (signedLane ((Rounding.binary 2).ops true)
      (fun r => decide ((splitLoop aligned 2 start stop).peelEnd ≤ r ∧ r < (splitLoop aligned 2 start stop).vecEnd)) threes (fun _ : Fin 2 => 3) 0)
    (List.range' start (stop - start)) fun _ : Fin 2 => 8, ?_, ?_⟩
  · show (List.range 1).foldlM _ _ = _
    rw [show List.range 1 = [0] from rfl, List.foldlM_cons, e, Res.bind_ok]
    rfl
  · intro h1 h2
    unfold onRows
    rw [if_pos ((range'_mem start stop i.val).2 ⟨h1, h2⟩)]
    unfold signedLane laneVal
    rw [if_pos rfl, show threes.data i.val 0 = 3 from rfl, show threes.indices i.val 0 = i.val from rfl, ex_lt _ i.isLt]
    by_cases hv : (splitLoop aligned 2 start stop).peelEnd ≤ i.val ∧ i.val < (splitLoop aligned 2 start stop).vecEnd
    · rw [if_pos (decide_eq_true hv), if_pos hv]
      exact fused
    · rw [if_neg (by rw [decide_eq_true_eq]; exact hv), if_neg hv]
      exact separate

/-- **C97** (vectors).  With fused operations the vectorised kernel gives other numbers for the same row when the rows are computed in other pieces, as the size optimisation
and interleaving do: here 1, the rounded exact value, in a vector and 0 alone (with two binary digits). -/
theorem C97_vectors : ∃ (R : Rounding) (m : Ell ℂ) (x y y1 y2 : Fin 2 → ℂ), m.WF 2 ∧
    spmvSimd (R.ops true) m (fun _ => true) 2 0 2 x y = .ok y1 ∧ spmvSimd (R.ops true) m (fun _ => true) 2 0 1 x y = .ok y2 ∧ y1 0 = 1 ∧ y2 0 = 0 := by
  obtain ⟨y1, e1, h1⟩ := threes_row (fun _ => true) 0 2 (by norm_num) (by norm_num) 0
  obtain ⟨y2, e2, h2⟩ := threes_row (fun _ => true) 0 1 (by norm_num) (by norm_num) 0
  exact ⟨Rounding.binary 2, threes, _, _, y1, y2, threes_wf, e1, e2, h1 (by decide) (by decide), h2 (by decide) (by decide)⟩

/-! ## Examples -/

/-- The energies of a Hermitian matrix are bounded by its row sums. -/
theorem energies_le {H : Matrix (Fin n) (Fin n) ℂ} (hH : H.IsHermitian) {R : ℝ} (hR : 0 ≤ R) (hr : ∀ i, ∑ j, ‖H i j‖ ≤ R) (j : Fin n) : |hH.eigenvalues j| ≤ R := by
  have hc : ∀ j, ∑ i, ‖H i j‖ ≤ R := fun j => by
    refine le_trans (le_of_eq (sum_congr rfl fun i _ => ?_)) (hr j)
    rw [← hH.apply i j, norm_star]
  have he := Verif.Kpm.exists_eigen hH
  generalize (hH.eigenvectorUnitary : Matrix (Fin n) (Fin n) ℂ) = U at he
  let v : Fin n → ℂ := fun i => U i j
  have hv : nrm v = 1 := by
    have h1 := nrm_sq v
    have h2 : ((∑ i, ‖v i‖ ^ 2 : ℝ) : ℂ) = 1 := by
      have := congrFun (congrFun he.orth j) j
      rw [Matrix.mul_apply, Matrix.one_apply_eq] at this
      rw [← this]
      push_cast
      refine sum_congr rfl fun i _ => ?_
      rw [Matrix.star_apply, RCLike.star_def, ← Complex.normSq_eq_conj_mul_self, Complex.normSq_eq_norm_sq]
      push_cast
      rfl
    have h3 : ∑ i, ‖v i‖ ^ 2 = 1 := by exact_mod_cast h2
    rw [h3] at h1
    nlinarith [nrm_nonneg v]
  have hev : ∀ i, ∑ k, H i k * v k = (hH.eigenvalues j : ℂ) * v i := by
    intro i
    have := congrFun (congrFun he.eig i) j
    rw [Matrix.mul_apply, Matrix.mul_diagonal] at this
    exact this.trans (mul_comm _ _)
  have h1 : nrm (fun i => ∑ k, H i k * v k) = |hH.eigenvalues j| := by
    rw [show (fun i => ∑ k, H i k * v k) = (hH.eigenvalues j : ℂ) • v from funext hev, nrm_smul, hv, mul_one, Complex.norm_real, Real.norm_eq_abs]
  have h2 : nrm (fun i => ∑ k, H i k * v k) ≤ nrm (fun i => ((∑ k, ‖H i k‖ * ‖v k‖ : ℝ) : ℂ)) := nrm_mono fun i => by
    rw [Complex.norm_real, Real.norm_eq_abs, abs_of_nonneg (sum_nonneg fun k _ => by positivity)]
    refine (norm_sum_le _ _).trans (le_of_eq (sum_congr rfl fun k _ => norm_mul _ _))
  have h3 := nrm_schur (B := fun i k => ‖H i k‖) (fun _ _ => norm_nonneg _) hr hc hR v
  rw [hv, mul_one] at h3
  rw [← h1]
  exact h2.trans h3

/-- A chain of three sites, twice the scaled Hamiltonian. -/
noncomputable def chainF : Raw ℂ := ⟨3, 3, [0, 1, 3, 4], [1, 0, 2, 1], [1, 1, 1, 1]⟩

theorem chainF_wf : chainF.WF := by
  refine ⟨rfl, rfl, ?_, ?_, rfl, ?_⟩
  · show List.Pairwise (· ≤ ·) [0, 1, 3, 4]
    decide
  · show ∀ o ∈ [0, 1, 3, 4], o ≤ 4
    decide
  · show ∀ c ∈ [1, 0, 2, 1], c < 3
    decide

/-- The magnitudes in the chain. -/
def chainB : Matrix (Fin 3) (Fin 3) ℝ := fun i j => if i.val + 1 = j.val ∨ j.val + 1 = i.val then 1 else 0

/-- The scaled Hamiltonian of the chain. -/
noncomputable def chainH : Matrix (Fin 3) (Fin 3) ℂ := fun i j => if i.val + 1 = j.val ∨ j.val + 1 = i.val then 1 / 2 else 0

theorem chainF_tame : Tame chainH chainB 2 := by
  have hH : chainH.IsHermitian := by
    apply Matrix.IsHermitian.ext
    intro i j
    fin_cases i <;> fin_cases j <;> simp [chainH]
  refine ⟨hH, fun j => energies_le hH zero_le_one (fun i => ?_) j, fun i j => ?_, fun i => ?_, fun j => ?_, by norm_num⟩
  · fin_cases i <;> (rw [Fin.sum_univ_three]; norm_num [chainH])
  · fin_cases i <;> fin_cases j <;> simp [chainH, chainB]
  · fin_cases i <;> (rw [Fin.sum_univ_three]; norm_num [chainB])
  · fin_cases j <;> (rw [Fin.sum_univ_three]; norm_num [chainB])

theorem chainF_holds : Holds chainF chainH chainB 0 := by
  refine ⟨le_refl _, fun i j => ?_, fun i j => ?_⟩
  · fin_cases i <;> fin_cases j <;> simp [chainF, chainB, rawNorm, Raw.toMatrix, Raw.row]
  · fin_cases i <;> fin_cases j <;> simp [chainF, chainB, chainH, Raw.toMatrix, Raw.row]

theorem chainB_slices : Slices [1, 2, 3] chainB := by
  have ne : ∀ i j : Fin 3, chainB i j ≠ 0 → i.val + 1 = j.val ∨ j.val + 1 = i.val := by
    intro i j h
    by_contra hc
    unfold chainB at h
    rw [if_neg hc] at h
    exact h rfl
  refine Slices.of_lt (by simp) (by decide) rfl (fun i j k hk hz hi => ?_) (fun i j k hk hz hi => ?_)
  all_goals
    have := ne i j hz
    have hk' : k < 2 := hk
    have hk2 : k = 0 ∨ k = 1 := by omega
    rcases hk2 with rfl | rfl <;> simp [border] at hi ⊢ <;> omega

theorem chainF_pattern : Slices [1, 2, 3] (pattern 3 chainF) := by
  have e : ∀ i j : Fin 3, pattern 3 chainF i j ≠ 0 → chainB i j ≠ 0 := by
    intro i j
    fin_cases i <;> fin_cases j <;> simp [pattern, chainF, chainB, Raw.row]
  exact ⟨chainB_slices.nonempty, chainB_slices.mono, chainB_slices.last, fun i j k h => chainB_slices.rows i j k (e i j h), fun i j k h => chainB_slices.cols i j k (e i j h)⟩

theorem chainF_nnz : maxNnzPerRow chainF = .ok 2 := rfl

/-- Sixteen moments of the chain in double precision, with vectors of four rows, fused operations and all optimisations. -/
example (inter : Bool) := C97_greens (n := 3) ((Rounding.binary 53).ops_good true)
  (.simd 4 8 (fun _ _ => 5) (fun _ _ => 9) (fun _ _ _ _ r => r % 4 == 0) 4) chainF_wf rfl rfl ⟨by norm_num, by norm_num, by norm_num, 0, by norm_num, by simp [chainF, Raw.row]⟩
  chainF_nnz chainF_tame chainF_holds ⟨[1, 2, 3], 0, 1⟩ ⟨true, inter⟩ 0 1
  ⟨fun _ => chainB_slices, fun _ i hi => by have : (1 : Nat) ≤ i.val := hi; rw [if_neg]; rintro rfl; exact absurd this (by decide),
    fun _ x y h => h 1 (by decide)⟩ (List.replicate 16 7) (by simp) (by simp) (by
      have h1 := gam_le (u := (2 : ℝ) ^ (-(53 : ℤ))) (zpow_pos (by norm_num) _).le 2 (by norm_num)
      have h2 : gam (Rounding.binary 53).unit 2 ≤ 2 * (2 + 8) * (2 : ℝ) ^ (-(53 : ℤ)) := by exact_mod_cast h1
      have h3 : (2 : ℝ) ^ (-(53 : ℤ)) ≤ 1 / 1000000 := by norm_num
      simp only [List.length_replicate]
      push_cast
      generalize gam (Rounding.binary 53).unit 2 = x at h2 ⊢
      generalize (2 : ℝ) ^ (-(53 : ℤ)) = z at h2 h3
      linarith)

/-- The same chain in CSR format: all four algorithms, six moments. -/
example := C97_identical (n := 3) (1 / 2 : ℝ) ((Rounding.binary 24).ops_plain false) (.csr fun _ => 7) trivial chainF_wf rfl rfl trivial ⟨[1, 2, 3], 0, 1⟩
  chainF_pattern (fun i => if i = 0 then 1 else 0) (fun i hi => if_neg (by have : (1 : Nat) ≤ i.val := hi; rintro rfl; exact absurd this (by decide)))
  (fun x => .ok (x 1)) (fun x => x 1) (fun _ => rfl) (fun x y h => h 1 (by decide)) (List.replicate 6 7) (by simp) (by simp)

example := C97_function ⟨2, 0⟩ (fun _ _ => 1) [1, 2, 3] [1, 2.5, 3] rfl (ε := 1) (by simp) (by
  intro k h1 h2
  have : k < 3 := h1
  interval_cases k <;> norm_num) (energy := 1) (by norm_num [Scale.apply])

end Verif.Kpm.Float
