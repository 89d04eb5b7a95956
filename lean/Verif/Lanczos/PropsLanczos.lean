import Verif.Lanczos.Loop

/-!
# Properties of the Lanczos procedure

What the automatic energy bounds of the KPM calculations have to do with the spectrum of the Hamiltonian.
-/

namespace Verif.Lanczos

open Verif.Numeric
open Matrix

variable {𝕜 : Type} [RCLike 𝕜] {n : Nat}

/-! ## Specification -/

/-- Specification: `lam` is an eigenvalue of the matrix. -/
def Eigenvalue (A : Matrix (Fin n) (Fin n) 𝕜) (lam : ℝ) : Prop := ∃ v : Fin n → 𝕜, v ≠ 0 ∧ A *ᵥ v = (lam : 𝕜) • v

/-- How far the values of the diagonalization can be from eigenvalues: zero in exact arithmetic with `eps = 0`. -/
def slack (lo hi eps : ℝ) (loops : Nat) : ℝ := max |lo| |hi| * ((1 + 2 * eps) ^ loops - 1)

/-! ## Expectation values are between the extreme eigenvalues -/

/-- A Hermitian matrix in the frame of its eigenvectors. -/
theorem herm_diagonal {A : Matrix (Fin n) (Fin n) 𝕜} (hA : A.IsHermitian) :
    ∃ (U : Matrix (Fin n) (Fin n) 𝕜) (d : Fin n → ℝ), Uᴴ * U = 1 ∧ U * Uᴴ = 1 ∧ A * U = U * Matrix.diagonal (fun i => ((d i : ℝ) : 𝕜)) ∧
      ∀ i, Eigenvalue A (d i) := by
  have hu : (hA.eigenvectorUnitary : Matrix (Fin n) (Fin n) 𝕜)ᴴ * hA.eigenvectorUnitary = 1 :=
    Matrix.UnitaryGroup.star_mul_self hA.eigenvectorUnitary
  have hcol : A * (hA.eigenvectorUnitary : Matrix (Fin n) (Fin n) 𝕜) =
      hA.eigenvectorUnitary * Matrix.diagonal (fun i => ((hA.eigenvalues i : ℝ) : 𝕜)) := by
    ext i j
    have := congrFun (hA.mulVec_eigenvectorBasis j) i
    rw [Matrix.mul_apply, Matrix.mul_diagonal]
    rw [Pi.smul_apply, Matrix.mulVec, dotProduct, RCLike.real_smul_eq_coe_mul] at this
    rw [Matrix.IsHermitian.eigenvectorUnitary_apply, mul_comm, ← this]
    rfl
  refine ⟨hA.eigenvectorUnitary, hA.eigenvalues, hu, mul_eq_one_comm.1 hu, hcol, fun j => ?_⟩
  refine ⟨fun i => (hA.eigenvectorUnitary : Matrix (Fin n) (Fin n) 𝕜) i j, ?_, ?_⟩
  · intro h0
    have h1 := congrFun (congrFun hu j) j
    rw [Matrix.mul_apply, Matrix.one_apply_eq] at h1
    have : ∀ x, (hA.eigenvectorUnitary : Matrix (Fin n) (Fin n) 𝕜) x j = 0 := fun x => congrFun h0 x
    have hz : ∑ k, (hA.eigenvectorUnitary : Matrix (Fin n) (Fin n) 𝕜)ᴴ j k * (hA.eigenvectorUnitary : Matrix (Fin n) (Fin n) 𝕜) k j = 0 :=
      Finset.sum_eq_zero fun k _ => by rw [this k, mul_zero]
    rw [hz] at h1
    exact zero_ne_one h1
  · funext i
    have := congrFun (congrFun hcol i) j
    rw [Matrix.mul_apply, Matrix.mul_diagonal] at this
    rw [Pi.smul_apply, smul_eq_mul, mul_comm, ← this]
    rfl

/-- Expectation values in the frame of the eigenvectors. -/
theorem expectation {A : Matrix (Fin n) (Fin n) 𝕜} (hA : A.IsHermitian) : ∃ d : Fin n → ℝ, (∀ i, Eigenvalue A (d i)) ∧
    ∀ x : Fin n → 𝕜, ∃ y : Fin n → 𝕜, ∑ i, square (x i) = ∑ i, square (y i) ∧ RCLike.re (ip x (A *ᵥ x)) = ∑ i, d i * square (y i) := by
  obtain ⟨U, d, u1, u2, hU, hd⟩ := herm_diagonal hA
  refine ⟨d, hd, fun x => ⟨Uᴴ *ᵥ x, ?_, ?_⟩⟩
  all_goals
    set y := Uᴴ *ᵥ x with hy
    have hx : x = U *ᵥ y := by rw [hy, mulVec_mulVec, u2, one_mulVec]
  · rw [← ip_self_re, ← ip_self_re]
    congr 1
    rw [hx]
    unfold ip
    rw [star_mulVec, ← dotProduct_mulVec, mulVec_mulVec, u1, one_mulVec]
  · have : ip x (A *ᵥ x) = ip y (Matrix.diagonal (fun i => ((d i : ℝ) : 𝕜)) *ᵥ y) := by
      rw [hx]
      unfold ip
      rw [star_mulVec, ← dotProduct_mulVec, mulVec_mulVec, mulVec_mulVec, Matrix.mul_assoc, hU, ← Matrix.mul_assoc, u1, Matrix.one_mul]
    rw [this]
    unfold ip dotProduct
    rw [map_sum]
    refine Finset.sum_congr rfl fun i _ => ?_
    rw [mulVec_diagonal, square_eq, Pi.star_apply, mul_left_comm, RCLike.re_ofReal_mul]

theorem rayleigh_le {A : Matrix (Fin n) (Fin n) 𝕜} (hA : A.IsHermitian) {hi : ℝ} (h : ∀ lam, Eigenvalue A lam → lam ≤ hi)
    (x : Fin n → 𝕜) : RCLike.re (ip x (A *ᵥ x)) ≤ hi * ∑ i, square (x i) := by
  obtain ⟨d, hd, hex⟩ := expectation hA
  obtain ⟨y, hnorm, hval⟩ := hex x
  rw [hnorm, hval, Finset.mul_sum]
  exact Finset.sum_le_sum fun i _ => mul_le_mul_of_nonneg_right (h _ (hd i)) (square_nonneg _)

theorem rayleigh_ge {A : Matrix (Fin n) (Fin n) 𝕜} (hA : A.IsHermitian) {lo : ℝ} (h : ∀ lam, Eigenvalue A lam → lo ≤ lam)
    (x : Fin n → 𝕜) : lo * ∑ i, square (x i) ≤ RCLike.re (ip x (A *ᵥ x)) := by
  obtain ⟨d, hd, hex⟩ := expectation hA
  obtain ⟨y, hnorm, hval⟩ := hex x
  rw [hnorm, hval, Finset.mul_sum]
  exact Finset.sum_le_sum fun i _ => mul_le_mul_of_nonneg_right (h _ (hd i)) (square_nonneg _)

theorem rayleigh {A : Matrix (Fin n) (Fin n) 𝕜} (hA : A.IsHermitian) {lo hi : ℝ} (h : ∀ lam, Eigenvalue A lam → lo ≤ lam ∧ lam ≤ hi)
    (x : Fin n → 𝕜) : lo * ∑ i, square (x i) ≤ RCLike.re (ip x (A *ᵥ x)) ∧ RCLike.re (ip x (A *ᵥ x)) ≤ hi * ∑ i, square (x i) :=
  ⟨rayleigh_ge hA (fun l hl => (h l hl).1) x, rayleigh_le hA (fun l hl => (h l hl).2) x⟩

/-! ## The minimum and the maximum of an array -/

theorem foldl_min_spec (xs : List ℝ) (x : ℝ) : xs.foldl min x ∈ x :: xs ∧ ∀ y ∈ x :: xs, xs.foldl min x ≤ y := by
  induction xs generalizing x with
  | nil => simp
  | cons z xs ih =>
    obtain ⟨h1, h2⟩ := ih (min x z)
    rw [List.foldl_cons]
    constructor
    · rcases List.mem_cons.1 h1 with h | h
      · rw [h]
        rcases min_choice x z with e | e <;> rw [e] <;> simp
      · simp [h]
    · intro y hy
      have hm := h2 (min x z) (List.mem_cons_self ..)
      rcases List.mem_cons.1 hy with rfl | hy
      · exact hm.trans (min_le_left _ _)
      · rcases List.mem_cons.1 hy with rfl | hy
        · exact hm.trans (min_le_right _ _)
        · exact h2 y (List.mem_cons_of_mem _ hy)

theorem foldl_max_spec (xs : List ℝ) (x : ℝ) : xs.foldl max x ∈ x :: xs ∧ ∀ y ∈ x :: xs, y ≤ xs.foldl max x := by
  induction xs generalizing x with
  | nil => simp
  | cons z xs ih =>
    obtain ⟨h1, h2⟩ := ih (max x z)
    rw [List.foldl_cons]
    constructor
    · rcases List.mem_cons.1 h1 with h | h
      · rw [h]
        rcases max_choice x z with e | e <;> rw [e] <;> simp
      · simp [h]
    · intro y hy
      have hm := h2 (max x z) (List.mem_cons_self ..)
      rcases List.mem_cons.1 hy with rfl | hy
      · exact (le_max_left _ _).trans hm
      · rcases List.mem_cons.1 hy with rfl | hy
        · exact (le_max_right _ _).trans hm
        · exact h2 y (List.mem_cons_of_mem _ hy)

theorem minCoeff_spec {l : List ℝ} {x : ℝ} (h : minCoeff l = .ok x) : x ∈ l ∧ ∀ y ∈ l, x ≤ y := by
  cases l with
  | nil => simp [minCoeff] at h
  | cons a l =>
    simp only [minCoeff, Res.ok.injEq] at h
    rw [← h]
    exact foldl_min_spec l a

theorem maxCoeff_spec {l : List ℝ} {x : ℝ} (h : maxCoeff l = .ok x) : x ∈ l ∧ ∀ y ∈ l, y ≤ x := by
  cases l with
  | nil => simp [maxCoeff] at h
  | cons a l =>
    simp only [maxCoeff, Res.ok.injEq] at h
    rw [← h]
    exact foldl_max_spec l a

/-! ## The returned bounds -/

theorem returned_of_ok {f : Axpy} (hf : f.Valid) {m : Raw 𝕜} (hm : m.WF) (hr : m.rows = n) (hc : m.cols = n)
    (hA : (m.toMatrix n).IsHermitian) {eps huge p : ℝ} {random : Fin n → 𝕜} {r : LanczosBounds}
    (h : minmaxEigenvalues f eps huge m random p = .ok r) :
    random ≠ 0 ∧ Returned (m.toMatrix n) eps (p / 100) huge (normalize random) r := by
  have hne : random ≠ 0 := by
    rintro rfl
    have hz : normalize (0 : Fin n → 𝕜) = 0 := normalize_zero
    have := breakdown hf hm hr hc (eps := eps) (huge := huge) (p := p) (v := (0 : Fin n → 𝕜)) (c := 0)
      (by intro i; rw [hz, mulVec_zero]; simp) (by rw [hz, mulVec_zero]; simp [realDot]) (by simp [converged])
    rw [this] at h
    cases h
  refine ⟨hne, ?_⟩
  unfold minmaxEigenvalues at h
  refine lanczosLoop_spec hf hm hr hc hA 1000 0 _ ⟨rfl, rfl, fun h => absurd rfl h, ?_⟩ (fun _ => ⟨rfl, rfl⟩) r h
  intro v1 hv1
  refine ⟨fun _ => normalize random, ⟨?_, ?_⟩, rfl, ?_, ?_⟩
  · intro i j hi hj
    rw [if_pos (by omega), normalize_unit hne]
  · intro j hj; omega
  · simpa using hv1.symm
  · funext i; simp [prevVec]

/-- Between the eigenvalues of the large matrix. -/
theorem Ritz.between {A : Matrix (Fin n) (Fin n) 𝕜} (hA : A.IsHermitian) {lo hi : ℝ} (h : ∀ lam, Eigenvalue A lam → lo ≤ lam ∧ lam ≤ hi)
    {alpha beta : List ℝ} {q : Nat → Fin n → 𝕜} {m : Nat} (hr : Ritz A alpha beta q m) (x : Fin m → ℝ) :
    lo * (x ⬝ᵥ x) ≤ x ⬝ᵥ tridiag m alpha beta *ᵥ x ∧ x ⬝ᵥ tridiag m alpha beta *ᵥ x ≤ hi * (x ⬝ᵥ x) := by
  have h1 := hr.length (fun i => ((x i : ℝ) : 𝕜))
  have h2 := hr.value (fun i => ((x i : ℝ) : 𝕜))
  have hz : (fun i => RCLike.im ((x i : ℝ) : 𝕜)) = (0 : Fin m → ℝ) := by funext i; simp
  have he : (fun i => RCLike.re ((x i : ℝ) : 𝕜)) = x := by funext i; simp
  rw [hz, he, zero_dotProduct, add_zero] at h1
  rw [hz, he, zero_dotProduct, add_zero] at h2
  rw [← h1, ← h2]
  exact rayleigh hA h _

/-- **C64.** The automatic bounds never reach beyond the spectrum: if all eigenvalues of the Hamiltonian are in
`[lo, hi]` then so are the returned bounds (up to the error of the diagonalization, which is zero for `eps = 0`), and
the minimum is not above the maximum.  This holds for every Hamiltonian, starting vector, precision and vector
instruction set. -/
theorem C64_inside {f : Axpy} (hf : f.Valid) {m : Raw 𝕜} (hm : m.WF) (hr : m.rows = n) (hc : m.cols = n)
    (hA : (m.toMatrix n).IsHermitian) {eps huge p : ℝ} (he : 0 ≤ eps) {random : Fin n → 𝕜} {r : LanczosBounds}
    (h : minmaxEigenvalues f eps huge m random p = .ok r) {lo hi : ℝ}
    (hspec : ∀ lam, Eigenvalue (m.toMatrix n) lam → lo ≤ lam ∧ lam ≤ hi) :
    lo - slack lo hi eps r.loops ≤ r.min ∧ r.min ≤ r.max ∧ r.max ≤ hi + slack lo hi eps r.loops := by
  obtain ⟨_, alpha, beta, q, ev, _, _, hritz, _, hev, hmin, hmax, _⟩ := returned_of_ok hf hm hr hc hA h
  obtain ⟨hmin1, hmin2⟩ := minCoeff_spec hmin
  obtain ⟨hmax1, hmax2⟩ := maxCoeff_spec hmax
  have hbet := hritz.between hA hspec
  have hB : ∀ x : Fin (r.loops + 1) → ℝ, |x ⬝ᵥ tridiag (r.loops + 1) alpha beta *ᵥ x| ≤ max |lo| |hi| * (x ⬝ᵥ x) := by
    intro x
    obtain ⟨b1, b2⟩ := hbet x
    have hx : 0 ≤ x ⬝ᵥ x := by unfold dotProduct; exact Finset.sum_nonneg fun i _ => mul_self_nonneg _
    rw [abs_le]
    constructor
    · have : -(max |lo| |hi|) ≤ lo := by have := neg_abs_le lo; have := le_max_left |lo| |hi|; linarith
      nlinarith [mul_le_mul_of_nonneg_right this hx]
    · have : hi ≤ max |lo| |hi| := (le_abs_self hi).trans (le_max_right _ _)
      exact b2.trans (mul_le_mul_of_nonneg_right this hx)
  have hB0 : 0 ≤ max |lo| |hi| := (abs_nonneg lo).trans (le_max_left _ _)
  have key : ∀ mu ∈ ev, lo - slack lo hi eps r.loops ≤ mu ∧ mu ≤ hi + slack lo hi eps r.loops := by
    intro mu hmu
    obtain ⟨lam, v, hv, hlam, habs⟩ := C63_sound hritz.lena hritz.lenb he hB0 hB hev hmu
    obtain ⟨b1, b2⟩ := hbet v
    rw [hlam, dotProduct_smul, smul_eq_mul] at b1 b2
    have hv' := dot_pos hv
    have h1 : lo ≤ lam := le_of_mul_le_mul_right b1 hv'
    have h2 : lam ≤ hi := le_of_mul_le_mul_right b2 hv'
    rw [Nat.add_sub_cancel] at habs
    change |lam - mu| ≤ slack lo hi eps r.loops at habs
    rw [abs_le] at habs
    constructor <;> linarith [habs.1, habs.2]
  exact ⟨(key _ hmin1).1, hmin2 _ hmax1, (key _ hmax1).2⟩

theorem Ritz.combine_injective {A : Matrix (Fin n) (Fin n) 𝕜} {alpha beta : List ℝ} {q : Nat → Fin n → 𝕜} {m : Nat}
    (h : Ritz A alpha beta q m) (y : Fin m → 𝕜) (j : Fin m) : ip (q j) (combine q y) = y j := by
  unfold combine
  rw [ip_sum, Finset.sum_eq_single j]
  · rw [ip_smul, h.orth j j j.isLt j.isLt, if_pos rfl, mul_one]
  · intro k _ hk
    rw [ip_smul, h.orth j k j.isLt k.isLt, if_neg (fun e => hk (Fin.ext e.symm)), mul_zero]
  · intro hn; exact absurd (Finset.mem_univ _) hn

/-- The matrix whose columns are the Lanczos vectors. -/
def columns (q : Nat → Fin n → 𝕜) (m : Nat) : Matrix (Fin n) (Fin m) 𝕜 := fun k i => q i k

theorem columns_mulVec (q : Nat → Fin n → 𝕜) {m : Nat} (y : Fin m → 𝕜) : columns q m *ᵥ y = combine q y := by
  funext k
  unfold columns combine mulVec dotProduct
  rw [Finset.sum_apply]
  refine Finset.sum_congr rfl fun i _ => ?_
  rw [Pi.smul_apply, smul_eq_mul, mul_comm]

theorem Ritz.columns_unitary {A : Matrix (Fin n) (Fin n) 𝕜} {alpha beta : List ℝ} {q : Nat → Fin n → 𝕜} {m : Nat}
    (h : Ritz A alpha beta q m) : (columns q m)ᴴ * columns q m = 1 := by
  ext i j
  have := h.orth i j i.isLt j.isLt
  rw [Matrix.mul_apply, Matrix.one_apply]
  simp only [Fin.ext_iff]
  rw [← this]
  rfl

theorem bind_ok_inv {α β : Type} {x : Res α} {g : α → Res β} {b : β} (h : (x >>= g) = .ok b) : ∃ a, x = .ok a ∧ g a = .ok b := by
  cases x with
  | ok a => exact ⟨a, rfl, h⟩
  | err e => simp at h
  | ub => simp at h

/-- **C64.** The procedure converges within as many iterations as the Hamiltonian has rows, or not at all. -/
theorem C64_loops {f : Axpy} (hf : f.Valid) {m : Raw 𝕜} (hm : m.WF) (hr : m.rows = n) (hc : m.cols = n)
    (hA : (m.toMatrix n).IsHermitian) {eps huge p : ℝ} {random : Fin n → 𝕜} {r : LanczosBounds}
    (h : minmaxEigenvalues f eps huge m random p = .ok r) : r.loops < n ∧ r.loops < 1000 := by
  constructor
  · obtain ⟨_, alpha, beta, q, ev, _, _, hritz, _⟩ := returned_of_ok hf hm hr hc hA h
    have hinj : Function.Injective (columns q (r.loops + 1)).mulVecLin := by
      intro x y hxy
      simp only [Matrix.mulVecLin_apply] at hxy
      have := congrArg ((columns q (r.loops + 1))ᴴ *ᵥ ·) hxy
      simpa only [mulVec_mulVec, hritz.columns_unitary, one_mulVec] using this
    have := LinearMap.finrank_le_finrank_of_injective hinj
    simpa using this
  · unfold minmaxEigenvalues at h
    have : ∀ (left i : Nat) (s : St 𝕜 n), lanczosLoop f eps (p / 100) m left i s = .ok r → r.loops < i + left := by
      intro left
      induction left with
      | zero => intro i s hx; simp [lanczosLoop] at hx
      | succ left ih =>
        intro i s hx
        unfold lanczosLoop at hx
        obtain ⟨t, -, hx⟩ := bind_ok_inv hx
        obtain ⟨ev, -, hx⟩ := bind_ok_inv hx
        obtain ⟨lo, -, hx⟩ := bind_ok_inv hx
        obtain ⟨hi, -, hx⟩ := bind_ok_inv hx
        split_ifs at hx with hcv
        · simp only [Res.pure_eq, Res.ok.injEq] at hx
          subst hx
          simp only
          omega
        · have := ih _ _ hx
          omega
    have := this _ _ _ h
    omega

/-- **C64.** When the procedure has used as many vectors as the Hamiltonian has rows, nothing is missed: every
eigenvalue is between the returned bounds. -/
theorem C64_full {f : Axpy} (hf : f.Valid) {m : Raw 𝕜} (hm : m.WF) (hr : m.rows = n) (hc : m.cols = n)
    (hA : (m.toMatrix n).IsHermitian) {eps huge p : ℝ} (he : 0 ≤ eps) {random : Fin n → 𝕜} {r : LanczosBounds}
    (h : minmaxEigenvalues f eps huge m random p = .ok r) (hfull : r.loops + 1 = n) {lo hi : ℝ}
    (hspec : ∀ lam, Eigenvalue (m.toMatrix n) lam → lo ≤ lam ∧ lam ≤ hi) {lam : ℝ} (hlam : Eigenvalue (m.toMatrix n) lam) :
    r.min - slack lo hi eps r.loops ≤ lam ∧ lam ≤ r.max + slack lo hi eps r.loops := by
  obtain ⟨_, alpha, beta, q, ev, _, _, hritz, _, hev, hmin, hmax, _⟩ := returned_of_ok hf hm hr hc hA h
  have hmin2 := (minCoeff_spec hmin).2
  have hmax2 := (maxCoeff_spec hmax).2
  rw [hfull] at hritz
  have hbet := hritz.between hA hspec
  have hB : ∀ x : Fin n → ℝ, |x ⬝ᵥ tridiag n alpha beta *ᵥ x| ≤ max |lo| |hi| * (x ⬝ᵥ x) := by
    intro x
    obtain ⟨b1, b2⟩ := hbet x
    have hx : 0 ≤ x ⬝ᵥ x := by unfold dotProduct; exact Finset.sum_nonneg fun i _ => mul_self_nonneg _
    rw [abs_le]
    constructor
    · have : -(max |lo| |hi|) ≤ lo := by have := neg_abs_le lo; have := le_max_left |lo| |hi|; linarith
      nlinarith [mul_le_mul_of_nonneg_right this hx]
    · have : hi ≤ max |lo| |hi| := (le_abs_self hi).trans (le_max_right _ _)
      exact b2.trans (mul_le_mul_of_nonneg_right this hx)
  have hB0 : 0 ≤ max |lo| |hi| := (abs_nonneg lo).trans (le_max_left _ _)
  obtain ⟨v, hv0, hv⟩ := hlam
  set Q := columns q n with hQ
  have hQ1 : Qᴴ * Q = 1 := hritz.columns_unitary
  have hQ2 : Q * Qᴴ = 1 := mul_eq_one_comm.1 hQ1
  set y := Qᴴ *ᵥ v with hy
  have hvy : v = combine q y := by rw [← columns_mulVec, ← hQ, hy, mulVec_mulVec, hQ2, one_mulVec]
  have hyi : ∀ i, y i = ip (q i) v := fun i => rfl
  have hT : ∀ i, ∑ j, ((tridiag n alpha beta i j : ℝ) : 𝕜) * y j = (lam : 𝕜) * y i := by
    intro i
    rw [hyi i, ← ip_smul, ← hv]
    conv_rhs => rw [hvy, show combine q y = ∑ j : Fin n, y j • q j from rfl, mulVec_sum]
    rw [ip_sum]
    refine Finset.sum_congr rfl fun j _ => ?_
    rw [mulVec_smul, ip_smul, hritz.elem, mul_comm]
  have hreal : ∃ w : Fin n → ℝ, w ≠ 0 ∧ tridiag n alpha beta *ᵥ w = lam • w := by
    have hre : tridiag n alpha beta *ᵥ (fun i => RCLike.re (y i)) = lam • fun i => RCLike.re (y i) := by
      funext i
      have := congrArg RCLike.re (hT i)
      rw [map_sum, RCLike.re_ofReal_mul] at this
      simp only [RCLike.re_ofReal_mul] at this
      rw [Pi.smul_apply, smul_eq_mul, ← this]
      rfl
    have him : tridiag n alpha beta *ᵥ (fun i => RCLike.im (y i)) = lam • fun i => RCLike.im (y i) := by
      funext i
      have := congrArg RCLike.im (hT i)
      rw [map_sum, RCLike.im_ofReal_mul] at this
      simp only [RCLike.im_ofReal_mul] at this
      rw [Pi.smul_apply, smul_eq_mul, ← this]
      rfl
    by_cases h1 : (fun i => RCLike.re (y i)) = (0 : Fin n → ℝ)
    · refine ⟨_, ?_, him⟩
      intro h2
      apply hv0
      have : y = 0 := by
        funext i
        exact RCLike.ext (by simpa using congrFun h1 i) (by simpa using congrFun h2 i)
      rw [hvy, this]
      unfold combine
      simp
    · exact ⟨_, h1, hre⟩
  obtain ⟨w, hw, hwl⟩ := hreal
  obtain ⟨mu, hmu, habs⟩ := C63_complete hritz.lena hritz.lenb he hB0 hB hev hw hwl
  have e : n - 1 = r.loops := by omega
  rw [e] at habs
  change |lam - mu| ≤ slack lo hi eps r.loops at habs
  rw [abs_le] at habs
  have := hmin2 mu hmu
  have := hmax2 mu hmu
  constructor <;> linarith [habs.1, habs.2]

/-- **C64.** The procedure does not return a bound that is exactly zero, and the bounds it returns changed by less than
the requested precision in the last step (after a first step, whose values cannot be compared with anything). -/
theorem C64_precision {f : Axpy} (hf : f.Valid) {m : Raw 𝕜} (hm : m.WF) (hr : m.rows = n) (hc : m.cols = n)
    (hA : (m.toMatrix n).IsHermitian) {eps huge p : ℝ} {random : Fin n → 𝕜} {r : LanczosBounds}
    (h : minmaxEigenvalues f eps huge m random p = .ok r) :
    r.min ≠ 0 ∧ r.max ≠ 0 ∧ Returned (m.toMatrix n) eps (p / 100) huge (normalize random) r := by
  obtain ⟨_, hret⟩ := returned_of_ok hf hm hr hc hA h
  have hret' := hret
  obtain ⟨_, _, _, _, _, _, _, _, _, _, _, _, _, h1, _, h2, _⟩ := hret'
  exact ⟨h1, h2, hret⟩

end Verif.Lanczos
