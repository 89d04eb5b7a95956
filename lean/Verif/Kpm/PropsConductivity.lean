import Verif.Kpm.PropsStochastic

/-!
# Conductivity (C61)
-/

namespace Verif.Kpm

open Verif.Numeric Polynomial Finset
open Verif.Hopping (Csr)
open Verif.Hamiltonian (Sorted coeff)

variable {K V α : Type} {n : Nat}

/-! ## Specification -/

/-- The commutator of a coordinate with the Hamiltonian. -/
def commutator [CommRing K] (x : Fin n → K) (h : Csr K) : Matrix (Fin n) (Fin n) K :=
  Matrix.diagonal x * matrixOf n h - matrixOf n h * Matrix.diagonal x

/-- The contribution of the vector `r` to the moments: `<v_right T_j r|T_i v_left r>`, with the zeroth halved. -/
noncomputable def condTerm [CommRing K] [StarRing K] (half : K) (h : Csr K) (invA b : K) (left right r : Fin n → K) (i j : Nat) : K :=
  weight half i * weight half j *
    inner (act (commutator right h) (act (chebMat n half h invA b j) r)) (act (chebMat n half h invA b i) (act (commutator left h) r))

/-! ## Moments -/

section moments

variable [Field K] [StarRing K] [DecidableEq K]

omit [DecidableEq K] in
theorem denseMoments_eq {half invA b : K} {h : Csr K} {cfg : AlgorithmConfig} {first : Fin n} (S : Setup half h invA b cfg first)
    {src dest : List (Fin n)} {o : Optimized K} {σ : Equiv.Perm (Fin n)} (P : Prepared cfg.reorder h invA b src dest o σ)
    {M : Mat n K} (hM : Implements half M ((doubled n h invA b).submatrix σ.symm σ.symm)) {num : Nat}
    (h4 : num % 4 = 2) (op : Option (Csr K)) (hop : ∀ m ∈ op, Sorted n m) (junk : Nat → K) (x : Fin n → K) :
    denseMoments half M { cfg with optimalSize := false } o num op junk (moved σ x) =
      .ok fun k => weight half k.val • moved σ (act (opMat n op) (act (chebMat n half h invA b k.val) x)) := by
  have hA := doubled_eq (n := n) S.two h invA b σ
  have hS : (false : Bool) = true ∨ cfg.interleaved = true → Slices o.slices.data ((doubled n h invA b).submatrix σ.symm σ.symm) := by
    intro hc
    rw [← P.mat]
    exact P.slices (reorder_cases cfg (Or.inr (by simpa using hc)))
  obtain ⟨m, em, hm⟩ : ∃ m, denseOp n o op = .ok m ∧ ∀ y : Fin n → K, denseRow m (moved σ y) = moved σ (act (opMat n op) y) := by
    cases op with
    | none => exact ⟨none, rfl, fun y => by simp [denseRow, opMat, act_one]⟩
    | some m =>
      obtain ⟨m', e, hm'⟩ := P.op m (hop m rfl)
      refine ⟨some m', ?_, fun y => ?_⟩
      · unfold denseOp; simp only; rw [e, Res.bind_ok]; rfl
      · simp only [denseRow, opMat]
        rw [hm', act_moved]
  unfold denseMoments
  rw [em, Res.bind_ok, withOff_eq S.two hM hA (l := denseRow m) (fun _ => rfl)
    ⟨hS, fun h => absurd h (by simp), fun h => absurd h (by simp)⟩ (by simp; omega) (by intro _; simp; omega), Res.bind_ok]
  simp only [List.length_map, List.length_range]
  rw [map_range_ofFn, asFn_ofFn]
  congr 1
  funext k
  unfold offMoment weight
  split
  · rename_i hk
    rw [chebVec_moved, hm, hk]
    rfl
  · rw [chebVec_moved, hm, one_smul]
    rfl

theorem condStep_eq {half invA b : K} {h : Csr K} {cfg : AlgorithmConfig} {first : Fin n} (S : Setup half h invA b cfg first)
    {src dest : List (Fin n)} {o : Optimized K} {σ : Equiv.Perm (Fin n)} (P : Prepared cfg.reorder h invA b src dest o σ)
    {M : Mat n K} (hM : Implements half M ((doubled n h invA b).submatrix σ.symm σ.symm)) {num : Nat}
    (h4 : num % 4 = 2) {left right : Fin n → K} {vl vr : Csr K} (hr : Sorted n vr)
    (el : matrixOf n vl = commutator left h) (er : matrixOf n vr = commutator right h) (junk : Nat → K) (rand : Nat → Fin n → K)
    (total : Fin num → Fin num → K) (j : Nat) :
    condStep half M cfg o num vl vr junk rand total j =
      .ok fun p q => total p q + condTerm half h invA b left right (rand j) p q := by
  unfold condStep
  rw [P.random, Res.bind_ok, denseMoments_eq S P hM h4 none (by simp), Res.bind_ok, P.random, Res.bind_ok,
    denseMoments_eq S P hM h4 (some vr) (by rintro m ⟨⟩; exact hr), Res.bind_ok]
  show Res.ok _ = Res.ok _
  congr 1
  funext p q
  unfold mulAdd condTerm
  congr 1
  have hw : star (weight half q.val) = weight half q.val := by
    unfold weight; split
    · exact S.halfReal
    · exact star_one K
  simp only [opMat, act_one, Pi.smul_apply, smul_eq_mul, star_mul', hw, el, er]
  rw [← inner_moved σ]
  unfold inner
  rw [mul_sum]
  refine sum_congr rfl fun x _ => ?_
  ring

theorem foldlM_add {num : Nat} (f : (Fin num → Fin num → K) → Nat → Res (Fin num → Fin num → K)) (t : Nat → Fin num → Fin num → K)
    (hf : ∀ total j, f total j = .ok fun p q => total p q + t j p q) (N : Nat) :
    (List.range N).foldlM f (fun _ _ => 0) = .ok fun p q => ∑ j ∈ range N, t j p q := by
  induction N with
  | zero => simp
  | succ N ih =>
    rw [List.range_succ, List.foldlM_append, ih]
    show ([N].foldlM f _) = _
    rw [List.foldlM_cons, hf, Res.bind_ok]
    simp only [List.foldlM_nil, Res.pure_eq]
    congr 1
    funext p q
    rw [sum_range_succ]

/-- **C61** (moments).  For every Hamiltonian, storage format and choice of algorithms, and for any coordinates and random
vectors, the matrix of moments of the conductivity is the average of `<v_right T_j r|T_i v_left r>` over the random vectors,
where `v` is the commutator of the coordinate with the Hamiltonian. -/
theorem C61_moments {half invA b : K} {h : Csr K} {cfg : AlgorithmConfig} (hn : 0 < n) (S : Setup half h invA b cfg (⟨0, hn⟩ : Fin n))
    {f : Format K n K} (hf : f.Aligned) {num : Nat} (h4 : num % 4 = 2) (left right : Fin n → K) {numRandom : Nat} (hR : 0 < numRandom)
    (junk : Nat → K) (rand : Nat → Fin n → K) :
    condMoments half f cfg h invA b num (List.ofFn left) (List.ofFn right) numRandom junk rand =
      .ok fun i j => (∑ k ∈ range numRandom, condTerm half h invA b left right (rand k) i j) / numRandom := by
  obtain ⟨o, σ, e, P⟩ := S.run [] [⟨0, hn⟩] (by simp)
  obtain ⟨M, eM, hM⟩ := P.implements (half := half) hf S.nonzero
  obtain ⟨vl, evl, -, -, -, hl⟩ := C43_commutator left S.sorted
  obtain ⟨vr, evr, sr, -, -, hr⟩ := C43_commutator right S.sorted
  have e' : optimizeFor cfg.reorder h invA b [0] [0] = .ok o := e
  unfold condMoments
  rw [e', Res.bind_ok, eM, Res.bind_ok, evl, Res.bind_ok, evr, Res.bind_ok,
    foldlM_add _ _ (fun total j => condStep_eq S P hM h4 sr hl hr junk rand total j), Res.bind_ok, if_neg hR.ne']

/-- **C61** (no vectors).  Without random vectors the result is the undefined 0/0. -/
theorem C61_no_vectors {half invA b : K} {h : Csr K} {cfg : AlgorithmConfig} (hn : 0 < n) (S : Setup half h invA b cfg (⟨0, hn⟩ : Fin n))
    {f : Format K n K} (hf : f.Aligned) {num : Nat} (left right : Fin n → K) (junk : Nat → K) (rand : Nat → Fin n → K) :
    condMoments half f cfg h invA b num (List.ofFn left) (List.ofFn right) 0 junk rand = .ub := by
  obtain ⟨o, σ, e, P⟩ := S.run [] [⟨0, hn⟩] (by simp)
  obtain ⟨M, eM, hM⟩ := P.implements (half := half) hf S.nonzero
  obtain ⟨vl, evl, -, -, -, hl⟩ := C43_commutator left S.sorted
  obtain ⟨vr, evr, sr, -, -, hr⟩ := C43_commutator right S.sorted
  have e' : optimizeFor cfg.reorder h invA b [0] [0] = .ok o := e
  unfold condMoments
  rw [e', Res.bind_ok, eM, Res.bind_ok, evl, Res.bind_ok, evr, Res.bind_ok]
  simp

end moments

/-- **C61** (trace).  For real coordinates the contribution of a vector is `-<r|T_j v_right T_i v_left|r>`: by C60_unbiased, its
expected value is the trace `-Tr(T_j v_right T_i v_left)` of the Kubo-Bastin formula. -/
theorem C61_trace {s : Scale ℝ} {h : Csr ℂ} (hH : (matrixOf n h).IsHermitian) (left right : Fin n → ℂ)
    (hright : ∀ i, star (right i) = right i) (i j : Nat) :
    (∀ r, condTerm (1 / 2) h (2 / s.a) s.b left right r i j = -(weight (1 / 2) i * weight (1 / 2) j *
      inner r (act (chebOf s (matrixOf n h) j * commutator right h * chebOf s (matrixOf n h) i * commutator left h) r))) ∧
    ∑ c : Fin n → Bool, condTerm (1 / 2) h (2 / s.a) s.b left right (signVec c) i j =
      -(weight (1 / 2) i * weight (1 / 2) j *
        (2 ^ n * (chebOf s (matrixOf n h) j * commutator right h * chebOf s (matrixOf n h) i * commutator left h).trace)) := by
  have h1 : ∀ r, condTerm (1 / 2) h (2 / s.a) s.b left right r i j = -(weight (1 / 2) i * weight (1 / 2) j *
      inner r (act (chebOf s (matrixOf n h) j * commutator right h * chebOf s (matrixOf n h) i * commutator left h) r)) := by
    intro r
    have hv : (commutator right h).conjTranspose = -commutator right h := by
      unfold commutator
      rw [Matrix.conjTranspose_sub, Matrix.conjTranspose_mul, Matrix.conjTranspose_mul, hH.eq, Matrix.diagonal_conjTranspose]
      have : star right = right := funext hright
      rw [this]
      abel
    have hT : (chebOf s (matrixOf n h) j).conjTranspose = chebOf s (matrixOf n h) j := by
      ext a b
      rw [Matrix.conjTranspose_apply, chebOf_star hH]
    have hadj : ∀ (A : Matrix (Fin n) (Fin n) ℂ) (x y : Fin n → ℂ), inner (act A x) y = inner x (act A.conjTranspose y) := by
      intro A x y
      unfold inner act
      simp only [star_sum, smul_eq_mul, star_mul', sum_mul, mul_sum, Matrix.conjTranspose_apply]
      rw [sum_comm]
      exact sum_congr rfl fun a _ => sum_congr rfl fun b _ => by ring
    have hmul : ∀ (A B : Matrix (Fin n) (Fin n) ℂ) (x : Fin n → ℂ), act A (act B x) = act (A * B) x := by
      intro A B x
      exact (act_mul A B x).symm
    unfold condTerm
    rw [chebMat_complex, chebMat_complex, hadj, hv, hadj, hT, hmul, hmul, hmul]
    have : chebOf s (matrixOf n h) j * -commutator right h * chebOf s (matrixOf n h) i * commutator left h =
        -(chebOf s (matrixOf n h) j * commutator right h * chebOf s (matrixOf n h) i * commutator left h) := by
      simp only [Matrix.neg_mul, Matrix.mul_neg]
    have hneg : ∀ (A : Matrix (Fin n) (Fin n) ℂ) (x : Fin n → ℂ), act (-A) x = -act A x := by
      intro A x
      funext a
      simp [act]
    rw [this, hneg]
    unfold inner
    simp only [Pi.neg_apply, mul_neg, sum_neg_distrib]
  refine ⟨h1, ?_⟩
  rw [sum_congr rfl fun c _ => h1 (signVec c), sum_neg_distrib, ← mul_sum, C60_unbiased]

/-! ## The integral over the energy -/

theorem extremes_range (f : Nat → ℝ) (hf : Monotone f) (N : Nat) :
    extremes ((List.range (N + 1)).map f) = .ok (f N, f 0) := by
  rw [List.range_succ_eq_map, List.map_cons, List.map_map]
  unfold extremes
  simp only
  have h1 : ∀ N, ((List.range N).map (f ∘ Nat.succ)).foldl max (f 0) = f N := by
    intro N
    induction N with
    | zero => rfl
    | succ N ih =>
      rw [List.range_succ, List.map_append, List.foldl_append, ih]
      exact max_eq_right (hf (Nat.le_succ N))
  have h2 : ∀ N, ((List.range N).map (f ∘ Nat.succ)).foldl min (f 0) = f 0 := by
    intro N
    induction N with
    | zero => rfl
    | succ N ih =>
      rw [List.range_succ, List.map_append, List.foldl_append, ih]
      exact min_eq_left (hf (Nat.zero_le _))
  rw [h1, h2]

/-- Specification: the energy samples, equidistant between the bounds. -/
noncomputable def sample (min max : ℝ) (N i : Nat) : ℝ := min + i * ((max - min) / ((N : ℝ) - 1))

/-- Specification: the occupation at an energy. -/
noncomputable def occupation (kbt mu e : ℝ) : ℝ := 1 / (1 + Real.exp ((e - mu) / kbt))

/-- Specification: `Gamma_ij(E)` with the Chebyshev polynomials. -/
noncomputable def gammaSpec (E : ℝ) (i j : Nat) : ℂ :=
  (E - Complex.I * j * Real.sqrt (1 - E ^ 2)) * Complex.exp (Complex.I * j * Real.arccos E) * ((Chebyshev.T ℝ i).eval E : ℝ) +
  (E + Complex.I * i * Real.sqrt (1 - E ^ 2)) * Complex.exp (-(Complex.I * i * Real.arccos E)) * ((Chebyshev.T ℝ j).eval E : ℝ)

theorem gammaMat_eq {E : ℝ} (h1 : -1 < E) (h2 : E < 1) (i j : Nat) : gammaMat E i j = gammaSpec E i j := by
  unfold gammaMat gammaSpec gammaP
  rw [arccos_T h1 h2, arccos_T h1 h2]
  simp only [star_mul', star_sub, Complex.star_def, Complex.conj_ofReal, Complex.conj_I, Complex.conj_natCast, map_mul,
    ← Complex.exp_conj]
  rw [mul_comm (Real.arccos E) (i : ℝ), mul_comm (Real.arccos E) (j : ℝ), pow_two]
  congr 1
  · congr 2
    · ring_nf
  · congr 1
    congr 1
    · ring
    · congr 1; ring

theorem apply_occupation {s : Scale ℝ} (ha : 0 < s.a) (kbt mu e : ℝ) :
    fermiDirac (s.a / kbt) (s.apply mu) (s.apply e) = occupation kbt mu e := by
  unfold fermiDirac occupation Scale.apply
  congr 3
  have : s.a ≠ 0 := ha.ne'
  rw [← sub_div]
  rw [div_mul_div_comm, mul_comm (e - s.b - (mu - s.b)), mul_div_mul_left _ _ this]
  congr 1
  ring

/-- Specification: the integrand of the Kubo-Bastin formula. -/
noncomputable def integrand {num : Nat} (s : Scale ℝ) (kbt mu : ℝ) (m : Fin num → Fin num → ℂ) (e : ℝ) : ℂ :=
  occupation kbt mu e * (((1 / (1 - s.apply e ^ 2) ^ 2 : ℝ) : ℂ) * ∑ i, ∑ j, m i j * gammaSpec (s.apply e) i j)

theorem zipWith_map_map {α β γ ι : Type} (l : List ι) (f : ι → α) (g : ι → β) (k : α → β → γ) :
    List.zipWith k (l.map f) (l.map g) = l.map fun i => k (f i) (g i) := by
  induction l with
  | nil => rfl
  | cons a l ih => simp [ih]

/-- **C61** (integral).  For samples over the bounds the reconstruction is `4 / a²` times the trapezoidal rule (short by the factor
`(N - 1) / N` of C55) for the Kubo-Bastin integrand, with the energies in the units of the user. -/
theorem C61_integral_partial {min max : ℝ} (hb : min < max) {s : Scale ℝ} (es : Scale.ofBounds min max = .ok s) {num : Nat}
    (m : Fin num → Fin num → ℂ) {kbt : ℝ} (hk : kbt ≠ 0) (mu : ℝ) {N : Nat} (h2 : 2 ≤ N) :
    kuboBastin s kbt m (linspaced min max N) mu = .ok (4 / (s.a * s.a) * ((((N : ℂ) - 1) / N) *
      trapezoid (((max - min) / s.a : ℝ) : ℂ) N fun i => integrand s kbt mu m (sample min max N i))) := by
  obtain ⟨s', es', ha, hin, hmono⟩ := C33_scaled_inside hb
  rw [es] at es'
  cases es'
  have hN : (2 : ℝ) ≤ N := by exact_mod_cast h2
  have hN1 : (0 : ℝ) < N - 1 := by linarith
  have hstep : 0 < (max - min) / ((N : ℝ) - 1) := div_pos (by linarith) hN1
  have hlin : linspaced min max N = (List.range N).map (sample min max N) := by
    unfold linspaced
    rw [if_neg (by omega)]
    rfl
  have hmon : Monotone fun i => s.apply (sample min max N i) := by
    intro i j hij
    rcases Nat.lt_or_ge i j with h | h
    · refine (hmono _ _ ?_).le
      unfold sample
      have : (i : ℝ) < j := by exact_mod_cast h
      have := mul_lt_mul_of_pos_right this hstep
      linarith
    · have : i = j := le_antisymm hij h
      rw [this]
  have h0 : sample min max N 0 = min := by simp [sample]
  have hlast : sample min max N (N - 1) = max := by
    unfold sample
    rw [Nat.cast_sub (by omega)]
    push_cast
    field_simp
    ring
  have hins : ∀ i ∈ List.range N, -1 < s.apply (sample min max N i) ∧ s.apply (sample min max N i) < 1 := by
    intro i hi
    have hi' : i ≤ N - 1 := by have := List.mem_range.1 hi; omega
    have h0i : s.apply (sample min max N 0) ≤ s.apply (sample min max N i) := hmon (Nat.zero_le i)
    have hil : s.apply (sample min max N i) ≤ s.apply (sample min max N (N - 1)) := hmon hi'
    rw [h0] at h0i
    rw [hlast] at hil
    exact ⟨lt_of_lt_of_le (hin min (le_refl _) hb.le).1 h0i, lt_of_le_of_lt hil (hin max hb.le (le_refl _)).2⟩
  have hext : extremes ((List.range N).map fun i => s.apply (sample min max N i)) = .ok (s.apply max, s.apply min) := by
    obtain ⟨M, rfl⟩ : ∃ M, N = M + 1 := ⟨N - 1, by omega⟩
    rw [extremes_range _ hmon]
    rw [h0]
    have := hlast
    rw [Nat.add_sub_cancel] at this
    rw [this]
  unfold kuboBastin
  rw [if_neg hk, hlin]
  simp only [List.map_map]
  have hcomp : (s.apply ∘ sample min max N) = fun i => s.apply (sample min max N i) := rfl
  rw [hcomp, hext, Res.bind_ok]
  simp only
  have hsum : ((List.range N).map fun i => s.apply (sample min max N i)).mapM (kuboSum m) = .ok ((List.range N).map fun i =>
      (((1 / (1 - s.apply (sample min max N i) ^ 2) ^ 2 : ℝ) : ℂ) *
        ∑ p, ∑ q, m p q * gammaSpec (s.apply (sample min max N i)) p q)) := by
    rw [List.mapM_map]
    refine mapM_ok _ _ _ fun i hi => ?_
    obtain ⟨hl, hu⟩ := hins i hi
    show kuboSum m (s.apply (sample min max N i)) = _
    unfold kuboSum
    rw [if_pos ⟨hl, hu⟩]
    congr 2
    · congr 2; ring
    · exact sum_congr rfl fun p _ => sum_congr rfl fun q _ => by rw [gammaMat_eq hl hu]
  rw [hsum, Res.bind_ok, zipWith_map_map]
  have hint : (List.range N).map (fun i => ((fermiDirac (s.a / kbt) (s.apply mu) (s.apply (sample min max N i)) : ℝ) : ℂ) *
      (((1 / (1 - s.apply (sample min max N i) ^ 2) ^ 2 : ℝ) : ℂ) * ∑ p, ∑ q, m p q * gammaSpec (s.apply (sample min max N i)) p q)) =
      (List.range N).map fun i => integrand s kbt mu m (sample min max N i) := by
    refine List.map_congr_left fun i _ => ?_
    rw [apply_occupation ha]
    rfl
  rw [hint, C55_integration_partial _ N h2, Res.bind_ok]
  have hw : s.apply max - s.apply min = (max - min) / s.a := by
    unfold Scale.apply
    rw [← sub_div]
    congr 1
    ring
  rw [hw]
  rfl

/-- **C61**.  For every Hamiltonian, bounds, storage format and choice of algorithms, any coordinates and random vectors, the
conductivity is the real part of `4 / a²` times the trapezoidal rule over the bounds for the Kubo-Bastin integrand with the
damped average moments.  Missing: the result is short by the factor `(N - 1) / N` for `N` energy samples, see C55. -/
theorem C61_conductivity_partial [DecidableEq ℂ] {min max : ℝ} (hb : min < max) {s : Scale ℝ} (es : Scale.ofBounds min max = .ok s)
    {h : Csr ℂ} {cfg : AlgorithmConfig} (hn : 0 < n) (S : ComplexSetup s h cfg (⟨0, hn⟩ : Fin n)) {f : Format ℂ n ℂ} (hf : f.Aligned)
    (g : Nat → Nat → ℝ) {num : Nat} (h4 : num % 4 = 2) (left right : Fin n → ℂ) {kbt : ℝ} (hk : kbt ≠ 0) {numRandom : Nat}
    (hR : 0 < numRandom) {N : Nat} (h2 : 2 ≤ N) (junk : Nat → ℂ) (rand : Nat → Fin n → ℂ) (mu : ℝ) :
    coreConductivity f cfg g min max h num (List.ofFn left) (List.ofFn right) kbt numRandom N junk rand mu =
      .ok (4 / (s.a * s.a) * ((((N : ℂ) - 1) / N) * trapezoid (((max - min) / s.a : ℝ) : ℂ) N fun i =>
        integrand (num := num) s kbt mu (fun p q => (g num p * g num q) •
          ((∑ k ∈ range numRandom, condTerm (1 / 2) h (2 / s.a) s.b left right (rand k) p q) / numRandom))
          (sample min max N i))).re := by
  unfold coreConductivity
  rw [es, Res.bind_ok, C61_moments hn S.setup hf h4 left right hR, Res.bind_ok, C61_integral_partial hb es _ hk mu h2, Res.bind_ok]
  rfl

/-- The hypotheses of C61_moments: five random vectors for the ring. -/
example := C61_moments (n := 4) (by norm_num) (quad4_setup ⟨true, true⟩)
  (f := .ellSimd 4 8 (fun _ _ => 5) (fun _ _ => 9) (fun _ _ _ _ _ => true) 4) ⟨by decide, by decide, by decide⟩
  (num := 6) (by norm_num) ![0, 1, 1, 0] ![0, 0, 1, 1] (numRandom := 5) (by norm_num) (fun _ => 7) fun j i => if j = i.val then -1 else 1

example := C61_no_vectors (n := 4) (by norm_num) (quad4_setup ⟨true, true⟩) (f := .csr fun _ => 5) trivial
  (num := 6) ![0, 1, 1, 0] ![0, 0, 1, 1] (fun _ => 7) fun j i => if j = i.val then -1 else 1

/-- The hypotheses of C61_trace and C61_conductivity_partial: the pair with imaginary hopping. -/
example := C61_trace (s := ⟨2, 0⟩) imagPair_ready.2.2.1 ![0, 1] ![0, 1] (by intro i; fin_cases i <;> simp) 1 1

example [DecidableEq ℂ] : ∃ s, Scale.ofBounds (-3 : ℝ) 3 = .ok s ∧ ∃ v, coreConductivity (n := 2) (.csr fun _ => 5) ⟨true, true⟩ jackson (-3) 3
    imagPair 10 (List.ofFn ![0, 1]) (List.ofFn ![0, 1]) (1 / 40) 3 100 (fun _ => 7) (fun j i => phaseOf (j + i)) 1 = .ok v := by
  obtain ⟨s, es, ha, -, -⟩ := C33_scaled_inside (show (-3 : ℝ) < 3 by norm_num)
  refine ⟨s, es, _, C61_conductivity_partial (by norm_num) es (by norm_num)
    ⟨ha, imagPair_ready.2.1, imagPair_ready.2.2.1, ?_, imagPair_ready.2.2.2.2⟩ (f := .csr fun _ => 5) trivial _ (by norm_num) _ _ (by norm_num) (by norm_num)
    (by norm_num) _ _ _⟩
  intro h0
  have := congrFun (congrFun h0 0) 1
  rw [imagPair_mat] at this
  simp at this

end Verif.Kpm
