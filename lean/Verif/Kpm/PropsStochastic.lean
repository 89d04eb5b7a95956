import Verif.Kpm.Stochastic
import Verif.Kpm.PropsGreens

/-!
# Density of states (C60)

The random numbers are arbitrary in all theorems.
-/

namespace Verif.Kpm

open Verif.Numeric Polynomial Finset
open Verif.Hopping (Csr)
open Verif.Hamiltonian (Sorted coeff)

variable {K V α : Type} {n : Nat}

/-! ## Random vectors -/

theorem Prepared.random [CommRing K] {reorder : Bool} {h : Csr K} {invA b : K} {src dest : List (Fin n)} {o : Optimized K}
    {σ : Equiv.Perm (Fin n)} (P : Prepared reorder h invA b src dest o σ) (op : Option (Csr K)) (junk r : Fin n → K) :
    randomStart n o op junk r = .ok (moved σ (act (opMat n op) r)) := by
  unfold randomStart
  simp only
  rw [P.vec, Res.bind_ok, asFn_ofFn]
  cases op with
  | none => simp [opMat, act_one]
  | some m => rfl

/-- **C60** (random vectors).  Every element has modulus one, whatever the random number is. -/
theorem C60_unit_modulus (x : ℝ) : signOf x * signOf x = 1 ∧ star (phaseOf x) * phaseOf x = 1 := by
  constructor
  · unfold signOf; split <;> norm_num
  · unfold phaseOf
    rw [Complex.star_def, ← Complex.exp_conj, ← Complex.exp_add]
    have : (starRingEnd ℂ) 2 = 2 := Complex.conj_ofNat 2
    simp [this]

/-! ## C60: density of states -/

section dos

variable [Field K] [StarRing K]

theorem dosColumn_eq {half invA b : K} {h : Csr K} {cfg : AlgorithmConfig} {first : Fin n} (S : Setup half h invA b cfg first)
    {src dest : List (Fin n)} {o : Optimized K} {σ : Equiv.Perm (Fin n)} (P : Prepared cfg.reorder h invA b src dest o σ)
    [CommRing V] [StarRing V] [Algebra K V] [StarModule K V]
    {M : Mat n V} (hM : Implements half M ((doubled n h invA b).submatrix σ.symm σ.symm)) {num : Nat}
    (h4 : num % 4 = 2) (junk : List V) (hj : junk.length = num) (x : Fin n → V) :
    withDiag half M o.slices { cfg with optimalSize := false } junk (moved σ x) =
      .ok ((List.range num).map (diagMoment half (scaled n half h invA b) x)) := by
  have hA := doubled_eq (n := n) S.two h invA b σ
  have hS : (false : Bool) = true ∨ cfg.interleaved = true → Slices o.slices.data ((doubled n h invA b).submatrix σ.symm σ.symm) := by
    intro hc
    rw [← P.mat]
    exact P.slices (reorder_cases cfg (Or.inr (by simpa using hc)))
  have hherm : ((scaled n half h invA b).submatrix σ.symm σ.symm).IsHermitian :=
    (scaled_isHermitian S.halfReal S.invReal S.bReal S.hermitian).submatrix _
  rw [withDiag_eq S.two hM hA hherm hS (by simp) (by omega) (by omega) (by intro _; omega), hj]
  congr 1
  exact List.map_congr_left fun k _ => diagMoment_moved ..

/-- `<r|T_m((H - b) / a)|r>`, the zeroth halved. -/
noncomputable def expectation (half : K) (h : Csr K) (invA b : K) (r : Fin n → K) (m : Nat) : K :=
  weight half m * inner r (act (chebMat n half h invA b m) r)

theorem diagMoment_expectation (half : K) (h : Csr K) (invA b : K) (r : Fin n → K) (m : Nat) :
    diagMoment half (scaled n half h invA b) r m = expectation half h invA b r m := by
  unfold diagMoment expectation weight chebMat chebVec
  split
  · rename_i hk; subst hk; rfl
  · rw [one_mul]

theorem map_range_ofFn (num : Nat) (f : Nat → α) : (List.range num).map f = List.ofFn fun i : Fin num => f i :=
  List.ext_getElem (by simp) fun i h1 h2 => by simp

variable [DecidableEq K]

/-- **C60** (moments).  For every Hamiltonian, storage format, choice of algorithms, number of threads, batch size and
schedule, and for any random vectors: when the calculation has finished, the accumulated moments are the average of
`<r_j|T_m((H - b) / a)|r_j>` over exactly the `numRandom` first vectors, the zeroth halved. -/
theorem C60_moments {half invA b : K} {h : Csr K} {cfg : AlgorithmConfig}
    (hn : 0 < n) (S : Setup half h invA b cfg (⟨0, hn⟩ : Fin n)) {f : Format K n K} (hf : f.Aligned) {num : Nat}
    (h4 : num % 4 = 2) (junk : Nat → K) (rand : Nat → Fin n → K) {W bs numRandom : Nat} (hW : 0 < W) (hbs : 0 < bs)
    (hR : 0 < numRandom) :
    ∃ o M, ∃ column : Nat → Fin num → K, optimizeFor cfg.reorder h invA b [0] [0] = .ok o ∧
      f.mat half (ofRows n o.h2) = .ok M ∧ (∀ k, dosColumn half M cfg o num junk rand k = .ok (List.ofFn (column k))) ∧
      ∀ s, Thread.Reach (W := W) (batchSem bs numRandom column (accumulator K)) (batchProg W bs numRandom) (.ok ⟨0, 0, none⟩) s →
        s.joined = true → ∃ mem, s.mem = .ok mem ∧ mem.data = some fun m : Fin num =>
          (numRandom : K)⁻¹ * ∑ j ∈ range numRandom, expectation half h invA b (rand j) m := by
  obtain ⟨o, σ, e, P⟩ := S.run [] [⟨0, hn⟩] (by simp)
  obtain ⟨M, eM, hM⟩ := P.implements (half := half) hf S.nonzero
  refine ⟨o, M, fun k m => expectation half h invA b (rand k) m, e, eM, fun k => ?_, fun s hs hj => ?_⟩
  · unfold dosColumn
    rw [P.random, Res.bind_ok, dosColumn_eq S P hM h4 _ (by simp), map_range_ofFn]
    congr 2
    funext m
    rw [diagMoment_expectation]
    simp only [opMat, act_one]
  · obtain ⟨mem, em, ed⟩ := C30_average hW hbs hR _ s hs hj
    refine ⟨mem, em, ?_⟩
    rw [ed]
    congr 1
    funext m
    simp [Finset.sum_apply]

/-- **C60** (batches).  The moments of a batch of random vectors, with any format for batches, are those of the vectors
computed one by one with any format. -/
theorem C60_batch {half invA b : K} {h : Csr K} {cfg : AlgorithmConfig}
    (hn : 0 < n) (S : Setup half h invA b cfg (⟨0, hn⟩ : Fin n)) {f : Format K n K} (hf : f.Aligned) {c : Nat}
    {fb : Format K n (Fin c → K)} (hfb : fb.Aligned) {num : Nat} (h4 : num % 4 = 2) (junk junk' : Nat → K)
    (rand : Nat → Fin n → K) (k : Nat) :
    ∃ o M Mb, optimizeFor cfg.reorder h invA b [0] [0] = .ok o ∧
      f.mat half (ofRows n o.h2) = .ok M ∧ fb.mat half (ofRows n o.h2) = .ok Mb ∧
      ∃ block : List (Fin c → K), dosBatch half Mb cfg o num junk rand k = .ok block ∧
        ∀ j : Fin c, dosColumn half M cfg o num junk' rand (k + j.val) = .ok (block.map fun v => v j) := by
  obtain ⟨o, σ, e, P⟩ := S.run [] [⟨0, hn⟩] (by simp)
  obtain ⟨M, eM, hM⟩ := P.implements (half := half) hf S.nonzero
  obtain ⟨Mb, eMb, hMb⟩ := P.implements (half := half) hfb S.nonzero
  refine ⟨o, M, Mb, e, eM, eMb, (List.range num).map (diagMoment half (scaled n half h invA b) fun i => fun j : Fin c => rand (k + j.val) i),
    ?_, fun j => ?_⟩
  · have hb : randomBlock n c o (fun i => junk i) rand k = .ok (moved σ fun i => fun j : Fin c => rand (k + j.val) i) := by
      unfold randomBlock
      rw [mapM_ok _ _ (fun j : Fin c => moved σ (rand (k + j.val))) fun j _ => by rw [P.random]; simp only [opMat, act_one], Res.bind_ok]
      show Res.ok _ = Res.ok _
      congr 1
      funext i j
      rw [List.getD_eq_getElem _ _ (by simp)]
      simp [moved]
    unfold dosBatch
    rw [hb, Res.bind_ok]
    exact dosColumn_eq S P hMb h4 _ (by simp) _
  · unfold dosColumn
    rw [P.random, Res.bind_ok, dosColumn_eq S P hM h4 _ (by simp), List.map_map]
    congr 1
    refine List.map_congr_left fun m _ => ?_
    simp only [Function.comp, opMat, act_one]
    rw [C26_batch]

end dos

section value

/-- The accumulated moments of C60_moments for a complex Hamiltonian. -/
noncomputable def dosMoments (s : Scale ℝ) (h : Csr ℂ) (num numRandom : Nat) (rand : Nat → Fin n → ℂ) : Fin num → ℂ := fun m =>
  (numRandom : ℂ)⁻¹ * ∑ j ∈ range numRandom, expectation (1 / 2) h (2 / s.a) s.b (rand j) m

theorem expectation_momentList (s : Scale ℝ) (h : Csr ℂ) (num : Nat) (r : Fin n → ℂ) :
    (List.range num).map (expectation (1 / 2) h (2 / s.a) s.b r) = momentList s (matrixOf n h) r num := by
  unfold momentList
  refine List.map_congr_left fun k _ => ?_
  rw [← diagMoment_expectation, scaled_complex]

/-- The moments are real. -/
theorem expectation_real {s : Scale ℝ} {h : Csr ℂ} (hH : (matrixOf n h).IsHermitian) (r : Fin n → ℂ) (k : Nat) :
    expectation (1 / 2) h (2 / s.a) s.b r k = ((expectation (1 / 2) h (2 / s.a) s.b r k).re : ℂ) := by
  obtain ⟨w, x, -, -, -, hf⟩ := diagMoment_form hH s r
  have := hf k
  rw [← scaled_complex, diagMoment_expectation] at this
  rw [this, Complex.ofReal_re]

theorem dosMoments_real {s : Scale ℝ} {h : Csr ℂ} (hH : (matrixOf n h).IsHermitian) (num numRandom : Nat) (rand : Nat → Fin n → ℂ) :
    List.ofFn (dosMoments s h num numRandom rand) = (List.range num).map fun k =>
      (((numRandom : ℝ)⁻¹ * ∑ j ∈ range numRandom, (expectation (1 / 2) h (2 / s.a) s.b (rand j) k).re : ℝ) : ℂ) := by
  rw [map_range_ofFn]
  congr 1
  funext m
  unfold dosMoments
  rw [sum_congr rfl fun j _ => expectation_real hH (rand j) m]
  push_cast
  rfl

/-- **C60** (value).  The density of states is the average over the random vectors of the densities which the same
expansion gives for the single vectors. -/
theorem C60_value {s : Scale ℝ} {h : Csr ℂ} (hH : (matrixOf n h).IsHermitian) (g : Nat → Nat → ℝ) (num numRandom : Nat)
    (rand : Nat → Fin n → ℂ) (e : ℝ) (he : -1 < s.apply e ∧ s.apply e < 1) :
    ∃ d : Nat → ℝ, (∀ j, spectralDensity s (damp g (momentList s (matrixOf n h) (rand j) num)) e = .ok (d j)) ∧
      dosValue g s (dosMoments s h num numRandom rand) e = .ok ((numRandom : ℝ)⁻¹ * ∑ j ∈ range numRandom, d j) := by
  refine ⟨fun j => densityAt s (damp g (momentList s (matrixOf n h) (rand j) num)) (s.apply e), fun j => ?_, ?_⟩
  · unfold spectralDensity; simp only; rw [if_pos he]
  · unfold dosValue spectralDensity
    simp only
    rw [if_pos he, dosMoments_real hH, densityAt_form]
    congr 1
    have hj : ∀ j, densityAt s (damp g (momentList s (matrixOf n h) (rand j) num)) (s.apply e) =
        2 / Real.pi / s.a / Real.sqrt (1 - s.apply e * s.apply e) * ∑ k ∈ range num,
          g num k * (expectation (1 / 2) h (2 / s.a) s.b (rand j) k).re * Real.cos (k * Real.arccos (s.apply e)) := by
      intro j
      rw [← expectation_momentList, ← densityAt_form]
      congr 2
      exact List.map_congr_left fun k _ => expectation_real hH (rand j) k
    rw [sum_congr rfl fun j _ => hj j, ← mul_sum, sum_comm, mul_left_comm]
    congr 1
    rw [mul_sum]
    refine sum_congr rfl fun k _ => ?_
    rw [mul_sum, mul_sum, mul_sum, sum_mul]
    exact sum_congr rfl fun j _ => by ring

/-- **C60** (positive).  With the Jackson kernel and bounds that enclose the spectrum the density of states is never
negative. -/
theorem C60_nonnegative {h : Csr ℂ} (hH : (matrixOf n h).IsHermitian) {min max : ℝ} (hb : min < max)
    (hspec : spectrum ℝ (matrixOf n h) ⊆ Set.Icc min max) (num : Nat) (h1 : 1 ≤ num) (numRandom : Nat) (rand : Nat → Fin n → ℂ)
    (e : ℝ) (he : min ≤ e ∧ e ≤ max) :
    ∃ s v, Scale.ofBounds min max = .ok s ∧ dosValue jackson s (dosMoments s h num numRandom rand) e = .ok v ∧ 0 ≤ v := by
  obtain ⟨s, es, ha, hin, -⟩ := C33_scaled_inside hb
  obtain ⟨d, hd, hv⟩ := C60_value (s := s) hH jackson num numRandom rand e (hin e he.1 he.2)
  refine ⟨s, _, es, hv, mul_nonneg (by positivity) (sum_nonneg fun j _ => ?_)⟩
  obtain ⟨s', v, es', ev, hv'⟩ := C53_nonnegative hH hb hspec (rand j) num h1 e he
  rw [es] at es'
  cases es'
  rw [hd j] at ev
  cases ev
  exact hv'

/-- **C60** (number of states).  For any random vectors whose elements have modulus one (C60_unit_modulus), the integral
of the density of states is exactly the number of states. -/
theorem C60_number_of_states {s : Scale ℝ} (ha : 0 < s.a) {h : Csr ℂ} (hH : (matrixOf n h).IsHermitian) (g : Nat → Nat → ℝ)
    (num : Nat) (h1 : 1 ≤ num) (hg : g num 0 = 1) (numRandom : Nat) (hR : 0 < numRandom) (rand : Nat → Fin n → ℂ)
    (hunit : ∀ j i, star (rand j i) * rand j i = 1) (density : ℝ → ℝ)
    (hd : ∀ e, s.b - s.a < e → e < s.b + s.a → dosValue g s (dosMoments s h num numRandom rand) e = .ok (density e)) :
    ∫ e in (s.b - s.a)..(s.b + s.a), density e = n := by
  unfold dosValue at hd
  simp only [dosMoments_real hH] at hd
  rw [density_integral ha g _ num h1 hg density hd]
  have h0 : ∀ j, (expectation (1 / 2) h (2 / s.a) s.b (rand j) 0).re = 1 / 2 * n := by
    intro j
    unfold expectation chebMat weight
    simp only [Nat.cast_zero, Chebyshev.T_zero, map_one, act_one, if_true]
    unfold inner
    rw [sum_congr rfl fun i _ => hunit j i]
    simp
  rw [sum_congr rfl fun j _ => h0 j, sum_const, card_range, nsmul_eq_mul]
  have : (numRandom : ℝ) ≠ 0 := by exact_mod_cast hR.ne'
  field_simp

end value

/-! ## Unbiased -/

/-- The vector of signs for a choice at every index. -/
def signVec (c : Fin n → Bool) : Fin n → ℂ := fun i => if c i then 1 else -1

/-- **C60** (unbiased).  Over all `2^n` vectors of signs, which are equally likely for real Hamiltonians, the sum of
`<s|A|s>` is `2^n` times the trace of `A`: the expected value of every moment is a trace. -/
theorem C60_unbiased (A : Matrix (Fin n) (Fin n) ℂ) :
    ∑ c : Fin n → Bool, inner (signVec c) (act A (signVec c)) = 2 ^ n * A.trace := by
  have hsq : ∀ (c : Fin n → Bool) i, signVec c i * signVec c i = 1 := by
    intro c i; unfold signVec; split <;> norm_num
  have hoff : ∀ i j : Fin n, i ≠ j → ∑ c : Fin n → Bool, signVec c i * signVec c j = 0 := by
    intro i j hij
    refine Finset.sum_involution (fun c _ => Function.update c i (!c i)) ?_ ?_ (fun _ _ => mem_univ _) ?_
    · intro c _
      have h1 : signVec (Function.update c i (!c i)) i = -signVec c i := by
        simp only [signVec, Function.update_self]
        cases c i <;> simp
      have h2 : signVec (Function.update c i (!c i)) j = signVec c j := by
        simp only [signVec, Function.update_of_ne hij.symm]
      rw [h1, h2]
      ring
    · intro c _ _ h
      have := congrFun h i
      simp at this
    · intro c _
      funext k
      by_cases hk : k = i
      · subst hk; simp
      · simp [hk]
  have hstar : ∀ (c : Fin n → Bool) i, star (signVec c i) = signVec c i := by
    intro c i; unfold signVec; split <;> simp
  have hterm : ∀ i j : Fin n, ∑ c : Fin n → Bool, A i j * (signVec c i * signVec c j) = if i = j then 2 ^ n * A i i else 0 := by
    intro i j
    rw [← mul_sum]
    split
    · rename_i h; subst h
      rw [sum_congr rfl fun c _ => hsq c i]
      simp [mul_comm]
    · rename_i h
      rw [hoff i j h, mul_zero]
  unfold inner act
  simp only [hstar, smul_eq_mul, mul_sum]
  rw [sum_comm]
  simp only [Matrix.trace, Matrix.diag, mul_sum]
  refine sum_congr rfl fun i _ => ?_
  rw [sum_comm]
  rw [sum_congr rfl fun j _ => (sum_congr rfl fun c _ => by ring :
    ∑ c : Fin n → Bool, signVec c i * (A i j * signVec c j) = ∑ c : Fin n → Bool, A i j * (signVec c i * signVec c j))]
  rw [sum_congr rfl fun j _ => hterm i j]
  simp

/-! ## Examples -/

/-- The hypotheses of C60_moments and C60_batch: three random vectors for the ring, five threads and batches of four. -/
example := C60_moments (n := 4) (by norm_num) (quad4_setup ⟨true, true⟩)
  (f := .ellSimd 4 8 (fun _ _ => 5) (fun _ _ => 9) (fun _ _ _ _ _ => true) 4) ⟨by decide, by decide, by decide⟩
  (num := 6) (by norm_num) (fun _ => 7) (fun j i => if j = i.val then -1 else 1) (W := 5) (bs := 4) (numRandom := 3)
  (by norm_num) (by norm_num) (by norm_num)

example := C60_batch (n := 4) (by norm_num) (quad4_setup ⟨true, false⟩) (f := .csr fun _ => 5) trivial (c := 2)
  (fb := .csr fun _ => 5) trivial (num := 10) (by norm_num) (fun _ => 7) (fun _ => 8) (fun j i => if j = i.val then -1 else 1) 4

/-- The hypotheses of C60_value, C60_nonnegative and C60_number_of_states: a pair of sites with imaginary hopping. -/
example := C60_value (s := ⟨2, 0⟩) (imagPair_ready.2.2.1) jackson 10 3 (fun j i => phaseOf (j + i)) 1
  (by unfold Scale.apply; norm_num)

example := C60_nonnegative (imagPair_ready.2.2.1) (by norm_num) imagPair_spectrum 10 (by norm_num) 3
  (fun j i => phaseOf (j + i)) 1 ⟨by norm_num, le_refl _⟩

example : ∃ density : ℝ → ℝ, ∫ e in ((0 : ℝ) - 2)..(0 + 2), density e = ((2 : Nat) : ℝ) := by
  have hv := fun (e : ℝ) (h1 : (0 : ℝ) - 2 < e) (h2 : e < 0 + 2) =>
    C60_value (s := ⟨2, 0⟩) (imagPair_ready.2.2.1) jackson 10 3 (fun j i => phaseOf (j + i)) e
      (by unfold Scale.apply; constructor <;> simp only <;> linarith)
  classical
  refine ⟨fun e => if h : (0 : ℝ) - 2 < e ∧ e < 0 + 2 then ((3 : Nat) : ℝ)⁻¹ * ∑ j ∈ range 3, (hv e h.1 h.2).choose j else 0, ?_⟩
  refine C60_number_of_states (s := ⟨2, 0⟩) (by norm_num) (imagPair_ready.2.2.1) jackson 10 (by norm_num) (C44_jackson.1 10 (by norm_num)).1
    3 (by norm_num) (fun j i => phaseOf (j + i)) (fun j i => (C60_unit_modulus _).2) _ fun e h1 h2 => ?_
  rw [dif_pos ⟨h1, h2⟩]
  exact (hv e h1 h2).choose_spec.2

end Verif.Kpm
