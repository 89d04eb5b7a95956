import Verif.Kpm.PropsBatchRounded
import Verif.Kpm.PropsFloatDiag

/-!
# Local densities of states of several sites, on several threads and in floating-point arithmetic (C101)
-/

namespace Verif.Kpm.Float

open Verif.Numeric Finset Polynomial
open Verif.Hopping (Csr)
open Verif.Thread (Pool)

variable {n : Nat}
variable {K : Type} [Zero K] [Add K] [Sub K] [Neg K] [Mul K] [DecidableEq K] {val : K → ℂ}
variable {h : Csr K} {H : Matrix (Fin n) (Fin n) ℂ} {S : Matrix (Fin n) (Fin n) ℝ} {ε η c : ℝ}

/-- The moments in `cols` are computed by kernels for one vector (`f1`) and for a column of a batch (`f2`), each in an order of summation of its own.  Columns of the last batch that
were not asked for are arbitrary.  default/Compute.cpp:24-44, 67-85. -/
structure Computes (R : Rounding) (fma : Bool) (F : Nat → Nat) (e : Nat) (f1 f2 : Kernels n) (val : K → ℂ) (cfg : AlgorithmConfig) (h : Csr K) (invA b : K) (num : Nat)
    (idx : List Nat) (junk : Nat → ℂ) (bs : Nat) (cols : Columns (List ℂ)) : Prop where
  one : ∀ k < idx.length, ∃ ord : Orders n, ord.Valid F e ∧ roundedLdos R fma ord f1 val cfg h invA b num idx junk k = .ok (cols.one k)
  length : ∀ t, (cols.many t).length = bs
  many : ∀ t j (hj : j < (cols.many t).length), t + j < idx.length →
    ∃ ord : Orders n, ord.Valid F e ∧ roundedLdos R fma ord f2 val cfg h invA b num idx junk (t + j) = .ok (cols.many t)[j]

/-- There are such moments whenever the kernels return (which is part of C100): every execution then ends with accurate moments. -/
theorem computes_exists (R : Rounding) (fma : Bool) {F : Nat → Nat} {e : Nat} {ord : Orders n} (hord : ord.Valid F e) (f1 f2 : Kernels n) (val : K → ℂ) (cfg : AlgorithmConfig)
    (h : Csr K) (invA b : K) (num : Nat) (idx : List Nat) (junk : Nat → ℂ) (bs : Nat)
    (h1 : ∀ i < idx.length, ∃ res, roundedLdos R fma ord f1 val cfg h invA b num idx junk i = .ok res)
    (h2 : ∀ i < idx.length, ∃ res, roundedLdos R fma ord f2 val cfg h invA b num idx junk i = .ok res) :
    ∃ cols, Computes R fma F e f1 f2 val cfg h invA b num idx junk bs cols := by
  classical
  let one : Kernels n → Nat → List ℂ := fun f k => if hk : ∃ res, roundedLdos R fma ord f val cfg h invA b num idx junk k = .ok res then hk.choose else []
  have hone : ∀ f k, (∃ res, roundedLdos R fma ord f val cfg h invA b num idx junk k = .ok res) → roundedLdos R fma ord f val cfg h invA b num idx junk k = .ok (one f k) := by
    intro f k hk
    simp only [one, dif_pos hk]
    exact hk.choose_spec
  refine ⟨⟨one f1, fun t => (List.range bs).map fun j => one f2 (t + j)⟩, fun k hk => ⟨ord, hord, hone f1 k (h1 k hk)⟩, fun t => by simp, fun t j hj ht => ⟨ord, hord, ?_⟩⟩
  simp only [List.getElem_map, List.getElem_range]
  exact hone f2 (t + j) (h2 _ ht)

/-- **C101** (LDOS, error).  For every schedule of the threads, the moments of every site, whether they were computed alone or in a batch, have the accuracy of C100. -/
theorem C101_ldos {Th bs : Nat} (hTh : 0 < Th) (hbs : 0 < bs) (R : Rounding) (fma : Bool) (A : Arith K val R.unit) {F : Nat → Nat} {e : Nat} (f1 f2 : Kernels n)
    (hf1 : f1.Formed h) (hf2 : f2.Formed h)
    (hs : Stores val h H S ε) (hH : H.IsHermitian) {W : ℝ} (hW : ∀ i, ∑ j, S i j ≤ W) (hW' : ∀ j, ∑ i, S i j ≤ W) {a : ℝ} (ha : 0 < a)
    (hspec : ∀ j, |hH.eigenvalues j - c| ≤ a) (hη : 0 ≤ η) {invA b : K} (hinv : ‖val invA - (2 / a : ℝ)‖ ≤ η * (2 / a)) (hb : val b = c) {N : Nat}
    (hN : ∀ i < n, (h.getD i []).length ≤ N) (cfg : AlgorithmConfig) (row : Fin n) (more : List (Fin n)) (hconn : cfg.reorder = true → ∀ i : Fin n, Kpm.Reach h row i) {L : Nat}
    (hL : 1 ≤ L) (hodd : cfg.interleaved = true → L % 2 = 1) (junk : Nat → ℂ)
    (hsmall : (gam R.unit (N + 1) + scaleError R.unit ε η) * ((1 + scaleError R.unit ε η) * (2 / a * (W + |c|)) + 1) * (L * (L + 1)) ≤ 1) {D : Nat}
    (hD : F n + (e + 5) * (n + 2) ≤ D) (hδ : (1 + R.unit) ^ D - 1 ≤ 1) {cols : Columns (List ℂ)}
    (hcols : Computes R fma F e f1 f2 val cfg h invA b (2 * L) ((row :: more).map (·.val)) junk bs cols)
    (s : Pool Th BatchJob (Res (BatchMem (List (Option (List ℂ))))) (BatchRun (List ℂ)))
    (hr : Thread.Reach (roundedSem bs (row :: more).length cols concatenator) (batchProg Th bs (row :: more).length) (.ok ⟨0, 0, []⟩) s) (hj : s.joined = true) :
    ∃ mem, s.mem = .ok mem ∧ mem.data.length = (row :: more).length ∧ ∀ i (hi : i < (row :: more).length), ∃ res, mem.data[i]? = some (some res) ∧ res.length = 2 * L ∧
      ∀ k (hk : k < res.length),
        ‖res[k] - (if k = 0 then 1 / 2 else 1) * (aeval (scaledBy H a c) (Chebyshev.T ℂ k)) (row :: more)[i] (row :: more)[i]‖
          ≤ 7 / 4 * ((gam R.unit (N + 1) + scaleError R.unit ε η) * ((1 + scaleError R.unit ε η) * (2 / a * (W + |c|)) + 1)) * ((k + 2) * (k + 4))
            + 72 * ((1 + R.unit) ^ D - 1) := by
  obtain ⟨mem, em, hl, hk⟩ := C101_columns hTh hbs (Nat.succ_pos _) cols hcols.length s hr hj
  refine ⟨mem, em, hl, fun i hi => ?_⟩
  obtain ⟨res, e1, hp⟩ := hk i hi
  refine ⟨res, e1, ?_⟩
  have hlen : ((row :: more).map fun x : Fin n => x.val).length = (row :: more).length := List.length_map _
  have use : ∀ (ord : Orders n) (f : Kernels n), ord.Valid F e → f.Formed h → roundedLdos R fma ord f val cfg h invA b (2 * L) ((row :: more).map (·.val)) junk i = .ok res →
      res.length = 2 * L ∧ ∀ k (hk : k < res.length),
        ‖res[k] - (if k = 0 then 1 / 2 else 1) * (aeval (scaledBy H a c) (Chebyshev.T ℂ k)) (row :: more)[i] (row :: more)[i]‖
          ≤ 7 / 4 * ((gam R.unit (N + 1) + scaleError R.unit ε η) * ((1 + scaleError R.unit ε η) * (2 / a * (W + |c|)) + 1)) * ((k + 2) * (k + 4))
            + 72 * ((1 + R.unit) ^ D - 1) := by
    intro ord f hord hf he
    obtain ⟨res', e2, h2⟩ := C100_ldos R fma A hord f hf hs hH hW hW' ha hspec hη hinv hb hN cfg row more hconn hL hodd junk hsmall hD hδ i hi
    rw [he] at e2
    obtain rfl := Res.ok.inj e2
    exact h2
  rcases hp with rfl | ⟨t, j, rfl, hj⟩
  · obtain ⟨ord, hord, he⟩ := hcols.one i (by rw [hlen]; exact hi)
    exact use ord f1 hord hf1 he
  · obtain ⟨hjl, hje⟩ := List.getElem?_eq_some_iff.1 hj
    obtain ⟨ord, hord, he⟩ := hcols.many t j hjl (by rw [hlen]; exact hi)
    rw [hje] at he
    exact use ord f2 hord hf2 he

/-- The chain of the example of C100 on four threads in batches of two, with other kernels for batches: the moments exist and an execution ends. -/
example : ∃ (F : Verif.Hamiltonian.Format) (cols : Columns (List ℂ)) (s : Pool 4 BatchJob (Res (BatchMem (List (Option (List ℂ))))) (BatchRun (List ℂ))),
    Computes (n := 3) F.toRounding true (fun b => 2 * b) 0 (.simd 4 8 (fun _ _ => 5) (fun _ _ => 9) (fun _ _ _ _ r => r % 4 == 0) 4) (.csr fun _ => 3) (fun x : F.Rl => (x.1 : ℂ))
      ⟨true, true⟩ (chainRows F) (F.castReal ((2 / 3 : ℝ) : ℂ)) (F.castReal ((1 / 2 : ℝ) : ℂ)) 14 [0, 2] (fun _ => 7) 2 cols ∧
    Thread.Reach (roundedSem 2 2 cols concatenator) (batchProg 4 2 2) (.ok ⟨0, 0, []⟩) s ∧ s.joined = true := by
  obtain ⟨F, hF⟩ : ∃ F : Verif.Hamiltonian.Format, F = Verif.Hamiltonian.Format.binary 53 (by norm_num) := ⟨_, rfl⟩
  have hu : F.unit = (2 : ℝ) ^ (-(53 : ℤ)) := by rw [hF]; rfl
  have hu0 : F.unit ≤ 1 / 1000000 := by rw [hu]; norm_num
  have hc : |F.fl (1 / 2) - 1 / 2| ≤ 1 / 1000000 := (F.near (1 / 2)).trans (by rw [abs_of_pos (by norm_num)]; linarith)
  have key : ∀ f : Kernels 3, f.Formed (chainRows F) → ∀ i < [0, 2].length, ∃ res, roundedLdos F.toRounding true (Orders.line 3) f (fun x : F.Rl => (x.1 : ℂ)) ⟨true, true⟩ (chainRows F)
      (F.castReal ((2 / 3 : ℝ) : ℂ)) (F.castReal ((1 / 2 : ℝ) : ℂ)) 14 [0, 2] (fun _ => 7) i = .ok res := by
    intro f hf i hi
    obtain ⟨res, he, -⟩ := C100_ldos (n := 3) F.toRounding true (C99_real F) (c := F.fl (1 / 2)) (C100_line 3) f hf (chainRows_stores F) chainE_hermitian (W := 2) chainF_tame.rows
      chainF_tame.cols (a := 3) (by norm_num) (fun j => by
        have h1 := energies_le chainE_hermitian (R := 2) (by norm_num) (fun i => by simp only [chainE_norm]; exact chainF_tame.rows i) j
        rw [abs_le] at h1 hc ⊢
        constructor <;> linarith [h1.1, h1.2, hc.1, hc.2]) F.unit_nonneg (invA := F.castReal ((2 / 3 : ℝ) : ℂ)) (b := F.castReal ((1 / 2 : ℝ) : ℂ))
      (by
        have := F.near (2 / 3)
        rw [← Complex.ofReal_sub, Complex.norm_real]
        rwa [abs_of_pos (show (0 : ℝ) < 2 / 3 by norm_num)] at this) rfl (N := 2) (fun i hi => by interval_cases i <;> simp [chainRows]) ⟨true, true⟩ 0 [2]
      (fun _ i => chainRows_reach F i) (L := 7) (by norm_num) (by simp) (fun _ => 7) (by
        show (gam F.unit 3 + scaleError F.unit F.unit F.unit) * _ * _ ≤ 1
        have h1 := gam_le F.unit_nonneg 3 (by push_cast; linarith)
        have h2 := C99_scale F.unit_nonneg (by linarith)
        have h3 := scaleError_nonneg F.unit_nonneg F.unit_nonneg F.unit_nonneg
        have h4 := gam_nonneg F.unit_nonneg 3
        rw [abs_le] at hc
        have h5 : |F.fl (1 / 2)| ≤ 1 := abs_le.2 ⟨by linarith [hc.1], by linarith [hc.2]⟩
        push_cast at h1
        have h6 : gam F.unit 3 + scaleError F.unit F.unit F.unit ≤ 1 / 10000 := by linarith
        have h7 : (1 + scaleError F.unit F.unit F.unit) * (2 / 3 * (2 + |F.fl (1 / 2)|)) + 1 ≤ 5 := by
          have : (1 + scaleError F.unit F.unit F.unit) * (2 / 3 * (2 + |F.fl (1 / 2)|)) ≤ 2 * 2 :=
            mul_le_mul (by linarith) (by linarith) (by positivity) (by norm_num)
          linarith
        have h8 := mul_le_mul h6 h7 (by positivity) (by norm_num)
        push_cast
        refine le_trans (mul_le_mul_of_nonneg_right h8 (by norm_num)) (by norm_num)) (D := 31) (by norm_num) (by
        have := C100_unit F.unit_nonneg 31 (by push_cast; linarith)
        push_cast at this
        show (1 + F.unit) ^ 31 - 1 ≤ 1
        linarith) i hi
    exact ⟨res, he⟩
  obtain ⟨cols, hcols⟩ := computes_exists F.toRounding true (C100_line 3) (.simd 4 8 (fun _ _ => 5) (fun _ _ => 9) (fun _ _ _ _ r => r % 4 == 0) 4) (.csr fun _ => 3)
    (fun x : F.Rl => (x.1 : ℂ)) ⟨true, true⟩ (chainRows F) (F.castReal ((2 / 3 : ℝ) : ℂ)) (F.castReal ((1 / 2 : ℝ) : ℂ)) 14 [0, 2] (fun _ => 7) 2
    (key _ ⟨by norm_num, by norm_num, by norm_num, 0, by norm_num, by simp [chainRows]⟩) (key _ trivial)
  obtain ⟨s, h1, h2⟩ := C101_can_finish (W := 4) (bs := 2) (nv := 2) cols concatenator (.ok ⟨0, 0, []⟩)
  exact ⟨F, cols, s, hcols, h1, h2⟩

end Verif.Kpm.Float
