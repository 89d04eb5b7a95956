import Verif.Kpm.PropsTraceConductivity

/-!
# Random vectors and threads (C105)
-/

namespace Verif.Kpm

open Verif.Numeric Finset MeasureTheory
open Verif.Hopping (Csr)

variable {n R : Nat} {ξ : ℝ → ℂ} {τ : ℝ}

/-- **C105** for the calculation itself.  For every Hermitian Hamiltonian, storage format, choice of algorithms, number of threads, size of batches and kernel, and at every energy inside the
bounds: there is a function `D` of the random numbers such that every finished run with these random numbers, whatever its schedule, leaves moments whose density of states is `D`; its mean is the sum of
the local densities of states of all sites, and its mean square deviation is bounded as in C105_mean. -/
theorem C105_calculation (hξ : Element ξ τ) {s : Scale ℝ} {h : Csr ℂ} {cfg : AlgorithmConfig} (hn : 0 < n) (S : ComplexSetup s h cfg (⟨0, hn⟩ : Fin n))
    {f : Format ℂ n ℂ} (hf : f.Aligned) (g : Nat → Nat → ℝ) {num : Nat} (h4 : num % 4 = 2) (junk : Nat → ℂ) {W bs : Nat} (hW : 0 < W) (hbs : 0 < bs) (hR : 0 < R)
    {U : Matrix (Fin n) (Fin n) ℂ} {E : Fin n → ℝ} (hE : Eigen (matrixOf n h) U E) {e : ℝ} (he : -1 < s.apply e ∧ s.apply e < 1) :
    ∃ (D : (Fin R × Fin n → ℝ) → ℝ) (state site : Fin n → ℝ),
      (∀ x, ∃ o M, ∃ column : Nat → Fin num → ℂ, optimizeFor cfg.reorder h (2 / s.a) s.b [0] [0] = .ok o ∧ f.mat (1 / 2) (ofRows n o.h2) = .ok M ∧
        (∀ k, dosColumn (1 / 2) M cfg o num junk (vectors ξ x) k = .ok (List.ofFn (column k))) ∧
        ∀ t, Thread.Reach (W := W) (batchSem bs R column (accumulator ℂ)) (batchProg W bs R) (.ok ⟨0, 0, none⟩) t → t.joined = true →
          ∃ mem moments, t.mem = .ok mem ∧ mem.data = some moments ∧ dosValue g s moments e = .ok (D x)) ∧
      (∀ j, spectralDensity s (damp g (momentList s (matrixOf n h) (fun i => U i j) num)) e = .ok (state j)) ∧
      (∀ i, spectralDensity s (damp g (momentList s (matrixOf n h) (Pi.single i 1) num)) e = .ok (site i)) ∧
      Estimates R n D (∑ i, site i) ((1 + τ) / R * ∑ j, state j ^ 2) := by
  obtain ⟨D, state, site, h1, h2, h3, -, h5⟩ := C105_mean (R := R) hξ hE s g num hR he
  refine ⟨D, state, site, fun x => ?_, h2, h3, h5⟩
  obtain ⟨o, M, column, a1, a2, a3, a4⟩ := C60_moments hn S.setup hf h4 junk (vectors ξ x) hW hbs hR
  refine ⟨o, M, column, a1, a2, a3, fun t ht hj => ?_⟩
  obtain ⟨mem, b1, b2⟩ := a4 t ht hj
  exact ⟨mem, _, b1, b2, h1 x⟩

/-- The hypotheses of C105_calculation: the pair with imaginary hopping, three random vectors, five threads, batches of four. -/
example := C105_calculation (R := 3) C105_phases (n := 2) (by norm_num) imagPair_ready (f := .csr fun _ => 5) trivial jackson (num := 10) (by norm_num) (fun _ => 7)
  (W := 5) (bs := 4) (by norm_num) (by norm_num) (by norm_num) (exists_eigen imagPair_ready.2.2.1) (e := 1) (by unfold Scale.apply; norm_num)

end Verif.Kpm
