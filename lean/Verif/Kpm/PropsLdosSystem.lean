import Verif.Kpm.PropsScaleSystem
import Verif.Kpm.PropsBatchLdos

/-!
# C103: from the system to local densities of states in floating-point arithmetic, on several threads
-/

namespace Verif.Kpm.Float

open Verif.Numeric Verif.Kpm Finset Polynomial
open Verif.Hamiltonian
open Verif.Hopping (Csr COO)
open Verif.Sublat (tableNorbs)
open Verif.Thread (Pool)

variable {C K P : Type} {η : ℝ}

/-- The first `num` moments of site `i` in exact arithmetic: the diagonal elements of the Chebyshev polynomials of `(H - c) / a`, with half of the zeroth. -/
noncomputable def siteMoments {n : Nat} (H : Matrix (Fin n) (Fin n) ℂ) (a c : ℝ) (num : Nat) (i : Fin n) : List ℂ :=
  (List.range num).map fun k : Nat => (if k = 0 then 1 / 2 else 1) * (aeval (scaledBy H a c) (Chebyshev.T ℂ k)) i i

/-- **C103** (the moments).  All steps in rounded arithmetic: the matrix elements of the system are cast, modified and added, the Hamiltonian is scaled and reordered, and the
moments of several sites are computed on several threads, each with one of two kernels and in any order of summation.  Whatever the schedule, a calculation that ends has the
moments of the exact Hamiltonian up to the error of C100, with the error `σ` of the scaled elements. -/
theorem C103_system [AddMonoid C] [Star C] [DecidableEq C] [Zero K] [Add K] [Sub K] [Neg K] [Mul K] [Star K] [DecidableEq K] [Sub P] {val : K → ℂ} (R : Rounding) (fma : Bool)
    (A : Approx K val R.unit) (L : ConjLaws K) (Ar : Arith K val R.unit)
    {cast : C → K} (hcast : ∀ z, cast (star z) = star (cast z)) {castE : C → ℂ} (hcastE : ∀ z, castE (star z) = star (castE z)) {s : System C P} {mods : Modifiers K P} {modsE : Modifiers ℂ P} {gs : List (ElemFn K P)} {gsE : List (ElemFn ℂ P)}
    {gos : List (OnsiteFn K P)} {gosE : List (OnsiteFn ℂ P)} {maxBuffer maxBufferE : Nat} {S : Nat → Verif.Mat C} {SN : Nat → String} {E : Nat → Verif.Mat C} {N : Nat → String}
    {posAt : Nat → P} (phase : P → K) (phaseE : P → ℂ) (simple simpleE : Bool) (hsimple : simple = true ∨ simpleE = true → SimpleBonds s.hoppings)
    (h : Prescribed cast s mods gs gos maxBuffer S SN E N posAt) (hE : Prescribed castE s modsE gsE gosE maxBufferE S SN E N posAt) {ε : ℝ} (hε : 0 ≤ ε) (hε1 : ε < 1)
    (hnear : (terms cast phase gos gs S SN E N posAt).Near val ε (terms castE phaseE gosE gsE S SN E N posAt) s.boundaries)
    (hmods : ∀ f ∈ mods.onsite, KeepsHermitian f) (hmodsE : ∀ f ∈ modsE.onsite, KeepsHermitian f) (hreg : ∀ m ∈ s.siteRegistry.energies, HermMat m) (hsz : SizesOK s) {D : Nat}
    (hD : ∀ a b, bondsBetween s.hoppings.blocks s.boundaries a b ≤ D) {σ : ℝ} (hη : 0 ≤ η) (hσ : scaleError R.unit ((1 + ε) * (1 + R.unit) ^ D - 1) η = σ) :
    ∃ m mE, ∃ M : Matrix (Fin (Sublat.hamiltonianSize s.sublattices)) (Fin (Sublat.hamiltonianSize s.sublattices)) ℝ, make cast s mods maxBuffer phase simple = .ok m ∧ make castE s modsE maxBufferE phaseE simpleE = .ok mE ∧
      Magnitudes (tableNorbs s.sublattices) (terms castE phaseE gosE gsE S SN E N posAt) s.hoppings.blocks s.boundaries M ∧
      ∃ hH : (matrixOf (Sublat.hamiltonianSize s.sublattices) mE).IsHermitian, ∀ (f1 f2 : Kernels (Sublat.hamiltonianSize s.sublattices)), f1.Formed m → f2.Formed m →
      ∀ W : ℝ, (∀ i, ∑ j, M i j ≤ W) → (∀ j, ∑ i, M i j ≤ W) → ∀ a c : ℝ, 0 < a → (∀ j, |hH.eigenvalues j - c| ≤ a) →
      ∀ invA b : K, ‖val invA - (2 / a : ℝ)‖ ≤ η * (2 / a) → val b = c → ∀ N, (∀ i < Sublat.hamiltonianSize s.sublattices, (m.getD i []).length ≤ N) →
      ∀ (cfg : AlgorithmConfig) (row : Fin (Sublat.hamiltonianSize s.sublattices)) (more : List (Fin (Sublat.hamiltonianSize s.sublattices))),
      (cfg.reorder = true → ∀ i : Fin (Sublat.hamiltonianSize s.sublattices), Kpm.Reach m row i) →
      ∀ half : Nat, 1 ≤ half → (cfg.interleaved = true → half % 2 = 1) → ∀ junk,
      (gam R.unit (N + 1) + σ) * ((1 + σ) * (2 / a * (W + |c|)) + 1) * (half * (half + 1)) ≤ 1 → ∀ (F : Nat → Nat) (e Q : Nat),
      F (Sublat.hamiltonianSize s.sublattices) + (e + 5) * (Sublat.hamiltonianSize s.sublattices + 2) ≤ Q → (1 + R.unit) ^ Q - 1 ≤ 1 →
      ∀ (Th bs : Nat), 0 < Th → 0 < bs → ∀ cols : Columns (List ℂ), Computes R fma F e f1 f2 val cfg m invA b (2 * half) ((row :: more).map (·.val)) junk bs cols →
      ∀ p : Pool Th BatchJob (Res (BatchMem (List (Option (List ℂ))))) (BatchRun (List ℂ)),
      Thread.Reach (roundedSem bs (row :: more).length cols concatenator) (batchProg Th bs (row :: more).length) (.ok ⟨0, 0, []⟩) p → p.joined = true →
      ∃ mem, p.mem = .ok mem ∧ mem.data.length = (row :: more).length ∧ ∀ i (hi : i < (row :: more).length), ∃ res, mem.data[i]? = some (some res) ∧ res.length = 2 * half ∧
        ∀ k (hk : k < res.length),
          ‖res[k] - (if k = 0 then 1 / 2 else 1) * (aeval (scaledBy (matrixOf (Sublat.hamiltonianSize s.sublattices) mE) a c) (Chebyshev.T ℂ k)) (row :: more)[i] (row :: more)[i]‖
            ≤ 7 / 4 * ((gam R.unit (N + 1) + σ) * ((1 + σ) * (2 / a * (W + |c|)) + 1)) * ((k + 2) * (k + 4)) + 72 * ((1 + R.unit) ^ Q - 1) := by
  obtain ⟨m, mE, M, h1, h2, h3, h4⟩ := C99_stores A L hcast phase phaseE simple simpleE hsimple h hE hε hε1 hnear hmods hreg hsz hD
  subst hσ
  exact ⟨m, mE, M, h1, h2, h3, exact_hermitian hcastE hsz hreg hmodsE (fun x => hsimple (.inr x)) hE h2,
    fun f1 f2 hf1 hf2 W hW hW' a c ha hspec invA b hinv hb N hN cfg row more hconn half hhalf hodd junk hsmall F e Q hQ hδ Th bs hTh hbs cols hcols p hp hj =>
    C101_ldos hTh hbs R fma Ar f1 f2 hf1 hf2 h4 _ hW hW' ha hspec hη hinv hb hN cfg row more hconn hhalf hodd junk hsmall hQ hδ hcols p hp hj⟩

/-- **C103** (the function).  Moments with the error of C103, damped and summed up, give a density of states which differs from that of the moments of the exact Hamiltonian at
most by `2 / (π a √(1 - E²)) (7/4 γ num (2 num² + 15 num + 31) / 6 + 72 δ num)`, for every energy inside the scaled spectrum. -/
theorem C103_density {n : Nat} (H : Matrix (Fin n) (Fin n) ℂ) {a c : ℝ} (ha : 0 < a) (i : Fin n) (g : Nat → Nat → ℝ) (res : List ℂ) {γ δ : ℝ}
    (hg : ∀ k, k < res.length → |g res.length k| ≤ 1)
    (hres : ∀ k (hk : k < res.length), ‖res[k] - (if k = 0 then 1 / 2 else 1) * (aeval (scaledBy H a c) (Chebyshev.T ℂ k)) i i‖ ≤ 7 / 4 * γ * ((k + 2) * (k + 4)) + 72 * δ)
    {energy : ℝ} (hE : |energy - c| < a) :
    ∃ x y, ldosValue g ⟨a, c⟩ (.ok res) energy = .ok x ∧ spectralDensity ⟨a, c⟩ (damp g (siteMoments H a c res.length i)) energy = .ok y ∧
      |x - y| ≤ 2 / Real.pi / a / Real.sqrt (1 - ((energy - c) / a) ^ 2) * (7 / 4 * γ * (res.length * (2 * res.length ^ 2 + 15 * res.length + 31) / 6) + 72 * δ * res.length) := by
  have hs : (⟨a, c⟩ : Scale ℝ).apply energy = (energy - c) / a := rfl
  have hin : -1 < (⟨a, c⟩ : Scale ℝ).apply energy ∧ (⟨a, c⟩ : Scale ℝ).apply energy < 1 := by
    rw [hs, lt_div_iff₀ ha, div_lt_iff₀ ha]
    rw [abs_lt] at hE
    constructor <;> linarith [hE.1, hE.2]
  obtain ⟨x, y, hx, hy, hxy⟩ := C100_density ⟨a, c⟩ g res (siteMoments H a c res.length i) (by simp [siteMoments]) hg
    (fun k h1 h2 => by
      have := hres k h1
      simpa [siteMoments] using this) hin
  refine ⟨x, y, by rw [← hx]; rfl, hy, ?_⟩
  rw [hs, abs_of_pos ha, ← sq] at hxy
  exact hxy

/-! ## Examples -/

/-- The system of the example of C98 in single precision, with a wave vector, as in C99. -/
example (t : ℝ) := C103_system (η := single.unit) single.toRounding true (cx_approx single) single.conj_complex (C99_complex single)
  (cast := fun z : Int => single.cast z) (castE := fun z : Int => (z : ℂ)) (fun z => (by simp [← single.cast_star] : single.cast ((star z : Int) : ℂ) = star (single.cast (z : ℂ)))) (fun z => by simp) (fun _ : Int => single.cast (Complex.exp (Complex.I * t))) (fun _ => Complex.exp (Complex.I * t))
  true false (fun _ => demo_bonds) (demo_prescribed (by simp [cast_zero])) (demo_prescribed (by simp))
  (by have := single.unit_nonneg; have : (1 : ℝ) ≤ (1 + single.unit) ^ 5 * (1 + single.unit) := by rw [← pow_succ]; exact one_le_pow₀ (by linarith)
      linarith) (by rw [show single.unit = (2 : ℝ) ^ (-24 : ℤ) from rfl]; norm_num)
  (C98_terms single (fun z : Int => (z : ℂ)) (fun _ : Int => single.cast (Complex.exp (Complex.I * t))) (fun _ => Complex.exp (Complex.I * t)) demo.boundaries
    single.unit_nonneg (fun _ _ => cast_near _ _) demoS demoSN demoE demoN (fun k => demo.positions.getD k 0))
  (by simp) (by simp) demo_hermitian demo_sizes (D := 8) (fun a b => by
    have h1 := bonds_le demo.hoppings.blocks a b
    have h2 := bonds_le demo.hoppings.blocks b a
    have h3 := bonds_le [[⟨1, 0⟩], []] a b
    have h4 := bonds_le [[⟨1, 0⟩], []] b a
    simp [demo] at h1 h2 h3 h4
    simp [bondsBetween, demo]
    omega) single.unit_nonneg rfl

/-- Two moments of the first site of the chain, with an error in the first: `|x - y|` is bounded at energy 1. -/
example := C103_density chainE (a := 3) (c := 0) (by norm_num) 0 (fun _ _ => 1) [1 / 2 + 1 / 10, (aeval (scaledBy chainE 3 0) (Chebyshev.T ℂ 1)) 0 0] (γ := 1 / 100) (δ := 1 / 100)
  (by simp) (fun k hk => by
    match k, hk with
    | 0, _ =>
      simp
      norm_num
    | 1, _ =>
      simp
      norm_num) (energy := 1) (by norm_num)

end Verif.Kpm.Float
