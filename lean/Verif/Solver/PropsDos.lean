import Verif.Solver.Dos
import Verif.Solver.Props
import Mathlib.Probability.Distributions.Gaussian.Real
import Mathlib.LinearAlgebra.Matrix.Hermitian
import Mathlib.Analysis.Matrix.Hermitian

/-!
# C67: the densities of states of an eigenvalue solver
-/

namespace Verif.Solver

open Real Matrix ProbabilityTheory MeasureTheory

open scoped NNReal

/-- Specification: the normal distribution with mean `e` and standard deviation `|b|`. -/
noncomputable def normal (b e E : ℝ) : ℝ := gaussianPDFReal e (Real.toNNReal (b ^ 2)) E

theorem scaled_gaussian {b : ℝ} (hb : 0 < b) (e E : ℝ) : dosScale b * dosGaussian b e E = normal b e E := by
  unfold normal gaussianPDFReal dosScale dosGaussian dosConstant
  have h : ((Real.toNNReal (b ^ 2) : ℝ≥0) : ℝ) = b ^ 2 := Real.coe_toNNReal _ (by positivity)
  rw [h, one_div]
  congr 2
  · rw [Real.sqrt_mul (by positivity) (b ^ 2), Real.sqrt_sq hb.le, mul_comm]
  · have : b ^ 2 ≠ 0 := by positivity
    field_simp
    ring

theorem list_sum_mul (c : ℝ) (l : List ℝ) (f : ℝ → ℝ) : c * (l.map f).sum = (l.map fun e => c * f e).sum := by
  induction l with
  | nil => simp
  | cons a l ih => simp [mul_add, ih]

theorem dosScale_neg (b : ℝ) : dosScale (-b) = -dosScale b := by
  unfold dosScale
  rw [neg_mul, div_neg]

theorem dosGaussian_neg (b e E : ℝ) : dosGaussian (-b) e E = dosGaussian b e E := by
  unfold dosGaussian dosConstant
  rw [neg_sq]

theorem dosOf_pos (vals targets : List ℝ) {b : ℝ} (hb : 0 < b) :
    dosOf vals targets b = targets.map fun E => some ((vals.map fun e => normal b e E).sum) := by
  unfold dosOf
  refine List.map_congr_left fun E _ => ?_
  unfold broadened
  rw [if_neg hb.ne', list_sum_mul]
  simp only [scaled_gaussian hb]

/-- **C67, density of states.**  For a positive broadening, the result at an energy is the sum of one normal
distribution for each eigenvalue, centred at the eigenvalue, with the broadening as its standard deviation: it is positive
if there is an eigenvalue, and its integral over all energies is the number of eigenvalues. -/
theorem C67_dos (vals : List ℝ) {b : ℝ} (hb : 0 < b) :
    ∃ dos : ℝ → ℝ, (∀ targets, dosOf vals targets b = targets.map fun E => some (dos E)) ∧
      (∀ E, dos E = (vals.map fun e => normal b e E).sum) ∧ (vals ≠ [] → ∀ E, 0 < dos E) ∧
      Integrable dos ∧ ∫ E, dos E = vals.length := by
  have hv : Real.toNNReal (b ^ 2) ≠ 0 := by
    have : (0 : ℝ) < b ^ 2 := by positivity
    exact (Real.toNNReal_pos.2 this).ne'
  refine ⟨fun E => (vals.map fun e => normal b e E).sum, fun t => dosOf_pos vals t hb, fun _ => rfl, ?_, ?_, ?_⟩
  · intro hne E
    refine List.sum_pos _ ?_ (by simpa using hne)
    intro x hx
    obtain ⟨e, _, rfl⟩ := List.mem_map.1 hx
    exact gaussianPDFReal_pos _ _ _ hv
  · induction vals with
    | nil => simp
    | cons a l ih =>
      simp only [List.map_cons, List.sum_cons]
      have h1 : Integrable (normal b a) := integrable_gaussianPDFReal a _
      exact h1.add ih
  · have key : Integrable (fun E => (vals.map fun e => normal b e E).sum) ∧
        ∫ E, (vals.map fun e => normal b e E).sum = vals.length := by
      induction vals with
      | nil => simp
      | cons a l ih =>
        have h1 : Integrable (normal b a) := integrable_gaussianPDFReal a _
        have h2 : ∫ E, normal b a E = 1 := integral_gaussianPDFReal_eq_one a hv
        simp only [List.map_cons, List.sum_cons, List.length_cons, Nat.cast_add, Nat.cast_one]
        refine ⟨h1.add ih.1, ?_⟩
        rw [integral_add h1 ih.1, h2, ih.2, add_comm]
    exact key.2

/-- **C67, other broadenings.**  A negative broadening gives the negative of the result for its absolute value, and zero
gives no numbers at all. -/
theorem C67_sign (vals targets : List ℝ) (b : ℝ) :
    dosOf vals targets (-b) = (dosOf vals targets b).map (Option.map fun x => -x) ∧
      (∀ x ∈ dosOf vals targets 0, x = none) := by
  constructor
  · unfold dosOf
    rw [List.map_map]
    refine List.map_congr_left fun E _ => ?_
    simp only [Function.comp, broadened, dosScale_neg, dosGaussian_neg]
    by_cases h : b = 0
    · simp [h]
    · simp [h]
  · intro x hx
    obtain ⟨E, _, rfl⟩ := List.mem_map.1 hx
    simp [broadened]

/-! ## States -/

variable {𝕜 : Type} [RCLike 𝕜] {n : Nat}

theorem zipWith_sum {A B : Type} (f : A → B → ℝ) (as : List A) (bs : List B) (h : bs.length = as.length) :
    (List.zipWith f as bs).sum = ∑ k : Fin as.length, f (as[k]) (bs[k.1]'(by rw [h]; exact k.2)) := by
  rw [← List.sum_ofFn]
  congr 1
  refine List.ext_getElem (by simp [h]) fun i h1 h2 => by simp

/-- **C67, sum over the sites.**  If every state is normalised, the local densities of states add up to the density of
states at the same energy. -/
theorem C67_sum (vals : List ℝ) (vecs : List (Fin n → 𝕜)) (hl : vals.length = vecs.length)
    (hn : ∀ v ∈ vecs, ∑ i, ‖v i‖ ^ 2 = 1) (E : ℝ) {b : ℝ} (hb : b ≠ 0) :
    ∃ (l : List ℝ) (d : ℝ), spatialLdosOf vals vecs E b = .ok (l.map some) ∧ l.length = n ∧
      dosOf vals [E] b = [some d] ∧ l.sum = d := by
  refine ⟨List.ofFn fun i => dosScale b * (List.zipWith (fun v e => ‖v i‖ ^ 2 * dosGaussian b e E) vecs vals).sum,
    dosScale b * (vals.map fun e => dosGaussian b e E).sum, ?_, by simp, ?_, ?_⟩
  · unfold spatialLdosOf broadened
    rw [if_neg (by simp [hl])]
    simp only [if_neg hb, List.map_ofFn]
    rfl
  · simp [dosOf, broadened, hb]
  · rw [List.sum_ofFn, ← Finset.mul_sum]
    congr 1
    simp only [zipWith_sum _ vecs vals hl]
    rw [Finset.sum_comm]
    have : (vals.map fun e => dosGaussian b e E) =
        List.ofFn fun k : Fin vecs.length => dosGaussian b (vals[k.1]'(by rw [hl]; exact k.2)) E := by
      refine List.ext_getElem (by simp [hl]) fun i h1 h2 => by simp
    rw [this, List.sum_ofFn]
    refine Finset.sum_congr rfl fun k _ => ?_
    rw [← Finset.sum_mul, hn vecs[k] (List.getElem_mem k.2), one_mul]

/-- Specification: the eigenvalues and states that a solver finds are all those of the Hamiltonian `H` with energies in
`W`: the states are orthonormal eigenvectors, and every eigenvector with an energy in `W` is a combination of them. -/
structure Solves (H : Matrix (Fin n) (Fin n) 𝕜) (W : Set ℝ) (vals : List ℝ) (vecs : List (Fin n → 𝕜)) : Prop where
  len : vals.length = vecs.length
  eigen : ∀ k (hk : k < vecs.length), H *ᵥ vecs[k] = ((vals[k]'(len ▸ hk) : ℝ) : 𝕜) • vecs[k]
  ortho : ∀ j k (hj : j < vecs.length) (hk : k < vecs.length), star vecs[j] ⬝ᵥ vecs[k] = if j = k then 1 else 0
  inside : ∀ e ∈ vals, e ∈ W
  complete : ∀ (e : ℝ) (v : Fin n → 𝕜), e ∈ W → H *ᵥ v = (e : 𝕜) • v → v ∈ Submodule.span 𝕜 {x | x ∈ vecs}

/-- Expansion in orthonormal states. -/
theorem expand {m : Nat} (phi : Fin m → Fin n → 𝕜) (ho : ∀ j k, star (phi j) ⬝ᵥ phi k = if j = k then 1 else 0)
    (v : Fin n → 𝕜) (hv : v ∈ Submodule.span 𝕜 (Set.range phi)) : v = ∑ l, (star (phi l) ⬝ᵥ v) • phi l := by
  obtain ⟨c, rfl⟩ := (Submodule.mem_span_range_iff_exists_fun 𝕜).1 hv
  refine Finset.sum_congr rfl fun l _ => ?_
  congr 1
  rw [dotProduct_sum]
  simp [dotProduct_smul, ho]

/-- States of different energies are orthogonal. -/
theorem ortho_of_ne {H : Matrix (Fin n) (Fin n) 𝕜} (hH : H.IsHermitian) {u v : Fin n → 𝕜} {a b : ℝ}
    (hu : H *ᵥ u = (a : 𝕜) • u) (hv : H *ᵥ v = (b : 𝕜) • v) (hab : a ≠ b) : star u ⬝ᵥ v = 0 := by
  have h1 : star u ⬝ᵥ (H *ᵥ v) = (b : 𝕜) * (star u ⬝ᵥ v) := by rw [hv, dotProduct_smul, smul_eq_mul]
  have h2 : star u ⬝ᵥ (H *ᵥ v) = (a : 𝕜) * (star u ⬝ᵥ v) := by
    have h : star u ᵥ* H = star (H *ᵥ u) := by rw [star_mulVec, hH.eq]
    rw [dotProduct_mulVec, h, hu]
    simp [star_smul, smul_dotProduct, RCLike.real_smul_eq_coe_mul]
  have h3 : ((b : 𝕜) - a) * (star u ⬝ᵥ v) = 0 := by rw [sub_mul, ← h1, ← h2, sub_self]
  rcases mul_eq_zero.1 h3 with h | h
  · exact absurd (RCLike.ofReal_inj.1 (sub_eq_zero.1 h)).symm hab
  · exact h

/-- The weight of each energy at one place does not depend on the choice of the states. -/
theorem weight_unique {H : Matrix (Fin n) (Fin n) 𝕜} (hH : H.IsHermitian) {m m' : Nat} (psi : Fin m → Fin n → 𝕜)
    (e : Fin m → ℝ) (phi : Fin m' → Fin n → 𝕜) (e' : Fin m' → ℝ)
    (hpsi : ∀ k, H *ᵥ psi k = (e k : 𝕜) • psi k) (hphi : ∀ k, H *ᵥ phi k = (e' k : 𝕜) • phi k)
    (ho : ∀ j k, star (psi j) ⬝ᵥ psi k = if j = k then 1 else 0)
    (ho' : ∀ j k, star (phi j) ⬝ᵥ phi k = if j = k then 1 else 0)
    (h1 : ∀ k, psi k ∈ Submodule.span 𝕜 (Set.range phi)) (h2 : ∀ k, phi k ∈ Submodule.span 𝕜 (Set.range psi))
    (f : ℝ → ℝ) (i : Fin n) : ∑ k, ‖psi k i‖ ^ 2 * f (e k) = ∑ k, ‖phi k i‖ ^ 2 * f (e' k) := by
  apply RCLike.ofReal_injective (K := 𝕜)
  push_cast
  have a1 : ∀ k, psi k i = ∑ l, (star (phi l) ⬝ᵥ psi k) * phi l i := fun k => by
    conv_lhs => rw [expand phi ho' _ (h1 k)]
    simp
  have a2 : ∀ l, star (phi l i) = ∑ k, (star (phi l) ⬝ᵥ psi k) * star (psi k i) := fun l => by
    conv_lhs => rw [expand psi ho _ (h2 l)]
    simp only [Finset.sum_apply, Pi.smul_apply, smul_eq_mul, star_sum, star_mul']
    refine Finset.sum_congr rfl fun k _ => ?_
    rw [star_dotProduct, dotProduct_comm, star_star]
  have nsq : ∀ z : 𝕜, ((‖z‖ : ℝ) : 𝕜) ^ 2 = z * star z := fun z => (RCLike.mul_conj z).symm
  have sw : ∀ k l, (star (phi l) ⬝ᵥ psi k) * (f (e k) : 𝕜) = (star (phi l) ⬝ᵥ psi k) * (f (e' l) : 𝕜) := fun k l => by
    by_cases h : e' l = e k
    · rw [h]
    · rw [ortho_of_ne hH (hphi l) (hpsi k) h, zero_mul, zero_mul]
  calc ∑ k, ((‖psi k i‖ : ℝ) : 𝕜) ^ 2 * (f (e k) : 𝕜)
      = ∑ k, ∑ l, phi l i * (f (e' l) : 𝕜) * ((star (phi l) ⬝ᵥ psi k) * star (psi k i)) := by
        refine Finset.sum_congr rfl fun k _ => ?_
        rw [nsq]
        conv_lhs => rw [a1 k]
        rw [Finset.sum_mul, Finset.sum_mul]
        refine Finset.sum_congr rfl fun l _ => ?_
        rw [← a1 k]
        linear_combination (phi l i * star (psi k i)) * sw k l
    _ = ∑ l, phi l i * (f (e' l) : 𝕜) * star (phi l i) := by
        rw [Finset.sum_comm]
        refine Finset.sum_congr rfl fun l _ => ?_
        rw [a2 l, Finset.mul_sum]
    _ = ∑ l, ((‖phi l i‖ : ℝ) : 𝕜) ^ 2 * (f (e' l) : 𝕜) := by
        refine Finset.sum_congr rfl fun l _ => ?_
        rw [nsq]
        ring

theorem Solves.span {H : Matrix (Fin n) (Fin n) 𝕜} {W : Set ℝ} {vals vals' : List ℝ} {vecs vecs' : List (Fin n → 𝕜)}
    (h : Solves H W vals vecs) (h' : Solves H W vals' vecs') (k : Fin vecs.length) :
    vecs[k] ∈ Submodule.span 𝕜 (Set.range fun l : Fin vecs'.length => vecs'[l]) := by
  have := h'.complete _ _ (h.inside _ (List.getElem_mem _)) (h.eigen k.1 k.2)
  have e : (Set.range fun l : Fin vecs'.length => vecs'[l]) = {x | x ∈ vecs'} := by
    ext x
    simp [List.mem_iff_get]
  rw [e]
  exact this

theorem Solves.weight {H : Matrix (Fin n) (Fin n) 𝕜} (hH : H.IsHermitian) {W : Set ℝ} {vals vals' : List ℝ}
    {vecs vecs' : List (Fin n → 𝕜)} (h : Solves H W vals vecs) (h' : Solves H W vals' vecs') (f : ℝ → ℝ) (i : Fin n) :
    (List.zipWith (fun v e => ‖v i‖ ^ 2 * f e) vecs vals).sum =
      (List.zipWith (fun v e => ‖v i‖ ^ 2 * f e) vecs' vals').sum := by
  rw [zipWith_sum _ _ _ h.len, zipWith_sum _ _ _ h'.len]
  refine weight_unique hH (fun k : Fin vecs.length => vecs[k]) (fun k => vals[k.1]'(by rw [h.len]; exact k.2))
    (fun k : Fin vecs'.length => vecs'[k]) (fun k => vals'[k.1]'(by rw [h'.len]; exact k.2))
    (fun k => h.eigen k.1 k.2) (fun k => h'.eigen k.1 k.2) ?_ ?_ (fun k => h.span h' k) (fun k => h'.span h k) f i
  · intro j k
    simpa [Fin.ext_iff] using h.ortho j.1 k.1 j.2 k.2
  · intro j k
    simpa [Fin.ext_iff] using h'.ortho j.1 k.1 j.2 k.2

/-- **C67, independence of the basis.**  The eigenvalues of a Hamiltonian in a range of energies may be degenerate, and
the solver is free to choose the states.  Whatever states it chooses, and in whatever order, both results are the same. -/
theorem C67_unique {H : Matrix (Fin n) (Fin n) 𝕜} (hH : H.IsHermitian) {W : Set ℝ} {vals vals' : List ℝ}
    {vecs vecs' : List (Fin n → 𝕜)} (h : Solves H W vals vecs) (h' : Solves H W vals' vecs') (E b : ℝ) :
    spatialLdosOf vals vecs E b = spatialLdosOf vals' vecs' E b ∧
      ∀ targets, dosOf vals targets b = dosOf vals' targets b := by
  constructor
  · unfold spatialLdosOf
    rw [if_neg (by simp [h.len]), if_neg (by simp [h'.len])]
    simp only [h.weight hH h']
  · intro targets
    unfold dosOf
    refine List.map_congr_left fun E _ => ?_
    have norm1 : ∀ {vals : List ℝ} {vecs : List (Fin n → 𝕜)}, Solves H W vals vecs → ∀ v ∈ vecs, ∑ i, ‖v i‖ ^ 2 = 1 := by
      intro vals vecs h v hv
      obtain ⟨k, hk, rfl⟩ := List.getElem_of_mem hv
      have := h.ortho k k hk hk
      rw [if_pos rfl] at this
      apply RCLike.ofReal_injective (K := 𝕜)
      push_cast
      rw [← this, dotProduct]
      refine Finset.sum_congr rfl fun i _ => ?_
      rw [Pi.star_apply, mul_comm]
      exact (RCLike.mul_conj _).symm
    by_cases hb : b = 0
    · simp [broadened, hb]
    · obtain ⟨l, d, p1, _, p3, p4⟩ := C67_sum vals vecs h.len (norm1 h) E hb
      obtain ⟨l', d', q1, _, q3, q4⟩ := C67_sum vals' vecs' h'.len (norm1 h') E hb
      have hl : l = l' := by
        have : spatialLdosOf vals vecs E b = spatialLdosOf vals' vecs' E b := by
          unfold spatialLdosOf
          rw [if_neg (by simp [h.len]), if_neg (by simp [h'.len])]
          simp only [h.weight hH h']
        rw [p1, q1] at this
        exact List.map_injective_iff.2 (Option.some_injective _) (Res.ok.inj this)
      simp only [dosOf, List.map_cons, List.map_nil, List.cons.injEq, and_true] at p3 q3
      rw [p3, q3, ← p4, ← q4, hl]

/-! ## Histories -/

/-- **C67, the current model.**  After any calls on a solver, both functions use the eigenvalues and states of the model
that was set last (if every model that was set has a Hamiltonian, see `C45`). -/
theorem C67_current {Ev : Env} (m : Ev.Model) (s : Solver Ev) (hs : create m = .ok s) (ops : List (Op Ev))
    (hb : Buildable ops) (vals : Option Ev.Eig → List ℝ) (vecs : Option Ev.Eig → List (Fin n → 𝕜)) (targets : List ℝ)
    (E b : ℝ) :
    ((run s ops).calcDos vals targets b).2 =
        (eigOf (lastModel m ops) >>= fun r => .ok (dosOf (vals (some r)) targets b)) ∧
      ((run s ops).calcSpatialLdos vals vecs E b).2 =
        (eigOf (lastModel m ops) >>= fun r => spatialLdosOf (vals (some r)) (vecs (some r)) E b) := by
  have h1 := (C45_current_partial m s hs ops hb).2
  have h2 := (C45_current_partial m s hs (ops ++ [.eigenvalues]) (by
    intro m' hm'
    rcases List.mem_append.1 hm' with h | h
    · exact hb m' h
    · simp at h)).2
  have e1 : ∀ (l : List (Op Ev)) (s : Solver Ev), run s (l ++ [.eigenvalues]) = (run s l).eigenvalues.1 := by
    intro l
    induction l with
    | nil => intro s; rfl
    | cons a l ih => intro s; exact ih _
  have e2 : ∀ (l : List (Op Ev)) (m : Ev.Model), lastModel m (l ++ [.eigenvalues]) = lastModel m l := by
    intro l
    induction l with
    | nil => intro m; rfl
    | cons a l ih => intro m; cases a <;> exact ih _
  rw [e1, e2] at h2
  unfold Solver.calcDos Solver.calcSpatialLdos
  rcases hq : (run s ops).eigenvalues with ⟨s', r⟩
  rw [hq] at h1 h2
  simp only at h1 h2
  rcases he : eigOf (lastModel m ops) with r0 | e0 | _
  · rw [he] at h1 h2
    simp only [Res.bind_ok] at h1 h2
    subst h1
    rcases hq' : s'.eigenvalues with ⟨s'', r'⟩
    rw [hq'] at h2
    simp only at h2
    subst h2
    refine ⟨rfl, ?_⟩
    simp only [hq']
    rfl
  · rw [he] at h1
    simp only [Res.bind_err] at h1
    subst h1
    exact ⟨rfl, rfl⟩
  · rw [he] at h1
    simp only [Res.bind_ub] at h1
    subst h1
    exact ⟨rfl, rfl⟩

/-! ## Examples -/

/-- Two orthonormal vectors of the plane solve the identity matrix. -/
theorem solves_one (a b : ℝ) (h : a ^ 2 + b ^ 2 = 1) :
    Solves (𝕜 := ℝ) (1 : Matrix (Fin 2) (Fin 2) ℝ) Set.univ [1, 1] [![a, b], ![-b, a]] where
  len := rfl
  eigen k hk := by
    have : k = 0 ∨ k = 1 := by simp at hk; omega
    rcases this with rfl | rfl <;> simp
  ortho j k hj hk := by
    have h1 : j = 0 ∨ j = 1 := by simp at hj; omega
    have h2 : k = 0 ∨ k = 1 := by simp at hk; omega
    rcases h1 with rfl | rfl <;> rcases h2 with rfl | rfl <;> simp [dotProduct, Fin.sum_univ_two] <;> linarith
  inside _ _ := trivial
  complete e v _ _ := by
    have : v = (a * v 0 + b * v 1) • ![a, b] + (-b * v 0 + a * v 1) • ![-b, a] := by
      ext i
      fin_cases i
      · simp
        linear_combination -v 0 * h
      · simp
        linear_combination -v 1 * h
    rw [this]
    exact Submodule.add_mem _ (Submodule.smul_mem _ _ (Submodule.subset_span (by simp)))
      (Submodule.smul_mem _ _ (Submodule.subset_span (by simp)))

/-- A doubly degenerate energy with two choices of the states: the hypotheses of `C67_unique` and `C67_sum` hold. -/
example : spatialLdosOf [1, 1] [![(1 : ℝ), 0], ![-0, 1]] 3 2 =
    spatialLdosOf [1, 1] [![(3 / 5 : ℝ), 4 / 5], ![-(4 / 5), 3 / 5]] 3 2 :=
  (C67_unique (isHermitian_one) (solves_one 1 0 (by norm_num)) (solves_one (3 / 5) (4 / 5) (by norm_num)) 3 2).1

example : ∀ v ∈ [![(3 / 5 : ℝ), 4 / 5], ![-(4 / 5), 3 / 5]], ∑ i, ‖v i‖ ^ 2 = 1 := by
  intro v hv
  simp only [List.mem_cons, List.not_mem_nil, or_false] at hv
  rcases hv with rfl | rfl <;> simp [Fin.sum_univ_two] <;> norm_num

end Verif.Solver
