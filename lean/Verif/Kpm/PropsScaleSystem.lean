import Verif.Kpm.PropsScaleRounded
import Verif.Hamiltonian.PropsRounded

/-!
# C99: from the system to Green's functions in floating-point arithmetic
-/

namespace Verif.Kpm.Float

open Verif.Numeric Verif.Kpm Finset Polynomial
open Verif.Hamiltonian
open Verif.Hopping (Csr COO)
open Verif.Sublat (tableNorbs)
open Verif.Sublat.Spec (firstRow)

variable {C K P : Type} {η : ℝ}

/-! ## Stored elements -/

theorem stored_of_mem {n : Nat} {m : Csr K} (hs : Sorted n m) {i j : Nat} {v : K} (h : (j, v) ∈ m.getD i []) : stored m i j = some v := by
  have hrow := sorted_row hs i
  unfold stored
  generalize m.getD i [] = r at h hrow
  induction r with
  | nil => cases h
  | cons e r ih =>
    rw [List.map_cons, List.pairwise_cons] at hrow
    rcases List.mem_cons.1 h with rfl | hm
    · rw [List.find?_cons_of_pos (by simp)]
      rfl
    · have hne : e.1 ≠ j := fun he => absurd (hrow.1 j (List.mem_map.2 ⟨_, hm, rfl⟩)) (by omega)
      rw [List.find?_cons_of_neg (by simpa using hne)]
      exact ih hm hrow.2

theorem mem_of_stored {m : Csr K} {i j : Nat} {v : K} (h : stored m i j = some v) : (j, v) ∈ m.getD i [] := by
  unfold stored at h
  obtain ⟨e, h1, h2⟩ := Option.map_eq_some_iff.1 h
  have h3 := List.mem_of_find?_eq_some h1
  have h4 := List.find?_some h1
  simp only [beq_iff_eq] at h4
  rw [← h2, ← h4]
  exact h3

theorem adj_stored {n : Nat} {m : Csr K} (hs : Sorted n m) (i j : Nat) : Adj m i j ↔ stored m i j ≠ none := by
  constructor
  · rintro ⟨v, hv⟩
    rw [stored_of_mem hs hv]
    simp
  · intro h
    obtain ⟨v, hv⟩ := Option.ne_none_iff_exists'.1 h
    exact ⟨v, mem_of_stored hv⟩

theorem coeff_stored [AddCommMonoid K] {n : Nat} {m : Csr K} (hs : Sorted n m) (i j : Nat) : coeff m i j = value m i j := by
  unfold value
  cases h : stored m i j with
  | none =>
    refine rowCoeff_none (r := m.getD i []) fun hj => ?_
    exact (adj_stored hs i j).1 ((adj_keys m i j).2 hj) h
  | some v => exact rowCoeff_mem (sorted_row hs i) (mem_of_stored h)

/-! ## Magnitudes of the terms -/

theorem element_norm_le (T : Terms P ℂ) (main : List (List COO)) (bds : List (Boundary P)) (a b i j : Nat) :
    ‖T.element main bds a b i j‖ ≤ (T.map fun z => ‖z‖).element main bds a b i j := by
  have h := element_near (val := fun _ : ℂ => (0 : ℂ)) (ε := 1) (T := T) (T' := T) (bds := bds) ⟨fun a i j => by simp, fun f a b i j => by simp, fun bd _ f a b i j => by simp⟩ main a b i j
  have e : (T.map fun _ : ℂ => (0 : ℂ)).element main bds a b i j = 0 := by
    unfold Terms.element Terms.map bondSum
    simp
  rw [e, zero_sub, norm_neg, one_mul] at h
  exact h

theorem element_lower {val : K → ℂ} {ε : ℝ} (hε : ε < 1) {T : Terms P K} {T' : Terms P ℂ} {bds : List (Boundary P)} (h : T.Near val ε T' bds) (main : List (List COO))
    (a b i j : Nat) : (T'.map fun z => ‖z‖).element main bds a b i j ≤ (1 - ε)⁻¹ * (T.map fun x => ‖val x‖).element main bds a b i j := by
  have hn : ∀ x y : ℂ, ‖x - y‖ ≤ ε * ‖y‖ → ‖y‖ ≤ (1 - ε)⁻¹ * ‖x‖ := by
    intro x y hxy
    have := norm_add_le (y - x) x
    rw [sub_add_cancel, norm_sub_rev] at this
    rw [inv_mul_eq_div, le_div_iff₀ (by linarith)]
    linarith
  unfold Terms.element
  simp only [star_trivial]
  rw [mul_add, mul_add, mul_add]
  refine add_le_add (add_le_add ?_ (add_le_add (bondSum_mono fun f => hn _ _ (h.hop f a b i j)) (bondSum_mono fun f => hn _ _ (h.hop f b a j i)))) ?_
  · split
    · exact hn _ _ (h.onsite a i j)
    · simp
  · rw [← List.sum_map_mul_left]
    apply List.sum_le_sum
    intro bd hbd
    rw [mul_add]
    exact add_le_add (bondSum_mono fun f => hn _ _ (h.wrap bd hbd f a b i j)) (bondSum_mono fun f => hn _ _ (h.wrap bd hbd f b a j i))

/-! ## The Hamiltonian of a system -/

/-- Specification: `S` has the sums of the magnitudes of the terms as elements. -/
def Magnitudes (norbs : List Nat) {n : Nat} (T : Terms P ℂ) (main : List (List COO)) (bds : List (Boundary P)) (S : Matrix (Fin n) (Fin n) ℝ) : Prop :=
  ∀ (r q : Fin n) a b i j, i < norbs.getD a 0 → j < norbs.getD b 0 → r.val = firstRow norbs a + i → q.val = firstRow norbs b + j →
    S r q = (T.map fun z => ‖z‖).element main bds a b i j

theorem exists_magnitudes (norbs : List Nat) {n : Nat} (hn : n = norbs.sum) (T : Terms P ℂ) (main : List (List COO)) (bds : List (Boundary P)) :
    ∃ S : Matrix (Fin n) (Fin n) ℝ, Magnitudes norbs T main bds S := by
  have h : ∀ r : Fin n, ∃ p : Nat × Nat, p.2 < norbs.getD p.1 0 ∧ r.val = firstRow norbs p.1 + p.2 := fun r => by
    obtain ⟨a, i, h1, h2⟩ := exists_orbital norbs r (hn ▸ r.isLt)
    exact ⟨(a, i), h1, h2⟩
  choose f hf using h
  refine ⟨fun r q => (T.map fun z => ‖z‖).element main bds (f r).1 (f q).1 (f r).2 (f q).2, fun r q a b i j hi hj hr hq => ?_⟩
  obtain ⟨e1, e2⟩ := firstRow_inj (hf r).1 hi ((hf r).2.symm.trans hr)
  obtain ⟨e3, e4⟩ := firstRow_inj (hf q).1 hj ((hf q).2.symm.trans hq)
  simp only [e1, e2, e3, e4]

/-- **C99** (the Hamiltonian).  The computed Hamiltonian stores the exact one, relative to the sums of the magnitudes of the terms: with relative errors `ε < 1` of the terms
and at most `D` hoppings between two sites the errors are at most `(1 + ε) (1 + u)^D - 1`. Elements are stored at symmetric places; where nothing is stored all terms are zero. -/
theorem C99_stores [AddMonoid C] [Star C] [DecidableEq C] [Zero K] [Add K] [Mul K] [Star K] [DecidableEq K] [Sub P] {val : K → ℂ} {u : ℝ} (A : Approx K val u) (L : ConjLaws K)
    {cast : C → K} (hcast : ∀ z, cast (star z) = star (cast z)) {castE : C → ℂ} {s : System C P} {mods : Modifiers K P} {modsE : Modifiers ℂ P} {gs : List (ElemFn K P)} {gsE : List (ElemFn ℂ P)}
    {gos : List (OnsiteFn K P)} {gosE : List (OnsiteFn ℂ P)} {maxBuffer maxBufferE : Nat} {S : Nat → Verif.Mat C} {SN : Nat → String} {E : Nat → Verif.Mat C} {N : Nat → String}
    {posAt : Nat → P} (phase : P → K) (phaseE : P → ℂ) (simple simpleE : Bool) (hsimple : simple = true ∨ simpleE = true → SimpleBonds s.hoppings)
    (h : Prescribed cast s mods gs gos maxBuffer S SN E N posAt) (hE : Prescribed castE s modsE gsE gosE maxBufferE S SN E N posAt) {ε : ℝ} (hε : 0 ≤ ε) (hε1 : ε < 1)
    (hnear : (terms cast phase gos gs S SN E N posAt).Near val ε (terms castE phaseE gosE gsE S SN E N posAt) s.boundaries)
    (hmods : ∀ f ∈ mods.onsite, KeepsHermitian f) (hreg : ∀ m ∈ s.siteRegistry.energies, HermMat m) (hsz : SizesOK s) {D : Nat}
    (hD : ∀ a b, bondsBetween s.hoppings.blocks s.boundaries a b ≤ D) :
    ∃ m mE M, make cast s mods maxBuffer phase simple = .ok m ∧ make castE s modsE maxBufferE phaseE simpleE = .ok mE ∧
      Magnitudes (tableNorbs s.sublattices) (terms castE phaseE gosE gsE S SN E N posAt) s.hoppings.blocks s.boundaries M ∧
      Stores val m (matrixOf (Sublat.hamiltonianSize s.sublattices) mE) M ((1 + ε) * (1 + u) ^ D - 1) := by
  obtain ⟨m, m1, ms, m2⟩ := make_vals cast s mods gs gos maxBuffer phase S SN E N posAt simple A.zero_mul h.zero h.sites h.main h.bounds (fun x => hsimple (.inl x)) h.pos
    h.buffer h.chain h.onsite
  obtain ⟨m', mE, m1', e1, hacc⟩ := C98_accuracy A phase phaseE simple simpleE hsimple h hE hε hnear
  obtain ⟨mE', e1', -, e2⟩ := C49_coefficients castE s modsE gsE maxBufferE phaseE E N posAt gosE S SN simpleE hE.zero hE.sites hE.main hE.bounds (fun x => hsimple (.inr x))
    hE.pos hE.buffer hE.chain hE.onsite
  obtain rfl : m = m' := Res.ok.inj (m1.symm.trans m1')
  obtain rfl : mE = mE' := Res.ok.inj (e1.symm.trans e1')
  have hn := Sublat.hamiltonianSize_eq s.sublattices
  obtain ⟨M, hM⟩ := exists_magnitudes (tableNorbs s.sublattices) hn (terms castE phaseE gosE gsE S SN E N posAt) s.hoppings.blocks s.boundaries
  have hu := A.nonneg
  have hp : (1 : ℝ) ≤ (1 + u) ^ D := one_le_pow₀ (by linarith)
  have orb : ∀ r : Fin (Sublat.hamiltonianSize s.sublattices), ∃ a i, i < (tableNorbs s.sublattices).getD a 0 ∧ r.val = firstRow (tableNorbs s.sublattices) a + i := fun r =>
    exists_orbital _ _ (by rw [← hn]; exact r.isLt)
  have hZ : ∀ r q, 0 ≤ M r q := by
    intro r q
    obtain ⟨a, i, hi, hr⟩ := orb r
    obtain ⟨b, j, hj, hq⟩ := orb q
    rw [hM r q a b i j hi hj hr hq]
    exact element_nonneg _ (fun _ _ _ => norm_nonneg _) (fun _ _ _ _ _ => norm_nonneg _) (fun _ _ _ _ _ _ => norm_nonneg _) _ _ _ _ _ _
  refine ⟨m, mE, M, m1, e1, hM, ms, ?_, fun r q v hv => ?_, fun r q => ?_, fun r q hv => ?_, fun r q hA => ?_⟩
  · nlinarith
  · obtain ⟨a, i, hi, hr⟩ := orb r
    obtain ⟨b, j, hj, hq⟩ := orb q
    have h1 := hacc a b i j hi hj
    rw [← hr, ← hq] at h1
    have hval : value m r q = v := by unfold value; rw [stored_of_mem ms hv]; rfl
    rw [hval] at h1
    refine h1.trans ?_
    unfold errorBound
    rw [← hM r q a b i j hi hj hr hq]
    refine mul_le_mul_of_nonneg_right ?_ (hZ r q)
    have := pow_le_pow_right₀ (show 1 ≤ 1 + u by linarith) (hD a b)
    have := mul_le_mul_of_nonneg_left this (show 0 ≤ 1 + ε by linarith)
    linarith
  · obtain ⟨a, i, hi, hr⟩ := orb r
    obtain ⟨b, j, hj, hq⟩ := orb q
    rw [hM r q a b i j hi hj hr hq]
    have hc : coeff mE r q = (terms castE phaseE gosE gsE S SN E N posAt).element s.hoppings.blocks s.boundaries a b i j := by
      rw [hr, hq]
      exact (e2 a b i j hi hj).trans (coeff_exact phaseE a b i j)
    show ‖coeff mE r q‖ ≤ _
    rw [hc]
    exact element_norm_le _ _ _ _ _ _ _
  · obtain ⟨a, i, hi, hr⟩ := orb r
    obtain ⟨b, j, hj, hq⟩ := orb q
    obtain ⟨vs, v1, -, v3⟩ := m2 a b i j hi hj
    have hnone : stored m r q = none := by
      by_contra hne
      obtain ⟨v, hv'⟩ := (adj_stored ms r q).2 hne
      exact hv v hv'
    rw [← hr, ← hq, hnone] at v1
    have hvs : vs = [] := by
      cases vs with
      | nil => rfl
      | cons v vs =>
        have e : accum none (v :: vs) = some (vs.foldl (· + ·) v) := by
          rw [← accum_some]; rfl
        rw [e] at v1
        cases v1
    have w2 := v3 ℝ (fun x => ‖val x‖) (by rw [A.zero, norm_zero]) (fun x => by rw [A.norm_star, star_trivial])
    rw [hvs, List.map_nil, List.sum_nil] at w2
    have w3 := element_lower hε1 hnear s.hoppings.blocks a b i j
    rw [← w2, mul_zero, ← hM r q a b i j hi hj hr hq] at w3
    exact le_antisymm w3 (hZ r q)
  · rw [adj_stored ms] at hA ⊢
    rw [make_hermitian L cast hcast s mods maxBuffer phase simple hmods hreg hsz m m1 r q]
    simpa using hA

/-- The exact Hamiltonian is Hermitian. -/
theorem exact_hermitian [AddMonoid C] [Star C] [DecidableEq C] [Sub P] {castE : C → ℂ} (hcastE : ∀ z, castE (star z) = star (castE z)) {s : System C P} {modsE : Modifiers ℂ P}
    {gsE : List (ElemFn ℂ P)} {gosE : List (OnsiteFn ℂ P)} {maxBufferE : Nat} {S : Nat → Verif.Mat C} {SN : Nat → String} {E : Nat → Verif.Mat C} {N : Nat → String}
    {posAt : Nat → P} {phaseE : P → ℂ} {simpleE : Bool} (hsz : SizesOK s) (hreg : ∀ m ∈ s.siteRegistry.energies, HermMat m) (hmodsE : ∀ f ∈ modsE.onsite, KeepsHermitian f)
    (hsimple : simpleE = true → SimpleBonds s.hoppings) (hE : Prescribed castE s modsE gsE gosE maxBufferE S SN E N posAt) {mE : Csr ℂ}
    (h : make castE s modsE maxBufferE phaseE simpleE = .ok mE) : (matrixOf (Sublat.hamiltonianSize s.sublattices) mE).IsHermitian := by
  obtain ⟨m, m1, ms, -⟩ := make_vals castE s modsE gsE gosE maxBufferE phaseE S SN E N posAt simpleE (zero_mul) hE.zero hE.sites hE.main hE.bounds hsimple hE.pos
    hE.buffer hE.chain hE.onsite
  obtain rfl : m = mE := Res.ok.inj (m1.symm.trans h)
  have L : ConjLaws ℂ := ⟨star_star, star_zero ℂ, star_add, fun h => by rw [star_add, star_star, add_comm], fun x h hx => by rw [star_add, star_add, star_star, hx, add_right_comm]⟩
  ext i j
  rw [Matrix.conjTranspose_apply]
  show star (coeff m j i) = coeff m i j
  rw [coeff_stored ms, coeff_stored ms]
  unfold value
  rw [make_hermitian L castE hcastE s modsE maxBufferE phaseE simpleE hmodsE hreg hsz m h j i]
  cases stored m j i <;> simp

/-- **C99** (from the system to Green's functions).  All steps in rounded arithmetic: the matrix elements of the system are cast, modified and added, the Hamiltonian is
scaled and reordered, and moments are computed with any kernel and any algorithm.  Green's functions then have the moments of the exact Hamiltonian up to
`(γ + σ) ω k (k + 1)`, where `σ` is the error of the scaled elements with `ε' = (1 + ε) (1 + u)^D - 1` for the Hamiltonian. -/
theorem C99_system [AddMonoid C] [Star C] [DecidableEq C] [Zero K] [Add K] [Sub K] [Neg K] [Mul K] [Star K] [DecidableEq K] [Sub P] {val : K → ℂ} {u : ℝ} (A : Approx K val u) (L : ConjLaws K)
    (R : Arith K val u) {ops : Ops} (hg : ops.Good u)
    {cast : C → K} (hcast : ∀ z, cast (star z) = star (cast z)) {castE : C → ℂ} (hcastE : ∀ z, castE (star z) = star (castE z)) {s : System C P} {mods : Modifiers K P} {modsE : Modifiers ℂ P} {gs : List (ElemFn K P)} {gsE : List (ElemFn ℂ P)}
    {gos : List (OnsiteFn K P)} {gosE : List (OnsiteFn ℂ P)} {maxBuffer maxBufferE : Nat} {S : Nat → Verif.Mat C} {SN : Nat → String} {E : Nat → Verif.Mat C} {N : Nat → String}
    {posAt : Nat → P} (phase : P → K) (phaseE : P → ℂ) (simple simpleE : Bool) (hsimple : simple = true ∨ simpleE = true → SimpleBonds s.hoppings)
    (h : Prescribed cast s mods gs gos maxBuffer S SN E N posAt) (hE : Prescribed castE s modsE gsE gosE maxBufferE S SN E N posAt) {ε : ℝ} (hε : 0 ≤ ε) (hε1 : ε < 1)
    (hnear : (terms cast phase gos gs S SN E N posAt).Near val ε (terms castE phaseE gosE gsE S SN E N posAt) s.boundaries)
    (hmods : ∀ f ∈ mods.onsite, KeepsHermitian f) (hmodsE : ∀ f ∈ modsE.onsite, KeepsHermitian f) (hreg : ∀ m ∈ s.siteRegistry.energies, HermMat m) (hsz : SizesOK s) {D : Nat}
    (hD : ∀ a b, bondsBetween s.hoppings.blocks s.boundaries a b ≤ D) {σ : ℝ} (hη : 0 ≤ η) (hσ : scaleError u ((1 + ε) * (1 + u) ^ D - 1) η = σ) :
    ∃ m mE, ∃ M : Matrix (Fin (Sublat.hamiltonianSize s.sublattices)) (Fin (Sublat.hamiltonianSize s.sublattices)) ℝ, make cast s mods maxBuffer phase simple = .ok m ∧ make castE s modsE maxBufferE phaseE simpleE = .ok mE ∧
      Magnitudes (tableNorbs s.sublattices) (terms castE phaseE gosE gsE S SN E N posAt) s.hoppings.blocks s.boundaries M ∧
      ∃ hH : (matrixOf (Sublat.hamiltonianSize s.sublattices) mE).IsHermitian, ∀ (f : Kernels (Sublat.hamiltonianSize s.sublattices)), f.Formed m →
      ∀ W : ℝ, (∀ i, ∑ j, M i j ≤ W) → (∀ j, ∑ i, M i j ≤ W) → ∀ a c : ℝ, 0 < a → (∀ j, |hH.eigenvalues j - c| ≤ a) →
      ∀ invA b : K, ‖val invA - (2 / a : ℝ)‖ ≤ η * (2 / a) → val b = c → ∀ N, (∀ i < Sublat.hamiltonianSize s.sublattices, (m.getD i []).length ≤ N) →
      ∀ (cfg : AlgorithmConfig) (row : Fin (Sublat.hamiltonianSize s.sublattices)), (cfg.reorder = true → ∀ i : Fin (Sublat.hamiltonianSize s.sublattices), Reach m row i) →
      ∀ (cols : List (Fin (Sublat.hamiltonianSize s.sublattices))), cols ≠ [] → ∀ num : Nat, 2 ≤ num → (cfg.interleaved = true → num % 2 = 0) →
      (gam u (N + 1) + σ) * ((1 + σ) * (2 / a * (W + |c|)) + 1) * ((num - 1) * num) ≤ 1 → ∀ junk,
      ∃ res, roundedMoments ops f val cfg m invA b num row (cols.map (·.val)) junk = .ok res ∧ res.length = cols.length ∧
        ∀ i (hi : i < res.length) (hi' : i < cols.length), res[i].length = num ∧ ∀ k (hk : k < res[i].length),
          ‖res[i][k] - (if k = 0 then 1 / 2 else 1) * (aeval (scaledBy (matrixOf (Sublat.hamiltonianSize s.sublattices) mE) a c) (Chebyshev.T ℂ k)) cols[i] row‖
            ≤ (gam u (N + 1) + σ) * ((1 + σ) * (2 / a * (W + |c|)) + 1) * (k * (k + 1)) := by
  obtain ⟨m, mE, M, h1, h2, h3, h4⟩ := C99_stores A L hcast phase phaseE simple simpleE hsimple h hE hε hε1 hnear hmods hreg hsz hD
  subst hσ
  exact ⟨m, mE, M, h1, h2, h3, exact_hermitian hcastE hsz hreg hmodsE (fun x => hsimple (.inr x)) hE h2, fun f hf W hW hW' a c ha hspec invA b hinv hb N hN cfg row hconn cols hcols num hnum heven hsmall junk =>
    C99_greens R hg f hf h4 _ hW hW' ha hspec hη hinv hb hN cfg row hconn cols hcols hnum heven junk hsmall⟩

/-! ## An example: the system of the example of C98 in single precision, with a wave vector -/

theorem bonds_le (l : List (List COO)) (a b : Nat) : bonds l a b ≤ (l.map List.length).sum := by
  unfold bonds bondSum
  rw [← List.zipIdx_map_fst 0 l, List.map_map, List.zipIdx_map_fst]
  refine List.sum_le_sum fun p _ => ?_
  simpa using List.count_le_length (l := p.1)

example (t : ℝ) := C99_system (η := single.unit) (cx_approx single) single.conj_complex (C99_complex single) (single.toRounding.ops_good true)
  (cast := fun z : Int => single.cast z) (castE := fun z : Int => (z : ℂ)) (fun z => (by simp [← single.cast_star] : single.cast ((star z : Int) : ℂ) = star (single.cast (z : ℂ)))) (fun z => by simp) (fun _ : Int => single.cast (Complex.exp (Complex.I * t))) (fun _ => Complex.exp (Complex.I * t))
  true false (fun _ => demo_bonds) (demo_prescribed (by simp [cast_zero])) (demo_prescribed (by simp))
  (by have := single.unit_nonneg; have : (1 : ℝ) ≤ (1 + single.unit) ^ 5 * (1 + single.unit) := by rw [← pow_succ]; exact one_le_pow₀ (by linarith)
      linarith) (by rw [show single.unit = (2 : ℝ) ^ (-24 : ℤ) from rfl]; norm_num)
  (C98_terms single (fun z : Int => (z : ℂ)) (fun _ : Int => single.cast (Complex.exp (Complex.I * t))) (fun _ => Complex.exp (Complex.I * t)) demo.boundaries
    single.unit_nonneg (fun _ _ => cast_near _ _) demoS demoSN demoE demoN (fun k => demo.positions.getD k 0))
  (by simp) (by simp) demo_hermitian demo_sizes (D := 8) (fun a b => by
    have h1 := bonds_le demo.hoppings.blocks a b
    have h2 := bonds_le demo.hoppings.blocks b a
    have h3 := bonds_le [[⟨1, 0⟩], []] a b
    have h4 := bonds_le [[⟨1, 0⟩], []] b a
    simp [demo] at h1 h2 h3 h4
    simp [bondsBetween, demo]
    omega) single.unit_nonneg rfl

end Verif.Kpm.Float
