import Verif.Hamiltonian.RoundedMake
import Verif.Hamiltonian.Weyl

/-!
# C98: the Hamiltonian in floating-point arithmetic
-/

namespace Verif.Hamiltonian

open Verif.Sublat (Table It iters itersFrom tableNorbs)
open Verif.Sublat.Spec (firstRow)
open Verif.Hopping (COO HoppingBlocks Csr)
open Verif.Lattice (Registry)
open Verif.Kpm (Eigen)

variable {C K P : Type}

/-! ## Hermitian bit by bit -/

/-- **C98**: whatever the arithmetic, as long as conjugation commutes with its rounded additions, the element at `(b, a)` is exactly the conjugate of the element at
`(a, b)`, and it is stored if and only if the other one is. -/
theorem C98_hermitian [Zero C] [Star C] [DecidableEq C] [Zero K] [Add K] [Mul K] [Star K] [DecidableEq K] [Sub P] (L : ConjLaws K)
    (cast : C → K) (hcast : ∀ z, cast (star z) = star (cast z)) (s : System C P) (mods : Modifiers K P) (maxBuffer : Nat) (phase : P → K)
    (simple : Bool) (hmods : ∀ f ∈ mods.onsite, KeepsHermitian f) (hreg : ∀ m ∈ s.siteRegistry.energies, HermMat m)
    (hsz : SizesOK s) (m : Csr K) (h : make cast s mods maxBuffer phase simple = .ok m) (a b : Nat) :
    (stored m b a = none ↔ stored m a b = none) ∧ value m b a = star (value m a b) := by
  have e := make_hermitian L cast hcast s mods maxBuffer phase simple hmods hreg hsz m h a b
  unfold value
  rw [e]
  cases stored m a b with
  | none => exact ⟨by simp, L.star_zero.symm⟩
  | some v => exact ⟨by simp, rfl⟩

/-- **C98**: `std::complex<float>` and `std::complex<double>`: the real parts of the elements at `(a, b)` and `(b, a)` are the same numbers and the imaginary parts
opposite ones; diagonal elements are real. -/
theorem C98_hermitian_complex (F : Format) [Zero C] [Star C] [DecidableEq C] [Sub P] (energy : C → ℂ) (hen : ∀ z, energy (star z) = star (energy z)) (s : System C P) (mods : Modifiers F.Cx P) (maxBuffer : Nat) (phase : P → F.Cx)
    (simple : Bool) (hmods : ∀ f ∈ mods.onsite, KeepsHermitian f) (hreg : ∀ m ∈ s.siteRegistry.energies, HermMat m)
    (hsz : SizesOK s) (m : Csr F.Cx) (h : make (fun z => F.cast (energy z)) s mods maxBuffer phase simple = .ok m) (a b : Nat) :
    (value m b a).1 = starRingEnd ℂ (value m a b).1 ∧ (value m a a).1.im = 0 := by
  have e := fun a b => (C98_hermitian F.conj_complex (fun z => F.cast (energy z)) (fun z => by simp only [hen, F.cast_star]) s mods maxBuffer phase simple hmods hreg hsz m h a b).2
  refine ⟨congrArg Subtype.val (e a b), ?_⟩
  have h1 : (value m a a).1.im = -(value m a a).1.im := congrArg (fun z : F.Cx => z.1.im) (e a a)
  linarith

/-- **C98**: `float` and `double`: the elements at `(a, b)` and `(b, a)` are the same number, whatever the modifiers of onsite energies that keep matrices symmetric. -/
theorem C98_hermitian_real (F : Format) [Zero C] [Star C] [DecidableEq C] [Sub P] (energy : C → ℂ) (hen : ∀ z, energy (star z) = star (energy z)) (s : System C P) (mods : Modifiers F.Rl P) (maxBuffer : Nat) (phase : P → F.Rl)
    (simple : Bool) (hmods : ∀ f ∈ mods.onsite, KeepsHermitian f) (hreg : ∀ m ∈ s.siteRegistry.energies, HermMat m)
    (hsz : SizesOK s) (m : Csr F.Rl) (h : make (fun z => F.castReal (energy z)) s mods maxBuffer phase simple = .ok m) (a b : Nat) : value m b a = value m a b :=
  (C98_hermitian F.conj_real (fun z => F.castReal (energy z)) (fun z => by simp only [hen, F.castReal_star]) s mods maxBuffer phase simple hmods hreg hsz m h a b).2

/-! ## How far the elements are from their exact values -/

theorem cx_approx (F : Format) : Approx F.Cx (fun x => x.1) F.unit where
  nonneg := F.unit_nonneg
  zero := rfl
  star _ := rfl
  add x y := F.parts (x.1 + y.1)
  zero_mul x := Format.cx_ext
    (by show F.fl (F.fl ((0 : ℂ).re * x.1.re) - F.fl ((0 : ℂ).im * x.1.im)) = (0 : ℂ).re; simp [F.fl_zero])
    (by show F.fl (F.fl ((0 : ℂ).re * x.1.im) + F.fl ((0 : ℂ).im * x.1.re)) = (0 : ℂ).im; simp [F.fl_zero])

theorem rl_approx (F : Format) : Approx F.Rl (fun x => (x.1 : ℂ)) F.unit where
  nonneg := F.unit_nonneg
  zero := Complex.ofReal_zero
  star x := (Complex.conj_ofReal _).symm
  add x y := by
    rw [← Complex.ofReal_add, ← Complex.ofReal_sub, Complex.norm_real, Complex.norm_real]
    exact F.near (x.1 + y.1)
  zero_mul x := Subtype.ext (by show F.fl (0 * x.1) = 0; rw [zero_mul, F.fl_zero])

/-- The hypotheses on the system, its modifiers and their functions of single sites and hoppings, as in C49. -/
structure Prescribed [Zero C] [DecidableEq C] [Zero K] (cast : C → K) (s : System C P) (mods : Modifiers K P) (gs : List (ElemFn K P)) (gos : List (OnsiteFn K P))
    (maxBuffer : Nat) (S : Nat → Mat C) (SN : Nat → String) (E : Nat → Mat C) (N : Nat → String) (posAt : Nat → P) : Prop where
  zero : cast 0 = 0
  sites : SitesOK s S SN
  main : HopOK s s.hoppings E N
  bounds : ∀ b ∈ s.boundaries, HopOK s b.hoppings E N
  pos : ∀ k, k < (tableNorbs s.sublattices).length → s.positions[k]? = some (posAt k)
  buffer : ∀ fam, (E fam).size ≤ maxBuffer
  chain : ∀ fam, Chain (E fam).rows (E fam).cols mods.hopping gs
  onsite : ∀ e ∈ s.sublattices, OnsiteChain e.numOrb mods.onsite gos

/-- Specification: the bound of the error of the element at orbital `i` of site `a` and orbital `j` of site `b`: `n` rounded additions, terms with relative errors `ε`,
times the sum of the absolute values of the exact terms. -/
noncomputable def errorBound (u ε : ℝ) (T : Terms P ℂ) (main : List (List COO)) (bds : List (Boundary P)) (a b i j : Nat) : ℝ :=
  ((1 + ε) * (1 + u) ^ (bondsBetween main bds a b) - 1) * (T.map fun z => ‖z‖).element main bds a b i j

theorem coeff_exact [Sub P] {castE : C → ℂ} [Zero C] {s : System C P} {gs : List (ElemFn ℂ P)} {gos : List (OnsiteFn ℂ P)} {S : Nat → Mat C} {SN : Nat → String} {E : Nat → Mat C} {N : Nat → String} {posAt : Nat → P} (phase : P → ℂ)
    (a b i j : Nat) :
    (if a = b then finalOnsite gos (SN a) (fun i j => castE (entry (S a) i j)) (posAt a) i j else 0)
            + (hopAt castE posAt none gs E N s.hoppings.blocks a b i j
                + star (hopAt castE posAt none gs E N s.hoppings.blocks b a j i))
            + (s.boundaries.map fun bd =>
                hopAt castE posAt (some bd.shift) gs E N bd.hoppings.blocks a b i j * phase bd.shift
                + star (hopAt castE posAt (some bd.shift) gs E N bd.hoppings.blocks b a j i * phase bd.shift)).sum
      = (terms castE phase gos gs S SN E N posAt).element s.hoppings.blocks s.boundaries a b i j := by
  have e0 : ∀ a b i j, hopAt castE posAt none gs E N s.hoppings.blocks a b i j
      = bondSum (fun f => (terms castE phase gos gs S SN E N posAt).hop f a b i j) s.hoppings.blocks a b := fun a b i j => by
    unfold hopAt bondSum terms; rfl
  have e1 : ∀ (bd : Boundary P) a b i j, hopAt castE posAt (some bd.shift) gs E N bd.hoppings.blocks a b i j * phase bd.shift
      = bondSum (fun f => (terms castE phase gos gs S SN E N posAt).wrap bd.shift f a b i j) bd.hoppings.blocks a b := fun bd a b i j => by
    have : hopAt castE posAt (some bd.shift) gs E N bd.hoppings.blocks a b i j
        = bondSum (fun f => finalEnergy gs (N f) (fun i j => castE (entry (E f) i j)) (posAt a) (shiftBy (some bd.shift) (posAt b)) i j) bd.hoppings.blocks a b := by
      unfold hopAt bondSum; rfl
    rw [this, bondSum_mul]
    unfold terms; rfl
  have e2 : finalOnsite gos (SN a) (fun i j => castE (entry (S a) i j)) (posAt a) i j = (terms castE phase gos gs S SN E N posAt).onsite a i j := by
    unfold terms; rfl
  unfold Terms.element
  simp only [e0, e1, e2]

/-- **C98**: the Hamiltonian is built in floating-point arithmetic whenever it is built in exact arithmetic, and each element is near the exact one: with relative
errors `ε` of the terms (the onsite energy and the energies of the single hoppings after modifiers and phases), a unit of rounding `u` and `n` hoppings between the two
sites, the error is at most `(1 + ε) (1 + u) ^ n - 1` times the sum of the absolute values of the terms. -/
theorem C98_accuracy [AddMonoid C] [DecidableEq C] [Zero K] [Add K] [Mul K] [Star K] [DecidableEq K] [Sub P] {val : K → ℂ} {u : ℝ} (A : Approx K val u)
    {cast : C → K} {castE : C → ℂ} {s : System C P} {mods : Modifiers K P} {modsE : Modifiers ℂ P} {gs : List (ElemFn K P)} {gsE : List (ElemFn ℂ P)}
    {gos : List (OnsiteFn K P)} {gosE : List (OnsiteFn ℂ P)} {maxBuffer maxBufferE : Nat} {S : Nat → Mat C} {SN : Nat → String} {E : Nat → Mat C} {N : Nat → String}
    {posAt : Nat → P} (phase : P → K) (phaseE : P → ℂ) (simple simpleE : Bool) (hsimple : simple = true ∨ simpleE = true → SimpleBonds s.hoppings)
    (h : Prescribed cast s mods gs gos maxBuffer S SN E N posAt) (hE : Prescribed castE s modsE gsE gosE maxBufferE S SN E N posAt) {ε : ℝ} (hε : 0 ≤ ε)
    (hnear : (terms cast phase gos gs S SN E N posAt).Near val ε (terms castE phaseE gosE gsE S SN E N posAt) s.boundaries) :
    ∃ m mE, make cast s mods maxBuffer phase simple = .ok m ∧ make castE s modsE maxBufferE phaseE simpleE = .ok mE ∧
      ∀ a b i j, i < (tableNorbs s.sublattices).getD a 0 → j < (tableNorbs s.sublattices).getD b 0 →
        ‖val (value m (firstRow (tableNorbs s.sublattices) a + i) (firstRow (tableNorbs s.sublattices) b + j))
            - coeff mE (firstRow (tableNorbs s.sublattices) a + i) (firstRow (tableNorbs s.sublattices) b + j)‖
          ≤ errorBound u ε (terms castE phaseE gosE gsE S SN E N posAt) s.hoppings.blocks s.boundaries a b i j := by
  obtain ⟨m, m1, -, m2⟩ := make_vals cast s mods gs gos maxBuffer phase S SN E N posAt simple A.zero_mul h.zero h.sites h.main h.bounds (fun x => hsimple (.inl x)) h.pos
    h.buffer h.chain h.onsite
  obtain ⟨mE, e1, -, e2⟩ := C49_coefficients castE s modsE gsE maxBufferE phaseE E N posAt gosE S SN simpleE hE.zero hE.sites hE.main hE.bounds (fun x => hsimple (.inr x))
    hE.pos hE.buffer hE.chain hE.onsite
  refine ⟨m, mE, m1, e1, fun a b i j hi hj => ?_⟩
  obtain ⟨vs, v1, v2, v3⟩ := m2 a b i j hi hj
  have hc : coeff mE (firstRow (tableNorbs s.sublattices) a + i) (firstRow (tableNorbs s.sublattices) b + j)
      = (terms castE phaseE gosE gsE S SN E N posAt).element s.hoppings.blocks s.boundaries a b i j :=
    (e2 a b i j hi hj).trans (coeff_exact phaseE a b i j)
  have w1 := v3 ℂ val A.zero A.star
  have w2 := v3 ℝ (fun x => ‖val x‖) (by rw [A.zero, norm_zero]) (fun x => by rw [A.norm_star, star_trivial])
  have w3 := accum_error A vs
  have w4 := element_near hnear s.hoppings.blocks a b i j
  have w5 := element_size hnear s.hoppings.blocks a b i j
  have hS : 0 ≤ ((terms castE phaseE gosE gsE S SN E N posAt).map fun z => ‖z‖).element s.hoppings.blocks s.boundaries a b i j :=
    element_nonneg _ (fun _ _ _ => norm_nonneg _) (fun _ _ _ _ _ => norm_nonneg _) (fun _ _ _ _ _ _ => norm_nonneg _) _ _ _ _ _ _
  rw [w1, w2] at w3
  have hu := A.nonneg
  have hlen : vs.length - 1 ≤ bondsBetween s.hoppings.blocks s.boundaries a b := by
    split at v2 <;> omega
  have hp : (1 + u) ^ (vs.length - 1) ≤ (1 + u) ^ bondsBetween s.hoppings.blocks s.boundaries a b := pow_le_pow_right₀ (by linarith) hlen
  have hp1 : (1 : ℝ) ≤ (1 + u) ^ (vs.length - 1) := one_le_pow₀ (by linarith)
  have hv : value m (firstRow (tableNorbs s.sublattices) a + i) (firstRow (tableNorbs s.sublattices) b + j) = (accum none vs).getD 0 := by
    unfold value; rw [v1]
  rw [hv, hc]
  unfold errorBound
  generalize (val ((accum none vs).getD 0)) = w at *
  generalize ((terms castE phaseE gosE gsE S SN E N posAt).map fun z => ‖z‖).element s.hoppings.blocks s.boundaries a b i j = Z at *
  generalize (terms castE phaseE gosE gsE S SN E N posAt).element s.hoppings.blocks s.boundaries a b i j = z at *
  generalize ((terms cast phase gos gs S SN E N posAt).map fun x => ‖val x‖).element s.hoppings.blocks s.boundaries a b i j = Y at *
  generalize ((terms cast phase gos gs S SN E N posAt).map val).element s.hoppings.blocks s.boundaries a b i j = y at *
  have t : ‖w - z‖ ≤ ‖w - y‖ + ‖y - z‖ := by
    have := norm_add_le (w - y) (y - z)
    rwa [sub_add_sub_cancel] at this
  have q1 : ((1 + u) ^ (vs.length - 1) - 1) * Y ≤ ((1 + u) ^ (vs.length - 1) - 1) * ((1 + ε) * Z) := mul_le_mul_of_nonneg_left w5 (by linarith)
  have q2 : ((1 + u) ^ (vs.length - 1) - 1) * ((1 + ε) * Z) ≤ ((1 + u) ^ bondsBetween s.hoppings.blocks s.boundaries a b - 1) * ((1 + ε) * Z) :=
    mul_le_mul_of_nonneg_right (by linarith) (by positivity)
  calc ‖w - z‖ ≤ ((1 + u) ^ bondsBetween s.hoppings.blocks s.boundaries a b - 1) * ((1 + ε) * Z) + ε * Z := by linarith
    _ = _ := by ring

/-! ## Eigenvalues -/

theorem sum_rows (norbs : List Nat) (f : Nat → ℝ) :
    ∑ c ∈ Finset.range norbs.sum, f c = ∑ b ∈ Finset.range norbs.length, ∑ j ∈ Finset.range (norbs.getD b 0), f (firstRow norbs b + j) := by
  induction norbs using List.reverseRecOn with
  | nil => simp
  | append_singleton l x ih =>
    rw [List.sum_append, List.length_append, List.sum_singleton, List.length_singleton, Finset.sum_range_add, Finset.sum_range_succ, ih]
    congr 1
    · refine Finset.sum_congr rfl fun b hb => ?_
      have hb' := Finset.mem_range.1 hb
      have e1 : (l ++ [x]).getD b 0 = l.getD b 0 := by
        rw [List.getD_eq_getElem?_getD, List.getD_eq_getElem?_getD, List.getElem?_append_left hb']
      have e2 : firstRow (l ++ [x]) b = firstRow l b := by
        unfold firstRow
        rw [List.take_append_of_le_length hb'.le]
      rw [e1, e2]
    · have e1 : (l ++ [x]).getD l.length 0 = x := by
        rw [List.getD_eq_getElem?_getD, List.getElem?_append_right le_rfl]; simp
      have e2 : firstRow (l ++ [x]) l.length = l.sum := by
        unfold firstRow
        rw [List.take_left]
      rw [e1, e2]

theorem exists_orbital (norbs : List Nat) (r : Nat) (h : r < norbs.sum) : ∃ a i, i < norbs.getD a 0 ∧ r = firstRow norbs a + i := by
  by_contra hc
  push Not at hc
  have e := sum_rows norbs fun c => if c = r then 1 else 0
  rw [Finset.sum_ite_eq' (Finset.range norbs.sum) r, if_pos (Finset.mem_range.2 h)] at e
  rw [Finset.sum_eq_zero] at e
  · exact one_ne_zero e
  · intro b _
    refine Finset.sum_eq_zero fun j hj => ?_
    rw [if_neg fun x => hc b j (Finset.mem_range.1 hj) x.symm]

/-- **C98**: the `k`-th eigenvalue of the computed Hamiltonian differs from the `k`-th eigenvalue of the exact one by no more than `δ`, if no row of error bounds adds up to
more than `δ`. -/
theorem C98_eigenvalues [AddMonoid C] [DecidableEq C] [Zero K] [Add K] [Mul K] [Star K] [DecidableEq K] [Sub P] {val : K → ℂ} {u : ℝ} (A : Approx K val u)
    {cast : C → K} {castE : C → ℂ} {s : System C P} {mods : Modifiers K P} {modsE : Modifiers ℂ P} {gs : List (ElemFn K P)} {gsE : List (ElemFn ℂ P)}
    {gos : List (OnsiteFn K P)} {gosE : List (OnsiteFn ℂ P)} {maxBuffer maxBufferE : Nat} {S : Nat → Mat C} {SN : Nat → String} {E : Nat → Mat C} {N : Nat → String}
    {posAt : Nat → P} (phase : P → K) (phaseE : P → ℂ) (simple simpleE : Bool) (hsimple : simple = true ∨ simpleE = true → SimpleBonds s.hoppings)
    (h : Prescribed cast s mods gs gos maxBuffer S SN E N posAt) (hE : Prescribed castE s modsE gsE gosE maxBufferE S SN E N posAt) {ε : ℝ} (hε : 0 ≤ ε)
    (hnear : (terms cast phase gos gs S SN E N posAt).Near val ε (terms castE phaseE gosE gsE S SN E N posAt) s.boundaries) {δ : ℝ}
    (hδ : ∀ a i, i < (tableNorbs s.sublattices).getD a 0 →
      ∑ b ∈ Finset.range (tableNorbs s.sublattices).length, ∑ j ∈ Finset.range ((tableNorbs s.sublattices).getD b 0),
        errorBound u ε (terms castE phaseE gosE gsE S SN E N posAt) s.hoppings.blocks s.boundaries a b i j ≤ δ) :
    ∃ m mE, make cast s mods maxBuffer phase simple = .ok m ∧ make castE s modsE maxBufferE phaseE simpleE = .ok mE ∧
      ∀ (U V : Matrix (Fin (Sublat.hamiltonianSize s.sublattices)) (Fin (Sublat.hamiltonianSize s.sublattices)) ℂ) (e eE : Fin (Sublat.hamiltonianSize s.sublattices) → ℝ),
        Eigen (fun i j => val (value m i j)) U e → Eigen (fun i j => coeff mE i j) V eE → Monotone e → Monotone eE → ∀ k, |e k - eE k| ≤ δ := by
  obtain ⟨m, mE, h1, h2, h3⟩ := C98_accuracy A phase phaseE simple simpleE hsimple h hE hε hnear
  refine ⟨m, mE, h1, h2, fun U V e eE hU hV he heE k => weyl hU hV he heE (fun r => ?_) k⟩
  have hr : r.val < (tableNorbs s.sublattices).sum := by rw [← Sublat.hamiltonianSize_eq]; exact r.isLt
  obtain ⟨a, i, hi, hri⟩ := exists_orbital _ _ hr
  have e1 : ∑ c : Fin (Sublat.hamiltonianSize s.sublattices), ‖val (value m r c) - coeff mE r c‖
      = ∑ c ∈ Finset.range (tableNorbs s.sublattices).sum, ‖val (value m r c) - coeff mE r c‖ := by
    rw [← Sublat.hamiltonianSize_eq]
    exact (Finset.sum_range fun c => ‖val (value m r c) - coeff mE r c‖).symm
  refine le_trans (le_of_eq e1) (le_trans ?_ (hδ a i hi))
  · rw [sum_rows]
    refine Finset.sum_le_sum fun b _ => Finset.sum_le_sum fun j hj => ?_
    rw [hri]
    exact h3 a b i j hi (Finset.mem_range.1 hj)

/-! ## The terms of models without modifiers -/

theorem cast_near (F : Format) (z : ℂ) : ‖(F.cast z).1 - z‖ ≤ F.unit * ‖z‖ := F.parts z

theorem mul_cast_near (F : Format) {η : ℝ} (z w : ℂ) (p : F.Cx) (hp : ‖p.1 - w‖ ≤ η * ‖w‖) :
    ‖(F.cast z * p).1 - z * w‖ ≤ ((1 + F.unit) ^ 5 * (1 + η) - 1) * ‖z * w‖ := by
  have hu := F.unit_nonneg
  have h1 : ‖(F.cast z * p).1 - (F.cast z).1 * p.1‖ ≤ ((1 + F.unit) ^ 4 - 1) * (‖(F.cast z).1‖ * ‖p.1‖) := F.mul_near (F.cast z).1 p.1
  have h2 := cast_near F z
  have h3 : ‖(F.cast z).1‖ ≤ (1 + F.unit) * ‖z‖ := by
    have := norm_add_le ((F.cast z).1 - z) z
    rw [sub_add_cancel] at this
    linarith
  have h4 : ‖p.1‖ ≤ (1 + η) * ‖w‖ := by
    have := norm_add_le (p.1 - w) w
    rw [sub_add_cancel] at this
    linarith
  have h5 : ‖(F.cast z).1 * p.1 - z * w‖ ≤ ‖(F.cast z).1‖ * (η * ‖w‖) + F.unit * ‖z‖ * ‖w‖ := by
    have e : (F.cast z).1 * p.1 - z * w = (F.cast z).1 * (p.1 - w) + ((F.cast z).1 - z) * w := by ring
    rw [e]
    refine (norm_add_le _ _).trans ?_
    rw [norm_mul, norm_mul]
    exact add_le_add (mul_le_mul_of_nonneg_left hp (norm_nonneg _)) (mul_le_mul_of_nonneg_right h2 (norm_nonneg _))
  have h6 : ‖(F.cast z * p).1 - z * w‖ ≤ ‖(F.cast z * p).1 - (F.cast z).1 * p.1‖ + ‖(F.cast z).1 * p.1 - z * w‖ := by
    have := norm_add_le ((F.cast z * p).1 - (F.cast z).1 * p.1) ((F.cast z).1 * p.1 - z * w)
    rwa [sub_add_sub_cancel] at this
  rw [norm_mul]
  have hz := norm_nonneg z
  have hw := norm_nonneg w
  have hηw : 0 ≤ η * ‖w‖ := le_trans (norm_nonneg _) hp
  have g : (1 : ℝ) ≤ (1 + F.unit) ^ 4 := one_le_pow₀ (by linarith)
  have q1 : ‖(F.cast z).1‖ * ‖p.1‖ ≤ ((1 + F.unit) * ‖z‖) * ((1 + η) * ‖w‖) := mul_le_mul h3 h4 (norm_nonneg _) (by positivity)
  have q2 : ‖(F.cast z).1‖ * (η * ‖w‖) ≤ ((1 + F.unit) * ‖z‖) * (η * ‖w‖) := mul_le_mul_of_nonneg_right h3 hηw
  have q3 := mul_le_mul_of_nonneg_left q1 (by linarith : 0 ≤ (1 + F.unit) ^ 4 - 1)
  calc _ ≤ ((1 + F.unit) ^ 4 - 1) * (((1 + F.unit) * ‖z‖) * ((1 + η) * ‖w‖)) + (((1 + F.unit) * ‖z‖) * (η * ‖w‖) + F.unit * ‖z‖ * ‖w‖) := by linarith
    _ = _ := by ring

/-- **C98**: without modifiers, the terms have relative errors of at most `(1 + u) ^ 5 (1 + η) - 1`, where `η` is the relative error of the phases (which the code computes in
single precision, whatever the type of the Hamiltonian). -/
theorem C98_terms (F : Format) [Zero C] [Sub P] (energy : C → ℂ) (phase : P → F.Cx) (phaseE : P → ℂ) (bds : List (Boundary P)) {η : ℝ} (hη : 0 ≤ η)
    (hp : ∀ bd ∈ bds, ‖(phase bd.shift).1 - phaseE bd.shift‖ ≤ η * ‖phaseE bd.shift‖) (S : Nat → Mat C) (SN : Nat → String) (E : Nat → Mat C) (N : Nat → String)
    (posAt : Nat → P) :
    (terms (fun z => F.cast (energy z)) phase [] [] S SN E N posAt).Near (fun x => x.1) ((1 + F.unit) ^ 5 * (1 + η) - 1) (terms energy phaseE [] [] S SN E N posAt) bds := by
  have hu := F.unit_nonneg
  have hle : F.unit ≤ (1 + F.unit) ^ 5 * (1 + η) - 1 := by
    have g : (1 : ℝ) ≤ (1 + F.unit) ^ 4 := one_le_pow₀ (by linarith)
    have : (1 + F.unit) * 1 * 1 ≤ (1 + F.unit) * (1 + F.unit) ^ 4 * (1 + η) := by
      apply mul_le_mul _ (by linarith) zero_le_one (by positivity)
      exact mul_le_mul_of_nonneg_left g (by linarith)
    have e : (1 + F.unit) ^ 5 = (1 + F.unit) * (1 + F.unit) ^ 4 := by ring
    rw [e]
    linarith
  have hc : ∀ z : ℂ, ‖(F.cast z).1 - z‖ ≤ ((1 + F.unit) ^ 5 * (1 + η) - 1) * ‖z‖ := fun z => (cast_near F z).trans (mul_le_mul_of_nonneg_right hle (norm_nonneg _))
  exact ⟨fun a i j => hc _, fun f a b i j => hc _, fun bd hb f a b i j => mul_cast_near F _ _ _ (hp bd hb)⟩

/-! ## Examples -/

theorem cast_zero (F : Format) : F.cast 0 = 0 := Format.cx_ext (by show F.fl (0 : ℂ).re = (0 : ℂ).re; simp [F.fl_zero]) (by show F.fl (0 : ℂ).im = (0 : ℂ).im; simp [F.fl_zero])

theorem demo_bounds : ∀ b ∈ demo.boundaries, HopOK demo b.hoppings demoE demoN := by
  intro b hb
  simp only [demo, List.mem_singleton] at hb
  subst hb
  refine ⟨by decide, by decide, by decide, by decide, ?_⟩
  intro fam bl hbl c hc
  match fam, hbl with
  | 0, hbl =>
    simp only [List.getElem?_cons_zero, Option.some.injEq] at hbl
    subst hbl
    simp only [List.mem_singleton] at hc
    subst hc
    constructor <;> rfl
  | 1, hbl =>
    simp only [List.getElem?_cons_succ, List.getElem?_cons_zero, Option.some.injEq] at hbl
    subst hbl
    simp at hc
  | n + 2, hbl => simp at hbl

theorem demo_hermitian : ∀ m ∈ demo.siteRegistry.energies, HermMat m := by
  intro m hm
  simp only [demo, List.mem_cons, List.not_mem_nil, or_false] at hm
  rcases hm with rfl | rfl
  · refine ⟨rfl, fun i j hi hj => ?_⟩
    have hi : i = 0 := Nat.lt_one_iff.1 hi
    have hj : j = 0 := Nat.lt_one_iff.1 hj
    subst hi; subst hj; rfl
  · refine ⟨rfl, fun i j hi hj => ?_⟩
    have hi : i = 0 ∨ i = 1 := by have : i < 2 := hi; omega
    have hj : j = 0 ∨ j = 1 := by have : j < 2 := hj; omega
    rcases hi with rfl | rfl <;> rcases hj with rfl | rfl <;> rfl

theorem demo_sizes : SizesOK demo := by
  intro e he m hm
  simp only [demo, List.mem_cons, List.not_mem_nil, or_false] at he
  rcases he with rfl | rfl
  · cases hm; rfl
  · cases hm; rfl

theorem demo_prescribed [Zero K] {cast : Int → K} (h0 : cast 0 = 0) :
    Prescribed cast demo ⟨[], []⟩ [] [] 2 demoS demoSN demoE demoN (fun k => demo.positions.getD k 0) :=
  ⟨h0, demo_sites, demo_ok, demo_bounds, by decide, by intro fam; match fam with | 0 => decide | n + 1 => exact Nat.le_refl 2, fun _ => .nil, fun _ _ => .nil⟩

/-- In single precision, the system of C49 with a scalar and a 1×2 family of hoppings and a periodic boundary; the phase is rounded too. -/
noncomputable def single : Format := Format.binary 24 (by norm_num)

example (t : ℝ) : ∃ m mE, make (fun z : Int => single.cast z) demo ⟨[], []⟩ 2 (fun _ => single.cast (Complex.exp (Complex.I * t))) true = .ok m ∧
    make (fun z : Int => (z : ℂ)) demo ⟨[], []⟩ 2 (fun _ => Complex.exp (Complex.I * t)) false = .ok mE ∧
    ‖(value m 0 1).1 - coeff mE 0 1‖ ≤ ((1 + 2 ^ (-24 : ℤ)) ^ 8 - 1) * 14 ∧
    ∀ a b, (value m b a).1 = starRingEnd ℂ (value m a b).1 := by
  have hn := C98_terms single (fun z : Int => (z : ℂ)) (fun _ : Int => single.cast (Complex.exp (Complex.I * t))) (fun _ => Complex.exp (Complex.I * t)) demo.boundaries
    single.unit_nonneg (fun _ _ => cast_near _ _) demoS demoSN demoE demoN (fun k => demo.positions.getD k 0)
  have hu : single.unit = (2 : ℝ) ^ (-24 : ℤ) := rfl
  obtain ⟨m, mE, h1, h2, h3⟩ := C98_accuracy (cx_approx single) (fun _ : Int => single.cast (Complex.exp (Complex.I * t))) (fun _ => Complex.exp (Complex.I * t)) true false
    (fun _ => demo_bonds) (demo_prescribed (cast := fun z : Int => single.cast z) (by simp [cast_zero])) (demo_prescribed (by simp))
    (by have := single.unit_nonneg; have : (1 : ℝ) ≤ (1 + single.unit) ^ 5 * (1 + single.unit) := by rw [← pow_succ]; exact one_le_pow₀ (by linarith)
        linarith) hn
  refine ⟨m, mE, h1, h2, ?_, fun a b => ?_⟩
  · have e := h3 0 1 0 0 (by decide) (by decide)
    have f1 : firstRow (tableNorbs demo.sublattices) 0 = 0 := by decide
    have f2 : firstRow (tableNorbs demo.sublattices) 1 = 1 := by decide
    rw [f1, f2] at e
    refine e.trans (le_of_eq ?_)
    unfold errorBound
    have b1 : bondsBetween demo.hoppings.blocks demo.boundaries 0 1 = 2 := by decide
    rw [b1, hu]
    have hz : ‖Complex.exp (Complex.I * t)‖ = 1 := by rw [mul_comm, Complex.norm_exp_ofReal_mul_I]
    have b2 : ((terms (fun z : Int => (z : ℂ)) (fun _ : Int => Complex.exp (Complex.I * t)) [] [] demoS demoSN demoE demoN fun k => demo.positions.getD k 0).map fun z => ‖z‖).element
        demo.hoppings.blocks demo.boundaries 0 1 0 0 = 14 := by
      have b3 : entry (demoE 0) 0 0 = 7 := rfl
      simp [Terms.element, Terms.map, terms, bondSum, demo, finalEnergy, b3, hz]
      norm_num
    rw [b2]
    ring
  · exact (C98_hermitian_complex single (fun z : Int => (z : ℂ)) (fun z => by simp) demo ⟨[], []⟩ 2 _ true (by simp) demo_hermitian demo_sizes m h1 a b).1

/-- The same system with real numbers in double precision, without a phase. -/
noncomputable def double : Format := Format.binary 53 (by norm_num)

example : ∃ m, make (fun z : Int => double.castReal z) demo ⟨[], []⟩ 2 (fun _ => double.castReal 1) true = .ok m ∧ ∀ a b, value m b a = value m a b := by
  have h := demo_prescribed (cast := fun z : Int => double.castReal z) (Subtype.ext (by show double.fl ((0 : Int) : ℂ).re = 0; simp [double.fl_zero]))
  obtain ⟨m, h1, -, -⟩ := make_vals (fun z : Int => double.castReal z) demo ⟨[], []⟩ [] [] 2 (fun _ => double.castReal 1) demoS demoSN demoE demoN
    (fun k => demo.positions.getD k 0) true (rl_approx double).zero_mul h.zero h.sites h.main h.bounds (fun _ => demo_bonds) h.pos h.buffer h.chain h.onsite
  exact ⟨m, h1, fun a b => C98_hermitian_real double (fun z : Int => (z : ℂ)) (fun z => by simp) demo ⟨[], []⟩ 2 _ true (by simp) demo_hermitian demo_sizes m h1 a b⟩

/-- The eigenvalues of the first example, with some bound for all rows. -/
example (t : ℝ) : ∃ δ m mE, make (fun z : Int => single.cast z) demo ⟨[], []⟩ 2 (fun _ => single.cast (Complex.exp (Complex.I * t))) true = .ok m ∧
    make (fun z : Int => (z : ℂ)) demo ⟨[], []⟩ 2 (fun _ => Complex.exp (Complex.I * t)) false = .ok mE ∧
    ∀ (U V : Matrix (Fin 4) (Fin 4) ℂ) (e eE : Fin 4 → ℝ), Eigen (fun i j => (value m i j).1) U e → Eigen (fun i j => coeff mE i j) V eE → Monotone e → Monotone eE →
      ∀ k, |e k - eE k| ≤ δ := by
  have hn := C98_terms single (fun z : Int => (z : ℂ)) (fun _ : Int => single.cast (Complex.exp (Complex.I * t))) (fun _ => Complex.exp (Complex.I * t)) demo.boundaries
    single.unit_nonneg (fun _ _ => cast_near _ _) demoS demoSN demoE demoN (fun k => demo.positions.getD k 0)
  have hu := single.unit_nonneg
  have hε : (0 : ℝ) ≤ (1 + single.unit) ^ 5 * (1 + single.unit) - 1 := by
    have : (1 : ℝ) ≤ (1 + single.unit) ^ 5 * (1 + single.unit) := by rw [← pow_succ]; exact one_le_pow₀ (by linarith)
    linarith
  let rows (a i : Nat) : ℝ := ∑ b ∈ Finset.range (tableNorbs demo.sublattices).length, ∑ j ∈ Finset.range ((tableNorbs demo.sublattices).getD b 0),
    errorBound single.unit ((1 + single.unit) ^ 5 * (1 + single.unit) - 1)
      (terms (fun z : Int => (z : ℂ)) (fun _ : Int => Complex.exp (Complex.I * t)) [] [] demoS demoSN demoE demoN fun k => demo.positions.getD k 0)
      demo.hoppings.blocks demo.boundaries a b i j
  refine ⟨max (rows 0 0) (max (rows 1 0) (max (rows 2 0) (rows 2 1))), C98_eigenvalues (cx_approx single) (fun _ : Int => single.cast (Complex.exp (Complex.I * t)))
    (fun _ => Complex.exp (Complex.I * t)) true false (fun _ => demo_bonds) (demo_prescribed (cast := fun z : Int => single.cast z) (by simp [cast_zero]))
    (demo_prescribed (by simp)) hε hn ?_⟩
  intro a i hi
  show rows a i ≤ _
  have hd : tableNorbs demo.sublattices = [1, 1, 2] := by decide
  rw [hd] at hi
  match a, hi with
  | 0, hi =>
    have : i = 0 := Nat.lt_one_iff.1 hi
    subst this; exact le_max_left _ _
  | 1, hi =>
    have : i = 0 := Nat.lt_one_iff.1 hi
    subst this; exact (le_max_left _ _).trans (le_max_right _ _)
  | 2, hi =>
    have : i = 0 ∨ i = 1 := by have : i < 2 := hi; omega
    rcases this with rfl | rfl
    · exact (le_max_left _ _).trans ((le_max_right _ _).trans (le_max_right _ _))
    · exact (le_max_right _ _).trans ((le_max_right _ _).trans (le_max_right _ _))
  | a + 3, hi => simp at hi

/-! ## Phases -/

theorem single_grid {x : ℝ} (h1 : 1 / 2 ≤ x) (h2 : x < 1) (hx : nearest 24 x = x) : ∃ k : ℤ, x = k * (2 : ℝ) ^ (-24 : ℤ) := by
  have h0 : 0 < x := by linarith
  unfold nearest at hx
  rw [if_neg h0.le.not_gt] at hx
  have hlog : Int.log 2 x = -1 := by
    apply le_antisymm
    · have := (Int.lt_zpow_iff_log_lt (b := 2) (by norm_num) (x := 0) h0).1 (by simpa using h2)
      omega
    · exact (Int.zpow_le_iff_le_log (b := 2) (by norm_num) h0).1 (by norm_num; linarith)
  unfold Kpm.Float.binary at hx
  rw [if_neg h0.ne', abs_of_pos h0, hlog] at hx
  exact ⟨_, hx.symm⟩

/-- **C98**: phases are computed from `std::complex<float>` and `Vector3f`, so the accuracy of double precision is not reached with wave vectors: no number of single
precision is within `2 ^ -27` of the phase `exp(i π / 4)`, hence no computed phase has a relative error `η` below that (in C98_terms), even if the Hamiltonian is made of
`std::complex<double>`. -/
theorem C98_phase_single (p : single.Cx) : (2 : ℝ) ^ (-27 : ℤ) ≤ ‖p.1 - Complex.exp (Complex.I * (Real.pi / 4 : ℝ))‖ := by
  by_contra hc
  rw [not_le] at hc
  have hre : (Complex.exp (Complex.I * (Real.pi / 4 : ℝ))).re = Real.sqrt 2 / 2 := by
    rw [mul_comm, Complex.exp_ofReal_mul_I_re, Real.cos_pi_div_four]
  have h1 := (Complex.abs_re_le_norm (p.1 - Complex.exp (Complex.I * (Real.pi / 4 : ℝ)))).trans_lt hc
  rw [Complex.sub_re, hre] at h1
  obtain ⟨h2, h3⟩ := abs_lt.1 h1
  have s0 : (0 : ℝ) ≤ Real.sqrt 2 := Real.sqrt_nonneg 2
  have s1 : Real.sqrt 2 * Real.sqrt 2 = 2 := Real.mul_self_sqrt (by norm_num)
  have e27 : (2 : ℝ) ^ (-27 : ℤ) = 1 / 134217728 := by norm_num
  have e24 : (2 : ℝ) ^ (-24 : ℤ) = 1 / 16777216 := by norm_num
  rw [e27] at h2 h3
  have lo : (1.4 : ℝ) ≤ Real.sqrt 2 := Real.le_sqrt_of_sq_le (by norm_num)
  have hi : Real.sqrt 2 ≤ 1.5 := by rw [Real.sqrt_le_left (by norm_num)]; norm_num
  obtain ⟨k, hk⟩ := single_grid (x := p.1.re) (by linarith) (by linarith) p.2.1
  rw [hk, e24] at h2 h3
  rcases le_or_gt k 11863283 with h | h
  · have hk' : (k : ℝ) ≤ 11863283 := by exact_mod_cast h
    have : Real.sqrt 2 < 11863283.125 / 8388608 := by linarith
    nlinarith
  · have hk' : (11863284 : ℝ) ≤ k := by exact_mod_cast h
    have : 11863283.875 / 8388608 < Real.sqrt 2 := by linarith
    nlinarith

end Verif.Hamiltonian
