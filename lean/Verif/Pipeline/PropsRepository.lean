import Verif.Pipeline.PropsPrimitive
import Verif.Pipeline.RepositoryRun
import Mathlib.LinearAlgebra.Matrix.ToLinearEquiv
import Mathlib.LinearAlgebra.Matrix.Notation
import Mathlib.Tactic.LinearCombination
import Mathlib.Tactic.FieldSimp

/-!
# Property C89: the bands of the materials of the repository
-/

namespace Verif.Pipeline.Repository

open Verif.Lattice (CellSite Sublattice HoppingFamily HoppingTerm Registry optimizedUnitCell)
open Verif.Lattice.Lattice (run empty allTerms)
open Verif.Sublat (hamiltonianSize)
open Verif.Hamiltonian Verif.Pipeline

/-- `pb.Model(lattice, pb.translational_symmetry())` can be built, and at the wave vector `k` the eigenvalues of its
Hamiltonian are exactly the numbers with the property `bands` (for every iteration order of the maps of the lattice, any
positions, both build paths and any size of the buffer which holds one hopping matrix). -/
def HasBands (calls : List Call) {n : Nat} (a : Fin n → Vec3) (k : Vec3) (bands : ℂ → Prop) : Prop :=
  ∀ (subs : List (String × Sublattice ℂ Vec3)) (hops : List (String × HoppingFamily ℂ)),
    subs.Perm (run calls empty).subs → hops.Perm (run calls empty).hops →
    ∀ (x0 : Nat → Vec3) (maxBuffer : Nat) (simple : Bool), 9 ≤ maxBuffer →
    ∃ cell s, optimizedUnitCell subs hops = .ok cell ∧
      Made calls subs hops a cell x0 ⟨1, 1, 1⟩ (primitivePeriods n) (List.replicate subs.length true) s ∧
      ∃ m, make (id : ℂ → ℂ) s ⟨[], []⟩ maxBuffer (bloch k) simple = .ok m ∧
        ∀ E, IsEigenvalue (hamiltonianSize s.sublattices) m E ↔ bands E

theorem hasBands {calls : List Call} {n : Nat} {a : Fin n → Vec3} {k : Vec3} {bands : ℂ → Prop}
    (ha : AliasesOK (run calls empty)) (hne : (run calls empty).subs ≠ [])
    (hdim : ∀ q ∈ allTerms (run calls empty).hops, IsPeriod (primitivePeriods n) q.2.rel)
    (hsize : ∀ q ∈ (run calls empty).hops, q.2.energy.size ≤ 9)
    (h : ∀ E, IsBand (run calls empty) id a k E ↔ bands E) : HasBands calls a k bands := by
  intro subs hops hs hh x0 maxBuffer simple hb
  obtain ⟨cell, s, h1, h2, h3⟩ := C88_bloch calls subs hops hs hh ha a
    (fun e => hne (by rw [e] at hs; exact hs.nil_eq.symm)) x0 hdim id rfl maxBuffer simple
    (fun q hq => (hsize q (hh.mem_iff.1 hq)).trans hb)
  obtain ⟨m, h4, h5⟩ := h3 k
  exact ⟨cell, s, h1, h2, m, h4, fun E => (h5 E).trans (h E)⟩

/-! ## Phases -/

theorem dot_shift2 (a : Fin 2 → Vec3) (k : Vec3) (x y z : Int) :
    k ⬝ᵥ shiftVec a ⟨x, y, z⟩ = x * (k ⬝ᵥ a 0) + y * (k ⬝ᵥ a 1) := by
  unfold shiftVec
  rw [Fin.sum_univ_two, dotProduct_add, dotProduct_smul, dotProduct_smul]
  simp [Index3.comp]

/-- `exp(iθ)`. -/
noncomputable def cis (θ : ℝ) : ℂ := Complex.exp (Complex.I * (θ : ℂ))

theorem cis_neg (θ : ℝ) : Complex.exp (-(Complex.I * (θ : ℂ))) = cis (-θ) := by
  unfold cis
  congr 1
  push_cast
  ring

theorem cis_add (x y : ℝ) : cis (x + y) = cis x * cis y := by
  unfold cis
  rw [← Complex.exp_add]
  congr 1
  push_cast
  ring

theorem cis_zero : cis 0 = 1 := by simp [cis]

theorem cis_cos (x : ℝ) : cis x + cis (-x) = 2 * (Real.cos x : ℂ) := by
  unfold cis
  rw [Complex.ofReal_cos, Complex.two_cos, mul_comm Complex.I, mul_comm Complex.I]
  push_cast
  rfl

theorem cis_mul_neg (x : ℝ) : cis x * cis (-x) = 1 := by rw [← cis_add, add_neg_cancel, cis_zero]

theorem star_cis (x : ℝ) : star (cis x) = cis (-x) := by
  unfold cis
  rw [Complex.star_def, ← Complex.exp_conj, map_mul, Complex.conj_I, Complex.conj_ofReal]
  push_cast
  congr 1
  ring

theorem cis_ne_zero (x : ℝ) : cis x ≠ 0 := Complex.exp_ne_zero _

theorem cis_inv (x : ℝ) : cis (-x) = (cis x)⁻¹ := eq_inv_of_mul_eq_one_right (cis_mul_neg x)

theorem cis_zpow (x : ℝ) (n : Int) : cis (n * x) = cis x ^ n := by
  unfold cis
  rw [← Complex.exp_int_mul]
  congr 1
  push_cast
  ring

theorem phase2 (a : Fin 2 → Vec3) (k : Vec3) (x y z : Int) :
    Complex.exp (Complex.I * ((k ⬝ᵥ shiftVec a ⟨x, y, z⟩ : ℝ) : ℂ)) = cis (k ⬝ᵥ a 0) ^ x * cis (k ⬝ᵥ a 1) ^ y := by
  rw [dot_shift2, ← cis_zpow, ← cis_zpow, ← cis_add]
  rfl

theorem phase2_neg (a : Fin 2 → Vec3) (k : Vec3) (x y z : Int) :
    Complex.exp (-(Complex.I * ((k ⬝ᵥ shiftVec a ⟨x, y, z⟩ : ℝ) : ℂ))) = cis (k ⬝ᵥ a 0) ^ (-x) * cis (k ⬝ᵥ a 1) ^ (-y) := by
  rw [Complex.exp_neg, phase2, mul_inv, zpow_neg, zpow_neg]

theorem cos_cis (x : ℝ) : ((Real.cos x : ℝ) : ℂ) = (cis x + (cis x)⁻¹) / 2 := by
  rw [← cis_inv, cis_cos]
  ring

/-- A system of two equations has a solution which is not zero exactly if its determinant vanishes. -/
theorem two_band (α β f g E : ℂ) :
    (∃ u v : ℂ, (u ≠ 0 ∨ v ≠ 0) ∧ α * u + f * v = E * u ∧ g * u + β * v = E * v) ↔ (E - α) * (E - β) = f * g := by
  constructor
  · rintro ⟨u, v, h, h1, h2⟩
    rcases h with h | h
    · apply mul_right_cancel₀ h
      linear_combination (β - E) * h1 - f * h2
    · apply mul_right_cancel₀ h
      linear_combination (-g) * h1 + (α - E) * h2
  · intro h
    by_cases hf : f = 0
    · subst hf
      rw [zero_mul, mul_eq_zero] at h
      by_cases hβ : E - β = 0
      · exact ⟨0, 1, Or.inr one_ne_zero, by ring, by linear_combination -hβ⟩
      · have hα : E - α = 0 := by
          rcases h with h | h
          · exact h
          · exact absurd h hβ
        refine ⟨E - β, g, Or.inl hβ, by linear_combination (-(E - β)) * hα, by ring⟩
    · exact ⟨f, E - α, Or.inl hf, by ring, by linear_combination -h⟩

/-- What the bands of a lattice with two sublattices of one orbital are. -/
theorem isBand_two {n : Nat} {l : Lattice.Lattice ℂ Vec3} {a : Fin n → Vec3} {k : Vec3} (hl : l.subs.length = 2) (h0 : orbitals l 0 = 1)
    (h1 : orbitals l 1 = 1) (α β f g : ℂ)
    (hr0 : ∀ u, blochRow l id a k u 0 0 = α * u 0 0 + f * u 1 0) (hr1 : ∀ u, blochRow l id a k u 1 0 = g * u 0 0 + β * u 1 0)
    (E : ℂ) : IsBand l id a k E ↔ (E - α) * (E - β) = f * g := by
  rw [← two_band]
  constructor
  · rintro ⟨u, ⟨i, j, hi, hj, hu⟩, h⟩
    refine ⟨u 0 0, u 1 0, ?_, ?_, ?_⟩
    · rw [hl] at hi
      have : i = 0 ∨ i = 1 := by omega
      rcases this with rfl | rfl
      · rw [h0] at hj
        have : j = 0 := by omega
        subst this
        exact Or.inl hu
      · rw [h1] at hj
        have : j = 0 := by omega
        subst this
        exact Or.inr hu
    · rw [← hr0, h 0 0 (by omega) (by omega)]
    · rw [← hr1, h 1 0 (by omega) (by omega)]
  · rintro ⟨x, y, hne, e0, e1⟩
    refine ⟨fun i _ => if i = 0 then x else y, ?_, ?_⟩
    · rcases hne with hne | hne
      · exact ⟨0, 0, by omega, by omega, by simpa using hne⟩
      · exact ⟨1, 0, by omega, by omega, by simpa using hne⟩
    · intro i j hi hj
      rw [hl] at hi
      have : i = 0 ∨ i = 1 := by omega
      rcases this with rfl | rfl
      · rw [h0] at hj
        have : j = 0 := by omega
        subst this
        rw [hr0]
        simpa using e0
      · rw [h1] at hj
        have : j = 0 := by omega
        subst this
        rw [hr1]
        simpa using e1

/-- What the bands of a lattice whose sublattices have one orbital are. -/
theorem isBand_scalar {n N : Nat} {l : Lattice.Lattice ℂ Vec3} {a : Fin n → Vec3} {k : Vec3} (hl : l.subs.length = N)
    (ho : ∀ α, α < N → orbitals l α = 1) (H : Matrix (Fin N) (Fin N) ℂ)
    (hr : ∀ (u : Nat → Nat → ℂ) (i : Fin N), blochRow l id a k u i 0 = ∑ j, H i j * u j 0) (E : ℂ) :
    IsBand l id a k E ↔ (E • (1 : Matrix (Fin N) (Fin N) ℂ) - H).det = 0 := by
  rw [← Matrix.exists_mulVec_eq_zero_iff]
  have hmul : ∀ (v : Fin N → ℂ) i, ((E • (1 : Matrix (Fin N) (Fin N) ℂ) - H).mulVec v) i = E * v i - ∑ j, H i j * v j := by
    intro v i
    rw [Matrix.sub_mulVec, Matrix.smul_mulVec, Matrix.one_mulVec]
    rfl
  constructor
  · rintro ⟨u, ⟨i, j, hi, hj, hu⟩, h⟩
    refine ⟨fun i => u i 0, ?_, ?_⟩
    · intro h0
      rw [hl] at hi
      rw [ho i hi] at hj
      have : j = 0 := by omega
      subst this
      exact hu (congrFun h0 ⟨i, hi⟩)
    · funext i
      rw [hmul]
      have := h i 0 (by rw [hl]; exact i.2) (by rw [ho i i.2]; omega)
      rw [hr] at this
      rw [this, sub_self]
      rfl
  · rintro ⟨v, hv, h⟩
    obtain ⟨i0, hi0⟩ := Function.ne_iff.1 hv
    let u : Nat → Nat → ℂ := fun i _ => if h : i < N then v ⟨i, h⟩ else 0
    have hu : ∀ i : Fin N, u i 0 = v i := fun i => dif_pos i.2
    refine ⟨u, ⟨i0, 0, by rw [hl]; exact i0.2, by rw [ho i0 i0.2]; omega, by rw [hu]; exact hi0⟩, ?_⟩
    intro i j hi hj
    rw [hl] at hi
    rw [ho i hi] at hj
    have : j = 0 := by omega
    subst this
    have h2 := congrFun h ⟨i, hi⟩
    rw [hmul] at h2
    have h3 := hr u ⟨i, hi⟩
    simp only [hu] at h3
    rw [show blochRow l id a k u i 0 = _ from h3, show u i 0 = v ⟨i, hi⟩ from dif_pos hi]
    exact (sub_eq_zero.1 h2).symm

/-! ## Monolayer graphene -/

/-- Wallace's function of the wave vector: `3 + 2 cos(a kₓ) + 4 cos(a kₓ/2) cos(√3 a k_y/2)`. -/
noncomputable def wallace (k : Vec3) : ℝ :=
  3 + 2 * Real.cos (a * k 0) + 4 * Real.cos (a * k 0 / 2) * Real.cos (√3 * a * k 1 / 2)

theorem wallace_sum (k : Vec3) : wallace k
    = 3 + 2 * Real.cos (k ⬝ᵥ monolayerVectors 0) + 2 * Real.cos (k ⬝ᵥ monolayerVectors 1)
      + 2 * Real.cos (k ⬝ᵥ monolayerVectors 0 - k ⬝ᵥ monolayerVectors 1) := by
  have e0 : k ⬝ᵥ monolayerVectors 0 = a * k 0 := by
    simp [monolayerVectors, dotProduct, Fin.sum_univ_three]
    ring
  have e1 : k ⬝ᵥ monolayerVectors 1 = a * k 0 / 2 + √3 * a * k 1 / 2 := by
    simp [monolayerVectors, dotProduct, Fin.sum_univ_three]
    ring
  have e2 : k ⬝ᵥ monolayerVectors 0 - k ⬝ᵥ monolayerVectors 1 = a * k 0 / 2 - √3 * a * k 1 / 2 := by
    rw [e0, e1]; ring
  rw [e2, e0, e1, Real.cos_add, Real.cos_sub]
  unfold wallace
  ring

theorem wallace_cis (k : Vec3) : ((wallace k : ℝ) : ℂ)
    = (1 + (cis (k ⬝ᵥ monolayerVectors 0))⁻¹ * cis (k ⬝ᵥ monolayerVectors 1) + cis (k ⬝ᵥ monolayerVectors 1))
      * (1 + cis (k ⬝ᵥ monolayerVectors 0) * (cis (k ⬝ᵥ monolayerVectors 1))⁻¹ + (cis (k ⬝ᵥ monolayerVectors 1))⁻¹) := by
  rw [wallace_sum]
  push_cast
  rw [← Complex.ofReal_cos, ← Complex.ofReal_cos, ← Complex.ofReal_sub, ← Complex.ofReal_cos]
  rw [cos_cis, cos_cis, cos_cis, sub_eq_add_neg, cis_add, cis_inv]
  have h0 := cis_ne_zero (k ⬝ᵥ monolayerVectors 0)
  have h1 := cis_ne_zero (k ⬝ᵥ monolayerVectors 1)
  field_simp
  ring

theorem two_sublattices {l : Lattice.Lattice ℂ Vec3} (h : ∀ q ∈ l.subs, q.2.aliasId = q.2.uniqueId) : AliasesOK l where
  last i j p q hp _ hne := absurd (h p (List.mem_of_getElem? hp)) hne
  root p _ q hq := h q (List.mem_of_getElem? hq)

/-- The sum of `exp(-i k·δ)` over the vectors from a site of sublattice A to its three neighbours. -/
noncomputable def nearest (k : Vec3) : ℂ :=
  cis (-(k ⬝ᵥ ![0, aCC, 0])) + cis (-(k ⬝ᵥ ![a / 2, aCC - √3 * a / 2, 0])) + cis (-(k ⬝ᵥ ![-a / 2, aCC - √3 * a / 2, 0]))

/-- The sum of `exp(-i k·δ)` over the vectors from a site of sublattice A to its three third nearest neighbours. -/
noncomputable def thirdNearest (k : Vec3) : ℂ :=
  cis (-(k ⬝ᵥ ![0, aCC - √3 * a, 0])) + cis (-(k ⬝ᵥ ![a, aCC, 0])) + cis (-(k ⬝ᵥ ![-a, aCC, 0]))

theorem dot_nearest (k : Vec3) (x y : ℝ) (m n : Int) (hx : x = m * a + n * (a / 2)) (hy : y = n * (a / 2 * √3)) :
    cis (-(k ⬝ᵥ ![x, aCC + y, 0]))
      = cis (-(k ⬝ᵥ ![0, aCC, 0])) * (cis (k ⬝ᵥ monolayerVectors 0) ^ (-m) * cis (k ⬝ᵥ monolayerVectors 1) ^ (-n)) := by
  rw [← cis_zpow, ← cis_zpow, ← cis_add, ← cis_add]
  congr 1
  subst hx hy
  simp [monolayerVectors, dotProduct, Fin.sum_univ_three]
  ring

theorem nearest_eq (k : Vec3) : nearest k = cis (-(k ⬝ᵥ ![0, aCC, 0]))
    * (1 + (cis (k ⬝ᵥ monolayerVectors 0))⁻¹ * cis (k ⬝ᵥ monolayerVectors 1) + cis (k ⬝ᵥ monolayerVectors 1)) := by
  have h1 := dot_nearest k (a / 2) (-(√3 * a / 2)) 1 (-1) (by push_cast; ring) (by push_cast; ring)
  have h2 := dot_nearest k (-a / 2) (-(√3 * a / 2)) 0 (-1) (by push_cast; ring) (by push_cast; ring)
  rw [← sub_eq_add_neg] at h1 h2
  unfold nearest
  rw [h1, h2]
  simp only [neg_neg, zpow_one, zpow_neg, neg_zero, zpow_zero]
  ring

theorem thirdNearest_eq (k : Vec3) : thirdNearest k = cis (-(k ⬝ᵥ ![0, aCC, 0]))
    * ((cis (k ⬝ᵥ monolayerVectors 0))⁻¹ * cis (k ⬝ᵥ monolayerVectors 1) ^ 2 + (cis (k ⬝ᵥ monolayerVectors 0))⁻¹
      + cis (k ⬝ᵥ monolayerVectors 0)) := by
  have h1 := dot_nearest k 0 (-(√3 * a)) 1 (-2) (by push_cast; ring) (by push_cast; ring)
  have h2 := dot_nearest k a 0 1 0 (by push_cast; ring) (by push_cast; ring)
  have h3 := dot_nearest k (-a) 0 (-1) 0 (by push_cast; ring) (by push_cast; ring)
  rw [← sub_eq_add_neg] at h1
  rw [add_zero] at h2 h3
  unfold thirdNearest
  rw [h1, h2, h3]
  have e : cis (k ⬝ᵥ monolayerVectors 1) ^ (- (-2 : Int)) = cis (k ⬝ᵥ monolayerVectors 1) ^ 2 := by
    rw [show (- (-2 : Int)) = ((2 : Nat) : Int) by rfl, zpow_natCast]
  rw [e]
  simp only [neg_neg, zpow_one, zpow_neg, neg_zero, zpow_zero]
  ring

theorem norm_cis (x : ℝ) : ‖cis x‖ = 1 := by
  unfold cis
  rw [mul_comm, Complex.norm_exp_ofReal_mul_I]

theorem norm_sq_eq (z : ℂ) : ((‖z‖ ^ 2 : ℝ) : ℂ) = z * star z := by
  rw [Complex.star_def, Complex.mul_conj, Complex.normSq_eq_norm_sq]

/-- The square of the modulus of the sum over the neighbours is the function of Wallace. -/
theorem nearest_norm (k : Vec3) : ‖nearest k‖ ^ 2 = wallace k := by
  rw [nearest_eq, norm_mul, norm_cis, one_mul]
  apply Complex.ofReal_injective
  rw [norm_sq_eq, wallace_cis]
  congr 1
  simp only [star_add, star_mul', star_one, star_inv₀, star_cis, cis_inv, inv_inv]

/-- The solutions of a quadratic equation with real coefficients and `w ≥ 0`. -/
theorem two_levels (α β w : ℝ) (hw : 0 ≤ w) (E : ℂ) : (E - α) * (E - β) = (w : ℂ) ↔
    E = (((α + β) / 2 + √(((α - β) / 2) ^ 2 + w) : ℝ) : ℂ) ∨ E = (((α + β) / 2 - √(((α - β) / 2) ^ 2 + w) : ℝ) : ℂ) := by
  have hs : √(((α - β) / 2) ^ 2 + w) ^ 2 = ((α - β) / 2) ^ 2 + w := Real.sq_sqrt (by positivity)
  have hs' : ((√(((α - β) / 2) ^ 2 + w) : ℝ) : ℂ) ^ 2 = ((α - β) / 2) ^ 2 + w := by
    rw [← Complex.ofReal_pow, hs]
    push_cast
    ring
  generalize √(((α - β) / 2) ^ 2 + w) = d at hs'
  push_cast
  constructor
  · intro h
    have : (E - ((α + β) / 2 + d)) * (E - ((α + β) / 2 - d)) = 0 := by linear_combination h - hs'
    rcases mul_eq_zero.1 this with h | h
    · exact Or.inl (sub_eq_zero.1 h)
    · exact Or.inr (sub_eq_zero.1 h)
  · rintro (h | h) <;> rw [h] <;> linear_combination hs'

theorem no_aliases {l : Lattice.Lattice ℂ Vec3} (h : ∀ q ∈ l.subs, q.2.aliasId = q.2.uniqueId) : AliasesOK l where
  last i j p q hp _ hne := absurd (h p (List.mem_of_getElem? hp)) hne
  root p _ q hq := h q (List.mem_of_getElem? hq)

/-- The calls of `graphene.monolayer` and what they make of the Bloch matrix. -/
theorem monolayer_bands (neighbors : Int) (hn : neighbors ≤ 3) (onsite : ℝ × ℝ) (t : ℂ) (tNN : ℝ) (tNNN : ℂ) :
    ∃ calls, monolayer neighbors onsite t tNN tNNN = .ok calls ∧
      ∀ k, HasBands calls monolayerVectors k fun E =>
        (E - ((onsite.1 + (if neighbors < 2 then 0 else tNN * wallace k) : ℝ) : ℂ))
          * (E - ((onsite.2 + (if neighbors < 2 then 0 else tNN * wallace k) : ℝ) : ℂ))
          = ((‖t * nearest k + (if neighbors < 3 then 0 else tNNN * thirdNearest k)‖ ^ 2 : ℝ) : ℂ) := by
  have hcases : neighbors < 2 ∨ neighbors = 2 ∨ neighbors = 3 := by omega
  have key : ∀ (k : Vec3) (x : ℂ), ((‖t * nearest k + x * thirdNearest k‖ ^ 2 : ℝ) : ℂ)
      = (t * (1 + (cis (k ⬝ᵥ monolayerVectors 0))⁻¹ * cis (k ⬝ᵥ monolayerVectors 1) + cis (k ⬝ᵥ monolayerVectors 1))
          + x * ((cis (k ⬝ᵥ monolayerVectors 0))⁻¹ * cis (k ⬝ᵥ monolayerVectors 1) ^ 2 + (cis (k ⬝ᵥ monolayerVectors 0))⁻¹
            + cis (k ⬝ᵥ monolayerVectors 0)))
        * (star t * (1 + cis (k ⬝ᵥ monolayerVectors 0) * (cis (k ⬝ᵥ monolayerVectors 1))⁻¹ + (cis (k ⬝ᵥ monolayerVectors 1))⁻¹)
          + star x * (cis (k ⬝ᵥ monolayerVectors 0) * (cis (k ⬝ᵥ monolayerVectors 1))⁻¹ ^ 2 + cis (k ⬝ᵥ monolayerVectors 0)
            + (cis (k ⬝ᵥ monolayerVectors 0))⁻¹)) := by
    intro k x
    rw [nearest_eq, thirdNearest_eq, ← mul_assoc, ← mul_assoc, mul_comm t, mul_comm x, mul_assoc, mul_assoc, ← mul_add, norm_mul,
      norm_cis, one_mul, norm_sq_eq]
    congr 1
    simp only [star_add, star_mul', star_one, star_inv₀, star_cis, cis_inv, inv_inv, star_pow]
  rcases hcases with h | rfl | rfl
  · obtain ⟨calls, h1, h2⟩ := run_monolayer1 neighbors h onsite t tNN tNNN
    refine ⟨calls, h1, fun k => hasBands ?_ ?_ ?_ ?_ ?_⟩
    · rw [h2]
      exact no_aliases (by simp)
    · rw [h2]; simp
    · rw [h2]; simp [allTerms]; decide
    · rw [h2]; simp [Mat.size, Mat.scalar]
    · intro E
      rw [h2, if_pos h, if_pos (by omega), show (0 : ℂ) = 0 * thirdNearest k by ring, key]
      set z0 := cis (k ⬝ᵥ monolayerVectors 0) with e0
      set z1 := cis (k ⬝ᵥ monolayerVectors 1) with e1
      rw [isBand_two (by rfl) (by rfl) (by rfl) ((onsite.1 + 0 : ℝ) : ℂ) ((onsite.2 + 0 : ℝ) : ℂ)
        (t * (1 + z0⁻¹ * z1 + z1)) (star t * (1 + z0 * z1⁻¹ + z1⁻¹))]
      · simp only [zero_mul, star_zero, add_zero]
      · intro u
        simp [blochRow, orbitals, onsiteOf, entry, Mat.scalar, phase2, phase2_neg, ← e0, ← e1]
        ring
      · intro u
        simp [blochRow, orbitals, onsiteOf, entry, Mat.scalar, phase2, phase2_neg, ← e0, ← e1]
        ring
  · obtain ⟨calls, h1, h2⟩ := run_monolayer2 onsite t tNN tNNN
    refine ⟨calls, h1, fun k => hasBands ?_ ?_ ?_ ?_ ?_⟩
    · rw [h2]
      exact no_aliases (by simp)
    · rw [h2]; simp
    · rw [h2]; simp [allTerms]; decide
    · rw [h2]; simp [Mat.size, Mat.scalar]
    · intro E
      rw [h2, if_neg (by omega), if_pos (by omega), show (0 : ℂ) = 0 * thirdNearest k by ring, key]
      have hw := wallace_cis k
      have hz0 := cis_ne_zero (k ⬝ᵥ monolayerVectors 0)
      have hz1 := cis_ne_zero (k ⬝ᵥ monolayerVectors 1)
      set z0 := cis (k ⬝ᵥ monolayerVectors 0) with e0
      set z1 := cis (k ⬝ᵥ monolayerVectors 1) with e1
      have hd : (tNN : ℂ) * wallace k = 3 * tNN + tNN * (z1 + z1⁻¹ + z0⁻¹ * z1 + z0 * z1⁻¹ + z0⁻¹ + z0) := by
        rw [hw]; field_simp; ring
      rw [isBand_two (by rfl) (by rfl) (by rfl) ((onsite.1 + tNN * wallace k : ℝ) : ℂ) ((onsite.2 + tNN * wallace k : ℝ) : ℂ)
        (t * (1 + z0⁻¹ * z1 + z1)) (star t * (1 + z0 * z1⁻¹ + z1⁻¹))]
      · simp only [zero_mul, star_zero, add_zero]
      · intro u
        push_cast
        rw [hd]
        simp [blochRow, orbitals, onsiteOf, entry, Mat.scalar, phase2, phase2_neg, ← e0, ← e1]
        ring
      · intro u
        push_cast
        rw [hd]
        simp [blochRow, orbitals, onsiteOf, entry, Mat.scalar, phase2, phase2_neg, ← e0, ← e1]
        ring
  · obtain ⟨calls, h1, h2⟩ := run_monolayer3 onsite t tNN tNNN
    refine ⟨calls, h1, fun k => hasBands ?_ ?_ ?_ ?_ ?_⟩
    · rw [h2]
      exact no_aliases (by simp)
    · rw [h2]; simp
    · rw [h2]; simp [allTerms]; decide
    · rw [h2]; simp [Mat.size, Mat.scalar]
    · intro E
      rw [h2, if_neg (by omega), if_neg (by omega), key]
      have hw := wallace_cis k
      have hz0 := cis_ne_zero (k ⬝ᵥ monolayerVectors 0)
      have hz1 := cis_ne_zero (k ⬝ᵥ monolayerVectors 1)
      set z0 := cis (k ⬝ᵥ monolayerVectors 0) with e0
      set z1 := cis (k ⬝ᵥ monolayerVectors 1) with e1
      have hd : (tNN : ℂ) * wallace k = 3 * tNN + tNN * (z1 + z1⁻¹ + z0⁻¹ * z1 + z0 * z1⁻¹ + z0⁻¹ + z0) := by
        rw [hw]; field_simp; ring
      have e2 : z1 ^ (2 : Int) = z1 ^ 2 := zpow_ofNat z1 2
      have e3 : z1 ^ (-2 : Int) = z1⁻¹ ^ 2 := by rw [zpow_neg, e2, inv_pow]
      rw [isBand_two (by rfl) (by rfl) (by rfl) ((onsite.1 + tNN * wallace k : ℝ) : ℂ) ((onsite.2 + tNN * wallace k : ℝ) : ℂ)
        (t * (1 + z0⁻¹ * z1 + z1) + tNNN * (z0⁻¹ * z1 ^ 2 + z0⁻¹ + z0))
        (star t * (1 + z0 * z1⁻¹ + z1⁻¹) + star tNNN * (z0 * z1⁻¹ ^ 2 + z0 + z0⁻¹))]
      · intro u
        push_cast
        rw [hd]
        simp [blochRow, orbitals, onsiteOf, entry, Mat.scalar, phase2, phase2_neg, ← e0, ← e1, e2, e3]
        ring
      · intro u
        push_cast
        rw [hd]
        simp [blochRow, orbitals, onsiteOf, entry, Mat.scalar, phase2, phase2_neg, ← e0, ← e1, e2, e3]
        ring

/-- **C89** (graphene): for up to three shells of neighbours, any onsite energies and any hopping energies,
`graphene.monolayer` is a lattice, and the bands of its primitive cell are, at every wave vector `k`,
`(εA + εB)/2 + t_nn w(k) ± √(((εA - εB)/2)² + |t f(k) + t_nnn g(k)|²)`, where `w` is the function of Wallace, `f` and `g`
the sums over the first and third nearest neighbours (`|f|² = w`), and the terms with `t_nn` and `t_nnn` appear from two and
three shells on.  With more shells the function raises. -/
theorem C89_monolayer (neighbors : Int) (onsite : ℝ × ℝ) (t : ℂ) (tNN : ℝ) (tNNN : ℂ) :
    (neighbors ≤ 3 → ∃ calls, monolayer neighbors onsite t tNN tNNN = .ok calls ∧
      ∀ k, HasBands calls monolayerVectors k fun E => ∃ sign : ℝ, (sign = 1 ∨ sign = -1) ∧
        E = (((onsite.1 + onsite.2) / 2 + (if neighbors < 2 then 0 else tNN * wallace k)
          + sign * √(((onsite.1 - onsite.2) / 2) ^ 2
            + ‖t * nearest k + (if neighbors < 3 then 0 else tNNN * thirdNearest k)‖ ^ 2) : ℝ) : ℂ)) ∧
    (3 < neighbors → monolayer neighbors onsite t tNN tNNN = .err .runtimeError) ∧
    ∀ k, ‖nearest k‖ ^ 2 = wallace k := by
  refine ⟨fun hn => ?_, fun hn => ?_, nearest_norm⟩
  · obtain ⟨calls, h1, h2⟩ := monolayer_bands neighbors hn onsite t tNN tNNN
    refine ⟨calls, h1, fun k => ?_⟩
    intro subs hops hs hh x0 mb simple hb
    obtain ⟨cell, s, g1, g2, m, g3, g4⟩ := h2 k subs hops hs hh x0 mb simple hb
    refine ⟨cell, s, g1, g2, m, g3, fun E => ?_⟩
    rw [g4]
    show _ = _ ↔ ∃ _, _
    rw [two_levels _ _ _ (sq_nonneg _)]
    generalize (if neighbors < 2 then 0 else tNN * wallace k) = d
    have e1 : (onsite.1 + d + (onsite.2 + d)) / 2 = (onsite.1 + onsite.2) / 2 + d := by ring
    have e2 : (onsite.1 + d - (onsite.2 + d)) / 2 = (onsite.1 - onsite.2) / 2 := by ring
    rw [e1, e2]
    constructor
    · rintro (h | h)
      · exact ⟨1, Or.inl rfl, by rw [h, one_mul]⟩
      · exact ⟨-1, Or.inr rfl, by rw [h]; congr 1; ring⟩
    · rintro ⟨_, rfl | rfl, h⟩
      · exact Or.inl (by rw [h, one_mul])
      · exact Or.inr (by rw [h]; congr 1; ring)
  · unfold monolayer
    rw [if_pos (by omega)]

end Verif.Pipeline.Repository
