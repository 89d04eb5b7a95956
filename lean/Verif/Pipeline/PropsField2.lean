import Verif.Pipeline.PropsField
import Mathlib.LinearAlgebra.Matrix.DotProduct
import Mathlib.NumberTheory.Real.Irrational

/-!
# Property C90, second part: potentials, mass term and strain
-/

namespace Verif.Field

open Verif.Hamiltonian
open Verif.Hopping (Csr HoppingBlocks COO)
open Verif.Pipeline (Vec3 IsEigenvalue siteEnergy siteName exists_row)
open Verif.Pipeline.Repository (cis cis_add cis_zero cis_mul_neg star_cis cis_ne_zero)
open Verif.Sublat (tableNorbs hamiltonianSize)
open Verif.Sublat.Spec (firstRow)

/-- Name of the sublattice to which a row belongs. -/
def rowName (s : System ℂ Vec3) (r : Nat) : String := siteName s (siteOf (tableNorbs s.sublattices) r)

/-- Both rows belong to the same site. -/
def SameSite (s : System ℂ Vec3) (r c : Nat) : Prop :=
  siteOf (tableNorbs s.sublattices) r = siteOf (tableNorbs s.sublattices) c

instance (s : System ℂ Vec3) (r c : Nat) : Decidable (SameSite s r c) := by unfold SameSite; infer_instance

theorem onsiteChain_append {n : Nat} {fs : List (OnsiteModifier ℂ Vec3)} {gs : List (OnsiteFn ℂ Vec3)} (h : OnsiteChain n fs gs)
    {f : OnsiteModifier ℂ Vec3} {g : OnsiteFn ℂ Vec3} (hf : OnsiteElementwise n f g) : OnsiteChain n (fs ++ [f]) (gs ++ [g]) := by
  induction h with
  | nil => exact .cons hf .nil
  | cons h1 _ ih => exact .cons h1 ih

/-- An onsite modifier which adds something to each energy (with any boundaries). -/
theorem added {s : System ℂ Vec3} {maxBuffer : Nat} {E : Nat → Mat ℂ} {N : Nat → String} (h : Ready s maxBuffer E N)
    (mods : Modifiers ℂ Vec3) (gs : List (ElemFn ℂ Vec3)) (gos : List (OnsiteFn ℂ Vec3))
    (phase : Vec3 → ℂ) (simple : Bool) (hch : ∀ r c, Chain r c mods.hopping gs)
    (hon : ∀ e ∈ s.sublattices, OnsiteChain e.numOrb mods.onsite gos) (f : OnsiteModifier ℂ Vec3)
    (w : String → Vec3 → Nat → Nat → ℂ)
    (hf : ∀ e ∈ s.sublattices, OnsiteElementwise e.numOrb f fun name e p i j => e i j + w name p i j) :
    ∃ m0 m, make id s mods maxBuffer phase simple = .ok m0 ∧
      make id s ⟨mods.onsite ++ [f], mods.hopping⟩ maxBuffer phase simple = .ok m ∧
      ∀ a b i j, i < (tableNorbs s.sublattices).getD a 0 → j < (tableNorbs s.sublattices).getD b 0 →
        coeff m (firstRow (tableNorbs s.sublattices) a + i) (firstRow (tableNorbs s.sublattices) b + j)
          = coeff m0 (firstRow (tableNorbs s.sublattices) a + i) (firstRow (tableNorbs s.sublattices) b + j)
            + if a = b then w (siteName s a) (s.positions.getD a 0) i j else 0 := by
  have hpos : ∀ k, k < (tableNorbs s.sublattices).length → s.positions[k]? = some (s.positions.getD k 0) := by
    intro k hk
    have := h.positions
    rw [List.getD_eq_getElem?_getD, List.getElem?_eq_getElem (by omega), Option.getD_some]
  obtain ⟨m0, h1, -, h3⟩ := C49_coefficients id s mods gs maxBuffer phase E N (fun k => s.positions.getD k 0) gos
    (siteEnergy s) (siteName s) simple rfl h.sites h.hops h.boundaries (fun _ => h.simple) hpos h.buffer (fun fam => hch _ _) hon
  obtain ⟨m, g1, -, g3⟩ := C49_coefficients id s ⟨mods.onsite ++ [f], mods.hopping⟩ gs maxBuffer phase E N
    (fun k => s.positions.getD k 0) (gos ++ [fun name e p i j => e i j + w name p i j])
    (siteEnergy s) (siteName s) simple rfl h.sites h.hops h.boundaries (fun _ => h.simple) hpos h.buffer (fun fam => hch _ _)
    (fun e he => onsiteChain_append (hon e he) (hf e he))
  refine ⟨m0, m, h1, g1, ?_⟩
  intro a b i j hi hj
  rw [h3 a b i j hi hj, g3 a b i j hi hj]
  unfold finalOnsite
  rw [List.foldl_append]
  simp only [List.foldl_cons, List.foldl_nil]
  split <;> ring

/-- The same for rows. -/
theorem added_rows {s : System ℂ Vec3} {m0 m : Csr ℂ} (w : String → Vec3 → Nat → Nat → ℂ)
    (h : ∀ a b i j, i < (tableNorbs s.sublattices).getD a 0 → j < (tableNorbs s.sublattices).getD b 0 →
        coeff m (firstRow (tableNorbs s.sublattices) a + i) (firstRow (tableNorbs s.sublattices) b + j)
          = coeff m0 (firstRow (tableNorbs s.sublattices) a + i) (firstRow (tableNorbs s.sublattices) b + j)
            + if a = b then w (siteName s a) (s.positions.getD a 0) i j else 0)
    (v : Nat → Nat → ℂ)
    (hw : ∀ r c i j, SameSite s r c → r = firstRow (tableNorbs s.sublattices) (siteOf (tableNorbs s.sublattices) r) + i →
      c = firstRow (tableNorbs s.sublattices) (siteOf (tableNorbs s.sublattices) c) + j →
      w (rowName s r) (rowPos s r) i j = v r c) (r c : Nat)
    (hr : r < hamiltonianSize s.sublattices) (hc : c < hamiltonianSize s.sublattices) :
    coeff m r c = coeff m0 r c + if SameSite s r c then v r c else 0 := by
  rw [Sublat.hamiltonianSize_eq] at hr hc
  obtain ⟨i, hi, hri⟩ := siteOf_spec _ r hr
  obtain ⟨j, hj, hcj⟩ := siteOf_spec _ c hc
  have e := h _ _ i j hi hj
  rw [← hri, ← hcj] at e
  rw [e]
  congr 1
  by_cases hs : SameSite s r c
  · rw [if_pos hs, if_pos (show siteOf _ r = siteOf _ c from hs), ← hw r c i j hs hri hcj]
    rfl
  · rw [if_neg hs, if_neg (show ¬siteOf _ r = siteOf _ c from hs)]

/-! ## Constant potential -/

/-- **C90** (constant potential).  `pb.constant_potential(V)` adds `V` to the diagonal and nothing else, for any number of orbitals and
with periods: all energies move by `V` and the states stay. -/
theorem C90_potential {s : System ℂ Vec3} {maxBuffer : Nat} {E : Nat → Mat ℂ} {N : Nat → String} (h : Ready s maxBuffer E N)
    (mods : Modifiers ℂ Vec3) (gs : List (ElemFn ℂ Vec3)) (gos : List (OnsiteFn ℂ Vec3))
    (phase : Vec3 → ℂ) (simple : Bool) (hch : ∀ r c, Chain r c mods.hopping gs)
    (hon : ∀ e ∈ s.sublattices, OnsiteChain e.numOrb mods.onsite gos) (V : ℝ) :
    ∃ m0 m, make id s mods maxBuffer phase simple = .ok m0 ∧
      make id s ⟨mods.onsite ++ [constantPotential V], mods.hopping⟩ maxBuffer phase simple = .ok m ∧
      (∀ r c, r < hamiltonianSize s.sublattices → c < hamiltonianSize s.sublattices →
        coeff m r c = coeff m0 r c + if r = c then (V : ℂ) else 0) ∧
      ∀ e v, IsState (hamiltonianSize s.sublattices) m (e + V) v ↔ IsState (hamiltonianSize s.sublattices) m0 e v := by
  obtain ⟨m0, m, h1, h2, h3⟩ := added h mods gs gos phase simple hch hon (constantPotential V)
    (fun _ _ i j => if i = j then (V : ℂ) else 0) (fun e _ => by
      have := constantPotential_elementwise V e.numOrb
      convert this using 1
      unfold potentialFn
      funext name e p i j
      split <;> simp)
  have hco : ∀ r c, r < hamiltonianSize s.sublattices → c < hamiltonianSize s.sublattices →
      coeff m r c = coeff m0 r c + if r = c then (V : ℂ) else 0 := by
    intro r c hr hc
    rw [added_rows (fun _ _ i j => if i = j then (V : ℂ) else 0) h3 (fun r c => if r = c then (V : ℂ) else 0) ?_ r c hr hc]
    · congr 1
      by_cases he : r = c
      · subst he; simp [SameSite]
      · simp [he]
    · intro r c i j hs hr hc
      unfold SameSite at hs
      rw [← hs] at hc
      have : i = j ↔ r = c := by omega
      simp only [this]
  refine ⟨m0, m, h1, h2, hco, ?_⟩
  intro e v
  have key : ∀ r, r < hamiltonianSize s.sublattices →
      ∑ c ∈ Finset.range (hamiltonianSize s.sublattices), coeff m r c * v c
        = (∑ c ∈ Finset.range (hamiltonianSize s.sublattices), coeff m0 r c * v c) + V * v r := by
    intro r hr
    rw [Finset.sum_congr rfl fun c hc => by rw [hco r c hr (Finset.mem_range.1 hc), add_mul, ite_mul, zero_mul],
      Finset.sum_add_distrib, Finset.sum_ite_eq, if_pos (Finset.mem_range.2 hr)]
  unfold IsState
  constructor
  · rintro ⟨hv, he⟩
    refine ⟨hv, fun r hr => ?_⟩
    have := he r hr
    rw [key r hr] at this
    linear_combination this
  · rintro ⟨hv, he⟩
    refine ⟨hv, fun r hr => ?_⟩
    rw [key r hr, he r hr]
    ring

/-! ## Coulomb potential -/

/-- **C90** (Coulomb potential).  With a positive cutoff the potential of a charge at `offset` adds `-β ħ v_F / max(r, cutoff)` to the
onsite energy of a site at the distance `r` from the charge, which is at most `β ħ v_F / cutoff` in size.  (With several orbitals, it
adds this also between different orbitals of the site.) -/
theorem C90_coulomb {s : System ℂ Vec3} {maxBuffer : Nat} {E : Nat → Mat ℂ} {N : Nat → String} (h : Ready s maxBuffer E N)
    (mods : Modifiers ℂ Vec3) (gs : List (ElemFn ℂ Vec3)) (gos : List (OnsiteFn ℂ Vec3))
    (phase : Vec3 → ℂ) (simple : Bool) (hch : ∀ r c, Chain r c mods.hopping gs)
    (hon : ∀ e ∈ s.sublattices, OnsiteChain e.numOrb mods.onsite gos) (beta cutoff : ℝ) (hcut : 0 < cutoff) (offset : Vec3) :
    ∃ m0 m, make id s mods maxBuffer phase simple = .ok m0 ∧
      make id s ⟨mods.onsite ++ [coulomb beta cutoff offset], mods.hopping⟩ maxBuffer phase simple = .ok m ∧
      ∀ r c, r < hamiltonianSize s.sublattices → c < hamiltonianSize s.sublattices →
        coeff m r c = coeff m0 r c
          + (if SameSite s r c then ((-(beta * (3 / 2 * 2.8 * 0.142) / max (radius offset (rowPos s r)) cutoff) : ℝ) : ℂ) else 0) ∧
        |beta * (3 / 2 * 2.8 * 0.142) / max (radius offset (rowPos s r)) cutoff| ≤ |beta| * (3 / 2 * 2.8 * 0.142) / cutoff := by
  have hvf : hbarVf = 3 / 2 * 2.8 * 0.142 := by
    have : hbar ≠ 0 := by unfold hbar; norm_num
    unfold hbarVf Pipeline.Repository.t Pipeline.Repository.aCC
    rw [abs_of_neg (by norm_num)]
    field_simp
  obtain ⟨m0, m, h1, h2, h3⟩ := added h mods gs gos phase simple hch hon (coulomb beta cutoff offset)
    (fun _ p _ _ => ((-(beta * hbarVf / max (radius offset p) cutoff) : ℝ) : ℂ)) (fun e _ => by
      have := coulomb_elementwise beta hcut offset e.numOrb
      convert this using 1
      unfold coulombFn
      funext name e p i j
      push_cast
      ring)
  refine ⟨m0, m, h1, h2, ?_⟩
  intro r c hr hc
  constructor
  · rw [added_rows (fun _ p _ _ => ((-(beta * hbarVf / max (radius offset p) cutoff) : ℝ) : ℂ)) h3
      (fun r c => ((-(beta * hbarVf / max (radius offset (rowPos s r)) cutoff) : ℝ) : ℂ)) (fun _ _ _ _ _ _ _ => rfl) r c hr hc,
      hvf]
  · have hm : cutoff ≤ max (radius offset (rowPos s r)) cutoff := le_max_right _ _
    rw [abs_div, abs_mul, abs_of_pos (show (0 : ℝ) < 3 / 2 * 2.8 * 0.142 by norm_num), abs_of_pos (lt_of_lt_of_le hcut hm)]
    gcongr

/-- **C90** (charge on a site).  Without a cutoff (the default) the modifier fails as soon as the charge sits on a site. -/
theorem C90_coulomb_witness (beta : ℝ) (offset : Vec3) (data : List ℂ) (pos : List Vec3) (name : String) (hp : offset ∈ pos) :
    coulomb beta 0 offset data pos name = .err .runtimeError := by
  unfold coulomb
  rw [if_pos ⟨offset, hp, by simp [clip, radius]⟩]

/-! ## Mass term -/

/-- The sign of the mass term on a sublattice: names count up to the first `|`. -/
def massSign (name : String) : ℂ :=
  (if Binding.Names.splitEq name.toList "A".toList then 1 else 0) - (if Binding.Names.splitEq name.toList "B".toList then 1 else 0)

theorem massSign_A : massSign "A" = 1 := by
  unfold massSign
  rw [if_pos (by decide), if_neg (by decide), sub_zero]

theorem massSign_B : massSign "B" = -1 := by
  unfold massSign
  rw [if_neg (by decide), if_pos (by decide), zero_sub]

/-- **C90** (mass term).  On systems with one orbital on each site `mass_term(δ)` adds `δ` to the diagonal on the sublattice A, `-δ` on B,
and changes nothing else (with any periods and other modifiers). -/
theorem C90_mass {s : System ℂ Vec3} {maxBuffer : Nat} {E : Nat → Mat ℂ} {N : Nat → String} (h : Ready s maxBuffer E N)
    (mods : Modifiers ℂ Vec3) (gs : List (ElemFn ℂ Vec3)) (gos : List (OnsiteFn ℂ Vec3))
    (phase : Vec3 → ℂ) (simple : Bool) (hch : ∀ r c, Chain r c mods.hopping gs)
    (hon : ∀ e ∈ s.sublattices, OnsiteChain e.numOrb mods.onsite gos) (hone : ∀ e ∈ s.sublattices, e.numOrb = 1) (delta : ℝ) :
    ∃ m0 m, make id s mods maxBuffer phase simple = .ok m0 ∧
      make id s ⟨mods.onsite ++ [massTerm delta], mods.hopping⟩ maxBuffer phase simple = .ok m ∧
      ∀ r c, r < hamiltonianSize s.sublattices → c < hamiltonianSize s.sublattices →
        coeff m r c = coeff m0 r c + if r = c then delta * massSign (rowName s r) else 0 := by
  obtain ⟨m0, m, h1, h2, h3⟩ := added h mods gs gos phase simple hch hon (massTerm delta)
    (fun name _ _ _ => delta * massSign name) (fun e he => by
      rw [hone e he]
      have := massTerm_elementwise delta
      convert this using 1
      unfold massFn massSign
      funext name e p i j
      split <;> split <;> ring)
  refine ⟨m0, m, h1, h2, ?_⟩
  have hnorb : ∀ k, (tableNorbs s.sublattices).getD k 0 ≤ 1 := by
    intro k
    rw [List.getD_eq_getElem?_getD]
    rcases hk : (tableNorbs s.sublattices)[k]? with _ | n
    · simp
    · obtain ⟨e, he, hn⟩ := List.mem_flatMap.1 (List.mem_of_getElem? hk)
      rw [(List.mem_replicate.1 hn).2, hone e he]
      exact le_refl _
  intro r c hr hc
  rw [added_rows (fun name _ _ _ => delta * massSign name) h3 (fun r _ => delta * massSign (rowName s r)) (fun _ _ _ _ _ _ _ => rfl) r c hr hc]
  congr 1
  rw [Sublat.hamiltonianSize_eq] at hr hc
  have : SameSite s r c ↔ r = c := by
    unfold SameSite
    constructor
    · intro hs
      obtain ⟨i, hi, hri⟩ := siteOf_spec _ r hr
      obtain ⟨j, hj, hcj⟩ := siteOf_spec _ c hc
      rw [← hs] at hcj hj
      have := hnorb (siteOf (tableNorbs s.sublattices) r)
      omega
    · intro h; rw [h]
  simp only [this]

/-- **C90** (several orbitals).  The mass term fails on sites with several orbitals. -/
theorem C90_mass_orbitals_witness (delta : ℝ) (n : Nat) (hn : 1 < n) (es : List (Nat → Nat → ℂ)) (hes : es ≠ []) (pos : List Vec3)
    (hp : pos.length = es.length) (name : String) : massTerm delta (layout n n es) pos name = .err .runtimeError := by
  unfold massTerm
  rw [if_pos]
  rw [length_layout, hp]
  have h1 : 0 < es.length := List.length_pos_iff.2 hes
  have h2 : 1 < n * n := by nlinarith
  intro e
  have : es.length * 1 < es.length * (n * n) := Nat.mul_lt_mul_of_pos_left h2 h1
  omega

/-! ## The gap -/

/-- The matrix as a function of rows and columns. -/
def toMat (N : Nat) (m : Csr ℂ) : Matrix (Fin N) (Fin N) ℂ := fun r c => coeff m r c

open Matrix in
theorem isEigenvalue_iff (N : Nat) (m : Csr ℂ) (E : ℂ) : IsEigenvalue N m E ↔ ∃ v : Fin N → ℂ, v ≠ 0 ∧ toMat N m *ᵥ v = E • v := by
  constructor
  · rintro ⟨v, ⟨r, hr, hv⟩, he⟩
    refine ⟨fun i => v i, fun h0 => hv (congrFun h0 ⟨r, hr⟩), ?_⟩
    funext i
    rw [Matrix.mulVec, dotProduct]
    have := he i i.2
    rw [Finset.sum_range] at this
    exact this
  · rintro ⟨v, hv, he⟩
    refine ⟨fun r => if h : r < N then v ⟨r, h⟩ else 0, ?_, ?_⟩
    · by_contra hc
      push Not at hc
      apply hv
      funext i
      have := hc i i.2
      rw [dif_pos i.2] at this
      exact this
    · intro r hr
      have := congrFun he ⟨r, hr⟩
      rw [Matrix.mulVec, dotProduct] at this
      rw [Finset.sum_range]
      simp only [Fin.is_lt, dif_pos, Fin.eta, hr]
      exact this

open Matrix in
/-- **C90** (levels with a mass).  Let the Hamiltonian `m0` without mass only have elements between A and B (no onsite energies; on any
flake, ribbon or sheet, in any magnetic field or strain), and let `m` be the one with the mass term.  Then `E² = ε² + δ²`: each energy
of `m` comes from an energy `ε` of `m0`, and each `ε ≠ 0` gives both `E = ±√(ε² + δ²)`. -/
theorem C90_mass_levels {N : Nat} {m0 m : Csr ℂ} {σ : Nat → ℂ} (hσ : ∀ r, r < N → σ r = 1 ∨ σ r = -1) (delta : ℝ)
    (hm : ∀ r c, r < N → c < N → coeff m r c = coeff m0 r c + if r = c then delta * σ r else 0)
    (hbip : ∀ r c, r < N → c < N → coeff m0 r c ≠ 0 → σ r + σ c = 0) :
    (∀ E, IsEigenvalue N m E → ∃ ε, IsEigenvalue N m0 ε ∧ E ^ 2 = ε ^ 2 + (delta : ℂ) ^ 2) ∧
    (∀ ε, ε ≠ 0 → IsEigenvalue N m0 ε → ∀ E, E ^ 2 = ε ^ 2 + (delta : ℂ) ^ 2 → IsEigenvalue N m E) := by
  set M0 := toMat N m0 with hM0
  set S : Matrix (Fin N) (Fin N) ℂ := Matrix.diagonal fun i => σ i with hS
  have hM : toMat N m = M0 + (delta : ℂ) • S := by
    ext r c
    show coeff m r c = coeff m0 r c + (delta : ℂ) * S r c
    rw [hm r c r.2 c.2, hS, Matrix.diagonal_apply]
    by_cases h : r = c
    · subst h; simp
    · rw [if_neg h, if_neg (by intro e; exact h (Fin.ext e)), mul_zero]
  have hSS : S * S = 1 := by
    rw [hS, Matrix.diagonal_mul_diagonal, ← Matrix.diagonal_one]
    congr 1
    funext i
    rcases hσ i i.2 with h | h <;> simp [h]
  have hanti : M0 * S + S * M0 = 0 := by
    ext r c
    rw [Matrix.add_apply, hS, Matrix.mul_diagonal, Matrix.diagonal_mul]
    show coeff m0 r c * σ c + σ r * coeff m0 r c = 0
    by_cases h : coeff m0 r c = 0
    · rw [h]; ring
    · linear_combination coeff m0 r c * hbip r c r.2 c.2 h
  have hsq : toMat N m * toMat N m = M0 * M0 + (delta : ℂ) ^ 2 • 1 := by
    rw [hM, add_mul, mul_add, mul_add, Matrix.mul_smul, Matrix.smul_mul, Matrix.mul_smul, Matrix.smul_mul, hSS]
    have : (delta : ℂ) • (M0 * S) + (delta : ℂ) • (S * M0) = 0 := by rw [← smul_add, hanti, smul_zero]
    rw [smul_smul, ← pow_two (delta : ℂ)]
    calc M0 * M0 + (delta : ℂ) • (M0 * S) + ((delta : ℂ) • (S * M0) + (delta : ℂ) ^ 2 • 1)
        = M0 * M0 + ((delta : ℂ) • (M0 * S) + (delta : ℂ) • (S * M0)) + (delta : ℂ) ^ 2 • 1 := by abel
      _ = _ := by rw [this, add_zero]
  constructor
  · intro E hE
    obtain ⟨v, hv, he⟩ := (isEigenvalue_iff N m E).1 hE
    have h2 : (M0 * M0) *ᵥ v = (E ^ 2 - (delta : ℂ) ^ 2) • v := by
      have h3 : (toMat N m * toMat N m) *ᵥ v = E ^ 2 • v := by
        rw [← Matrix.mulVec_mulVec, he, Matrix.mulVec_smul, he, smul_smul, pow_two]
      rw [hsq, Matrix.add_mulVec, Matrix.smul_mulVec, Matrix.one_mulVec] at h3
      rw [sub_smul, ← h3, add_sub_cancel_right]
    obtain ⟨ε, hε⟩ : ∃ ε : ℂ, E ^ 2 - (delta : ℂ) ^ 2 = ε ^ 2 := by
      obtain ⟨z, hz⟩ := IsAlgClosed.exists_pow_nat_eq (E ^ 2 - (delta : ℂ) ^ 2) (n := 2) (by norm_num)
      exact ⟨z, hz.symm⟩
    set w := M0 *ᵥ v + ε • v with hw
    have hfac : M0 *ᵥ w = ε • w := by
      rw [hw, Matrix.mulVec_add, Matrix.mulVec_mulVec, h2, Matrix.mulVec_smul, hε, smul_add, smul_smul, pow_two, add_comm]
    by_cases h0 : w = 0
    · refine ⟨-ε, (isEigenvalue_iff N m0 _).2 ⟨v, hv, ?_⟩, by linear_combination hε⟩
      rw [neg_smul]
      exact eq_neg_of_add_eq_zero_left (hw ▸ h0)
    · exact ⟨ε, (isEigenvalue_iff N m0 _).2 ⟨w, h0, hfac⟩, by linear_combination hε⟩
  · intro ε hε he E hE
    obtain ⟨v, hv, hev⟩ := (isEigenvalue_iff N m0 ε).1 he
    rw [← hM0] at hev
    -- the state on the other branch
    have hSv : M0 *ᵥ (S *ᵥ v) = -(ε • (S *ᵥ v)) := by
      have := congrArg (· *ᵥ v) hanti
      simp only [Matrix.add_mulVec, Matrix.zero_mulVec, ← Matrix.mulVec_mulVec] at this
      rw [hev, Matrix.mulVec_smul] at this
      exact eq_neg_of_add_eq_zero_left this
    have hSSv : S *ᵥ (S *ᵥ v) = v := by rw [Matrix.mulVec_mulVec, hSS, Matrix.one_mulVec]
    have hindep : ∀ a b : ℂ, a • v + b • (S *ᵥ v) = 0 → a = 0 := by
      intro a b hab
      have h1 := congrArg (M0 *ᵥ ·) hab
      simp only [Matrix.mulVec_add, Matrix.mulVec_smul, Matrix.mulVec_zero, hev, hSv] at h1
      have h2 : (2 * ε * a) • v = 0 := by
        have : ε • (a • v + b • (S *ᵥ v)) + (a • ε • v + b • -(ε • (S *ᵥ v))) = 0 := by rw [hab, h1, smul_zero, add_zero]
        rw [← this]
        module
      rcases smul_eq_zero.1 h2 with h | h
      · have := (mul_eq_zero.1 h).resolve_left (by simpa using hε)
        exact this
      · exact absurd h hv
    have hMv : ∀ a b : ℂ, toMat N m *ᵥ (a • v + b • (S *ᵥ v)) = (a * ε + b * delta) • v + (a * delta - b * ε) • (S *ᵥ v) := by
      intro a b
      rw [hM, Matrix.add_mulVec, Matrix.smul_mulVec, Matrix.mulVec_add, Matrix.mulVec_smul, Matrix.mulVec_smul, hev, hSv,
        Matrix.mulVec_add, Matrix.mulVec_smul, Matrix.mulVec_smul, hSSv]
      module
    by_cases hEε : E + ε = 0
    · -- then δ = 0
      have hd : (delta : ℂ) = 0 := by
        have : (delta : ℂ) ^ 2 = 0 := by linear_combination (E - ε) * hEε - hE
        exact pow_eq_zero_iff (two_ne_zero) |>.1 this
      refine (isEigenvalue_iff N m E).2 ⟨S *ᵥ v, fun h0 => hv (by rw [← hSSv, h0, Matrix.mulVec_zero]), ?_⟩
      have := hMv 0 1
      rw [zero_smul, zero_add, one_smul] at this
      rw [this, hd]
      have : E = -ε := by linear_combination hEε
      rw [this]
      simp
    · refine (isEigenvalue_iff N m E).2 ⟨(E + ε) • v + (delta : ℂ) • (S *ᵥ v), fun h0 => hEε (hindep _ _ h0), ?_⟩
      rw [hMv, smul_add, smul_smul, smul_smul]
      congr 2
      · linear_combination -hE
      · ring

open Matrix ComplexOrder in
/-- **C90** (gap).  A mass opens a gap: with a Hermitian `m0`, all energies are real and none lies between `-|δ|` and `|δ|`. -/
theorem C90_gap {N : Nat} {m0 m : Csr ℂ} {σ : Nat → ℂ} (hσ : ∀ r, r < N → σ r = 1 ∨ σ r = -1) (delta : ℝ)
    (hm : ∀ r c, r < N → c < N → coeff m r c = coeff m0 r c + if r = c then delta * σ r else 0)
    (hbip : ∀ r c, r < N → c < N → coeff m0 r c ≠ 0 → σ r + σ c = 0)
    (hherm : ∀ r c, r < N → c < N → coeff m0 r c = star (coeff m0 c r)) (E : ℂ) (hE : IsEigenvalue N m E) :
    ∃ x : ℝ, E = x ∧ |delta| ≤ |x| := by
  have hreal : ∀ (m : Csr ℂ), (∀ r c, r < N → c < N → coeff m r c = star (coeff m c r)) → ∀ E, IsEigenvalue N m E → ∃ x : ℝ, E = x := by
    intro m hh E hE
    obtain ⟨v, hv, he⟩ := (isEigenvalue_iff N m E).1 hE
    have hH : (toMat N m)ᴴ = toMat N m := by
      ext r c
      exact (hh r c r.2 c.2).symm
    have h1 : star v ⬝ᵥ (toMat N m *ᵥ v) = E * (star v ⬝ᵥ v) := by rw [he, dotProduct_smul, smul_eq_mul]
    have h2 : star v ⬝ᵥ (toMat N m *ᵥ v) = star E * (star v ⬝ᵥ v) := by
      rw [Matrix.dotProduct_mulVec]
      have : star v ᵥ* toMat N m = star (toMat N m *ᵥ v) := by rw [Matrix.star_mulVec, hH]
      rw [this, he, star_smul, smul_dotProduct, smul_eq_mul]
    have h3 : star v ⬝ᵥ v ≠ 0 := by
      intro h0
      apply hv
      exact dotProduct_star_self_eq_zero.1 h0
    have h4 : star E = E := mul_right_cancel₀ h3 (h2.symm.trans h1)
    exact ⟨E.re, (Complex.conj_eq_iff_real.1 h4).elim fun r hr => by rw [hr]; simp⟩
  obtain ⟨ε, he, hEε⟩ := (C90_mass_levels hσ delta hm hbip).1 E hE
  obtain ⟨y, rfl⟩ := hreal m0 hherm ε he
  obtain ⟨x, rfl⟩ := hreal m (by
    intro r c hr hc
    rw [hm r c hr hc, hm c r hc hr, star_add, ← hherm r c hr hc]
    congr 1
    by_cases h : r = c
    · subst h
      rcases hσ r hr with h | h <;> simp [h, Complex.conj_ofReal]
    · rw [if_neg h, if_neg (fun e => h e.symm), star_zero]) E hE
  refine ⟨x, rfl, ?_⟩
  have h5 : x ^ 2 = y ^ 2 + delta ^ 2 := by exact_mod_cast hEε
  rw [← sq_le_sq]
  nlinarith [sq_nonneg y]

/-! ## Strain -/

/-- The factor of a bond of length `l`. -/
noncomputable def strainFactor (l : ℝ) : ℝ := Real.exp (-3.37 * (l / 0.142 - 1))

theorem hopAt_strain (posAt : Nat → Vec3) (gs : List (ElemFn ℂ Vec3)) (E : Nat → Mat ℂ) (N : Nat → String)
    (blocks : List (List COO)) (a b i j : Nat) :
    hopAt id posAt none (gs ++ [strainFn]) E N blocks a b i j
      = hopAt id posAt none gs E N blocks a b i j * (strainFactor (bondLength (posAt a) (posAt b)) : ℂ) := by
  unfold hopAt
  simp only [finalEnergy_append]
  induction blocks.zipIdx with
  | nil => simp
  | cons x l ih =>
    rw [List.map_cons, List.map_cons, List.sum_cons, List.sum_cons, ih, add_mul, smul_mul_assoc]
    rfl

theorem bondLength_swap (p q : Vec3) : bondLength p q = bondLength q p := by
  unfold bondLength
  congr 1
  ring

theorem hopAt_self (gs : List (ElemFn ℂ Vec3)) (posAt : Nat → Vec3) (E : Nat → Mat ℂ) (N : Nat → String) {h : HoppingBlocks}
    (hb : SimpleBonds h) (a i j : Nat) : hopAt id posAt none gs E N h.blocks a a i j = 0 := by
  unfold hopAt
  apply List.sum_eq_zero
  intro x hx
  obtain ⟨p, hp, rfl⟩ := List.mem_map.1 hx
  have hmem : p.1 ∈ h.blocks := List.fst_mem_of_mem_zipIdx hp
  rw [List.count_eq_zero_of_not_mem, zero_smul]
  intro hc
  exact hb.1 ⟨a, a⟩ (List.mem_flatten.2 ⟨p.1, hmem, hc⟩) rfl

/-- **C90** (strain).  In systems without periods strain multiplies each element between two sites at the distance `l` (after all
displacements) with `exp(-3.37 (l / 0.142 - 1))` and leaves the energies of the sites alone. -/
theorem C90_strain {s : System ℂ Vec3} {maxBuffer : Nat} {E : Nat → Mat ℂ} {N : Nat → String} (h : Ready s maxBuffer E N)
    (hb : s.boundaries = []) (mods : Modifiers ℂ Vec3) (gs : List (ElemFn ℂ Vec3)) (gos : List (OnsiteFn ℂ Vec3))
    (phase : Vec3 → ℂ) (simple : Bool) (hch : ∀ r c, Chain r c mods.hopping gs)
    (hon : ∀ e ∈ s.sublattices, OnsiteChain e.numOrb mods.onsite gos) :
    ∃ m0 m, make id s mods maxBuffer phase simple = .ok m0 ∧
      make id s ⟨mods.onsite, mods.hopping ++ [strainedHopping]⟩ maxBuffer phase simple = .ok m ∧
      ∀ r c, r < hamiltonianSize s.sublattices → c < hamiltonianSize s.sublattices →
        coeff m r c = coeff m0 r c
          * if SameSite s r c then 1 else (strainFactor (bondLength (rowPos s r) (rowPos s c)) : ℂ) := by
  obtain ⟨m0, h1, -, h3⟩ := coefficients h hb mods gs gos phase simple hch hon
  obtain ⟨m, g1, -, g3⟩ := coefficients h hb ⟨mods.onsite, mods.hopping ++ [strainedHopping]⟩ (gs ++ [strainFn]) gos phase
    simple (fun r c => chain_append (hch r c) (strainedHopping_elementwise r c)) hon
  refine ⟨m0, m, h1, g1, ?_⟩
  intro r c hr hc
  rw [Sublat.hamiltonianSize_eq] at hr hc
  obtain ⟨i, hi, hri⟩ := siteOf_spec _ r hr
  obtain ⟨j, hj, hcj⟩ := siteOf_spec _ c hc
  have e1 := h3 _ _ i j hi hj
  have e2 := g3 _ _ i j hi hj
  rw [← hri, ← hcj] at e1 e2
  rw [e1, e2]
  by_cases hs : SameSite s r c
  · rw [if_pos hs, mul_one]
    have hs' : siteOf (tableNorbs s.sublattices) r = siteOf (tableNorbs s.sublattices) c := hs
    rw [← hs']
    simp only [hopAt_self _ _ E N h.simple]
  · rw [if_neg hs]
    have hs' : ¬siteOf (tableNorbs s.sublattices) r = siteOf (tableNorbs s.sublattices) c := hs
    rw [if_neg hs', zero_add, zero_add, hopAt_strain, hopAt_strain, star_mul',
      bondLength_swap (s.positions.getD (siteOf _ c) 0), add_mul]
    rw [show ∀ x : ℝ, star (x : ℂ) = x from Complex.conj_ofReal]
    rfl

/-- **C90** (bonds).  A bond keeps its energy exactly if its length is `a_cc`; longer bonds are weaker; motions of the whole sample do not matter. -/
theorem C90_strain_factor : (∀ l, strainFactor l = 1 ↔ l = 0.142) ∧ StrictAnti strainFactor ∧
    ∀ θ d p q, bondLength (move θ d p) (move θ d q) = bondLength p q := by
  refine ⟨?_, ?_, ?_⟩
  · intro l
    unfold strainFactor
    rw [Real.exp_eq_one_iff]
    constructor
    · intro h
      have : l / 0.142 - 1 = 0 := by
        rcases mul_eq_zero.1 h with h | h
        · norm_num at h
        · exact h
      have h2 : l / 0.142 = 1 := by linarith
      rw [div_eq_one_iff_eq (by norm_num)] at h2
      exact h2
    · rintro rfl
      norm_num
  · intro x y hxy
    unfold strainFactor
    apply Real.exp_strictMono
    have : x / 0.142 < y / 0.142 := by
      apply div_lt_div_of_pos_right hxy
      norm_num
    nlinarith
  · intro θ d p q
    unfold bondLength move
    congr 1
    simp only [Matrix.cons_val_zero, Matrix.cons_val_one, Matrix.cons_val]
    have h := Real.sin_sq_add_cos_sq θ
    linear_combination ((p 0 - q 0) ^ 2 + (p 1 - q 1) ^ 2) * h

/-- **C90** (no strain).  The bonds of `graphene.monolayer()` which do not lie in a cell have a length other than `a_cc` (`a` is not `√3 a_cc`),
so `triaxial_strain(0)` changes their energies although it moves no site. -/
theorem C90_unstrained_witness : (∀ p, triaxial 0 p = p) ∧
    strainFactor (bondLength ![0, -Pipeline.Repository.aCC / 2, 0]
      (![0, Pipeline.Repository.aCC / 2, 0] - Pipeline.Repository.monolayerVectors 1)) ≠ 1 := by
  constructor
  · intro p
    unfold triaxial fieldToStrain
    funext i
    fin_cases i <;> simp
  · rw [Ne, C90_strain_factor.1]
    unfold bondLength Pipeline.Repository.monolayerVectors Pipeline.Repository.aCC Pipeline.Repository.a
    simp only [Matrix.cons_val_zero, Matrix.cons_val_one, Pi.sub_apply, Matrix.cons_val]
    intro h
    have h2 : (√_ : ℝ) ^ 2 = 0.142 ^ 2 := congrArg (· ^ 2) h
    rw [Real.sq_sqrt (by positivity)] at h2
    have h3 : √3 * √3 = 3 := Real.mul_self_sqrt (by norm_num)
    have h4 : √3 = ((24595 / 14200 : ℚ) : ℝ) := by
      push_cast
      nlinarith
    have := (Nat.prime_three.irrational_sqrt)
    exact this ⟨24595 / 14200, by push_cast at h4 ⊢; exact h4.symm⟩

/-- **C90** (triaxial strain).  The displacements have the threefold symmetry of the lattice: rotating by 120° and displacing commute. -/
theorem C90_triaxial (field : ℝ) (p : Vec3) :
    triaxial field (move (2 * Real.pi / 3) 0 p) = move (2 * Real.pi / 3) 0 (triaxial field p) := by
  have hc : Real.cos (2 * Real.pi / 3) = -1 / 2 := by
    rw [show 2 * Real.pi / 3 = Real.pi - Real.pi / 3 by ring, Real.cos_pi_sub, Real.cos_pi_div_three]; ring
  have hs : Real.sin (2 * Real.pi / 3) = √3 / 2 := by
    rw [show 2 * Real.pi / 3 = Real.pi - Real.pi / 3 by ring, Real.sin_pi_sub, Real.sin_pi_div_three]
  have h3 : √3 * √3 = 3 := Real.mul_self_sqrt (by norm_num)
  unfold triaxial move
  rw [hc, hs]
  funext i
  fin_cases i
  · simp
    linear_combination (-(fieldToStrain field * p 0 * p 1) / 2) * h3
  · simp
    linear_combination (fieldToStrain field * (p 1 ^ 2 - p 0 ^ 2) / 4) * h3
  · simp

/-- **C90** (bump).  The bump moves no site in the plane and lifts it between 0 and the height, by the height only in the centre; an earlier
height of the site is lost. -/
theorem C90_bump (height sigma : ℝ) (hh : 0 < height) (hs : sigma ≠ 0) (center : ℝ × ℝ) (p : Vec3) :
    bump height sigma center p 0 = p 0 ∧ bump height sigma center p 1 = p 1 ∧
      0 < bump height sigma center p 2 ∧ bump height sigma center p 2 ≤ height ∧
      (bump height sigma center p 2 = height ↔ p 0 = center.1 ∧ p 1 = center.2) ∧
      ∀ z, bump height sigma center ![p 0, p 1, z] = bump height sigma center p := by
  have hq : 0 ≤ ((p 0 - center.1) ^ 2 + (p 1 - center.2) ^ 2) / sigma ^ 2 := by positivity
  have h2 : bump height sigma center p 2
      = height * Real.exp (-(((p 0 - center.1) ^ 2 + (p 1 - center.2) ^ 2) / sigma ^ 2)) := by
    unfold bump
    rw [← neg_div]
    rfl
  refine ⟨rfl, rfl, ?_, ?_, ?_, ?_⟩
  · rw [h2]; positivity
  · rw [h2]
    have : Real.exp (-(((p 0 - center.1) ^ 2 + (p 1 - center.2) ^ 2) / sigma ^ 2)) ≤ 1 := Real.exp_le_one_iff.2 (by linarith)
    nlinarith
  · rw [h2]
    constructor
    · intro h
      have h1 : Real.exp (-(((p 0 - center.1) ^ 2 + (p 1 - center.2) ^ 2) / sigma ^ 2)) = 1 :=
        mul_left_cancel₀ hh.ne' (by rw [h, mul_one])
      rw [Real.exp_eq_one_iff, neg_eq_zero, div_eq_zero_iff] at h1
      rcases h1 with h1 | h1
      · have a1 := sq_nonneg (p 0 - center.1)
        have a2 := sq_nonneg (p 1 - center.2)
        have b1 : (p 0 - center.1) ^ 2 = 0 := by linarith
        have b2 : (p 1 - center.2) ^ 2 = 0 := by linarith
        exact ⟨by have := pow_eq_zero_iff (two_ne_zero) |>.1 b1; linarith,
          by have := pow_eq_zero_iff (two_ne_zero) |>.1 b2; linarith⟩
      · exact absurd (pow_eq_zero_iff (two_ne_zero) |>.1 h1) hs
    · rintro ⟨h, h'⟩
      rw [h, h']
      simp
  · intro z
    unfold bump
    simp

end Verif.Field
