import Verif.Pipeline.FieldLemmas
import Verif.Pipeline.PropsSupercell
import Mathlib.Tactic.LinearCombination

/-!
# Property C90: the magnetic field of the repository is uniform
-/

namespace Verif.Field

open Verif.Hamiltonian
open Verif.Hopping (Csr HoppingBlocks COO)
open Verif.Pipeline (Vec3 IsEigenvalue siteEnergy siteName exists_row)
open Verif.Pipeline.Repository (cis cis_add cis_zero cis_mul_neg star_cis cis_ne_zero)
open Verif.Sublat (tableNorbs hamiltonianSize)
open Verif.Sublat.Spec (firstRow)

/-! ## Specification -/

/-- The site to which a row of the Hamiltonian belongs, for the given numbers of orbitals of the sites. -/
def siteOf : List Nat → Nat → Nat
  | [], _ => 0
  | n :: l, r => if r < n then 0 else siteOf l (r - n) + 1

/-- Position of the site to which a row belongs. -/
def rowPos (s : System ℂ Vec3) (r : Nat) : Vec3 := s.positions.getD (siteOf (tableNorbs s.sublattices) r) 0

/-- Twice the signed area between the origin and the way along the given points (shoelace formula). -/
def area2 : Vec3 → List Vec3 → ℝ
  | _, [] => 0
  | p, q :: l => (p 0 * q 1 - q 0 * p 1) + area2 q l

/-- Signed area in the plane of the polygon with the given corners. -/
noncomputable def polygonArea (p : Vec3) (l : List Vec3) : ℝ := area2 p (l ++ [p]) / 2

/-- The product of the matrix elements along a way: from each row to the next. -/
def wayProduct (m : Csr ℂ) : Nat → List Nat → ℂ
  | _, [] => 1
  | r, c :: l => coeff m r c * wayProduct m c l

/-- `2π` times the flux (in flux quanta) of the field `B` (in Tesla) through the area `A` (in square nanometres). -/
noncomputable def fluxPhase (B A : ℝ) : ℝ := 2 * Real.pi * (B * (A * 1e-18) / phi0)

/-- Everything which building the Hamiltonian of a system needs (see `C90_ready`). -/
structure Ready (s : System ℂ Vec3) (maxBuffer : Nat) (E : Nat → Mat ℂ) (N : Nat → String) : Prop where
  sites : SitesOK s (siteEnergy s) (siteName s)
  hops : HopOK s s.hoppings E N
  boundaries : ∀ b ∈ s.boundaries, HopOK s b.hoppings E N
  simple : SimpleBonds s.hoppings
  positions : (tableNorbs s.sublattices).length ≤ s.positions.length
  buffer : ∀ fam, (E fam).size ≤ maxBuffer

/-- `v` is a state of energy `E`. -/
def IsState (N : Nat) (m : Csr ℂ) (E : ℂ) (v : Nat → ℂ) : Prop :=
  (∃ r, r < N ∧ v r ≠ 0) ∧ ∀ r, r < N → ∑ c ∈ Finset.range N, coeff m r c * v c = E * v r

/-! ## Rows -/

theorem siteOf_spec (norbs : List Nat) (r : Nat) (h : r < norbs.sum) :
    ∃ i, i < norbs.getD (siteOf norbs r) 0 ∧ r = firstRow norbs (siteOf norbs r) + i := by
  induction norbs generalizing r with
  | nil => simp at h
  | cons n l ih =>
    unfold siteOf
    rw [List.sum_cons] at h
    split
    · exact ⟨r, by simpa, by simp [firstRow]⟩
    · obtain ⟨i, h1, h2⟩ := ih (r - n) (by omega)
      refine ⟨i, by simpa using h1, ?_⟩
      simp only [firstRow, List.take_succ_cons, List.sum_cons] at h2 ⊢
      omega

theorem siteOf_lt (norbs : List Nat) (r : Nat) (h : r < norbs.sum) : siteOf norbs r < norbs.length := by
  obtain ⟨i, h1, -⟩ := siteOf_spec norbs r h
  by_contra hc
  rw [List.getD_eq_getElem?_getD, List.getElem?_eq_none (by omega)] at h1
  simp at h1

theorem finalEnergy_append (gs : List (ElemFn ℂ Vec3)) (g : ElemFn ℂ Vec3) (name : String) (e : Nat → Nat → ℂ) (p1 p2 : Vec3) :
    finalEnergy (gs ++ [g]) name e p1 p2 = g name (finalEnergy gs name e p1 p2) p1 p2 := by
  unfold finalEnergy
  rw [List.foldl_append]
  rfl

theorem chain_append {r c : Nat} {fs : List (HoppingModifier ℂ Vec3)} {gs : List (ElemFn ℂ Vec3)} (h : Chain r c fs gs)
    {f : HoppingModifier ℂ Vec3} {g : ElemFn ℂ Vec3} (hf : Elementwise r c f g) : Chain r c (fs ++ [f]) (gs ++ [g]) := by
  induction h with
  | nil => exact .cons hf .nil
  | cons h1 _ ih => exact .cons h1 ih

theorem hopAt_field (posAt : Nat → Vec3) (B : ℝ) (gs : List (ElemFn ℂ Vec3)) (E : Nat → Mat ℂ) (N : Nat → String)
    (blocks : List (List COO)) (a b i j : Nat) :
    hopAt id posAt none (gs ++ [fieldFn B]) E N blocks a b i j
      = hopAt id posAt none gs E N blocks a b i j * cis (fieldPhase B (posAt a) (posAt b)) := by
  unfold hopAt
  simp only [finalEnergy_append]
  induction blocks.zipIdx with
  | nil => simp
  | cons x l ih =>
    rw [List.map_cons, List.map_cons, List.sum_cons, List.sum_cons, ih, add_mul, smul_mul_assoc]
    rfl

theorem fieldPhase_swap (B : ℝ) (p q : Vec3) : fieldPhase B q p = -fieldPhase B p q := by
  unfold fieldPhase peierls
  ring

theorem fieldPhase_self (B : ℝ) (p : Vec3) : fieldPhase B p p = 0 := by
  unfold fieldPhase peierls
  ring

/-- The coefficients in terms of rows, for systems without boundaries. -/
theorem coefficients {s : System ℂ Vec3} {maxBuffer : Nat} {E : Nat → Mat ℂ} {N : Nat → String} (h : Ready s maxBuffer E N)
    (hb : s.boundaries = []) (mods : Modifiers ℂ Vec3) (gs : List (ElemFn ℂ Vec3)) (gos : List (OnsiteFn ℂ Vec3))
    (phase : Vec3 → ℂ) (simple : Bool) (hch : ∀ r c, Chain r c mods.hopping gs)
    (hon : ∀ e ∈ s.sublattices, OnsiteChain e.numOrb mods.onsite gos) :
    ∃ m, make id s mods maxBuffer phase simple = .ok m ∧ Sorted (hamiltonianSize s.sublattices) m ∧
      ∀ a b i j, i < (tableNorbs s.sublattices).getD a 0 → j < (tableNorbs s.sublattices).getD b 0 →
        coeff m (firstRow (tableNorbs s.sublattices) a + i) (firstRow (tableNorbs s.sublattices) b + j)
          = (if a = b then finalOnsite gos (siteName s a) (fun i j => entry (siteEnergy s a) i j) (s.positions.getD a 0) i j
              else 0)
            + (hopAt id (fun k => s.positions.getD k 0) none gs E N s.hoppings.blocks a b i j
                + star (hopAt id (fun k => s.positions.getD k 0) none gs E N s.hoppings.blocks b a j i)) := by
  obtain ⟨m, h1, h2, h3⟩ := C49_coefficients id s mods gs maxBuffer phase E N (fun k => s.positions.getD k 0) gos
    (siteEnergy s) (siteName s) simple rfl h.sites h.hops h.boundaries (fun _ => h.simple)
    (by
      intro k hk
      have := h.positions
      rw [List.getD_eq_getElem?_getD, List.getElem?_eq_getElem (by omega), Option.getD_some])
    h.buffer (fun fam => hch _ _) hon
  refine ⟨m, h1, h2, ?_⟩
  intro a b i j hi hj
  rw [h3 a b i j hi hj, hb]
  simp only [List.map_nil, List.sum_nil, add_zero, id]

/-- **C90** (Peierls substitution).  For every system without translational symmetry, whatever the other modifiers do
with single hoppings and sites: the Hamiltonian with the field can be built, and each element is the one without the
field times the phase `exp(i 2π/φ₀ ∫ A·dl)`, for the vector potential `A = (By, 0, 0)` along the straight line between the sites, taken from the
column to the row. -/
theorem C90_peierls {s : System ℂ Vec3} {maxBuffer : Nat} {E : Nat → Mat ℂ} {N : Nat → String} (h : Ready s maxBuffer E N)
    (hb : s.boundaries = []) (mods : Modifiers ℂ Vec3) (gs : List (ElemFn ℂ Vec3)) (gos : List (OnsiteFn ℂ Vec3))
    (phase : Vec3 → ℂ) (simple : Bool) (hch : ∀ r c, Chain r c mods.hopping gs)
    (hon : ∀ e ∈ s.sublattices, OnsiteChain e.numOrb mods.onsite gos) (B : ℝ) :
    ∃ m0 m, make id s mods maxBuffer phase simple = .ok m0 ∧
      make id s ⟨mods.onsite, mods.hopping ++ [magneticField B]⟩ maxBuffer phase simple = .ok m ∧
      ∀ r c, r < hamiltonianSize s.sublattices → c < hamiltonianSize s.sublattices →
        coeff m r c = coeff m0 r c
          * cis (fluxPhase B ((rowPos s r 1 + rowPos s c 1) / 2 * (rowPos s r 0 - rowPos s c 0))) := by
  obtain ⟨m0, h1, -, h3⟩ := coefficients h hb mods gs gos phase simple hch hon
  obtain ⟨m, g1, -, g3⟩ := coefficients h hb ⟨mods.onsite, mods.hopping ++ [magneticField B]⟩ (gs ++ [fieldFn B]) gos phase
    simple (fun r c => chain_append (hch r c) (magneticField_elementwise B r c)) hon
  refine ⟨m0, m, h1, g1, ?_⟩
  intro r c hr hc
  rw [Sublat.hamiltonianSize_eq] at hr hc
  obtain ⟨i, hi, hri⟩ := siteOf_spec _ r hr
  obtain ⟨j, hj, hcj⟩ := siteOf_spec _ c hc
  have e1 := h3 _ _ i j hi hj
  have e2 := g3 _ _ i j hi hj
  rw [← hri, ← hcj] at e1 e2
  have hph : fluxPhase B ((rowPos s r 1 + rowPos s c 1) / 2 * (rowPos s r 0 - rowPos s c 0))
      = fieldPhase B (rowPos s r) (rowPos s c) := by
    unfold fluxPhase fieldPhase peierls fieldConst
    ring
  rw [e1, e2, hph, hopAt_field, hopAt_field, fieldPhase_swap B (s.positions.getD (siteOf _ r) 0), star_mul', star_cis,
    neg_neg, add_mul, add_mul]
  show _ + (_ * cis (fieldPhase B (rowPos s r) (rowPos s c)) + _ * cis (fieldPhase B (rowPos s r) (rowPos s c))) = _
  congr 1
  split
  · rename_i he
    have : rowPos s r = rowPos s c := by unfold rowPos; rw [he]
    rw [this, fieldPhase_self, cis_zero, mul_one]
  · rw [zero_mul]

/-! ## Loops -/

theorem way_phase (B : ℝ) (m0 m : Csr ℂ) (pos : Nat → Vec3) (ok : Nat → Prop)
    (h : ∀ r c, ok r → ok c → coeff m r c = coeff m0 r c * cis (fluxPhase B ((pos r 1 + pos c 1) / 2 * (pos r 0 - pos c 0))))
    (r : Nat) (l : List Nat) (hr : ok r) (hl : ∀ c ∈ l, ok c) :
    wayProduct m r l = wayProduct m0 r l * cis (fluxPhase B
      ((area2 (pos r) (l.map pos) + (pos r 0 * pos r 1 - pos (l.getLastD r) 0 * pos (l.getLastD r) 1)) / 2)) := by
  induction l generalizing r with
  | nil =>
    simp only [wayProduct, List.map_nil, area2, List.getLastD_nil, sub_self, add_zero, zero_div, one_mul]
    simp [fluxPhase, cis_zero]
  | cons c l ih =>
    have hc := hl c (List.mem_cons_self)
    simp only [wayProduct]
    rw [h r c hr hc, ih c hc fun x hx => hl x (List.mem_cons_of_mem _ hx)]
    rw [List.map_cons, area2, List.getLastD_cons, mul_mul_mul_comm, ← cis_add]
    congr 2
    unfold fluxPhase
    ring

/-- **C90** (flux).  Around any closed loop of sites (and orbitals), the product of the elements of the Hamiltonian is
the product without the field times `exp(i 2πΦ/φ₀)`, where `Φ = B·area` is the flux through the loop; the area is that
of the polygon of the sites, positive if the loop runs counterclockwise. -/
theorem C90_flux {s : System ℂ Vec3} {maxBuffer : Nat} {E : Nat → Mat ℂ} {N : Nat → String} (h : Ready s maxBuffer E N)
    (hb : s.boundaries = []) (mods : Modifiers ℂ Vec3) (gs : List (ElemFn ℂ Vec3)) (gos : List (OnsiteFn ℂ Vec3))
    (phase : Vec3 → ℂ) (simple : Bool) (hch : ∀ r c, Chain r c mods.hopping gs)
    (hon : ∀ e ∈ s.sublattices, OnsiteChain e.numOrb mods.onsite gos) (B : ℝ) :
    ∃ m0 m, make id s mods maxBuffer phase simple = .ok m0 ∧
      make id s ⟨mods.onsite, mods.hopping ++ [magneticField B]⟩ maxBuffer phase simple = .ok m ∧
      ∀ (r : Nat) (l : List Nat), (∀ c ∈ r :: l, c < hamiltonianSize s.sublattices) →
        wayProduct m r (l ++ [r]) = wayProduct m0 r (l ++ [r])
          * cis (fluxPhase B (polygonArea (rowPos s r) (l.map (rowPos s)))) := by
  obtain ⟨m0, m, h1, h2, h3⟩ := C90_peierls h hb mods gs gos phase simple hch hon B
  refine ⟨m0, m, h1, h2, ?_⟩
  intro r l hl
  have hr := hl r List.mem_cons_self
  rw [way_phase B m0 m (rowPos s) (· < hamiltonianSize s.sublattices) (fun r c h h' => h3 r c h h') r (l ++ [r]) hr (by
    intro c hc
    rcases List.mem_append.1 hc with hc | hc
    · exact hl c (List.mem_cons_of_mem _ hc)
    · rw [List.mem_singleton.1 hc]; exact hr)]
  unfold polygonArea
  rw [List.getLastD_concat, sub_self, add_zero, List.map_append]
  rfl

/-! ## Gauge transformations -/

theorem gauge_state {N : Nat} {m m' : Csr ℂ} {u : Nat → ℝ}
    (h : ∀ r c, r < N → c < N → coeff m' r c = cis (u r) * coeff m r c * cis (-u c)) (E : ℂ) (v : Nat → ℂ) :
    IsState N m E v → IsState N m' E fun r => cis (u r) * v r := by
  rintro ⟨⟨r, hr, hv⟩, he⟩
  refine ⟨⟨r, hr, mul_ne_zero (cis_ne_zero _) hv⟩, ?_⟩
  intro r hr
  have e : ∀ c ∈ Finset.range N, coeff m' r c * (cis (u c) * v c) = cis (u r) * (coeff m r c * v c) := by
    intro c hc
    rw [h r c hr (Finset.mem_range.1 hc)]
    have := cis_mul_neg (u c)
    linear_combination cis (u r) * coeff m r c * v c * this
  rw [Finset.sum_congr rfl e, ← Finset.mul_sum, he r hr]
  ring

/-- Both matrices have the same energies, and their states differ by phases: all probabilities agree. -/
def SamePhysics (N : Nat) (m m' : Csr ℂ) : Prop :=
  ∃ u : Nat → ℝ, ∀ E v, IsState N m E v ↔ IsState N m' E fun r => cis (u r) * v r

theorem samePhysics {N : Nat} {m m' : Csr ℂ} {u : Nat → ℝ}
    (h : ∀ r c, r < N → c < N → coeff m' r c = cis (u r) * coeff m r c * cis (-u c)) : SamePhysics N m m' := by
  refine ⟨u, fun E v => ⟨gauge_state h E v, fun hv => ?_⟩⟩
  have h' : ∀ r c, r < N → c < N → coeff m r c = cis (-u r) * coeff m' r c * cis (- -u c) := by
    intro r c hr hc
    rw [h r c hr hc, neg_neg]
    have e1 := cis_mul_neg (u r)
    have e2 := cis_mul_neg (u c)
    linear_combination (-(coeff m r c)) * e1 - (coeff m r c) * cis (u r) * cis (-u r) * e2
  have := gauge_state h' E _ hv
  convert this using 2 with r
  rw [← mul_assoc, mul_comm (cis (-u r)), cis_mul_neg, one_mul]

theorem SamePhysics.eigenvalues {N : Nat} {m m' : Csr ℂ} (h : SamePhysics N m m') (E : ℂ) :
    IsEigenvalue N m E ↔ IsEigenvalue N m' E := by
  obtain ⟨u, hu⟩ := h
  constructor
  · rintro ⟨v, hv⟩
    exact ⟨_, (hu E v).1 hv⟩
  · rintro ⟨v, hv⟩
    refine ⟨fun r => cis (-u r) * v r, (hu E _).2 ?_⟩
    have : (fun r => cis (u r) * (cis (-u r) * v r)) = v := by
      funext r
      rw [← mul_assoc, cis_mul_neg, one_mul]
    rw [this]
    exact hv

/-- Rotation by `θ` in the plane and translation by `d`. -/
noncomputable def move (θ : ℝ) (d p : Vec3) : Vec3 :=
  ![Real.cos θ * p 0 - Real.sin θ * p 1 + d 0, Real.sin θ * p 0 + Real.cos θ * p 1 + d 1, p 2 + d 2]

/-- The gauge function of a motion. -/
noncomputable def motionGauge (B θ : ℝ) (d p : Vec3) : ℝ :=
  fluxPhase B (Real.sin θ * Real.cos θ * (p 0 ^ 2 - p 1 ^ 2) / 2 - Real.sin θ ^ 2 * (p 0 * p 1)
    + d 1 * (Real.cos θ * p 0 - Real.sin θ * p 1))

theorem phase_move (B θ : ℝ) (d p q : Vec3) :
    fluxPhase B ((move θ d p 1 + move θ d q 1) / 2 * (move θ d p 0 - move θ d q 0))
      = motionGauge B θ d p + fluxPhase B ((p 1 + q 1) / 2 * (p 0 - q 0)) - motionGauge B θ d q := by
  have h := Real.sin_sq_add_cos_sq θ
  unfold motionGauge fluxPhase move
  simp only [Matrix.cons_val_zero, Matrix.cons_val_one]
  linear_combination (2 * Real.pi * (B * 1e-18) / phi0 * ((p 1 + q 1) / 2 * (p 0 - q 0))) * h

/-- The system with all sites moved. -/
noncomputable def moved (θ : ℝ) (d : Vec3) (s : System ℂ Vec3) : System ℂ Vec3 :=
  { s with positions := s.positions.map (move θ d) }

/-- **C90** (origin and orientation).  The choice of the vector potential does not matter: moving and rotating the sample
changes neither the energies nor the probabilities, if the other modifiers do not depend on it. -/
theorem C90_motion {s : System ℂ Vec3} {maxBuffer : Nat} {E : Nat → Mat ℂ} {N : Nat → String} (h : Ready s maxBuffer E N)
    (hb : s.boundaries = []) (mods : Modifiers ℂ Vec3) (gs : List (ElemFn ℂ Vec3)) (gos : List (OnsiteFn ℂ Vec3))
    (phase : Vec3 → ℂ) (simple : Bool) (hch : ∀ r c, Chain r c mods.hopping gs)
    (hon : ∀ e ∈ s.sublattices, OnsiteChain e.numOrb mods.onsite gos) (θ : ℝ) (d : Vec3)
    (hgs : ∀ name e p q, finalEnergy gs name e (move θ d p) (move θ d q) = finalEnergy gs name e p q)
    (hgos : ∀ name e p, finalOnsite gos name e (move θ d p) = finalOnsite gos name e p) (B : ℝ) :
    ∃ m m', make id s ⟨mods.onsite, mods.hopping ++ [magneticField B]⟩ maxBuffer phase simple = .ok m ∧
      make id (moved θ d s) ⟨mods.onsite, mods.hopping ++ [magneticField B]⟩ maxBuffer phase simple = .ok m' ∧
      SamePhysics (hamiltonianSize s.sublattices) m m' := by
  have h' : Ready (moved θ d s) maxBuffer E N :=
    { sites := ⟨h.sites.table, h.sites.energy, h.sites.fits⟩
      hops := ⟨h.hops.sorted, h.hops.orb, h.hops.energy, h.hops.name, h.hops.fits⟩
      boundaries := fun b hb' => by
        have := h.boundaries b hb'
        exact ⟨this.sorted, this.orb, this.energy, this.name, this.fits⟩
      simple := h.simple
      positions := by
        show _ ≤ (s.positions.map (move θ d)).length
        rw [List.length_map]
        exact h.positions
      buffer := h.buffer }
  obtain ⟨m0, m, a1, a2, a3⟩ := C90_peierls h hb mods gs gos phase simple hch hon B
  obtain ⟨m0', m', b1, b2, b3⟩ := C90_peierls h' hb mods gs gos phase simple hch hon B
  obtain ⟨x, c1, -, c3⟩ := coefficients h hb mods gs gos phase simple hch hon
  rw [a1, Res.ok.injEq] at c1
  subst c1
  obtain ⟨x, e1, -, e3⟩ := coefficients h' hb mods gs gos phase simple hch hon
  rw [b1, Res.ok.injEq] at e1
  subst e1
  refine ⟨m, m', a2, b2, samePhysics (u := fun r => motionGauge B θ d (rowPos s r)) ?_⟩
  have hpos : ∀ k, k < (tableNorbs s.sublattices).length →
      (moved θ d s).positions.getD k 0 = move θ d (s.positions.getD k 0) := by
    intro k hk
    have := h.positions
    show (s.positions.map (move θ d)).getD k 0 = _
    rw [List.getD_eq_getElem?_getD, List.getElem?_map, List.getD_eq_getElem?_getD, List.getElem?_eq_getElem (by omega)]
    rfl
  intro r c hr hc
  have hr' := hr
  have hc' := hc
  rw [Sublat.hamiltonianSize_eq] at hr' hc'
  have lr := siteOf_lt _ r hr'
  have lc := siteOf_lt _ c hc'
  have hsame : coeff m0' r c = coeff m0 r c := by
    obtain ⟨i, hi, hri⟩ := siteOf_spec _ r hr'
    obtain ⟨j, hj, hcj⟩ := siteOf_spec _ c hc'
    have e1 := c3 _ _ i j hi hj
    have e2 := e3 _ _ i j hi hj
    simp only [show (moved θ d s).sublattices = s.sublattices from rfl] at e2
    rw [← hri, ← hcj] at e1 e2
    rw [e1, e2]
    unfold hopAt
    simp only [hpos _ lr, hpos _ lc, shiftBy, hgs, hgos]
    rfl
  have hrow : ∀ r, siteOf (tableNorbs s.sublattices) r < (tableNorbs s.sublattices).length →
      rowPos (moved θ d s) r = move θ d (rowPos s r) := fun r h => hpos _ h
  rw [b3 r c hr hc, a3 r c hr hc, hsame, hrow r lr, hrow c lc, phase_move, sub_eq_add_neg, cis_add, cis_add]
  ring

/-! ## Inversion of the field -/

/-- **C90** (time reversal).  If the Hamiltonian without field is real, then inverting the field gives the complex
conjugate Hamiltonian: the same energies (real numbers for a Hermitian matrix), and states which are complex conjugates. -/
theorem C90_reversal {s : System ℂ Vec3} {maxBuffer : Nat} {E : Nat → Mat ℂ} {N : Nat → String} (h : Ready s maxBuffer E N)
    (hb : s.boundaries = []) (mods : Modifiers ℂ Vec3) (gs : List (ElemFn ℂ Vec3)) (gos : List (OnsiteFn ℂ Vec3))
    (phase : Vec3 → ℂ) (simple : Bool) (hch : ∀ r c, Chain r c mods.hopping gs)
    (hon : ∀ e ∈ s.sublattices, OnsiteChain e.numOrb mods.onsite gos) (B : ℝ) :
    ∃ m0 m m', make id s mods maxBuffer phase simple = .ok m0 ∧
      make id s ⟨mods.onsite, mods.hopping ++ [magneticField B]⟩ maxBuffer phase simple = .ok m ∧
      make id s ⟨mods.onsite, mods.hopping ++ [magneticField (-B)]⟩ maxBuffer phase simple = .ok m' ∧
      ((∀ r c, star (coeff m0 r c) = coeff m0 r c) →
        (∀ r c, r < hamiltonianSize s.sublattices → c < hamiltonianSize s.sublattices → coeff m' r c = star (coeff m r c)) ∧
        ∀ (E : ℝ) v, IsState (hamiltonianSize s.sublattices) m E v ↔
          IsState (hamiltonianSize s.sublattices) m' E fun r => star (v r)) := by
  obtain ⟨m0, m, a1, a2, a3⟩ := C90_peierls h hb mods gs gos phase simple hch hon B
  obtain ⟨x, m', b1, b2, b3⟩ := C90_peierls h hb mods gs gos phase simple hch hon (-B)
  rw [a1, Res.ok.injEq] at b1
  subst b1
  refine ⟨m0, m, m', a1, a2, b2, fun hreal => ?_⟩
  have hco : ∀ r c, r < hamiltonianSize s.sublattices → c < hamiltonianSize s.sublattices →
      coeff m' r c = star (coeff m r c) := by
    intro r c hr hc
    rw [b3 r c hr hc, a3 r c hr hc, star_mul', hreal, star_cis]
    congr 2
    unfold fluxPhase
    ring
  refine ⟨hco, fun E v => ?_⟩
  have key : ∀ r, r < hamiltonianSize s.sublattices →
      ∑ c ∈ Finset.range (hamiltonianSize s.sublattices), coeff m' r c * star (v c)
        = star (∑ c ∈ Finset.range (hamiltonianSize s.sublattices), coeff m r c * v c) := by
    intro r hr
    rw [star_sum]
    apply Finset.sum_congr rfl
    intro c hc
    rw [hco r c hr (Finset.mem_range.1 hc), star_mul']
  have hE : star (E : ℂ) = E := Complex.conj_ofReal E
  constructor
  · rintro ⟨⟨r, hr, hv⟩, he⟩
    refine ⟨⟨r, hr, star_ne_zero.2 hv⟩, fun r hr => ?_⟩
    rw [key r hr, he r hr, star_mul', hE]
  · rintro ⟨⟨r, hr, hv⟩, he⟩
    refine ⟨⟨r, hr, fun e => hv (show star (v r) = 0 by rw [e, star_zero])⟩, fun r hr => ?_⟩
    have := he r hr
    rw [key r hr] at this
    have := congrArg star this
    rwa [star_star, star_mul', star_star, hE] at this

/-! ## Fields with whole flux quanta -/

theorem cis_two_pi (n : Int) : cis (2 * Real.pi * n) = 1 := by
  unfold cis
  rw [Complex.exp_eq_one_iff]
  exact ⟨n, by push_cast; ring⟩

/-- The gauge function of a flux quantum for each cell. -/
noncomputable def cellGauge (a1 a2 : Vec3) (A x y : ℝ) : ℝ :=
  2 * Real.pi / A * ((a1 0 * a1 1 * x ^ 2 + a2 0 * a2 1 * y ^ 2) / 2 + a1 0 * a2 1 * (x * y))

/-- **C90** (periodicity, Hofstadter).  Let all sites lie on a lattice with the vectors `a1` and `a2` in the plane, and let `A`
be the signed area of its cell.  Another flux quantum for each cell does not change the physics, provided that each hopping
leads along lattice vectors `(Δm, Δn)` with an even product `Δm·Δn`; two flux quanta never change it. -/
theorem C90_period {s : System ℂ Vec3} {maxBuffer : Nat} {E : Nat → Mat ℂ} {N : Nat → String} (h : Ready s maxBuffer E N)
    (hb : s.boundaries = []) (mods : Modifiers ℂ Vec3) (gs : List (ElemFn ℂ Vec3)) (gos : List (OnsiteFn ℂ Vec3))
    (phase : Vec3 → ℂ) (simple : Bool) (hch : ∀ r c, Chain r c mods.hopping gs)
    (hon : ∀ e ∈ s.sublattices, OnsiteChain e.numOrb mods.onsite gos) (a1 a2 : Vec3) (A : ℝ)
    (hA : A = a1 0 * a2 1 - a2 0 * a1 1) (hA0 : A ≠ 0) (x y : Nat → Int)
    (hx : ∀ r, r < hamiltonianSize s.sublattices → rowPos s r 0 = x r * a1 0 + y r * a2 0)
    (hy : ∀ r, r < hamiltonianSize s.sublattices → rowPos s r 1 = x r * a1 1 + y r * a2 1) (B : ℝ) (quanta : Int) :
    ∃ m0 m m', make id s mods maxBuffer phase simple = .ok m0 ∧
      make id s ⟨mods.onsite, mods.hopping ++ [magneticField B]⟩ maxBuffer phase simple = .ok m ∧
      make id s ⟨mods.onsite, mods.hopping ++ [magneticField (B + quanta * (phi0 / (A * 1e-18)))]⟩ maxBuffer phase simple
        = .ok m' ∧
      ((∀ r c, r < hamiltonianSize s.sublattices → c < hamiltonianSize s.sublattices → coeff m0 r c ≠ 0 →
          2 ∣ quanta * ((x c - x r) * (y c - y r))) →
        SamePhysics (hamiltonianSize s.sublattices) m m') := by
  obtain ⟨m0, m, p1, p2, p3⟩ := C90_peierls h hb mods gs gos phase simple hch hon B
  obtain ⟨z, m', q1, q2, q3⟩ := C90_peierls h hb mods gs gos phase simple hch hon (B + quanta * (phi0 / (A * 1e-18)))
  rw [p1, Res.ok.injEq] at q1
  subst q1
  refine ⟨m0, m, m', p1, p2, q2, fun heven => ?_⟩
  refine samePhysics (u := fun r => quanta * cellGauge a1 a2 A (x r) (y r)) ?_
  intro r c hr hc
  rw [q3 r c hr hc, p3 r c hr hc]
  by_cases h0 : coeff m0 r c = 0
  · rw [h0]; ring
  obtain ⟨n, hn⟩ := heven r c hr hc h0
  have hph0 : phi0 ≠ 0 := by
    unfold phi0 hbar
    have := Real.pi_ne_zero
    positivity
  -- twice the number of quanta between the two sites is even
  obtain ⟨k, hk⟩ : ∃ k : Int, quanta * ((x r + x c) * (y c - y r)) = 2 * k :=
    ⟨n + quanta * (x r * (y c - y r)), by linear_combination hn⟩
  have hph : fluxPhase (B + quanta * (phi0 / (A * 1e-18)))
        ((rowPos s r 1 + rowPos s c 1) / 2 * (rowPos s r 0 - rowPos s c 0))
      = quanta * cellGauge a1 a2 A (x r) (y r)
        + fluxPhase B ((rowPos s r 1 + rowPos s c 1) / 2 * (rowPos s r 0 - rowPos s c 0))
        + -(quanta * cellGauge a1 a2 A (x c) (y c)) + 2 * Real.pi * k := by
    have hk' : (quanta : ℝ) * (((x r : ℝ) + x c) * (y c - y r)) = 2 * k := by exact_mod_cast hk
    rw [hx r hr, hx c hc, hy r hr, hy c hc]
    unfold fluxPhase cellGauge
    have hk2 : (k : ℝ) = (quanta : ℝ) * (((x r : ℝ) + x c) * (y c - y r)) / 2 := by rw [hk']; ring
    rw [hk2]
    field_simp
    rw [hA]
    ring
  rw [hph, cis_add, cis_add, cis_add, cis_two_pi]
  ring

/-! ## Systems made from lattices -/

section
open Verif.Lattice (Sublattice HoppingFamily Inv optimizedUnitCell)
open Verif.Lattice.Lattice (run empty)
open Verif.Foundation (Dims size sites validPairs)
open Verif.Symmetry (Periods)
open Verif.Pipeline (AliasesOK enabled makeSystem system_cases famEnergy famName validKs validPairs_get' maskFilter_get
  tableNorbs_pop)

/-- **C90** (systems).  The theorems about fields hold for all systems made from a lattice: of any shape (sites in or out), with or
without periods, provided that the buffer holds one hopping matrix. -/
theorem C90_ready {L : Type} (ops : List (Lattice.Lattice.Op ℂ L)) (subs : List (String × Sublattice ℂ L))
    (hops : List (String × HoppingFamily ℂ)) (hs : subs.Perm (run ops empty).subs) (hh : hops.Perm (run ops empty).hops)
    (ha : AliasesOK (run ops empty)) (d : Dims) (p : Periods) (valid : List Bool)
    (hl : valid.length = (sites d subs.length).length) (hf : enabled p = true → Symmetry.Fits d p)
    (pos : Nat → Vec3) (junk : Vec3) (shiftOf : Index3 → Vec3) (s : System ℂ Vec3)
    (hsys : makeSystem subs hops d p valid pos junk shiftOf = .ok s) (maxBuffer : Nat)
    (hbuf : ∀ q ∈ hops, q.2.energy.size ≤ maxBuffer) :
    Ready s maxBuffer (famEnergy (run ops empty)) (famName (run ops empty)) ∧
      (enabled p = false → s.boundaries = []) := by
  obtain ⟨sr, hr, cell, bs, hcell, hP, hl', hbs, hseq, hbok⟩ := system_cases ops subs hops hs hh ha d p valid hl hf
    pos junk shiftOf s hsys
  have inv := Inv.reachable (K := ℂ) (P := L) ops
  refine ⟨⟨?_, ?_, ?_, ?_, ?_, ?_⟩, ?_⟩
  · rw [hseq]; exact hP.sitesOK hl' pos _
  · rw [hseq]; exact hP.mainOK inv hl' pos _
  · intro b hb'
    rw [hseq] at hb'
    obtain ⟨x, hx, rfl⟩ := List.mem_map.1 hb'
    exact hbok x hx
  · rw [hseq]; exact hP.bonds hl' pos _
  · rw [hseq]
    show (tableNorbs (Sublat.runAdds (Foundation.popOps d cell valid))).length ≤ _
    rw [tableNorbs_pop hP.cellOK hl', List.length_map, Foundation.popOps_length]
    show _ ≤ (maskFilter valid ((List.range valid.length).map pos)).length
    rw [Sublat.length_maskFilter_eq _ _ (by simp)]
  · intro fam
    unfold famEnergy
    split
    · rename_i q hq
      exact hbuf q (hh.mem_iff.2 (List.mem_of_getElem? hq))
    · exact Nat.zero_le _
  · intro he
    obtain ⟨ds, g, -, hmem, -, e⟩ := Symmetry.populateBoundaries_eq hP.cellOK hl' (Pipeline.fits_disabled he)
      (Pipeline.nameMap hr) (Pipeline.nameMap_length hP).ge
    rw [hbs, Res.ok.injEq] at e
    have hds : ds = [] := by
      rw [List.eq_nil_iff_forall_not_mem]
      intro D hD
      obtain ⟨h0, i, h, -, k, hk, rfl⟩ := (hmem D).1 hD
      apply h0
      unfold enabled at he
      simp only [Bool.or_eq_false_iff] at he
      obtain ⟨k1, k2, k3⟩ := Symmetry.mem_masks.1 hk
      simp only [he.1.1, he.1.2, he.2, Bool.false_eq_true, and_false, or_false] at k1 k2 k3
      simp [Symmetry.cmul, k1, k2, k3, Index3.zero]
    rw [hseq, e, hds]
    rfl

/-! ## Periodic systems -/

/-- **C90** (periodic systems).  The energy which the field gives to a hopping is the same after the translation by `v` if and only if
the flux through the area between the hopping and its copy (along `y`) is a whole number of flux quanta.  So translations along `x` are
always allowed ... -/
theorem C90_translation (B : ℝ) (v p q : Vec3) :
    (∀ name e i j, fieldFn B name e (p - v) (q - v) i j = fieldFn B name e p q i j) ↔
      ∃ n : Int, B * (v 1 * (p 0 - q 0) * 1e-18) / phi0 = n := by
  have hph : fieldPhase B p q = fieldPhase B (p - v) (q - v) + 2 * Real.pi * (B * (v 1 * (p 0 - q 0) * 1e-18) / phi0) := by
    unfold fieldPhase peierls fieldConst
    simp only [Pi.sub_apply]
    ring
  have hfn : (∀ name e i j, fieldFn B name e (p - v) (q - v) i j = fieldFn B name e p q i j) ↔
      cis (2 * Real.pi * (B * (v 1 * (p 0 - q 0) * 1e-18) / phi0)) = 1 := by
    unfold fieldFn
    rw [hph, cis_add]
    constructor
    · intro h
      have := h "" (fun _ _ => 1) 0 0
      rw [one_mul, one_mul] at this
      exact mul_left_cancel₀ (cis_ne_zero (fieldPhase B (p - v) (q - v))) (by rw [mul_one]; exact this.symm)
    · intro h name e i j
      rw [h, mul_one]
  rw [hfn]
  constructor
  · intro h
    unfold cis at h
    rw [Complex.exp_eq_one_iff] at h
    obtain ⟨n, hn⟩ := h
    refine ⟨n, ?_⟩
    have h2 : (2 * Real.pi : ℂ) * Complex.I ≠ 0 := by
      simp [Real.pi_ne_zero]
    have h3 : (((B * (v 1 * (p 0 - q 0) * 1e-18) / phi0 : ℝ) : ℂ)) = ((n : ℝ) : ℂ) := by
      apply mul_left_cancel₀ h2
      rw [Complex.ofReal_mul, Complex.ofReal_mul] at hn
      push_cast at hn ⊢
      linear_combination hn
    exact_mod_cast h3
  · rintro ⟨n, hn⟩
    rw [hn]
    exact cis_two_pi n

/-- **C90** (ribbons).  ... and so ribbons along `x` may have a field: with it the modifiers respect all translations along `x`, which is
what C86 asks for. -/
theorem C90_ribbon (B : ℝ) {n : Nat} (a : Fin n → Vec3) (x0 : Nat → Vec3) (S : Index3) (hS : Pipeline.shiftVec a S 1 = 0) :
    Pipeline.Invariant [fieldFn B] [] (fun R α => x0 α + Pipeline.shiftVec a R) S where
  hop := by
    intro name e R R' α β i j
    have hsub : ∀ R : Index3, Pipeline.shiftVec a (R.sub S) = Pipeline.shiftVec a R - Pipeline.shiftVec a S := by
      intro R
      have := Pipeline.shiftVec_add a (R.sub S) S
      rw [show (R.sub S).add S = R by simp [Index3.sub, Index3.add]] at this
      rw [this]; abel
    have e : ∀ R α, x0 α + Pipeline.shiftVec a (R.sub S) = (x0 α + Pipeline.shiftVec a R) - Pipeline.shiftVec a S := by
      intro R α
      rw [hsub]; abel
    have := (C90_translation B (Pipeline.shiftVec a S) (x0 α + Pipeline.shiftVec a R) (x0 β + Pipeline.shiftVec a R')).2
      ⟨0, by rw [hS]; simp⟩
    rw [e, e]
    exact this name _ i j
  onsite := by intro name e R α i j; rfl
end

end Verif.Field
