import Verif.Pipeline.PropsField2

/-!
# Property C90: a square of four sites as an example
-/

namespace Verif.Field

open Verif.Hamiltonian
open Verif.Hopping (Csr HoppingBlocks COO)
open Verif.Pipeline (Vec3 IsEigenvalue siteEnergy siteName)
open Verif.Sublat (tableNorbs hamiltonianSize)

/-- A square with side 1 nm: two sites of A on one diagonal, two sites of B on the other. -/
noncomputable def square : System ℂ Vec3 where
  siteRegistry := ⟨[Mat.scalar 0, Mat.scalar 0], ["A", "B"]⟩
  hoppingRegistry := ⟨[Mat.scalar (-1)], ["t"]⟩
  positions := [![0, 0, 0], ![1, 1, 0], ![1, 0, 0], ![0, 1, 0]]
  sublattices := [⟨0, 2, 1⟩, ⟨1, 2, 1⟩]
  hoppings := ⟨4, [[⟨0, 2⟩, ⟨0, 3⟩, ⟨1, 2⟩, ⟨1, 3⟩]], [("t", 0)]⟩
  boundaries := []

theorem square_norbs : tableNorbs square.sublattices = [1, 1, 1, 1] := rfl

theorem square_ready : Ready square 1 (fun _ => Mat.scalar (-1)) (fun _ => "t") where
  sites := by
    have hdec : Sublat.decompressed square.sublattices = [some 0, some 0, some 1, some 1] := by decide
    have hid : ∀ (k : Nat) id, (Sublat.decompressed square.sublattices)[k]? = some (some id) → id = 0 ∨ id = 1 := by
      intro k id h
      rw [hdec] at h
      have := List.mem_of_getElem? h
      simp at this
      exact this
    refine ⟨?_, ?_, ?_⟩
    · intro e he
      simp only [square, List.mem_cons, List.not_mem_nil, or_false] at he
      rcases he with rfl | rfl <;> exact ⟨_, _, rfl, rfl, rfl, rfl⟩
    · intro k id h
      unfold siteEnergy siteName
      rw [h]
      rcases hid k id h with rfl | rfl <;> exact ⟨rfl, rfl⟩
    · intro k n h
      rw [square_norbs] at h
      match k, h with
      | 0, h => simp at h; subst h; exact ⟨rfl, rfl⟩
      | 1, h => simp at h; subst h; exact ⟨rfl, rfl⟩
      | 2, h => simp at h; subst h; exact ⟨rfl, rfl⟩
      | 3, h => simp at h; subst h; exact ⟨rfl, rfl⟩
      | k + 4, h => simp at h
  hops := by
    refine ⟨by decide, by rw [square_norbs]; decide, ?_, ?_, ?_⟩
    · intro fam h
      have : fam = 0 := by simp [square] at h; exact h
      subst this
      rfl
    · intro fam h
      have : fam = 0 := by simp [square] at h; exact h
      subst this
      rfl
    · intro fam b hb c hc
      rw [square_norbs]
      match fam, hb with
      | 0, hb =>
        simp only [square, List.getElem?_cons_zero, Option.some.injEq] at hb
        subst hb
        simp only [List.mem_cons, List.not_mem_nil, or_false] at hc
        rcases hc with rfl | rfl | rfl | rfl <;> constructor <;> rfl
      | n + 1, hb => simp [square] at hb
  boundaries := by simp [square]
  simple := by
    refine ⟨by decide, ?_⟩
    intro a b
    have e : square.hoppings.blocks.flatten = [⟨0, 2⟩, ⟨0, 3⟩, ⟨1, 2⟩, ⟨1, 3⟩] := rfl
    rw [e]
    simp only [List.countP_cons, List.countP_nil, COO.mk.injEq, decide_eq_true_eq]
    split <;> split <;> split <;> split <;> omega
  positions := by rw [square_norbs]; rfl
  buffer := by intro _; exact le_refl _

theorem square_size : hamiltonianSize square.sublattices = 4 := by decide

theorem square_rowPos : rowPos square 0 = ![0, 0, 0] ∧ rowPos square 1 = ![1, 1, 0] ∧ rowPos square 2 = ![1, 0, 0] ∧
    rowPos square 3 = ![0, 1, 0] := ⟨rfl, rfl, rfl, rfl⟩

/-- The loop 0 → 2 → 1 → 3 → 0 runs counterclockwise around the unit square. -/
theorem square_area : polygonArea (rowPos square 0) ([2, 1, 3].map (rowPos square)) = 1 := by
  simp only [List.map_cons, List.map_nil, square_rowPos.1, square_rowPos.2.1, square_rowPos.2.2.1, square_rowPos.2.2.2]
  simp [polygonArea, area2]

/-- Around the square the field gives the phase of its flux (`Φ = B · 1 nm²`); the product of the four hoppings without field is 1. -/
example (B : ℝ) : ∃ m0 m, make id square ⟨[], []⟩ 1 (fun _ => 1) true = .ok m0 ∧
    make id square ⟨[], [magneticField B]⟩ 1 (fun _ => 1) true = .ok m ∧
    wayProduct m 0 [2, 1, 3, 0] = wayProduct m0 0 [2, 1, 3, 0] * Pipeline.Repository.cis (2 * Real.pi * (B * 1e-18 / phi0)) := by
  obtain ⟨m0, m, h1, h2, h3⟩ := C90_flux square_ready rfl ⟨[], []⟩ [] [] (fun _ => 1) true (fun _ _ => .nil) (fun _ _ => .nil) B
  refine ⟨m0, m, h1, h2, ?_⟩
  have := h3 0 [2, 1, 3] (by rw [square_size]; decide)
  rw [square_area] at this
  rw [show [2, 1, 3, 0] = [2, 1, 3] ++ [0] from rfl, this]
  unfold fluxPhase
  rw [one_mul]

/-- The elements of the square without field: -1 between A and B. -/
theorem square_coeff : ∃ m0, make id square ⟨[], []⟩ 1 (fun _ => 1) true = .ok m0 ∧
    ∀ r c, r < 4 → c < 4 → coeff m0 r c = if (r < 2 ↔ c < 2) then 0 else -1 := by
  obtain ⟨m0, h1, -, h3⟩ := coefficients square_ready rfl ⟨[], []⟩ [] [] (fun _ => 1) true (fun _ _ => .nil) (fun _ _ => .nil)
  refine ⟨m0, h1, ?_⟩
  intro r c hr hc
  have e := h3 r c 0 0 (by rw [square_norbs]; interval_cases r <;> decide) (by rw [square_norbs]; interval_cases c <;> decide)
  have hrow : ∀ r, r < 4 → Sublat.Spec.firstRow (tableNorbs square.sublattices) r + 0 = r := by
    intro r hr
    rw [square_norbs]
    interval_cases r <;> rfl
  rw [hrow r hr, hrow c hc] at e
  rw [e]
  have hz : ∀ r, r < 4 → entry (siteEnergy square r) 0 0 = 0 := by
    intro r hr
    have e : siteEnergy square r = Mat.scalar 0 := by interval_cases r <;> rfl
    rw [e]
    simp [entry, Mat.scalar]
  have hon : (if r = c then finalOnsite [] (siteName square r) (fun i j => entry (siteEnergy square r) i j) (square.positions.getD r 0) 0 0
      else (0 : ℂ)) = 0 := by
    split
    · exact hz r hr
    · rfl
  have hhop : ∀ a b, hopAt id (fun k => square.positions.getD k 0) none [] (fun _ => Mat.scalar (-1)) (fun _ => "t")
      square.hoppings.blocks a b 0 0 = (([⟨0, 2⟩, ⟨0, 3⟩, ⟨1, 2⟩, ⟨1, 3⟩] : List COO).count ⟨a, b⟩ : ℂ) * -1 := by
    intro a b
    simp [hopAt, square, finalEnergy, entry, Mat.scalar]
  rw [hon, hhop, hhop]
  interval_cases r <;> interval_cases c <;> simp [List.count_cons]

/-- The mass term opens a gap in the square: whatever the field, no energy lies between `-|δ|` and `|δ|`. -/
example (B delta : ℝ) : ∃ m, make id square ⟨[massTerm delta], [magneticField B]⟩ 1 (fun _ => 1) true = .ok m ∧
    ∀ E, IsEigenvalue 4 m E → ∃ x : ℝ, E = x ∧ |delta| ≤ |x| := by
  obtain ⟨x0, x, a1, a2, a3⟩ := C90_peierls square_ready rfl ⟨[], []⟩ [] [] (fun _ => 1) true (fun _ _ => .nil) (fun _ _ => .nil) B
  obtain ⟨y, b1, b2⟩ := square_coeff
  rw [a1, Res.ok.injEq] at b1
  subst b1
  obtain ⟨m0, m, h1, h2, h3⟩ := C90_mass square_ready ⟨[], [magneticField B]⟩ [fieldFn B] [] (fun _ => 1) true
    (fun r c => .cons (magneticField_elementwise B r c) .nil) (fun _ _ => .nil) (by decide) delta
  have a2' : make id square ⟨[], [magneticField B]⟩ 1 (fun _ => 1) true = .ok x := a2
  rw [h1, Res.ok.injEq] at a2'
  subst a2'
  refine ⟨m, h2, ?_⟩
  have hdec : Sublat.decompressed square.sublattices = [some 0, some 0, some 1, some 1] := by decide
  have hsign : ∀ r, r < 4 → massSign (rowName square r) = if r < 2 then 1 else -1 := by
    intro r hr
    have hn : rowName square r = if r < 2 then "A" else "B" := by
      interval_cases r <;> rfl
    rw [hn]
    split
    · exact massSign_A
    · exact massSign_B
  rw [square_size] at h3 a3
  have hzero : ∀ r c, r < 4 → c < 4 → (r < 2 ↔ c < 2) → coeff m0 r c = 0 := by
    intro r c hr hc h
    rw [a3 r c hr hc, b2 r c hr hc, if_pos h, zero_mul]
  refine C90_gap (σ := fun r => massSign (rowName square r)) ?_ delta (fun r c hr hc => h3 r c hr hc) ?_ ?_
  · intro r hr
    simp only [hsign r hr]
    split <;> simp
  · intro r c hr hc h0
    simp only [hsign r hr, hsign c hc]
    have : ¬(r < 2 ↔ c < 2) := fun h => h0 (hzero r c hr hc h)
    by_cases h1 : r < 2 <;> by_cases h2 : c < 2 <;> simp [h1, h2] at this ⊢
  · intro r c hr hc
    rw [a3 r c hr hc, a3 c r hc hr, b2 r c hr hc, b2 c r hc hr, star_mul', Pipeline.Repository.star_cis]
    have e : (c < 2 ↔ r < 2) ↔ (r < 2 ↔ c < 2) := ⟨Iff.symm, Iff.symm⟩
    simp only [e]
    congr 1
    · split <;> simp
    · congr 1
      unfold fluxPhase
      ring

/-- Four sites of the square lattice: a flux quantum for each cell changes nothing. -/
example (B : ℝ) : ∃ m m', make id square ⟨[], [magneticField B]⟩ 1 (fun _ => 1) true = .ok m ∧
    make id square ⟨[], [magneticField (B + phi0 / 1e-18)]⟩ 1 (fun _ => 1) true = .ok m' ∧
    ∀ E, IsEigenvalue 4 m E ↔ IsEigenvalue 4 m' E := by
  obtain ⟨y, b1, b2⟩ := square_coeff
  obtain ⟨m0, m, m', h1, h2, h3, h4⟩ := C90_period square_ready rfl ⟨[], []⟩ [] [] (fun _ => 1) true (fun _ _ => .nil) (fun _ _ => .nil)
    ![1, 0, 0] ![0, 1, 0] 1 (by simp) one_ne_zero (fun r => if r = 1 ∨ r = 2 then 1 else 0) (fun r => if r = 1 ∨ r = 3 then 1 else 0)
    (by
      rw [square_size]
      intro r hr
      obtain ⟨p0, p1, p2, p3⟩ := square_rowPos
      interval_cases r
      · rw [p0]; simp
      · rw [p1]; simp
      · rw [p2]; simp
      · rw [p3]; simp)
    (by
      rw [square_size]
      intro r hr
      obtain ⟨p0, p1, p2, p3⟩ := square_rowPos
      interval_cases r
      · rw [p0]; simp
      · rw [p1]; simp
      · rw [p2]; simp
      · rw [p3]; simp) B 1
  rw [h1, Res.ok.injEq] at b1
  subst b1
  rw [square_size] at h4
  refine ⟨m, m', h2, by simpa using h3, ?_⟩
  refine (h4 ?_).eigenvalues
  intro r c hr hc h0
  rw [b2 r c hr hc] at h0
  interval_cases r <;> interval_cases c <;> simp at h0 ⊢

/-- Moving and rotating the square, with strain as another modifier. -/
example (B θ : ℝ) (d : Vec3) : ∃ m m', make id square ⟨[constantPotential 1], [strainedHopping, magneticField B]⟩ 1 (fun _ => 1) true = .ok m ∧
    make id (moved θ d square) ⟨[constantPotential 1], [strainedHopping, magneticField B]⟩ 1 (fun _ => 1) true = .ok m' ∧
    ∀ E, IsEigenvalue 4 m E ↔ IsEigenvalue 4 m' E := by
  obtain ⟨m, m', h1, h2, h3⟩ := C90_motion square_ready rfl ⟨[constantPotential 1], [strainedHopping]⟩ [strainFn] [potentialFn 1] (fun _ => 1)
    true (fun r c => .cons (strainedHopping_elementwise r c) .nil) (fun e _ => .cons (constantPotential_elementwise 1 _) .nil) θ d
    (by
      intro name e p q
      show strainFn name e (move θ d p) (move θ d q) = strainFn name e p q
      unfold strainFn
      rw [C90_strain_factor.2.2 θ d p q])
    (by intro name e p; rfl) B
  rw [square_size] at h3
  exact ⟨m, m', h1, h2, h3.eigenvalues⟩

/-- Strain and the potentials on the square. -/
example : ∃ m0 m, make id square ⟨[], []⟩ 1 (fun _ => 1) true = .ok m0 ∧ make id square ⟨[], [strainedHopping]⟩ 1 (fun _ => 1) true = .ok m ∧
    coeff m 0 2 = coeff m0 0 2 * (strainFactor 1 : ℂ) := by
  obtain ⟨m0, m, h1, h2, h3⟩ := C90_strain square_ready rfl ⟨[], []⟩ [] [] (fun _ => 1) true (fun _ _ => .nil) (fun _ _ => .nil)
  refine ⟨m0, m, h1, h2, ?_⟩
  rw [h3 0 2 (by decide) (by decide), if_neg (by unfold SameSite; decide), square_rowPos.1, square_rowPos.2.2.1]
  simp [bondLength]

example (beta : ℝ) : ∃ m0 m, make id square ⟨[], []⟩ 1 (fun _ => 1) true = .ok m0 ∧
    make id square ⟨[coulomb beta 0.5 0], []⟩ 1 (fun _ => 1) true = .ok m := by
  obtain ⟨m0, m, h1, h2, -⟩ := C90_coulomb square_ready ⟨[], []⟩ [] [] (fun _ => 1) true (fun _ _ => .nil) (fun _ _ => .nil) beta 0.5
    (by norm_num) 0
  exact ⟨m0, m, h1, h2⟩

/-- A ribbon along x keeps its period in the field; so does one along y only with whole flux quanta. -/
example (B : ℝ) (x0 : Nat → Vec3) : Pipeline.Invariant [fieldFn B] [] (fun R α => x0 α + Pipeline.shiftVec (n := 2) ![![1, 0, 0], ![0, 1, 0]] R)
    ⟨3, 0, 0⟩ := by
  refine C90_ribbon B ![![1, 0, 0], ![0, 1, 0]] x0 ⟨3, 0, 0⟩ ?_
  simp [Pipeline.shiftVec]
  rfl

example : ¬ ∃ n : Int, (phi0 / 1e-18 / 2) * ((![0, 1, 0] : Vec3) 1 * ((![1, 0, 0] : Vec3) 0 - (0 : Vec3) 0) * 1e-18) / phi0 = n := by
  rintro ⟨n, h⟩
  have h0 : phi0 ≠ 0 := by unfold phi0 hbar; positivity
  have e : (phi0 / 1e-18 / 2) * ((![0, 1, 0] : Vec3) 1 * ((![1, 0, 0] : Vec3) 0 - (0 : Vec3) 0) * 1e-18) / phi0 = 1 / 2 := by
    simp
    field_simp
  rw [e] at h
  have h2 : (1 : ℝ) = ((2 * n : Int) : ℝ) := by push_cast; linarith
  have h3 : (1 : Int) = 2 * n := by exact_mod_cast h2
  omega

end Verif.Field
