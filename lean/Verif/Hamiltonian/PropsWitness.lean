import Verif.Hamiltonian.Props2
import Mathlib.Algebra.Ring.Int.Defs

/-!
# Examples and witnesses for the Hamiltonian construction
-/

namespace Verif.Hamiltonian

open Verif.Sublat (Table It iters itersFrom tableNorbs)
open Verif.Sublat.Spec (firstRow)
open Verif.Hopping (COO HoppingBlocks Csr csrInsert overwrite)
open Verif.Lattice (Registry)

/-- Two single-orbital sites and one two-orbital site, with a scalar and a 1×2 hopping family and a
boundary. -/
def demo : System Int Int where
  siteRegistry := ⟨[Mat.scalar 5, ⟨2, 2, fun i j => i.val + j.val⟩], ["A", "B"]⟩
  hoppingRegistry := ⟨[Mat.scalar 7, ⟨1, 2, fun _ j => 8 + j.val⟩], ["t", "u"]⟩
  positions := [10, 20, 30]
  sublattices := [⟨0, 2, 1⟩, ⟨1, 1, 2⟩]
  hoppings := ⟨3, [[⟨0, 1⟩], [⟨0, 2⟩, ⟨1, 2⟩]], [("t", 0), ("u", 1)]⟩
  boundaries := [⟨100, ⟨3, [[⟨1, 0⟩], []], [("t", 0), ("u", 1)]⟩⟩]

/-- Energies and names of the hopping families of `demo`. -/
def demoE : Nat → Mat Int
  | 0 => Mat.scalar 7
  | _ => ⟨1, 2, fun _ j => 8 + j.val⟩

/-- Names of the families. -/
def demoN : Nat → String
  | 0 => "t"
  | _ => "u"

theorem demo_ok : HopOK demo demo.hoppings demoE demoN where
  sorted := by decide
  orb := by decide
  energy := by decide
  name := by decide
  fits := by
    intro fam b hb c hc
    match fam, hb with
    | 0, hb =>
      simp only [demo, List.getElem?_cons_zero, Option.some.injEq] at hb
      subst hb
      simp only [List.mem_singleton] at hc
      subst hc
      constructor <;> rfl
    | 1, hb =>
      simp only [demo, List.getElem?_cons_succ, List.getElem?_cons_zero, Option.some.injEq] at hb
      subst hb
      simp only [List.mem_cons, List.not_mem_nil, or_false] at hc
      rcases hc with rfl | rfl <;> constructor <;> rfl
    | n + 2, hb => simp [demo] at hb

theorem demo_bonds : SimpleBonds demo.hoppings := by
  refine ⟨by decide, ?_⟩
  intro a b
  have e : demo.hoppings.blocks.flatten = [⟨0, 1⟩, ⟨0, 2⟩, ⟨1, 2⟩] := rfl
  rw [e]
  simp only [List.countP_cons, List.countP_nil, COO.mk.injEq, decide_eq_true_eq]
  split <;> split <;> split <;> omega

/-- A modifier that adds the distance of the ends to every element, and one that multiplies. -/
def addDistance : HoppingModifier Int Int := fun data p1 p2 _ =>
  if p1.length = 0 then .ok data
  else .ok ((List.range data.length).map fun k =>
    data.getD k 0 + (p2.getD (k % p1.length) 0 - p1.getD (k % p1.length) 0))

/-- Onsite modifier: add 1 on the diagonal elements of single-orbital sites. -/
def bump : OnsiteModifier Int Int := fun data pos _ => .ok (if data.length = pos.length then data.map (· + 1) else data)

/-- The Hamiltonian of the example, with phase 3: rows of `(column, value)` pairs. -/
example : make id demo ⟨[], []⟩ 100000 (fun _ => 3) true
    = .ok [[(0, 5), (1, 28), (2, 8), (3, 9)], [(0, 28), (1, 5), (2, 8), (3, 9)],
           [(0, 8), (1, 8), (3, 1)], [(0, 9), (1, 9), (2, 1), (3, 2)]] := by decide +kernel

example : make id demo ⟨[bump], [addDistance]⟩ 2 (fun _ => 3) true
    = .ok [[(0, 6), (1, -292), (2, 28), (3, 29)], [(0, -292), (1, 6), (2, 18), (3, 19)],
           [(0, 28), (1, 18), (3, 1)], [(0, 29), (1, 19), (2, 1), (3, 2)]] := by decide +kernel

/-- The hypotheses of C22 hold and both paths really run. -/
example : make id demo ⟨[bump], [addDistance]⟩ 2 (fun _ => 3) true
    = make id demo ⟨[bump], [addDistance]⟩ 2 (fun _ => 3) false :=
  C22_build_paths_agree id demo _ 2 _ demoE demoN demo_ok demo_bonds

/-- An element-wise modifier. -/
def scale : HoppingModifier Int Int := fun data _ _ _ => .ok (data.map (2 * ·))

theorem scale_elementwise (r c : Nat) : Elementwise r c scale (fun _ e _ _ i j => 2 * e i j) := by
  intro name xs
  unfold scale layout
  congr 1
  simp only [List.map_flatMap, List.map_map]
  rfl

/-- The hypotheses of C23 hold for the example with a modifier and the smallest buffer. -/
example : ∃ calls, applyToHoppings id demo ⟨[], [scale, scale]⟩ 2 none demo.hoppings = .ok calls ∧
    calls = [(0, 1, 28), (0, 2, 32), (0, 3, 36), (1, 2, 32), (1, 3, 36)] ∧
    (calls.filter (fun c => c.2.2 ≠ 0)).Perm (specHoppings id (tableNorbs demo.sublattices)
      (fun k => demo.positions.getD k 0) none [fun _ e _ _ i j => 2 * e i j, fun _ e _ _ i j => 2 * e i j]
      demoE demoN demo.hoppings.blocks) := by
  obtain ⟨calls, h1, h2, -⟩ := C23_hoppings id demo ⟨[], [scale, scale]⟩
    [fun _ e _ _ i j => 2 * e i j, fun _ e _ _ i j => 2 * e i j] 2 none demo.hoppings demoE demoN demo_ok
    (fun k => demo.positions.getD k 0) (by decide)
    (by
      intro fam b hb
      match fam, hb with
      | 0, _ => decide
      | 1, _ => decide
      | n + 2, hb => simp [demo] at hb)
    (fun fam b _ => .cons (scale_elementwise _ _) (.cons (scale_elementwise _ _) .nil))
  refine ⟨calls, h1, ?_, h2⟩
  have : applyToHoppings id demo ⟨[], [scale, scale]⟩ 2 none demo.hoppings
    = .ok [(0, 1, 28), (0, 2, 32), (0, 3, 36), (1, 2, 32), (1, 3, 36)] := by decide +kernel
  rw [h1, Res.ok.injEq] at this
  exact this

theorem keepsHermitian_bump : KeepsHermitian bump := by
  intro norb n data pos name out h hout
  unfold bump at hout
  simp only [Res.ok.injEq] at hout
  subst hout
  rw [overwrite_eq _ _ (by split <;> simp)]
  split
  · refine ⟨by rw [List.length_map]; exact h.1, ?_⟩
    intro i j k hi hj hk
    have hlt : ∀ i j, i < norb → j < norb → (i * norb + j) * n + k < data.length := by
      intro i j hi hj
      rw [h.1]
      have h1 : i * norb + j + 1 ≤ norb * norb := by
        have : (i + 1) * norb ≤ norb * norb := Nat.mul_le_mul_right _ hi
        rw [Nat.succ_mul] at this; omega
      have h2 := Nat.mul_le_mul_right n h1
      rw [Nat.succ_mul, Nat.mul_comm (norb * norb)] at h2
      omega
    have := h.2 i j k hi hj hk
    rw [List.getD_eq_getElem?_getD, List.getD_eq_getElem?_getD, List.getElem?_map, List.getElem?_map,
      List.getElem?_eq_getElem (hlt i j hi hj), List.getElem?_eq_getElem (hlt j i hj hi)]
    rw [List.getD_eq_getElem?_getD, List.getD_eq_getElem?_getD,
      List.getElem?_eq_getElem (hlt i j hi hj), List.getElem?_eq_getElem (hlt j i hj hi)] at this
    simp only [Option.map_some, Option.getD_some] at this ⊢
    rw [this]
    simp
  · exact h

/-- The hypotheses of C21 hold for the example. -/
example : ∃ m, make id demo ⟨[bump], [addDistance]⟩ 2 (fun _ => 3) true = .ok m ∧ IsHermitian m := by
  refine ⟨_, rfl, (C21_hermitian id (fun _ => rfl) demo ⟨[bump], [addDistance]⟩ 2 (fun _ => 3) true ?_ ?_ ?_ _ rfl).1⟩
  · intro f hf
    simp only [List.mem_singleton] at hf
    subst hf
    exact keepsHermitian_bump
  · intro m hm
    simp only [demo, List.mem_cons, List.not_mem_nil, or_false] at hm
    rcases hm with rfl | rfl
    · refine ⟨rfl, ?_⟩
      intro i j hi hj
      have hi : i = 0 := Nat.lt_one_iff.1 hi
      have hj : j = 0 := Nat.lt_one_iff.1 hj
      subst hi; subst hj; rfl
    · refine ⟨rfl, ?_⟩
      intro i j hi hj
      have hi : i = 0 ∨ i = 1 := by have : i < 2 := hi; omega
      have hj : j = 0 ∨ j = 1 := by have : j < 2 := hj; omega
      rcases hi with rfl | rfl <;> rcases hj with rfl | rfl <;> rfl
  · intro e he m hm
    simp only [demo, List.mem_cons, List.not_mem_nil, or_false] at he
    rcases he with rfl | rfl
    · have : energyAt demo.siteRegistry 0 = .ok (Mat.scalar 5) := rfl
      rw [this, Res.ok.injEq] at hm
      subst hm; rfl
    · have : energyAt demo.siteRegistry 1 = .ok ⟨2, 2, fun i j => i.val + j.val⟩ := rfl
      rw [this, Res.ok.injEq] at hm
      subst hm; rfl

/-! ## Witnesses -/

/-- A site whose registered energy is upper triangular: site generators register their energy as it
is (structure modifiers check only that it is square), while `Lattice::add_sublattice` would have
symmetrised it. -/
def upper : System Int Int where
  siteRegistry := ⟨[⟨2, 2, fun i j => if i.val = 0 ∧ j.val = 1 then 1 else 0⟩], ["A"]⟩
  hoppingRegistry := ⟨[], []⟩
  positions := [0]
  sublattices := [⟨0, 1, 2⟩]
  hoppings := ⟨1, [], []⟩
  boundaries := []

/-- **C21**, witness: the Hermiticity of the registered energies is needed: an upper triangular
onsite energy, which a site generator may register, gives a matrix that is not Hermitian. -/
theorem C21_upper_triangular_witness : ∃ m, make id upper ⟨[], []⟩ 100000 (fun _ => 1) false = .ok m ∧
    ¬ IsHermitian m := by
  refine ⟨[[(1, 1)], []], by decide +kernel, ?_⟩
  intro h
  exact absurd (h 0 1) (by decide)

/-- A two-orbital site followed by two generated single-orbital sites that are bonded. -/
def mixed : System Int Int where
  siteRegistry := ⟨[⟨2, 2, fun _ _ => 0⟩, Mat.scalar 0], ["B", "C"]⟩
  hoppingRegistry := ⟨[Mat.scalar 7], ["t"]⟩
  positions := [0, 1, 2]
  sublattices := [⟨0, 1, 2⟩, ⟨1, 2, 1⟩]
  hoppings := ⟨3, [[⟨1, 2⟩]], [("t", 0)]⟩
  boundaries := []

/-- **C23**, witness: with sites that are not ordered by number of orbitals (a site generator can add
single-orbital sites after multi-orbital ones) the path without modifiers puts the hopping on the
wrong matrix elements: the two sites own rows 2 and 3. A modifier that does nothing repairs it. -/
theorem C23_generated_sites_witness :
    Sublat.toHamiltonianIndices mixed.sublattices 1 = .ok [2] ∧
    Sublat.toHamiltonianIndices mixed.sublattices 2 = .ok [3] ∧
    applyToHoppings id mixed ⟨[], []⟩ 100000 none mixed.hoppings = .ok [(1, 2, 7)] ∧
    applyToHoppings id mixed ⟨[], [fun d _ _ _ => .ok d]⟩ 100000 none mixed.hoppings = .ok [(2, 3, 7)] := by
  decide +kernel

/-- A single-orbital site, a two-orbital site and another single-orbital site. -/
def interleaved : System Int Int where
  siteRegistry := ⟨[Mat.scalar 0, ⟨2, 2, fun _ _ => 0⟩], ["A", "B"]⟩
  hoppingRegistry := ⟨[Mat.scalar 7], ["t"]⟩
  positions := [0, 1, 2]
  sublattices := [⟨0, 1, 1⟩, ⟨1, 1, 2⟩, ⟨2, 1, 1⟩]
  hoppings := ⟨3, [[⟨0, 2⟩]], [("t", 0)]⟩
  boundaries := []

/-- **C23**, witness: with single-orbital sites on both sides of a multi-orbital one, both paths go
wrong: the last site owns row 3, but the hopping is written to column 2. -/
theorem C23_interleaved_sites_witness :
    Sublat.toHamiltonianIndices interleaved.sublattices 2 = .ok [3] ∧
    applyToHoppings id interleaved ⟨[], []⟩ 100000 none interleaved.hoppings = .ok [(0, 2, 7)] ∧
    applyToHoppings id interleaved ⟨[], [fun d _ _ _ => .ok d]⟩ 100000 none interleaved.hoppings
      = .ok [(0, 2, 7)] := by
  decide +kernel

/-- **C23**, witness: a hopping matrix with more elements than the buffer gives a buffer of size
zero, so the loop over the slices does not advance. -/
theorem C23_small_buffer_witness :
    applyToHoppings id demo ⟨[], [scale]⟩ 1 none demo.hoppings = .ub := by
  decide +kernel

/-- **C22**, witness: with a pair of sites in two families the insertion path writes an existing
element. -/
theorem C22_double_bond_witness :
    (∃ m, make id { demo with hoppings := ⟨3, [[⟨0, 1⟩, ⟨1, 0⟩], []], []⟩ } ⟨[], []⟩ 100 (fun _ => 1) false = .ok m) ∧
    make id { demo with hoppings := ⟨3, [[⟨0, 1⟩, ⟨1, 0⟩], []], []⟩ } ⟨[], []⟩ 100 (fun _ => 1) true = .ub :=
  ⟨⟨_, rfl⟩, by decide +kernel⟩

end Verif.Hamiltonian
