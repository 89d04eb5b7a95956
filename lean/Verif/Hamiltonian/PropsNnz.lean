import Verif.Hamiltonian.PropsWitness

/-!
# C66: the number of elements reserved for the Hamiltonian is exact
-/

namespace Verif.Hamiltonian

open Verif.Sublat (Table It Elem iters itersFrom tableNorbs)
open Verif.Hopping (COO HoppingBlocks)
open Verif.Lattice (Registry)

variable {C K P : Type}

/-- Specification: one element for every pair of orbitals of the same site, and two (the energy and its conjugate) for
every pair of orbitals of the two ends of every hopping. -/
def orbitalPairs (norbs : List Nat) (hoppings : List COO) : Nat :=
  (norbs.map fun n => n * n).sum
    + 2 * (hoppings.map fun c => norbs.getD c.row 0 * norbs.getD c.col 0).sum

theorem foldl_pairs (t : Table) (a b n : Nat) :
    (itersFrom a b t).foldl (fun n sub => n + sub.elem.numSites * sub.elem.numOrb * sub.elem.numOrb) n
      = n + ((tableNorbs t).map fun k => k * k).sum := by
  induction t generalizing a b n with
  | nil => simp [itersFrom, tableNorbs]
  | cons e t ih =>
    unfold itersFrom
    rw [List.foldl_cons, ih, Sublat.tableNorbs_cons, List.map_append, List.sum_append, List.map_replicate,
      List.sum_replicate, smul_eq_mul]
    ring

theorem nnz_loop [Zero C] (s : System C P) (E : Nat → Mat C) (blocks : List (List COO)) (fam : Nat)
    (hE : ∀ i, i < blocks.length → s.hoppingRegistry.energy (fam + i) = .ok (E (fam + i)))
    (hf : ∀ (i : Nat) b, blocks[i]? = some b → ∀ c ∈ b, Fits (tableNorbs s.sublattices) (E (fam + i)) c) :
    hamiltonianNnz.loop s fam blocks = .ok ((blocks.flatten.map fun c =>
      (tableNorbs s.sublattices).getD c.row 0 * (tableNorbs s.sublattices).getD c.col 0).sum) := by
  induction blocks generalizing fam with
  | nil => rfl
  | cons b bs ih =>
    unfold hamiltonianNnz.loop
    have h0 := hE 0 (by simp)
    rw [Nat.add_zero] at h0
    rw [h0, Res.bind_ok, ih (fam + 1)
      (fun i hi => by rw [Nat.add_assoc, Nat.add_comm 1]; exact hE (i + 1) (by simpa using hi))
      (fun i b hb => by rw [Nat.add_assoc, Nat.add_comm 1]; exact hf (i + 1) b (by simpa using hb)), Res.bind_ok]
    show Res.ok _ = Res.ok _
    congr 1
    rw [List.flatten_cons, List.map_append, List.sum_append]
    congr 1
    have h1 := hf 0 b (by simp)
    rw [Nat.add_zero] at h1
    have e : (b.map fun c => (tableNorbs s.sublattices).getD c.row 0 * (tableNorbs s.sublattices).getD c.col 0)
        = List.replicate b.length (E fam).size := by
      rw [← List.map_const']
      refine List.map_congr_left fun c hc => ?_
      obtain ⟨hr, hc'⟩ := h1 c hc
      rw [List.getD_eq_getElem?_getD, List.getD_eq_getElem?_getD, hr, hc']
      rfl
    rw [e, List.sum_replicate, smul_eq_mul]

theorem length_box (norbs : List Nat) (c : COO) :
    (box norbs c).length = norbs.getD c.row 0 * norbs.getD c.col 0 := by
  unfold box
  rw [List.length_flatMap]
  simp

theorem length_boxes (norbs : List Nat) (l : List COO) :
    (l.flatMap (box norbs)).length = (l.map fun c => norbs.getD c.row 0 * norbs.getD c.col 0).sum := by
  rw [List.length_flatMap]
  congr 1
  exact List.map_congr_left fun c _ => length_box norbs c

theorem length_diag (norbs : List Nat) :
    ((diagPairs norbs.length).flatMap (box norbs)).length = (norbs.map fun n => n * n).sum := by
  rw [length_boxes, diagPairs, List.map_map]
  congr 1
  refine List.ext_getElem (by simp) fun i h1 h2 => ?_
  simp only [List.length_map] at h2
  simp [h2]

/-- **C66.** `hamiltonian_nnz` counts the pairs of orbitals. -/
theorem C66_count [Zero C] (s : System C P) (E : Nat → Mat C) (N : Nat → String) (hok : HopOK s s.hoppings E N) :
    hamiltonianNnz s = .ok (orbitalPairs (tableNorbs s.sublattices) s.hoppings.blocks.flatten) := by
  unfold hamiltonianNnz
  rw [nnz_loop s E _ 0 (fun i hi => by rw [Nat.zero_add]; exact hok.energy i hi)
    (fun i b hb => by rw [Nat.zero_add]; exact hok.fits i b hb), Res.bind_ok]
  show Res.ok _ = Res.ok _
  congr 1
  unfold orbitalPairs iters
  rw [foldl_pairs, Nat.zero_add]

/-- **C66.** Whatever the modifiers do, at most that many elements are collected before the matrix is made, so that the
storage reserved is never exceeded. -/
theorem C66_enough [Zero C] [DecidableEq C] [Zero K] [Star K] [DecidableEq K] [Sub P] (cast : C → K) (s : System C P)
    (mods : Modifiers K P) (maxBuffer : Nat) (E : Nat → Mat C) (N : Nat → String) (hok : HopOK s s.hoppings E N)
    (onsite hop : List (Call K)) (ho : applyToOnsite cast s mods = .ok onsite)
    (hh : applyToHoppings cast s mods maxBuffer none s.hoppings = .ok hop) :
    ∃ n, hamiltonianNnz s = .ok n ∧ (onsite ++ withConjugate hop).length ≤ n := by
  refine ⟨_, C66_count s E N hok, ?_⟩
  have h1 := (applyToOnsite_places cast s mods onsite ho).length_le
  have h2 := (applyToHoppings_places cast s mods maxBuffer none s.hoppings E N hok hop hh).length_le
  rw [List.length_map, length_diag] at h1
  rw [List.length_map, length_boxes] at h2
  have h3 : (withConjugate hop).length = 2 * hop.length := by
    unfold withConjugate
    rw [List.length_flatMap]
    simp [Nat.mul_comm]
  rw [List.length_append, h3]
  unfold orbitalPairs
  omega

/-- Two single-orbital sites and one with two orbitals, three hoppings: 6 onsite elements and 2 · (1 + 2 + 2). -/
example : hamiltonianNnz demo = .ok 16 ∧ orbitalPairs (tableNorbs demo.sublattices) demo.hoppings.blocks.flatten = 16 := by
  decide +kernel

/-- The bound is attained but for the element of the energy matrix that is zero. -/
example : ∃ onsite hop, applyToOnsite id demo ⟨[], []⟩ = .ok onsite
    ∧ applyToHoppings id demo ⟨[], []⟩ 100000 none demo.hoppings = .ok hop
    ∧ (onsite ++ withConjugate hop).length = 15 :=
  ⟨_, _, rfl, rfl, by decide +kernel⟩

end Verif.Hamiltonian
