import Verif.Sublat.Props

/-!
# Single elements for kwant (C92)

Source: `pybinding/support/kwant.py`.
-/

namespace Verif.Sublat

/-- `KwantFiniteSystem.hamiltonian(i, j)`, kwant.py:47-49: `hamiltonian[i, j]` with the numbers of the sites, which kwant takes for a matrix of one row and one column. -/
def kwantElement {K : Type u} (h : Nat → Nat → K) (i j : Nat) : List (List K) := [[h i j]]

/-- kwant's convention (kwant documentation, `System.hamiltonian`): the block of the matrix between two sites, one row and column for each orbital. -/
def siteBlock {K : Type u} (h : Nat → Nat → K) (rows cols : List Nat) : List (List K) := rows.map fun r => cols.map fun c => h r c

theorem rows_of_site (data : Table) (i : Nat) (hi : i < decompressedSize data) :
    ∃ n, (tableNorbs data)[i]? = some n ∧ toHamiltonianIndices data i = .ok (List.range' (Spec.firstRow (tableNorbs data) i) n) := by
  obtain ⟨sub, h1, h2, h3⟩ := find_site data 0 0 i (Nat.zero_le _) (by rw [length_tableNorbs]; omega)
  rw [Nat.sub_zero] at h2 h3
  refine ⟨_, h2, ?_⟩
  simp only [toHamiltonianIndices, iters, h1]
  rw [range_map_add, h3]
  simp [Spec.firstRow]

/-- **C92**, single elements, exactly when they are right: `hamiltonian(i, j)` is the block between the sites, for every matrix and all sites, if and only if every site has one orbital. -/
theorem C92_element_exact (data : Table) :
    (∀ (K : Type) (h : Nat → Nat → K) (i j : Nat), i < decompressedSize data → j < decompressedSize data →
      ∃ rows cols, toHamiltonianIndices data i = .ok rows ∧ toHamiltonianIndices data j = .ok cols ∧ kwantElement h i j = siteBlock h rows cols) ↔
    ∀ i, i < decompressedSize data → ∃ r, toHamiltonianIndices data i = .ok [r] := by
  constructor
  · intro H i hi
    obtain ⟨rows, cols, h1, h2, h3⟩ := H Unit (fun _ _ => ()) i i hi hi
    have hl := congrArg List.length h3
    simp only [kwantElement, siteBlock, List.length_cons, List.length_nil, List.length_map] at hl
    match rows, hl with
    | [r], _ => exact ⟨r, h1⟩
  · intro H K h i j hi hj
    have hN : tableNorbs data = List.replicate (decompressedSize data) 1 := by
      rw [List.eq_replicate_iff]
      refine ⟨length_tableNorbs data, fun b hb => ?_⟩
      obtain ⟨k, hk, rfl⟩ := List.getElem_of_mem hb
      have hk' : k < decompressedSize data := by rw [← length_tableNorbs]; exact hk
      obtain ⟨n, h2, h3⟩ := rows_of_site data k hk'
      obtain ⟨r, h4⟩ := H k hk'
      rw [h3] at h4
      have := congrArg List.length (Res.ok.inj h4)
      rw [List.length_range', List.length_singleton] at this
      rw [List.getElem?_eq_getElem hk] at h2
      rw [Option.some.inj h2, this]
    have key : ∀ k, k < decompressedSize data → toHamiltonianIndices data k = .ok [k] := by
      intro k hk
      obtain ⟨n, h2, h3⟩ := rows_of_site data k hk
      rw [hN, List.getElem?_replicate, if_pos hk] at h2
      cases h2
      rw [h3, hN, Spec.firstRow, List.take_replicate, List.sum_replicate_nat, Nat.min_eq_left hk.le]
      simp
    exact ⟨[i], [j], key i hi, key j hj, rfl⟩

/-- **C92** is false in general for single elements: with two orbitals per site the result is not a block, and it is not even an element between the two sites. -/
theorem C92_element_witness :
    toHamiltonianIndices (runAdds [⟨0, 2, 3⟩]) 1 = .ok [2, 3] ∧ toHamiltonianIndices (runAdds [⟨0, 2, 3⟩]) 0 = .ok [0, 1] ∧
    kwantElement (fun r c => (r, c)) 1 1 = [[(1, 1)]] ∧ siteBlock (fun r c => (r, c)) [2, 3] [2, 3] = [[(2, 2), (2, 3)], [(3, 2), (3, 3)]] := by decide

/-- Both sides of the criterion hold for a system with one orbital per site. -/
example : ∀ i, i < decompressedSize [⟨0, 2, 1⟩, ⟨1, 2, 1⟩] → ∃ r, toHamiltonianIndices [⟨0, 2, 1⟩, ⟨1, 2, 1⟩] i = .ok [r] := by
  intro i hi
  have : i < 4 := hi
  match i, this with
  | 0, _ => exact ⟨0, by decide⟩
  | 1, _ => exact ⟨1, by decide⟩
  | 2, _ => exact ⟨2, by decide⟩
  | 3, _ => exact ⟨3, by decide⟩

end Verif.Sublat
